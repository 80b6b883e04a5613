import Verif.Common.GoMap
import Verif.Common.History

/-! Models of map/hashmap/hashmap.go and set/hashset/hashset.go. -/

namespace Verif.Map
variable {K V : Type} [DecidableEq K]

/-- An iteration order for `range`: any reordering, chosen by the runtime at each loop. -/
structure RangeOrder (E : Type) where
  order : List E → List E
  perm : ∀ l, (order l).Perm l

inductive Op (K V : Type) where
  | put (k : K) (v : V) | set (k : K) (v : V) | upsert (k : K) (v : V) | get (k : K)
  | remove (k : K) | delete (k : K) | empty | len | keys | values | slices | clear

inductive Res (K V : Type) where
  | unit | bool (b : Bool) | val (v : Option V) | nat (n : Nat)
  | keys (l : List K) | values (l : List V) | slices (l : List (K × V))

/-- map/hashmap/hashmap.go:28-127, one call on the wrapped Go map. `Put` is also `InsertIfAbsent`
(37), `Size` is `Len`. `Keys`, `Values` and `Slices` fill a slice of length `len(hm)` while ranging
(89-122); they are modelled as the list of the entries in the order of the range loop. The result
`(value, ok)` of `Get` and `Delete` is an `Option`. -/
def HM.step (ro : RangeOrder (K × V)) (m : GoMap K V) : Op K V → Option (GoMap K V × Res K V)
  | .put k v =>                                                       -- 28-34
    match m.get k with
    | none => some (m.set k v, .bool true)
    | some _ => some (m, .bool false)
  | .set k v => some (m.set k v, .unit)                               -- 42-44
  | .upsert k v => some (m.set k v, .bool (m.get k).isSome)           -- 47-51
  | .get k => some (m, .val (m.get k))                                -- 54-57
  | .remove k => some (m.delete k, .unit)                             -- 60-62
  | .delete k =>                                                      -- 65-71
    match m.get k with
    | some v => some (m.delete k, .val (some v))
    | none => some (m, .val none)
  | .empty => some (m, .bool (m.length == 0))                         -- 74-76
  | .len => some (m, .nat m.length)                                   -- 79-86
  | .keys => some (m, .keys ((ro.order m).map (·.1)))                 -- 89-97
  | .values => some (m, .values ((ro.order m).map (·.2)))             -- 100-108
  | .slices => some (m, .slices (ro.order m))                         -- 111-122
  | .clear => some ([], .unit)                                        -- 125-127

inductive SOp (K : Type) where
  | add (ks : List K) | remove (ks : List K) | contains (k : K) | empty | size | values | clear

inductive SRes (K : Type) where
  | unit | bool (b : Bool) | nat (n : Nat) | values (l : List K)

/-- set/hashset/hashset.go:24-26. -/
def HS.addOne (m : GoMap K Unit) (k : K) : GoMap K Unit :=
  match m.get k with
  | none => m.set k ()
  | some _ => m

/-- set/hashset/hashset.go:22-69, one call on the wrapped Go map. -/
def HS.step (ro : RangeOrder (K × Unit)) (m : GoMap K Unit) : SOp K → Option (GoMap K Unit × SRes K)
  | .add ks =>                                                        -- 22-28
    some (ks.foldl HS.addOne m, .unit)
  | .remove ks => some (ks.foldl (fun m k => m.delete k) m, .unit)    -- 31-35
  | .contains k => some (m, .bool (match m.get k with                 -- 49-54
      | some _ => true
      | none => false))
  | .empty => some (m, .bool (m.length == 0))                         -- 57-59
  | .size => some (m, .nat m.length)                                  -- 67-69
  | .values => some (m, .values ((ro.order m).map (·.1)))             -- 38-46
  | .clear => some ([], .unit)                                        -- 62-64

end Verif.Map
