import Verif.Map.HashModel
import Verif.Map.LinkedModel

/-! Models of map/hashmap/hashmap.go, set/hashset/hashset.go and map/linkedhashmap/linked_hashmap.go with all keys an
`interface{}` can hold: keys that are not equal to themselves, such as NaN or a struct with a NaN in it, and keys that
cannot be hashed, such as a slice, at which the runtime panics.

Simplification: keys that are equal are the same (+0 and -0 are one key). -/

namespace Verif.Map.Nan
variable {K V : Type} [DecidableEq K]

/-- The kinds of keys: `nan` is not equal to itself, the hash function of the runtime panics for `bad`. -/
structure Keys (K : Type) where
  nan : K → Bool
  bad : K → Bool

variable (ks : Keys K)

/-- `a == b` in Go. -/
def Keys.eq (a b : K) : Bool := a = b && !ks.nan a

/-- `v, ok := m[k]` for a key that can be hashed. -/
def get (m : GoMap K V) (k : K) : Option V := (m.find? fun e => ks.eq e.1 k).map (·.2)

/-- `m[k] = v` for a key that can be hashed: a key that is not equal to itself always makes a new entry. -/
def set : GoMap K V → K → V → GoMap K V
  | [], k, v => [(k, v)]
  | e :: m, k, v => if ks.eq e.1 k then (k, v) :: m else e :: set m k v

/-- `delete(m, k)` for a key that can be hashed. -/
def delete (m : GoMap K V) (k : K) : GoMap K V := m.filter fun e => !ks.eq e.1 k

/-- `refused`: the runtime error "hash of unhashable type", after which the caller may go on. -/
inductive Ans (R : Type) where
  | refused | ok (r : R)
  deriving DecidableEq

/-- The key of a call of the hash map. -/
def hmKey : Op K V → Option K
  | .put k _ | .set k _ | .upsert k _ | .get k | .remove k | .delete k => some k
  | _ => none

/-- map/hashmap/hashmap.go:28-127. The first statement of each call with a key uses it on the map, so that a key that
cannot be hashed changes nothing. -/
def hmStep (ro : RangeOrder (K × V)) (m : GoMap K V) (o : Op K V) : Option (GoMap K V × Ans (Res K V)) :=
  if (hmKey o).any ks.bad then some (m, .refused) else
  match o with
  | .put k v =>                                                                -- 28-34
    match get ks m k with
    | none => some (set ks m k v, .ok (.bool true))
    | some _ => some (m, .ok (.bool false))
  | .set k v => some (set ks m k v, .ok .unit)                                 -- 42-44
  | .upsert k v => some (set ks m k v, .ok (.bool (get ks m k).isSome))        -- 47-51
  | .get k => some (m, .ok (.val (get ks m k)))                                -- 54-57
  | .remove k => some (delete ks m k, .ok .unit)                               -- 60-62
  | .delete k =>                                                               -- 65-71
    match get ks m k with
    | some v => some (delete ks m k, .ok (.val (some v)))
    | none => some (m, .ok (.val none))
  | .empty => some (m, .ok (.bool (m.length == 0)))                            -- 74-76
  | .len => some (m, .ok (.nat m.length))                                      -- 79-86
  | .keys => some (m, .ok (.keys ((ro.order m).map (·.1))))                    -- 89-97
  | .values => some (m, .ok (.values ((ro.order m).map (·.2))))                -- 100-108
  | .slices => some (m, .ok (.slices (ro.order m)))                            -- 111-122
  | .clear => some ([], .ok .unit)                                             -- 125-127

/-- set/hashset/hashset.go:22-28 `Add`: the loop ends with the panic at the first item that cannot be hashed. -/
def hsAdd (m : GoMap K Unit) : List K → GoMap K Unit × Ans (SRes K)
  | [] => (m, .ok .unit)
  | k :: l => if ks.bad k then (m, .refused) else
    hsAdd (match get ks m k with
      | none => set ks m k ()
      | some _ => m) l

/-- set/hashset/hashset.go:31-35 `Remove`. -/
def hsRemove (m : GoMap K Unit) : List K → GoMap K Unit × Ans (SRes K)
  | [] => (m, .ok .unit)
  | k :: l => if ks.bad k then (m, .refused) else hsRemove (delete ks m k) l

/-- set/hashset/hashset.go:22-69. -/
def hsStep (ro : RangeOrder (K × Unit)) (m : GoMap K Unit) : SOp K → Option (GoMap K Unit × Ans (SRes K))
  | .add l => some (hsAdd ks m l)
  | .remove l => some (hsRemove ks m l)
  | .contains k => if ks.bad k then some (m, .refused) else                    -- 49-54
    some (m, .ok (.bool (match get ks m k with
      | some _ => true
      | none => false)))
  | .empty => some (m, .ok (.bool (m.length == 0)))                            -- 57-59
  | .size => some (m, .ok (.nat m.length))                                     -- 67-69
  | .values => some (m, .ok (.values ((ro.order m).map (·.1))))                -- 38-46
  | .clear => some ([], .ok .unit)                                             -- 62-64

section Linked
open DLL Linked
variable [Inhabited K] [Inhabited V]

/-- linked_hashmap.go:137-147 (also 67-76). -/
def newBack (m : LHM K V) (k : K) (v : V) : LHM K V :=
  let node := m.fresh
  let h := m.h.put node ⟨none, none, default⟩
  let h := h.setVal m.tail (k, v)
  let hmap := set ks m.hmap k m.tail
  let h := h.setPrev node (some m.tail)
  let h := h.setNext m.tail (some node)
  { m with h := h, fresh := m.fresh + 1, tail := node, hmap := hmap }

/-- linked_hashmap.go:160-171 (also 108-117). -/
def newFront (m : LHM K V) (k : K) (v : V) : LHM K V :=
  let node := m.fresh
  let h := m.h.put node ⟨none, none, default⟩
  let h := h.setVal m.head (k, v)
  let hmap := set ks m.hmap k m.head
  let h := h.setNext node (some m.head)
  let h := h.setPrev m.head (some node)
  { m with h := h, fresh := m.fresh + 1, head := node, hmap := hmap }

/-- linked_hashmap.go:42-81 `SetBack`. -/
def setBack (m : LHM K V) (k : K) (v : V) : Option (LHM K V × Bool) :=
  match get ks m.hmap k with
  | some node => do
    let h := m.h.setVal node ((m.h node).val.1, v)
    if some node = (h m.tail).prev then
      return ({ m with h := h }, true)
    let prev ← (h node).prev
    let next ← (h node).next
    let h := h.setNext prev (some next)
    let h := h.setPrev next (some prev)
    let tprev ← (h m.tail).prev
    let h := h.setNext tprev (some node)
    let h := h.setPrev node (some tprev)
    let h := h.setNext node (some m.tail)
    let h := h.setPrev m.tail (some node)
    return ({ m with h := h }, true)
  | none => some (newBack ks m k v, false)

/-- linked_hashmap.go:84-121 `SetFront`. -/
def setFront (m : LHM K V) (k : K) (v : V) : Option (LHM K V × Bool) :=
  match get ks m.hmap k with
  | some node => do
    let h := m.h.setVal node ((m.h node).val.1, v)
    if some node = (h m.head).next then
      return ({ m with h := h }, true)
    let prev ← (h node).prev
    let next ← (h node).next
    let h := h.setNext prev (some next)
    let h := h.setPrev next (some prev)
    let hnext ← (h m.head).next
    let h := h.setPrev hnext (some node)
    let h := h.setNext node (some hnext)
    let h := h.setPrev node (some m.head)
    let h := h.setNext m.head (some node)
    return ({ m with h := h }, true)
  | none => some (newFront ks m k v, false)

/-- linked_hashmap.go:226-246 `Remove` with `remove`. -/
def remove (m : LHM K V) (k : K) : Option (LHM K V × Option V) :=
  match get ks m.hmap k with
  | some node => do
    let hmap := delete ks m.hmap k
    let nprev ← (m.h node).prev
    let nnext ← (m.h node).next
    let h := m.h.setNext nprev (some nnext)
    let h := h.setPrev nnext (some nprev)
    return ({ m with h := h, hmap := hmap }, some (h node).val.2)
  | none => some (m, none)

/-- The key of a call of the linked hash map. -/
def lhKey : Linked.Op K V → Option K
  | .setBack k _ | .setFront k _ | .pushBack k _ | .pushFront k _ | .get k | .set k _ | .upsert k _ | .remove k => some k
  | _ => none

/-- linked_hashmap.go:42-293. The first statement of each call with a key looks it up in the map, so that a key that
cannot be hashed changes nothing. -/
def lhStep (m : LHM K V) (o : Linked.Op K V) : Option (LHM K V × Ans (Linked.Res K V)) :=
  if (lhKey o).any ks.bad then some (m, .refused) else
  match o with
  | .setBack k v => (setBack ks m k v).map fun p => (p.1, .ok (.bool p.2))
  | .setFront k v => (setFront ks m k v).map fun p => (p.1, .ok (.bool p.2))
  | .pushBack k v =>                                                   -- 134-154
    match get ks m.hmap k with
    | none => some (newBack ks m k v, .ok (.bool true))
    | some _ => some (m, .ok (.bool false))
  | .pushFront k v =>                                                  -- 157-177
    match get ks m.hmap k with
    | none => some (newFront ks m k v, .ok (.bool true))
    | some _ => some (m, .ok (.bool false))
  | .get k =>                                                          -- 180-186
    match get ks m.hmap k with
    | some node => some (m, .ok (.val (some (m.h node).val.2)))
    | none => some (m, .ok (.val none))
  | .set k v =>                                                        -- 189-196
    match get ks m.hmap k with
    | some node => some ({ m with h := m.h.setVal node (k, v) }, .ok (.bool true))
    | none => some (m, .ok (.bool false))
  | .upsert k v =>                                                     -- 200-208
    match get ks m.hmap k with
    | some node => some ({ m with h := m.h.setVal node (k, v) }, .ok (.bool true))
    | none => some (newBack ks m k v, .ok (.bool false))
  | .clear => some (m.clear, .ok .unit)
  | .remove k => (remove ks m k).map fun p => (p.1, .ok (.val p.2))
  | .empty => some (m, .ok (.bool (m.hmap.length == 0)))               -- 249-251
  | .len => some (m, .ok (.nat m.hmap.length))                         -- 254-261
  | .keys => m.entries.map fun l => (m, .ok (.keys (l.map (·.1))))
  | .values => m.entries.map fun l => (m, .ok (.values (l.map (·.2))))
  | .slices => m.entries.map fun l => (m, .ok (.slices l))

end Linked

end Verif.Map.Nan
