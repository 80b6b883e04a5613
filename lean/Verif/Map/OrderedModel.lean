import Verif.Tree.IndexModel

/-! Model of map/orderedmap.go: the typed wrapper around tree/indextree.

A value of the value type is an `Option W`. For a value type that is not an interface type every value is
`some`; for an interface type `none` is nil, and storing it in the tree stores the nil interface. The
assertion `v.(V)` panics for a nil interface. The iterator (map.go:127-189) only passes its calls on to
that of the tree and is not modelled again. -/

namespace Verif.OrderedMap

open Tree Size IndexTree

variable {K W : Type}

inductive Op (K W : Type) where
  | put (k : K) (v : Option W) | insertIfAbsent (k : K) (v : Option W) | set (k : K) (v : Option W)
  | upsert (k : K) (v : Option W) | get (k : K) | remove (k : K) | delete (k : K) | contains (k : K)
  | indexOf (k : K) | index (i : Int) | removeIndex (i : Int) | keys | values | clear | size | len
  | isEmpty

/-- `found none` is the zero value and false. `panic`: the map is left as the state says. -/
inductive Res (K W : Type) where
  | unit | panic | bool (b : Bool) | found (v : Option (Option W)) | int (n : Int)
  | entry (e : K × Option W) | removed (e : Option (K × Option W)) | keys (ks : List K)
  | values (vs : List (Option W))

/-- map.go:39-55: the boolean answer is that of the tree. -/
def pass : Option (T K (Option W) × IndexTree.Res K W) → Option (T K (Option W) × Res K W)
  | some (t, .bool b) => some (t, .bool b)
  | _ => none

/-- map.go: Size 18-20, Len 23-25, IsEmpty 27-29, Get 31-37, Put 39-41, InsertIfAbsent 44-46, Set 48-50,
Upsert 53-55, Remove 57-63, Delete 66-72, Contains 74-77, IndexOf 79-81, Index 83-86, RemoveIndex 88-95,
Keys 97-108, Values 110-121, Clear 123-125. -/
def step (shift : Nat) (cmp : K → K → Int) (t : T K (Option W)) :
    Op K W → Option (T K (Option W) × Res K W)
  | .put k v => pass (IndexTree.step shift cmp t (.put k v))
  | .insertIfAbsent k v => pass (IndexTree.step shift cmp t (.insertIfAbsent k v))
  | .set k v => pass (IndexTree.step shift cmp t (.set k v))
  | .upsert k v => pass (IndexTree.step shift cmp t (.upsert k v))
  | .get k => match IndexTree.step shift cmp t (.get k) with
    | some (t', .found none) => some (t', .found none)
    | some (t', .found (some (some w))) => some (t', .found (some (some w)))
    | some (t', .found (some none)) => some (t', .panic)
    | _ => none
  | .remove k => match IndexTree.step shift cmp t (.remove k) with
    | some (t', .val none) => some (t', .found none)
    | some (t', .val (some w)) => some (t', .found (some (some w)))
    | _ => none
  | .delete k => match IndexTree.step shift cmp t (.delete k) with
    | some (t', .found none) => some (t', .found none)
    | some (t', .found (some (some w))) => some (t', .found (some (some w)))
    | some (t', .found (some none)) => some (t', .panic)
    | _ => none
  | .contains k => match IndexTree.step shift cmp t (.get k) with
    | some (t', .found v) => some (t', .bool v.isSome)
    | _ => none
  | .indexOf k => match IndexTree.step shift cmp t (.indexOf k) with
    | some (t', .int n) => some (t', .int n)
    | _ => none
  | .index i => match IndexTree.step shift cmp t (.index i) with
    | some (t', .entry (k, some w)) => some (t', .entry (k, some w))
    | some (t', .entry (_, none)) => some (t', .panic)
    | some (t', .panic) => some (t', .panic)
    | _ => none
  | .removeIndex i =>
    if i < 0 ∨ i ≥ sz t then some (t, .removed none)
    else match IndexTree.step shift cmp t (.index i), IndexTree.step shift cmp t (.removeIndex i) with
      | some (_, .entry (k, _)), some (t', .val (some w)) => some (t', .removed (some (k, some w)))
      | some (_, .entry (_, _)), some (t', .val none) => some (t', .panic)
      | _, _ => none
  | .keys => some (t, .keys ((t.traverse fun _ _ => true).1.map (·.1)))
  | .values =>
    let vs := (t.traverse fun _ _ => true).1.map (·.2)
    if vs.any Option.isNone then some (t, .panic) else some (t, .values vs)
  | .clear => some (nil, .unit)
  | .size => some (t, .int (sz t))
  | .len => some (t, .int (sz t))
  | .isEmpty => some (t, .bool (decide (sz t = 0)))

end Verif.OrderedMap
