import Verif.Tree.AvlReach

/-! Model of tree/avls, the AVL tree with duplicate keys. Rotations, `rebalance`, `neighboring`, the
removal of a node (`removeHere`), `Height` and the iterator are those of `AvlModel` and `AvlIter`
(`one = true`, `bound = true`), with the same simplifications. -/

namespace Verif.Avls

open Verif.Tree Verif.Avl

variable {K V : Type}

section
variable (cmp : K → K → Int) (d : Int)

/-- tree/avls/tree_hide.go:9-34 `put`. Result: the tree and `isRebalance`. -/
def put (key : K) (val : V) : T K V → Bool → Option (T K V × Bool)
  | nil, sib => some (node 1 key val nil nil, sib)
  | node h k v l r, _ =>
    let c0 := cmp k key
    let c := if c0 < 0 then 1 else c0
    if c = 0 then (put key val l r.isNil).bind fun p => rebIf true d p.2 (node h k v p.1 r)
    else if c = 1 then (put key val r l.isNil).bind fun p => rebIf true d p.2 (node h k v l p.1)
    else none

/-- tree/avls/tree_hide.go:36-50 `get`. -/
def get (key : K) : T K V → Option (Option (K × V))
  | nil => some none
  | node _ k v l r =>
    let c := cmp k key
    if c < 0 then (get key l).map fun o => if o.isSome then o else some (k, v)
    else if c = 0 then get key l
    else if c = 1 then get key r
    else none

/-- `cur.Value = value` on the node found by `get` (tree/avls/tree.go:38-40 and 52-54); the flag tells
whether there is one. -/
def setVal (key : K) (val : V) : T K V → Option (T K V × Bool)
  | nil => some (nil, false)
  | node h k v l r =>
    let c := cmp k key
    if c < 0 then (setVal key val l).map fun p =>
      if p.2 then (node h k v p.1 r, true) else (node h k val l r, true)
    else if c = 0 then (setVal key val l).map fun p => (node h k v p.1 r, p.2)
    else if c = 1 then (setVal key val r).map fun p => (node h k v l p.1, p.2)
    else none

/-- tree/avls/tree_hide.go:52-96 `removeLeft`. -/
def remove (key : K) : T K V → Bool → Option (T K V × Option V × Bool)
  | nil, _ => some (nil, none, false)
  | node h k v l r, right =>
    let c := cmp k key
    if c < 0 then
      (remove key l false).bind fun p =>
        if p.2.1.isSome then (rebIf true d p.2.2 (node h k v p.1 r)).map fun q => (q.1, p.2.1, q.2)
        else removeHere true d right (node h k v p.1 r)
    else if c = 0 then
      (remove key l false).bind fun p =>
        (rebIf true d p.2.2 (node h k v p.1 r)).map fun q => (q.1, p.2.1, q.2)
    else if c = 1 then
      (remove key r true).bind fun p =>
        (rebIf true d p.2.2 (node h k v l p.1)).map fun q => (q.1, p.2.1, q.2)
    else none

inductive Op (K V : Type) where
  | put (k : K) (v : V) | insertIfAbsent (k : K) (v : V) | set (k : K) (v : V)
  | upsert (k : K) (v : V) | get (k : K) | remove (k : K) | delete (k : K) | clear
  | size | len | height | values | traverse (every : K → V → Bool)

/-- tree/avls/tree.go:60-66 `Put`. -/
def Map.put (m : Map K V) (k : K) (v : V) : Option (Map K V) :=
  (Avls.put cmp d k v m.root false).map fun p => ⟨p.1, m.size + 1⟩

/-- tree/avls/tree.go:37-48 `Set` and 51-58 `Upsert`, which do the same and answer the opposite:
whether an entry was added. -/
def Map.set (m : Map K V) (k : K) (v : V) : Option (Map K V × Bool) :=
  (Avls.get cmp k m.root).bind fun e =>
    if e.isSome then (Avls.setVal cmp k v m.root).map fun t => (⟨t.1, m.size⟩, false)
    else (Map.put cmp d m k v).map fun m' => (m', true)

/-- tree/avls/tree.go:69-75 `InsertIfAbsent`. -/
def Map.insertIfAbsent (m : Map K V) (k : K) (v : V) : Option (Map K V × Bool) :=
  (Avls.get cmp k m.root).bind fun e =>
    if e.isSome then some (m, false) else (Map.put cmp d m k v).map fun m' => (m', true)

/-- tree/avls/tree.go:85-92 `Remove`. -/
def Map.remove (m : Map K V) (k : K) : Option (Map K V × Option V) :=
  (Avls.remove cmp d k m.root true).map fun p =>
    (⟨p.1, if p.2.1.isSome then m.size - 1 else m.size⟩, p.2.1)

/-- One call: tree/avls/tree.go also 77-83 `Get`, 95-97 `Delete`, 99-102 `Clear`, 104-111 `Size`,
`Len`, 113-131 `Traverse`, 133-143 `Values`, 145-150 `Height`. -/
def step (m : Map K V) : Op K V → Option (Map K V × Res K V)
  | .put k v => (Map.put cmp d m k v).map fun m' => (m', .bool true)
  | .insertIfAbsent k v => (Map.insertIfAbsent cmp d m k v).map fun p => (p.1, .bool p.2)
  | .set k v => (Map.set cmp d m k v).map fun p => (p.1, .bool p.2)
  | .upsert k v => (Map.set cmp d m k v).map fun p => (p.1, .bool !p.2)
  | .get k => (Avls.get cmp k m.root).map fun e => (m, .val (e.map (·.2)))
  | .remove k => (Map.remove cmp d m k).map fun p => (p.1, .val p.2)
  | .delete k => (Map.remove cmp d m k).map fun p => (p.1, .val p.2)
  | .clear => some (⟨nil, 0⟩, .unit)
  | .size => some (m, .nat m.size)
  | .len => some (m, .nat m.size)
  | .height => m.height.map fun h => (m, .int h)
  | .values => some (m, .list (if m.size = 0 then []
      else (m.root.traverse fun _ _ => true).1.map (·.2)))
  | .traverse every => some (m, .entries (m.root.traverse every).1)

end

/-! ### Specification -/

section
variable (o : K → K → Ordering)

/-- A new entry goes after the smaller and the equal ones. -/
def insertAfter (e : K × V) (xs : List (K × V)) : List (K × V) :=
  xs.filter (fun x => o x.1 e.1 != .gt) ++ e :: xs.filter (fun x => o x.1 e.1 == .gt)

/-- The first entry with the key gets the value. -/
def setFirst (k : K) (v : V) : List (K × V) → List (K × V)
  | [] => []
  | e :: es => if o e.1 k == .eq then (e.1, v) :: es else e :: setFirst k v es

/-- The ideal stable multimap: a list of entries sorted by key, equal keys in the order of their
insertion. -/
def spec (xs : List (K × V)) : Op K V → List (K × V) × Res K V
  | .put k v => (insertAfter o (k, v) xs, .bool true)
  | .insertIfAbsent k v =>
    if xs.any fun e => o e.1 k == .eq then (xs, .bool false)
    else (insertAfter o (k, v) xs, .bool true)
  | .set k v =>
    if xs.any fun e => o e.1 k == .eq then (setFirst o k v xs, .bool false)
    else (insertAfter o (k, v) xs, .bool true)
  | .upsert k v =>
    if xs.any fun e => o e.1 k == .eq then (setFirst o k v xs, .bool true)
    else (insertAfter o (k, v) xs, .bool false)
  | .get k => (xs, .val ((xs.find? fun e => o e.1 k == .eq).map (·.2)))
  | .remove k => (xs.eraseP fun e => o e.1 k == .eq,
      .val ((xs.find? fun e => o e.1 k == .eq).map (·.2)))
  | .delete k => (xs.eraseP fun e => o e.1 k == .eq,
      .val ((xs.find? fun e => o e.1 k == .eq).map (·.2)))
  | .clear => ([], .unit)
  | .size => (xs, .nat xs.length)
  | .len => (xs, .nat xs.length)
  | .height => (xs, .unit)
  | .values => (xs, .list (xs.map (·.2)))
  | .traverse every => (xs, .entries (seen (fun e => every e.1 e.2) xs))

end

/-- Calls other than `Height`, whose answer the ideal multimap does not know. -/
def Op.abstract : Op K V → Bool
  | .height => false
  | _ => true

end Verif.Avls
