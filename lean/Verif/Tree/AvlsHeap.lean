import Verif.Tree.AvlHeap
import Verif.Tree.AvlsModel

/-! Model of tree/avls on the level of pointers, with the same simplifications as `Verif.Tree.AvlHeap`.
Cells, rotations, `rebalance`, `neighboring` and `traverse` are those of `AvlHeap` with `one = true`:
tree/avls/node.go:7-12 `Node`, 18-20 `updateHeightOneChild`, 28-33 `getHeight`, 35-98 the rotations;
tree/avls/tree_hide.go:98-114 `neighboring`, 116-155 `rebalance`. -/

namespace Verif.AvlsHeap
open Verif.AvlHeap
variable {K V : Type}

/-- tree/avls/tree_hide.go:9-34 `put`. Result: the memory, the new node (it is the cell `free`) and
`isRebalance`. -/
def put (cmp : K → K → Int) (d : Int) (zero : V) (free : Nat) (key : K) :
    Nat → Mem K V → Nat → Bool → Option (Mem K V × Nat × Bool)
  | 0, _, _, _ => none
  | n + 1, m, parent, child =>
    match (m parent).kid child with
    | none =>
      let m := upd m free ⟨key, zero, 1, none, none⟩
      let m := link m parent child (some free)
      some (m, free, ((m parent).kid (!child)).isNone)
    | some cur =>
      let c0 := cmp (m cur).key key
      let c := if c0 < 0 then 1 else c0
      (dir c).bind fun c =>
      (put cmp d zero free key n m cur c).bind fun p =>
        if p.2.2 then (rebalance true d p.1 parent child).map fun q => (q.1, p.2.1, q.2)
        else some p

/-- tree/avls/tree_hide.go:36-50 `get`. -/
def get (cmp : K → K → Int) (m : Mem K V) (key : K) : Nat → Option Nat → Option (Option Nat)
  | 0, _ => none
  | _ + 1, none => some none
  | n + 1, some cur =>
    let c := cmp (m cur).key key
    if c < 0 then
      (get cmp m key n (m cur).lo).map fun left => if left.isSome then left else some cur
    else (dir c).bind fun c => get cmp m key n ((m cur).kid c)

/-- The part of `removeLeft` that takes out the node `cur`, tree/avls/tree_hide.go:70-87. -/
def removeHere (d : Int) (n : Nat) (m : Mem K V) (parent : Nat) (child1 : Bool) (cur : Nat) :
    Option (Mem K V × Option V × Bool) :=
  if (m cur).lo.isNone then some (link m parent child1 (m cur).hi, some (m cur).val, true)
  else if (m cur).hi.isNone then some (link m parent child1 (m cur).lo, some (m cur).val, true)
  else
    let result := (m cur).val
    (neighboring true d n m cur child1 (!child1)).bind fun p =>
      let m := write p.1 cur fun _ => ((p.1 p.2.1).key, (p.1 p.2.1).val)
      (rebalance true d m parent child1).map fun q => (q.1, some result, q.2)

/-- tree/avls/tree_hide.go:52-96 `removeLeft`. -/
def removeLeft (cmp : K → K → Int) (d : Int) (key : K) :
    Nat → Mem K V → Nat → Bool → Bool → Option (Mem K V × Option V × Bool)
  | 0, _, _, _, _ => none
  | n + 1, m, grandpa, child2, child1 =>
    ((m grandpa).kid child2).bind fun parent =>
      match (m parent).kid child1 with
      | none => some (m, none, false)
      | some cur =>
        let c := cmp (m cur).key key
        if c < 0 then
          (removeLeft cmp d key n m parent child1 false).bind fun p =>
            if p.2.1.isSome then
              if cur ≠ 0 ∧ p.2.2 = true then
                (rebalance true d p.1 parent child1).map fun q => (q.1, p.2.1, q.2)
              else some p
            else removeHere d n p.1 parent child1 cur
        else
          (dir c).bind fun c =>
          (removeLeft cmp d key n m parent child1 c).bind fun p =>
            if cur ≠ 0 ∧ p.2.2 = true then
              (rebalance true d p.1 parent child1).map fun q => (q.1, p.2.1, q.2)
            else some p

/-! ### The map -/

section
variable (cmp : K → K → Int) (d : Int) (zero : V)

/-- tree/avls/tree.go:60-66 `Put`. -/
def putM (s : PMap K V) (k : K) (v : V) : Option (PMap K V) :=
  (put cmp d zero s.free k s.free s.mem 0 true).map fun p =>
    ⟨write p.1 p.2.1 fun _ => (k, v), s.free + 1, s.size + 1⟩

/-- tree/avls/tree.go:37-48 `Set`, and 51-58 `Upsert`, which answers the opposite. -/
def setM (s : PMap K V) (k : K) (v : V) : Option (PMap K V × Bool) :=
  (get cmp s.mem k s.free s.root).bind fun e =>
    match e with
    | some cur => some (⟨write s.mem cur fun e => (e.1, v), s.free, s.size⟩, false)
    | none => (putM cmp d zero s k v).map fun s' => (s', true)

/-- tree/avls/tree.go:77-83 `Get`. -/
def getM (s : PMap K V) (k : K) : Option (Option V) :=
  (get cmp s.mem k s.free s.root).map fun e => e.map fun cur => (s.mem cur).val

/-- tree/avls/tree.go:69-75 `InsertIfAbsent`. -/
def insertIfAbsentM (s : PMap K V) (k : K) (v : V) : Option (PMap K V × Bool) :=
  (getM cmp s k).bind fun e =>
    if e.isSome then some (s, false) else (putM cmp d zero s k v).map fun s' => (s', true)

/-- tree/avls/tree.go:85-92 `Remove`. -/
def removeM (s : PMap K V) (k : K) : Option (PMap K V × Option V) :=
  (removeLeft cmp d k s.free s.mem 0 false true).map fun p =>
    (⟨p.1, s.free, if p.2.1.isSome then s.size - 1 else s.size⟩, p.2.1)

open Avl (Res)
open Avls (Op)

/-- One call: tree/avls/tree.go also 95-97 `Delete`, 99-102 `Clear`, 104-111 `Size`, `Len`, 113-131
`Traverse`, 133-143 `Values`, 145-150 `Height`; the empty tree of 15-35 `New`, `NewEx` is
`PMap.new`. -/
def step (s : PMap K V) : Op K V → Option (PMap K V × Res K V)
  | .put k v => (putM cmp d zero s k v).map fun s' => (s', .bool true)
  | .insertIfAbsent k v => (insertIfAbsentM cmp d zero s k v).map fun p => (p.1, .bool p.2)
  | .set k v => (setM cmp d zero s k v).map fun p => (p.1, .bool p.2)
  | .upsert k v => (setM cmp d zero s k v).map fun p => (p.1, .bool !p.2)
  | .get k => (getM cmp s k).map fun o => (s, .val o)
  | .remove k => (removeM cmp d s k).map fun p => (p.1, .val p.2)
  | .delete k => (removeM cmp d s k).map fun p => (p.1, .val p.2)
  | .clear => some (⟨link s.mem 0 true none, s.free, 0⟩, .unit)
  | .size => some (s, .nat s.size)
  | .len => some (s, .nat s.size)
  | .height => s.height.map fun h => (s, .int h)
  | .values => if s.size = 0 then some (s, .list [])
      else (traverse (fun _ _ => true) s.mem s.free s.root).map fun p => (s, .list (p.1.map (·.2)))
  | .traverse every => (traverse every s.mem s.free s.root).map fun p => (s, .entries p.1)

end

end Verif.AvlsHeap
