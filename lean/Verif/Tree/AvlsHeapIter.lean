import Verif.Tree.AvlsHeap
import Verif.Tree.AvlHeapIter

/-! Model of the iterator of tree/avls on the level of pointers, together with the tree: the calls of the
tree and of one iterator in any order. `Iterator`, `down`, `up`, `move`, `SeekToFirst`, `SeekToLast`
and `newIterator` are those of `Verif.Tree.AvlHeapIter` (tree/avls/iterator.go:4-16, 34-52,
tree/avls/iterator_hide.go:5-69, 162-172), with the same simplifications. -/

namespace Verif.AvlsHeap
open Verif.AvlHeap
open Verif.Avl (IOp IRes)
variable {K V : Type}

/-- The candidate of `seekBound` and the path to it. -/
abbrev Cand := Option (Nat × List (Nat × Bool))

section
variable (cmp : K → K → Int)

/-- The loop of `seekBound`, tree/avls/iterator_hide.go:96-151: `cur`, the path to it, the candidate with
the path to it, `exact`. The slots of the array are written in any case, hence the capacity check. -/
def boundLoop (m : Mem K V) (cap : Nat) (key : K) (c strict : Bool) :
    Nat → Option Nat → List (Nat × Bool) → Cand → Bool → Option (Cand × Bool)
  | 0, _, _, _, _ => none
  | _ + 1, none, _, cand, exact => some (cand, exact)
  | n + 1, some cur, path, cand, exact =>
    let x := cmp (m cur).key key
    let exact := exact || decide (x < 0)
    let satisfies := if c then decide (x = 0) || (decide (x < 0) && !strict)
      else decide (x = 1) || (decide (x < 0) && !strict)
    let moveDir := if c then (if x = 0 then false else if x < 0 then strict else true)
      else (if x = 1 then true else if x < 0 then !strict else false)
    let cand := if satisfies then some (cur, path) else cand
    match (m cur).kid moveDir with
    | none => some (cand, exact)
    | some next =>
      if path.length < cap then boundLoop m cap key c strict n (some next) ((cur, moveDir) :: path) cand exact
      else none

/-- tree/avls/iterator_hide.go:72-160 `seekEqual`, `seekThan`, `seekBound`. -/
def seekBound (m : Mem K V) (fuel : Nat) (root : Option Nat) (key : K) (c strict : Bool) (it : PIter) :
    Option (PIter × Bool) :=
  (boundLoop cmp m it.cap key c strict fuel root [] none false).map fun p =>
    match p.1 with
    | none => (⟨it.cap, none, []⟩, p.2)
    | some (n, stk) => (⟨it.cap, some n, stk⟩, p.2)

/-- A call on the iterator of the tree `s`, tree/avls/iterator.go. `Key` and `Value` together are
`entry`. `Clone` (83-90) makes the array as long as the present height of the tree and copies what
fits. -/
def istep (s : PMap K V) (it : PIter) : IOp K → Option (PIter × IRes K V)
  | .seekToFirst => (it.seekEnd s.mem (2 * s.free + 2) s.root false).map fun i => (i, .unit)
  | .seekToLast => (it.seekEnd s.mem (2 * s.free + 2) s.root true).map fun i => (i, .unit)
  | .next => (it.move s.mem (2 * s.free + 2) true).map fun i => (i, .unit)
  | .prev => (it.move s.mem (2 * s.free + 2) false).map fun i => (i, .unit)
  | .seekGE k => (seekBound cmp s.mem (2 * s.free + 2) s.root k true false it).map fun p => (p.1, .bool p.2)
  | .seekGT k => (seekBound cmp s.mem (2 * s.free + 2) s.root k true true it).map fun p => (p.1, .bool p.2)
  | .seekLE k => (seekBound cmp s.mem (2 * s.free + 2) s.root k false false it).map fun p => (p.1, .bool p.2)
  | .seekLT k => (seekBound cmp s.mem (2 * s.free + 2) s.root k false true it).map fun p => (p.1, .bool p.2)
  | .valid => some (it, .bool it.cur.isSome)
  | .entry => it.cur.map fun a => (it, .entry ((s.mem a).key, (s.mem a).val))
  | .clone => s.iterator.bind fun i => some (⟨i.cap, it.cur, it.stk⟩, .unit)

/-- The calls of the tree and of one iterator. -/
inductive COp (K V : Type) where
  | call (op : Avls.Op K V)
  | iter (op : IOp K)

/-- One call; the iterator was made before. -/
def cstep (d : Int) (zero : V) (q : PMap K V × PIter) :
    COp K V → Option ((PMap K V × PIter) × CRes K V)
  | .call op => (step cmp d zero q.1 op).map fun p => ((p.1, q.2), .call p.2)
  | .iter op => (istep cmp q.1 q.2 op).map fun p => ((q.1, p.1), .iter p.2)

end

end Verif.AvlsHeap
