import Verif.Queue.PriorityHeap
import Verif.Tree.AvlHeapIter

/-! Model of the iterators of queue/priority on the level of pointers, together with the queue: the
calls of the queue and of one iterator in any order. The iterator is `AvlHeap.PIter`: the functions of
queue/priority/iterator_hide.go are those of tree/avl but for `newIterator`.

Simplifications: as in `Verif.Queue.PriorityHeap` and `Verif.Tree.AvlHeapIter`. The cursor `idx` into
the array is a Go `int8`; the array never has more than 94 places. -/

namespace Verif.PriorityHeap
open Verif.AvlHeap (PIter Mem)
open Verif.Avl (IOp IRes)
variable {K V : Type}

/-- queue/priority/tree.go:212-214 `Iterator`, iterator_hide.go:5-13 `newIterator`. -/
def PQueue.iterator (s : PQueue K V) : Option PIter :=
  (Priority.maybeHeight s.size).map fun h => ⟨h + h / 2, none, []⟩

section
variable (cmp : K → K → Int)

/-- A call on the iterator of the queue `s`: queue/priority/iterator.go:17-98, with the functions `down`,
`up`, `seekEqual`, `seekThan` and `move` of iterator_hide.go:15-130. `Key` and `Value` together are
`entry`. `Clone` (iterator.go:101-107) makes an array for the present size of the queue and copies
what fits. -/
def istep (s : PQueue K V) (it : PIter) : IOp K → Option (PIter × IRes K V)
  | .seekToFirst => (it.seekEnd s.mem (2 * s.free + 2) s.root false).map fun i => (i, .unit)
  | .seekToLast => (it.seekEnd s.mem (2 * s.free + 2) s.root true).map fun i => (i, .unit)
  | .next => (it.move s.mem (2 * s.free + 2) true).map fun i => (i, .unit)
  | .prev => (it.move s.mem (2 * s.free + 2) false).map fun i => (i, .unit)
  | .seekGE k => (it.seek cmp s.mem (2 * s.free + 2) s.root k true false).map fun p => (p.1, .bool p.2)
  | .seekGT k => (it.seek cmp s.mem (2 * s.free + 2) s.root k true true).map fun p => (p.1, .bool p.2)
  | .seekLE k => (it.seek cmp s.mem (2 * s.free + 2) s.root k false false).map fun p => (p.1, .bool p.2)
  | .seekLT k => (it.seek cmp s.mem (2 * s.free + 2) s.root k false true).map fun p => (p.1, .bool p.2)
  | .valid => some (it, .bool it.cur.isSome)
  | .entry => it.cur.map fun a => (it, .entry ((s.mem a).key, (s.mem a).val))
  | .clone => s.iterator.map fun i => (⟨i.cap, it.cur, it.stk⟩, .unit)

/-- The calls of the queue and of one iterator. `look` is what a loop does: `Valid`, and then `Key` and
`Value` if it answered true. -/
inductive COp (K V : Type) where
  | call (op : Priority.Op K V)
  | iter (op : IOp K)
  | look

inductive CRes (K V : Type) where
  | call (r : Priority.Res K V)
  | iter (r : IRes K V)
  | look (e : Option (K × V))

/-- One call; the iterator was made before. -/
def cstep (zero : V) (q : PQueue K V × PIter) : COp K V → Option ((PQueue K V × PIter) × CRes K V)
  | .call op => (step cmp zero q.1 op).map fun p => ((p.1, q.2), .call p.2)
  | .iter op => (istep cmp q.1 q.2 op).map fun p => ((q.1, p.1), .iter p.2)
  | .look => some (q, .look (q.2.cur.map fun a => ((q.1.mem a).key, (q.1.mem a).val)))

end

end Verif.PriorityHeap
