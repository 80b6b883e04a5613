import Verif.Tree.TraverseWith
import Verif.Tree.AvlsHeap
import Verif.Tree.IndexHeap
import Verif.Tree.ListHeap
import Verif.Queue.PriorityHeap

/-! `Traverse` of tree/avls, tree/indextree, tree/treelist and queue/priority with a callback that calls methods of
the container. -/

namespace Verif

/-- tree/avls/tree.go:113-131 `Traverse`. -/
def AvlsHeap.traverseWith {K V τ : Type} (cmp : K → K → Int) (d : Int) (zero : V)
    (every : τ → K × V → Prog (Avls.Op K V) (Avl.Res K V) (τ × Bool)) (n : Nat) (s : AvlHeap.PMap K V)
    (t : τ) : Option (Walked (AvlHeap.PMap K V) (K × V) τ (Avls.Op K V) (Avl.Res K V)) :=
  walkWith (AvlsHeap.step cmp d zero) (fun s a => (s.mem a).lo) (fun s a => (s.mem a).hi)
    (fun s a => ((s.mem a).key, (s.mem a).val)) every n s t s.root

/-- tree/indextree/tree.go:236-259 `Traverse`. -/
def IndexHeap.traverseWith {K W τ : Type} (shift : Nat) (cmp : K → K → Int) (junk : K × Option W)
    (every : τ → K × Option W → Prog (IndexTree.Op K W) (IndexTree.Res K W) (τ × Bool)) (n : Nat)
    (s : IndexHeap.PTree K (Option W)) (t : τ) :
    Option (Walked (IndexHeap.PTree K (Option W)) (K × Option W) τ (IndexTree.Op K W)
      (IndexTree.Res K W)) :=
  walkWith (IndexHeap.step shift cmp junk) (fun s a => (s.mem a).lo) (fun s a => (s.mem a).hi)
    (fun s a => ((s.mem a).key, (s.mem a).val)) every n s t s.top

/-- tree/treelist/tree.go:144-167 `Traverse`. The callback gets a pointer to the entry. What it can do with
it: read, and write the value, which is `Set` of the key (`ListHeap.Holds.write`, C100). -/
def ListHeap.traverseWith {K V τ : Type} (cmp : K → K → Int)
    (every : τ → K × V → Prog (TreeList.Op K V) (TreeList.Res K V) (τ × Bool)) (n : Nat)
    (s : ListHeap.PList K V) (t : τ) :
    Option (Walked (ListHeap.PList K V) (K × V) τ (TreeList.Op K V) (TreeList.Res K V)) :=
  walkWith (ListHeap.step cmp) (fun s a => (s.mem a).lo) (fun s a => (s.mem a).hi)
    (fun s a => ((s.mem a).key, (s.mem a).val)) every n s t s.top

/-- queue/priority/tree.go:179-198 `Traverse`. -/
def PriorityHeap.traverseWith {K V τ : Type} (cmp : K → K → Int) (zero : V)
    (every : τ → K × V → Prog (Priority.Op K V) (Priority.Res K V) (τ × Bool)) (n : Nat)
    (s : PriorityHeap.PQueue K V) (t : τ) :
    Option (Walked (PriorityHeap.PQueue K V) (K × V) τ (Priority.Op K V) (Priority.Res K V)) :=
  walkWith (PriorityHeap.step cmp zero) (fun s a => (s.mem a).lo) (fun s a => (s.mem a).hi)
    (fun s a => ((s.mem a).key, (s.mem a).val)) every n s t s.root

end Verif
