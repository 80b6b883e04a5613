import Verif.Tree.ListHeap

/-! Model of a program that keeps the pointers `*Slice` which the methods of a tree list return: `Head`,
`Tail` and `Index` return the address of the field `Slice` of a node (tree/treelist/tree.go:106-109, 201-207,
218-224), so what the program reads and writes through it is the key and the value of that node. -/

namespace Verif.ListHeap
open Verif.IndexHeap
open Verif.TreeList (Op Res)
variable {K V : Type}

/-- What the program does. `read i` and `write i v` use the pointer that was kept as number `i`, counted
from the oldest: `s.Key` and `s.Value`, and `s.Value = v`. -/
inductive REv (K V : Type) where
  | call (op : Op K V)
  | keepHead | keepTail | keepIndex (i : Int)
  | read (i : Nat)
  | write (i : Nat) (v : V)

inductive RRes (K V : Type) where
  | of (r : Res K V)
  | kept (b : Bool)
  | entry (e : K × V)
  | unit
  deriving DecidableEq

/-- tree.go:46-48 `New`: the node `root` is allocated. -/
def PList.new (junk : K × V) : PList K V :=
  ⟨fun _ => ⟨junk.1, junk.2, 0, 0, none, none, none⟩, fun _ => (none, none), 1, 0⟩

/-- Keep a pointer, if it is not nil. -/
def keep (s : PList K V) (kept : List Nat) (p : Option Nat) : (PList K V × List Nat) × RRes K V :=
  match p with
  | some a => ((s, kept ++ [a]), .kept true)
  | none => ((s, kept), .kept false)

/-- One action; `none` is a panic. `Index` out of range panics (tree.go:106-109), which the program survives. -/
def rstep (cmp : K → K → Int) (c : PList K V × List Nat) :
    REv K V → Option ((PList K V × List Nat) × RRes K V)
  | .call op => (step cmp c.1 op).map fun p => ((p.1, c.2), .of p.2)
  | .keepHead => some (keep c.1 c.2 (c.1.dir c.1.root).1)
  | .keepTail => some (keep c.1 c.2 (c.1.dir c.1.root).2)
  | .keepIndex i => some (keep c.1 c.2 (index c.1.mem i c.1.free c.1.top))
  | .read i => c.2[i]?.map fun a => (c, .entry ((c.1.mem a).key, (c.1.mem a).val))
  | .write i v => c.2[i]?.map fun a =>
    (({ c.1 with mem := upd c.1.mem a fun x => { x with val := v } }, c.2), .unit)

end Verif.ListHeap
