import Verif.Tree.IndexHeap

/-! Model of the iterator of tree/indextree on the level of pointers, together with the tree: the calls
of the tree and of one iterator in any order. In `Verif.Tree.IndexModel` a pointer is the subtree below
it, which is right as long as the tree is not changed; here it is an address, and what the iterator
finds there is what the memory holds at that time.

Simplifications: as in `Verif.Tree.IndexHeap`. The slots of the array `stack` above `idx` are never
read and left out. Rounds of loops are limited by `2 * free + 2`. -/

namespace Verif.IndexHeap
open Verif.IndexTree (Op Res IOp IRes)
variable {K V W : Type}

/-- iterator.go:3-16 `Iterator`, `nodeDir`. `cap` is the length of the array `stack`, `stk` its slots up
to `idx`, top first. -/
structure PIter where
  cap : Nat
  cur : Option Nat
  stk : List (Nat × Bool)
  pos : Int

/-- `iter.idx += 1`, then the slot is written; `none` is an index out of range. After 127 the index,
an int8, is -128. -/
def PIter.push (it : PIter) (e : Nat × Bool) (cur : Option Nat) : Option PIter :=
  if it.stk.length < it.cap ∧ it.stk.length < 128 then some { it with cur := cur, stk := e :: it.stk }
  else none

/-- iterator_hide.go:16-40 `down`. -/
def PIter.down (m : Mem K V) (c : Bool) (it : PIter) : Option (PIter × Bool) :=
  match it.cur with
  | none =>
    match it.stk with
    | [] => some (it, false)
    | (n, d) :: stk =>
      if it.cap < it.stk.length then none
      else if d = !c then some ({ it with cur := some n, stk := stk }, true)
      else some (it, false)
  | some a =>
    match (m a).kid c with
    | none => some (it, false)
    | some b => (it.push (a, c) (some b)).map fun it' => (it', true)

/-- The search of `up`: the nearest entry with the other direction. -/
def findUp (c : Bool) : List (Nat × Bool) → Option (Nat × List (Nat × Bool))
  | [] => none
  | (n, d) :: stk => if d = !c then some (n, stk) else findUp c stk

/-- iterator_hide.go:42-72 `up`. The top slot is read first; a full array is not written. -/
def PIter.up (c : Bool) (it : PIter) : Option (PIter × Bool) :=
  if it.cap < it.stk.length then none
  else match findUp c it.stk with
  | some (n, stk) => some ({ it with cur := some n, stk := stk }, true)
  | none =>
    match it.cur with
    | none => some (it, false)
    | some a =>
      if it.stk.length < it.cap then (it.push (a, c) none).map fun it' => (it', false)
      else some ({ it with cur := none }, false)

/-- The loop `for iter.down(c) {}`. -/
def PIter.downs (m : Mem K V) (c : Bool) : Nat → PIter → Option PIter
  | 0, _ => none
  | n + 1, it => (it.down m c).bind fun p => if p.2 then p.1.downs m c n else some p.1

/-- iterator_hide.go:146-156 `move`. -/
def PIter.move (m : Mem K V) (fuel : Nat) (c : Bool) (it : PIter) : Option PIter :=
  (it.down m c).bind fun p =>
    if p.2 then p.1.downs m (!c) fuel else (it.up c).map (·.1)

/-- iterator.go:44-60 `SeekToFirst`, `SeekToLast`, without `pos`. -/
def PIter.seekEnd (m : Mem K V) (fuel : Nat) (root : Option Nat) (c : Bool) (it : PIter) :
    Option PIter :=
  { it with cur := root, stk := [] }.downs m c fuel

/-- tree.go:171-201 `IndexOf`. -/
def indexOf (cmp : K → K → Int) (m : Mem K V) (key : K) (n : Nat) (top : Option Nat) : Option Int :=
  match top with
  | none => some (-1)
  | some cur => indexOfLoop cmp m key n cur (getSize m (m cur).lo)

section
variable (cmp : K → K → Int)

/-- The loop of `seekEqual`, iterator_hide.go:83-105, without `pos`. -/
def PIter.equalLoop (m : Mem K V) (key : K) (c : Bool) : Nat → PIter → Option (PIter × Bool)
  | 0, _ => none
  | n + 1, it =>
    it.cur.bind fun a =>
      let x := cmp (m a).key key
      if x = 0 then some (it, true)
      else
        (it.down m (decide (x < 0))).bind fun p =>
          if p.2 then p.1.equalLoop m key c n
          else if decide (x < 0) = c then (p.1.up c).map fun q => (q.1, false) else some (p.1, false)

/-- iterator_hide.go:74-106 `seekEqual`. -/
def PIter.seekEqual (s : PTree K V) (key : K) (c : Bool) (it : PIter) : Option (PIter × Bool) :=
  match s.top with
  | none => some ({ it with cur := none }, false)
  | some r =>
    (PIter.equalLoop cmp s.mem key c (2 * s.free + 2) { it with cur := some r, stk := [] }).bind fun p =>
    (indexOf cmp s.mem key s.free s.top).map fun i => ({ p.1 with pos := i }, p.2)

/-- The loop of `seekThan`, iterator_hide.go:117-143: it stops at the first node with `cmp > 0`. -/
def PIter.thanLoop (s : PTree K V) (key : K) (c : Bool) : Nat → PIter → Option (PIter × Bool)
  | 0, _ => none
  | n + 1, it =>
    it.cur.bind fun a =>
      let x := cmp (s.mem a).key key
      if x > 0 then
        (it.move s.mem (2 * s.free + 2) c).bind fun it' =>
        it'.cur.bind fun b =>
        (indexOf cmp s.mem (s.mem b).key s.free s.top).map fun i => ({ it' with pos := i }, true)
      else
        (it.down s.mem (decide (x < 0))).bind fun p =>
          if p.2 then p.1.thanLoop s key c n
          else (if decide (x < 0) = c then (p.1.up c).map (·.1) else some p.1).bind fun it' =>
            match it'.cur with
            | none => some (it', false)
            | some b => (indexOf cmp s.mem (s.mem b).key s.free s.top).map fun i =>
              ({ it' with pos := i }, false)

/-- iterator_hide.go:108-144 `seekThan`. -/
def PIter.seekThan (s : PTree K V) (key : K) (c : Bool) (it : PIter) : Option (PIter × Bool) :=
  match s.top with
  | none => some ({ it with cur := none }, false)
  | some r => PIter.thanLoop cmp s key c (2 * s.free + 2) { it with cur := some r, stk := [] }

/-- The recursion of `hight`, utils.go:388-400. -/
def hightRec (m : Mem K V) : Nat → Option Nat → Nat → Option Nat
  | 0, _, _ => none
  | _ + 1, none, _ => some 0
  | n + 1, some a, h =>
    if (m a).size = 1 then some h
    else
      (hightRec m n (m a).lo (h + 1)).bind fun x =>
      (hightRec m n (m a).hi (h + 1)).map fun y => max x y

/-- tree.go:49-51 `Iterator`, iterator_hide.go:3-14 `newIterator`, utils.go:382-404 `hight`. -/
def PTree.iterator (s : PTree K V) : Option PIter :=
  (hightRec s.mem s.free s.top 0).map fun h => ⟨(if h = 0 then 1 else h) + 1, none, [], 0⟩

/-- A call on the iterator of the tree `s`: iterator.go. `Key` and `Value` together are `entry`. `Clone`
(88-95) makes a new array, as long as the tree is high now, and copies what fits. -/
def istep (s : PTree K (Option W)) (it : PIter) : IOp K → Option (PIter × IRes K (Option W))
  | .seekToFirst =>
    (it.seekEnd s.mem (2 * s.free + 2) s.top false).map fun i => ({ i with pos := 0 }, .unit)
  | .seekToLast =>
    (it.seekEnd s.mem (2 * s.free + 2) s.top true).map fun i =>
      ({ i with pos := getSize s.mem s.top - 1 }, .unit)
  | .seekByIndex i =>
    if i < 0 ∨ i ≥ getSize s.mem s.top then some ({ it with cur := none }, .unit)
    else (index s.mem i s.free s.top).map fun a => ({ it with cur := some a, pos := i }, .unit)
  | .next => (it.move s.mem (2 * s.free + 2) true).map fun i => ({ i with pos := it.pos + 1 }, .unit)
  | .prev => (it.move s.mem (2 * s.free + 2) false).map fun i => ({ i with pos := it.pos - 1 }, .unit)
  | .seekGE k => (it.seekEqual cmp s k true).map fun p => (p.1, .bool p.2)
  | .seekLE k => (it.seekEqual cmp s k false).map fun p => (p.1, .bool p.2)
  | .seekGT k => (it.seekThan cmp s k true).map fun p => (p.1, .bool p.2)
  | .seekLT k => (it.seekThan cmp s k false).map fun p => (p.1, .bool p.2)
  | .valid => some (it, .bool it.cur.isSome)
  | .entry => it.cur.map fun a => (it, .entry ((s.mem a).key, (s.mem a).val))
  | .index => some (it, .int it.pos)
  | .clone => s.iterator.map fun i => (⟨i.cap, it.cur, it.stk, it.pos⟩, .unit)

/-- The calls of the tree and of one iterator. -/
inductive COp (K W : Type) where
  | call (op : Op K W)
  | iter (op : IOp K)

inductive CRes (K W : Type) where
  | call (r : Res K W)
  | iter (r : IRes K (Option W))

/-- One call; the iterator was made before. -/
def cstep (shift : Nat) (junk : K × Option W) (q : PTree K (Option W) × PIter) :
    COp K W → Option ((PTree K (Option W) × PIter) × CRes K W)
  | .call op => (step shift cmp junk q.1 op).map fun p => ((p.1, q.2), .call p.2)
  | .iter op => (istep cmp q.1 q.2 op).map fun p => ((q.1, p.1), .iter p.2)

end

end Verif.IndexHeap
