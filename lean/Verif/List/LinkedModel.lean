import Verif.Common.DLL

/-!
Model of list/linked_list/linked_list.go, iterator.go and circular_iterator.go.

Nodes live in a pointer store, `fresh` is the next unused address; 0 and 1 are the sentinels
`l.head` and `l.tail`. A pointer is an `Option Nat`, `none` is nil. The result `none` of a function
is a panic (a nil dereference, `values[0]` of an empty slice) or a loop that does not end (it would
take more rounds than there are nodes). `size` is a natural number: it cannot wrap, since it
counts allocated nodes; a decrement below zero is made explicit as `none`. `String` is in `Verif.Print.Model`.
-/

namespace Verif.LList
open Verif.DLL
variable {T : Type} [Inhabited T]

/-- linked_list.go:24-29. -/
structure LL (T : Type) where
  heap : Store T
  fresh : Nat
  size : Nat

/-- linked_list.go:32-44 `New`. -/
def LL.new : LL T where
  heap := fun x => if x = 0 then ⟨none, some 1, default⟩
    else if x = 1 then ⟨some 0, none, default⟩ else ⟨none, none, default⟩
  fresh := 2
  size := 0

/-- linked_list.go:59-65 `Clear`. -/
def LL.clear (l : LL T) : LL T :=
  { l with heap := (l.heap.setNext 0 (some 1)).setPrev 1 (some 0), size := 0 }

/-- One round of the loop 116-126 of `PushBack` without the size, also the body of `Push` 80-90. -/
def LL.back1 (l : LL T) (v : T) : Option (LL T) :=
  let node := l.fresh
  let h := l.heap.put node ⟨none, none, v⟩
  match (h 1).prev with
  | none => none
  | some tprev =>
    let h := h.setNext tprev (some node)
    let h := h.setPrev node (some tprev)
    let h := h.setNext node (some 1)
    some { l with heap := h.setPrev 1 (some node), fresh := l.fresh + 1 }

/-- One round of the loop 98-108 of `PushFront` without the size. -/
def LL.front1 (l : LL T) (v : T) : Option (LL T) :=
  let node := l.fresh
  let h := l.heap.put node ⟨none, none, v⟩
  match (h 0).next with
  | none => none
  | some hnext =>
    let h := h.setPrev hnext (some node)
    let h := h.setNext node (some hnext)
    let h := h.setPrev node (some 0)
    some { l with heap := h.setNext 0 (some node), fresh := l.fresh + 1 }

/-- linked_list.go:78-91 `Push`. -/
def LL.push (l : LL T) (v : T) : Option (LL T) := LL.back1 { l with size := l.size + 1 } v

/-- linked_list.go:94-109 `PushFront`. -/
def LL.pushFront (l : LL T) (vs : List T) : Option (LL T) :=
  vs.foldlM LL.front1 { l with size := l.size + vs.length }

/-- linked_list.go:112-127 `PushBack`. -/
def LL.pushBack (l : LL T) (vs : List T) : Option (LL T) :=
  vs.foldlM LL.back1 { l with size := l.size + vs.length }

/-- linked_list.go:130-145 `PopFront`. -/
def LL.popFront (l : LL T) : Option (LL T × Option T) :=
  if l.size = 0 then some (l, none)
  else do
    let temp ← (l.heap 0).next
    let hnext ← (l.heap temp).next
    let h := l.heap.setPrev hnext (some 0)
    let h := h.setNext 0 (some hnext)
    some ({ l with heap := h, size := l.size - 1 }, some (h temp).val)

/-- linked_list.go:148-163 `PopBack`. -/
def LL.popBack (l : LL T) : Option (LL T × Option T) :=
  if l.size = 0 then some (l, none)
  else do
    let temp ← (l.heap 1).prev
    let tprev ← (l.heap temp).prev
    let h := l.heap.setNext tprev (some 1)
    let h := h.setPrev 1 (some tprev)
    some ({ l with heap := h, size := l.size - 1 }, some (h temp).val)

/-- linked_list.go:166-172 `Front`. -/
def LL.front (l : LL T) : Option (Option T) :=
  if l.size = 0 then some none else (l.heap 0).next.map fun a => some (l.heap a).val

/-- linked_list.go:175-181 `Back`. -/
def LL.back (l : LL T) : Option (Option T) :=
  if l.size = 0 then some none else (l.heap 1).prev.map fun a => some (l.heap a).val

/-- The loop 211-216: forward, `uidx` counting down. -/
def idxNext (h : Store T) : Nat → Nat → Option Nat → Option (Option T)
  | _, _, none => none
  | 0, _, some _ => none
  | fuel + 1, k, some cur =>
    if cur = 1 then some none
    else if k = 0 then some (some (h cur).val)
    else idxNext h fuel (k - 1) (h cur).next

/-- The loop 202-207: backward. -/
def idxPrev (h : Store T) : Nat → Nat → Option Nat → Option (Option T)
  | _, _, none => none
  | 0, _, some _ => none
  | fuel + 1, k, some cur =>
    if cur = 0 then some none
    else if k = 0 then some (some (h cur).val)
    else idxPrev h fuel (k - 1) (h cur).prev

/-- linked_list.go:184-219 `Index`. -/
def LL.index (l : LL T) (idx : Int) : Option (Option T) :=
  if idx < 0 then some none
  else
    let uidx := idx.toNat
    if uidx ≥ l.size then some none
    else if uidx > l.size / 2 then idxPrev l.heap l.fresh (l.size - 1 - uidx) (l.heap 1).prev
    else idxNext l.heap l.fresh uidx (l.heap 0).next

/-- linked_list.go:258-264 `Traverse`: the values handed to the callback. -/
def visit (h : Store T) (every : T → Bool) : Nat → Option Nat → Option (List T)
  | _, none => none
  | 0, some _ => none
  | fuel + 1, some cur =>
    if cur = 1 then some []
    else if every (h cur).val then (visit h every fuel (h cur).next).map ((h cur).val :: ·)
    else some [(h cur).val]

def LL.traverse (l : LL T) (every : T → Bool) : Option (List T) :=
  visit l.heap every l.fresh (l.heap 0).next

/-- linked_list.go:244-250 `Values`. -/
def LL.values (l : LL T) : Option (List T) := l.traverse fun _ => true

/-- linked_list.go:231-241 `Contains`; the loop over the list hands every value to the inner loop. -/
def LL.contains (comp : T → T → Int) (l : LL T) (values : List T) : Option Nat :=
  (l.traverse fun _ => true).map fun s =>
    s.foldl (fun count e => values.foldl (fun c v => if comp e v = -1 then c + 1 else c) count) 0

/-- linked_list.go:221-228 `remove`. -/
def rm (h : Store T) (cur : Nat) : Option (Store T) := do
  let curPrev ← (h cur).prev
  let curNext ← (h cur).next
  let h := h.setNext curPrev (some curNext)
  let h := h.setPrev curNext (some curPrev)
  let h := h.setPrev cur none
  some (h.setNext cur none)

/-- The loop iterator.go:20-25: append nodes to the chain that ends in `e`. Returns the store, the
allocation counter and the last node. -/
def chain (h : Store T) (fresh e : Nat) : List T → Store T × Nat × Nat
  | [] => (h, fresh, e)
  | v :: vs =>
    let h := h.put fresh ⟨none, none, v⟩
    let h := h.setNext e (some fresh)
    let h := h.setPrev fresh (some e)
    chain h (fresh + 1) fresh vs

/-- iterator.go:10-34 `InsertBefore`, circular_iterator.go:169-193. -/
def LL.insertBefore (l : LL T) (cur : Nat) : List T → Option (LL T)
  | [] => none
  | v :: vs => do
    let start := l.fresh
    let h := l.heap.put start ⟨none, none, v⟩
    let (h, fresh, e) := chain h (l.fresh + 1) start vs
    let cprev ← (h cur).prev
    let h := h.setNext cprev (some start)
    let h := h.setPrev start (some cprev)
    let h := h.setNext e (some cur)
    let h := h.setPrev cur (some e)
    some { heap := h, fresh := fresh, size := l.size + (v :: vs).length }

/-- iterator.go:37-61 `InsertAfter`, circular_iterator.go:196-220. -/
def LL.insertAfter (l : LL T) (cur : Nat) : List T → Option (LL T)
  | [] => none
  | v :: vs => do
    let start := l.fresh
    let h := l.heap.put start ⟨none, none, v⟩
    let (h, fresh, e) := chain h (l.fresh + 1) start vs
    let cnext ← (h cur).next
    let h := h.setNext cur (some start)
    let h := h.setPrev start (some cur)
    let h := h.setNext e (some cnext)
    let h := h.setPrev cnext (some e)
    some { heap := h, fresh := fresh, size := l.size + (v :: vs).length }

/-- iterator.go:64-86 `MoveBefore`, circular_iterator.go:118-140; both iterators belong to this
list. -/
def LL.moveBefore (l : LL T) (cur mark : Nat) : Option (LL T) :=
  if cur = mark then some l
  else if (l.heap mark).prev = some cur then some l
  else do
    let h := l.heap
    let cprev ← (h cur).prev
    let cnext ← (h cur).next
    let mprev ← (h mark).prev
    let h := h.setNext cprev (some cnext)
    let h := h.setPrev cnext (some cprev)
    let h := h.setNext mprev (some cur)
    let h := h.setPrev cur (some mprev)
    let h := h.setPrev mark (some cur)
    let h := h.setNext cur (some mark)
    some { l with heap := h }

/-- iterator.go:89-112 `MoveAfter`, circular_iterator.go:143-166. -/
def LL.moveAfter (l : LL T) (cur mark : Nat) : Option (LL T) :=
  if cur = mark then some l
  else if (l.heap mark).next = some cur then some l
  else do
    let h := l.heap
    let cprev ← (h cur).prev
    let cnext ← (h cur).next
    let mnext ← (h mark).next
    let h := h.setNext cprev (some cnext)
    let h := h.setPrev cnext (some cprev)
    let h := h.setPrev mnext (some cur)
    let h := h.setNext cur (some mnext)
    let h := h.setNext mark (some cur)
    let h := h.setPrev cur (some mark)
    some { l with heap := h }

/-- iterator.go:115-120 `RemoveToNext`: the list and the new cursor. -/
def LL.removeToNext (l : LL T) (cur : Nat) : Option (LL T × Option Nat) := do
  let temp := (l.heap cur).next
  let h ← rm l.heap cur
  if l.size = 0 then none else some ({ l with heap := h, size := l.size - 1 }, temp)

/-- iterator.go:123-128 `RemoveToPrev`. -/
def LL.removeToPrev (l : LL T) (cur : Nat) : Option (LL T × Option Nat) := do
  let temp := (l.heap cur).prev
  let h ← rm l.heap cur
  if l.size = 0 then none else some ({ l with heap := h, size := l.size - 1 }, temp)

/-- circular_iterator.go:223-234 `RemoveToNext`. -/
def LL.cremoveToNext (l : LL T) (cur : Nat) : Option (LL T × Option Nat) := do
  let temp := (l.heap cur).next
  let h ← rm l.heap cur
  let c := if temp = some 1 then (h 0).next else temp
  if l.size = 0 then none else some ({ l with heap := h, size := l.size - 1 }, c)

/-- circular_iterator.go:237-248 `RemoveToPrev`. -/
def LL.cremoveToPrev (l : LL T) (cur : Nat) : Option (LL T × Option Nat) := do
  let temp := (l.heap cur).prev
  let h ← rm l.heap cur
  let c := if temp = some 0 then (h 1).prev else temp
  if l.size = 0 then none else some ({ l with heap := h, size := l.size - 1 }, c)

/-- iterator.go:131-133 `Swap`, circular_iterator.go:8-10; both iterators belong to this list. -/
def LL.swap (l : LL T) (cur other : Nat) : LL T :=
  { l with heap := (l.heap.setVal cur (l.heap other).val).setVal other (l.heap cur).val }

/-- iterator.go:136-138 `SetValue`, circular_iterator.go:13-15. -/
def LL.setValue (l : LL T) (cur : Nat) (v : T) : LL T := { l with heap := l.heap.setVal cur v }

/-- iterator.go:147-152 `Vaild`, circular_iterator.go:24-29; a nil cursor counts as valid. -/
def valid (cur : Option Nat) : Bool := !(cur = some 0 || cur = some 1)

/-- The loop of `Move`, iterator.go:167-172 (forward). -/
def moveNext (h : Store T) : Nat → Option Nat → Option (Option Nat)
  | 0, c => some c
  | _ + 1, none => none
  | n + 1, some c =>
    if (h c).next = some 1 then some (some 1) else moveNext h n (h c).next

/-- The loop of `Move`, iterator.go:178-183 (backward). -/
def movePrev (h : Store T) : Nat → Option Nat → Option (Option Nat)
  | 0, c => some c
  | _ + 1, none => none
  | n + 1, some c =>
    if (h c).prev = some 0 then some (some 0) else movePrev h n (h c).prev

/-- Go's `-step` on a 64 bit int as a number of rounds of `for i := 0; i < -step; i++`, for
`step ≤ 0`; the negation of the least int is itself. -/
def negRounds (step : Int) : Nat := if step = -2 ^ 63 then 0 else (-step).toNat

/-- iterator.go:160-187 `Move`. -/
def LL.move (l : LL T) (cur : Option Nat) (step : Int) : Option (Option Nat) :=
  if step > 0 then
    if cur = some 1 then some cur else moveNext l.heap step.toNat cur
  else
    if cur = some 0 then some cur else movePrev l.heap (negRounds step) cur

/-- circular_iterator.go:56-72 `Next`. -/
def LL.cnext (l : LL T) (cur : Option Nat) : Option (Option Nat) :=
  if l.size = 0 then some cur
  else if cur = some 1 then some (l.heap 0).next
  else do
    let c ← cur
    some (if (l.heap c).next = some 1 then (l.heap 0).next else (l.heap c).next)

/-- circular_iterator.go:37-53 `Prev`. -/
def LL.cprev (l : LL T) (cur : Option Nat) : Option (Option Nat) :=
  if l.size = 0 then some cur
  else if cur = some 0 then some (l.heap 1).prev
  else do
    let c ← cur
    some (if (l.heap c).prev = some 0 then (l.heap 1).prev else (l.heap c).prev)

/-- The loop circular_iterator.go:95-101 of `Move`. -/
def cmoveNext (h : Store T) : Nat → Option Nat → Option (Option Nat)
  | 0, c => some c
  | _ + 1, none => none
  | n + 1, some c =>
    cmoveNext h n (if (h c).next = some 1 then (h 0).next else (h c).next)

/-- The loop circular_iterator.go:107-112 of `Move`. -/
def cmovePrev (h : Store T) : Nat → Option Nat → Option (Option Nat)
  | 0, c => some c
  | _ + 1, none => none
  | n + 1, some c =>
    cmovePrev h n (if (h c).prev = some 0 then (h 1).prev else (h c).prev)

/-- circular_iterator.go:85-115 `Move`. -/
def LL.cmove (l : LL T) (cur : Option Nat) (step : Int) : Option (Option Nat) :=
  if l.size = 0 then some cur
  else if step > 0 then
    cmoveNext l.heap step.toNat (if cur = some 1 then (l.heap 0).next else cur)
  else
    cmovePrev l.heap (negRounds step) (if cur = some 0 then (l.heap 1).prev else cur)

/-! ### Histories

A client holds a list and any number of iterators on it, numbered. -/

structure St (T : Type) where
  l : LL T
  /-- The `cur` field of every iterator; `none` also for iterators not created yet. -/
  cur : Nat → Option Nat

def St.new : St T := ⟨LL.new, fun _ => none⟩

/-- Iterator `j` now is at `c`. -/
def upd (f : Nat → Option Nat) (j : Nat) (c : Option Nat) : Nat → Option Nat :=
  fun i => if i = j then c else f i

inductive Op (T : Type) where
  | push (v : T) | pushFront (vs : List T) | pushBack (vs : List T) | popFront | popBack
  | front | back | index (i : Int) | contains (comp : T → T → Int) (vs : List T)
  | values | traverse (every : T → Bool) | clear | empty | size
  | toHead (j : Nat) | toTail (j : Nat) | next (j : Nat) | prev (j : Nat)
  | move (j : Nat) (step : Int) | value (j : Nat) | valid (j : Nat)
  | setValue (j : Nat) (v : T) | swap (j k : Nat)
  | insertBefore (j : Nat) (vs : List T) | insertAfter (j : Nat) (vs : List T)
  | removeToNext (j : Nat) | removeToPrev (j : Nat)
  | moveBefore (j k : Nat) | moveAfter (j k : Nat)
  | cnext (j : Nat) | cprev (j : Nat) | cmove (j : Nat) (step : Int)
  | cremoveToNext (j : Nat) | cremoveToPrev (j : Nat)

inductive Res (T : Type) where
  | unit | val (v : Option T) | nat (n : Nat) | bool (b : Bool) | list (l : List T)
  deriving DecidableEq

/-- The outcome of a call that only changes the list. -/
def onList (s : St T) (l : Option (LL T)) : Option (St T × Res T) :=
  l.map fun l => ({ s with l := l }, .unit)

/-- The outcome of a call that only moves iterator `j`. -/
def onCur (s : St T) (j : Nat) (c : Option (Option Nat)) : Option (St T × Res T) :=
  c.map fun c => ({ s with cur := upd s.cur j c }, .unit)

/-- The outcome of a call that changes the list and moves iterator `j`. -/
def onBoth (s : St T) (j : Nat) (r : Option (LL T × Option Nat)) : Option (St T × Res T) :=
  r.map fun r => ({ l := r.1, cur := upd s.cur j r.2 }, .unit)

/-- The outcome of a call that only reads. -/
def onRead (s : St T) (r : Option (Res T)) : Option (St T × Res T) := r.map fun r => (s, r)

def step (s : St T) : Op T → Option (St T × Res T)
  | .push v => onList s (s.l.push v)
  | .pushFront vs => onList s (s.l.pushFront vs)
  | .pushBack vs => onList s (s.l.pushBack vs)
  | .popFront => s.l.popFront.map fun r => ({ s with l := r.1 }, .val r.2)
  | .popBack => s.l.popBack.map fun r => ({ s with l := r.1 }, .val r.2)
  | .front => onRead s (s.l.front.map .val)
  | .back => onRead s (s.l.back.map .val)
  | .index i => onRead s ((s.l.index i).map .val)
  | .contains comp vs => onRead s ((s.l.contains comp vs).map .nat)
  | .values => onRead s (s.l.values.map .list)
  | .traverse every => onRead s ((s.l.traverse every).map .list)
  | .clear => onList s (some s.l.clear)
  | .empty => onRead s (some (.bool (s.l.size == 0)))       -- 68-70
  | .size => onRead s (some (.nat s.l.size))                -- 73-75
  -- linked_list.go:47-56 `Iterator`, `CircularIterator`; iterator.go:200-202, circular 75-77 `ToHead`
  | .toHead j => onCur s j (some (s.l.heap 0).next)
  -- iterator.go:205-207, circular_iterator.go:80-82 `ToTail`
  | .toTail j => onCur s j (some (s.l.heap 1).prev)
  -- iterator.go:195-197 `Next`, 190-192 `Prev`
  | .next j => onCur s j ((s.cur j).map fun c => (s.l.heap c).next)
  | .prev j => onCur s j ((s.cur j).map fun c => (s.l.heap c).prev)
  | .move j n => onCur s j (s.l.move (s.cur j) n)
  -- iterator.go:141-143 `Value`, circular_iterator.go:18-20
  | .value j => onRead s ((s.cur j).map fun c => .val (some (s.l.heap c).val))
  | .valid j => onRead s (some (.bool (LList.valid (s.cur j))))
  | .setValue j v => onList s ((s.cur j).map fun c => s.l.setValue c v)
  | .swap j k => onList s ((s.cur j).bind fun c => (s.cur k).map fun d => s.l.swap c d)
  | .insertBefore j vs => onList s ((s.cur j).bind fun c => s.l.insertBefore c vs)
  | .insertAfter j vs => onList s ((s.cur j).bind fun c => s.l.insertAfter c vs)
  | .removeToNext j => onBoth s j ((s.cur j).bind s.l.removeToNext)
  | .removeToPrev j => onBoth s j ((s.cur j).bind s.l.removeToPrev)
  | .moveBefore j k => onList s ((s.cur j).bind fun c => (s.cur k).bind fun m => s.l.moveBefore c m)
  | .moveAfter j k => onList s ((s.cur j).bind fun c => (s.cur k).bind fun m => s.l.moveAfter c m)
  | .cnext j => onCur s j (s.l.cnext (s.cur j))
  | .cprev j => onCur s j (s.l.cprev (s.cur j))
  | .cmove j n => onCur s j (s.l.cmove (s.cur j) n)
  | .cremoveToNext j => onBoth s j ((s.cur j).bind s.l.cremoveToNext)
  | .cremoveToPrev j => onBoth s j ((s.cur j).bind s.l.cremoveToPrev)

end Verif.LList
