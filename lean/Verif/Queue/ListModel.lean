import Verif.Common.DLL
import Verif.Common.History

/-! Model of queue/list/queue.go and queue/list/element.go (package listqueue). -/

namespace Verif.Queue

/-- The calls of the double-ended queue API. -/
inductive Op (α : Type) where
  | pushBack (v : α) | pushFront (v : α) | popBack | popFront | front | back | size

/-- Results: the pops and `Front().Value()`, `Back().Value()` return a value or nil. -/
inductive Res (α : Type) where
  | unit | val (v : Option α) | int (n : Int)
  deriving DecidableEq

open DLL
variable {α : Type}

/-- queue/list/queue.go:3-8 together with the store of `Element`s (element.go:3-7). `fresh` is the
next unused address. `size` is `int64`; overflow is not modelled. -/
structure LQ (α : Type) where
  h : Store α
  fresh : Nat
  head : Option Nat
  tail : Option Nat
  size : Int

/-- queue/list/queue.go:10-16. The content of the store is irrelevant. -/
def LQ.new (h : Store α) : LQ α := ⟨h, 0, none, none, 0⟩

/-- queue/list/queue.go:30-42 `PushBack`. -/
def LQ.pushBack (q : LQ α) (v : α) : Option (LQ α) := do
  let e := q.fresh
  let h := q.h.put e ⟨none, none, v⟩
  let size := q.size + 1
  if size = 1 then
    return { q with h := h, fresh := q.fresh + 1, head := some e, tail := some e, size := size }
  let h := h.setPrev e q.tail
  let t ← q.tail
  let h := h.setNext t (some e)
  return { q with h := h, fresh := q.fresh + 1, tail := some e, size := size }

/-- queue/list/queue.go:44-58 `PushFront`. -/
def LQ.pushFront (q : LQ α) (v : α) : Option (LQ α) := do
  let e := q.fresh
  let h := q.h.put e ⟨none, none, v⟩
  let size := q.size + 1
  if size = 1 then
    return { q with h := h, fresh := q.fresh + 1, head := some e, tail := some e, size := size }
  let h := h.setNext e q.head
  let t ← q.head
  let h := h.setPrev t (some e)
  return { q with h := h, fresh := q.fresh + 1, head := some e, size := size }

/-- queue/list/queue.go:60-83 `PopBack`. -/
def LQ.popBack (q : LQ α) : Option (LQ α × Res α) := do
  if q.size = 0 then return (q, .val none)
  let size := q.size - 1
  if size = 0 then
    let p ← q.tail
    return ({ q with head := none, tail := none, size := size }, .val (some (q.h p).val))
  let p ← q.tail
  let prev ← (q.h p).prev
  let h := q.h.setNext prev none
  let h := h.setPrev p none
  return ({ q with h := h, tail := some prev, size := size }, .val (some (h p).val))

/-- queue/list/queue.go:85-108 `PopFront`. -/
def LQ.popFront (q : LQ α) : Option (LQ α × Res α) := do
  if q.size = 0 then return (q, .val none)
  let size := q.size - 1
  if size = 0 then
    let p ← q.head
    return ({ q with head := none, tail := none, size := size }, .val (some (q.h p).val))
  let p ← q.head
  let next ← (q.h p).next
  let h := q.h.setPrev next none
  let h := h.setNext p none
  return ({ q with h := h, head := some next, size := size }, .val (some (h p).val))

/-- One call; `front`/`back` are `Front()`/`Back()` (queue.go:22-28) followed by `Value()`
(element.go:17-19) when not nil. -/
def LQ.step (q : LQ α) : Op α → Option (LQ α × Res α)
  | .pushBack v => (q.pushBack v).map (·, .unit)
  | .pushFront v => (q.pushFront v).map (·, .unit)
  | .popBack => q.popBack
  | .popFront => q.popFront
  | .front => some (q, .val (q.head.map fun a => (q.h a).val))
  | .back => some (q, .val (q.tail.map fun a => (q.h a).val))
  | .size => some (q, .int q.size)

end Verif.Queue
