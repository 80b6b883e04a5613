import Verif.Queue.ListModel

/-! Model of queue/linkedarray/queue.go (package arrayqueue), a circular buffer. -/

namespace Verif.Queue
variable {α : Type} [Inhabited α]

/-- queue/linkedarray/queue.go:8-14. `size`, `cap`, `start`, `end` are `int64` in Go and never
negative between calls; they are naturals here, and the places where Go computes -1 and tests it
are written as a test for zero. Overflow of `int64` is not modelled. -/
structure Ring (α : Type) where
  size : Nat
  data : List α
  cap : Nat
  start : Nat
  fin : Nat

/-- queue/linkedarray/queue.go:16-24 `New`. -/
def Ring.new : Ring α := ⟨0, List.replicate 8 default, 8, 0, 0⟩

/-- Go `copy(dst, src)`. -/
def copy (dst src : List α) : List α := src.take dst.length ++ dst.drop src.length

/-- Go `copy(dst[k:], src)`; `none` is the slice bound panic. -/
def copyAt (dst : List α) (k : Nat) (src : List α) : Option (List α) :=
  if k ≤ dst.length then some (dst.take k ++ copy (dst.drop k) src) else none

/-- Go `s[a:b]`; `none` is the slice bound panic. -/
def slice (s : List α) (a b : Nat) : Option (List α) :=
  if a ≤ b ∧ b ≤ s.length then some ((s.take b).drop a) else none

/-- queue/linkedarray/queue.go:26-38 `grow`. -/
def Ring.grow (q : Ring α) : Option (Ring α) :=
  if q.size ≥ q.cap then do
    let cap := q.cap * 2
    let growData := List.replicate cap default
    let growData := copy growData (← slice q.data q.start q.data.length)
    let growData ← copyAt growData (q.cap - q.start) (← slice q.data 0 q.start)
    return { q with data := growData, start := 0, fin := q.cap, cap := cap }
  else some q

/-- queue/linkedarray/queue.go:45-50: the copies made by `slimming` into the new buffer. -/
def Ring.slimCopy (q : Ring α) (growData : List α) : Option (List α) :=
  if q.start > q.fin then do
    let growData := copy growData (← slice q.data q.start q.data.length)
    copyAt growData (q.cap - q.start) (← slice q.data 0 q.fin)
  else do
    return copy growData (← slice q.data q.start q.fin)

/-- queue/linkedarray/queue.go:40-57 `slimming`. -/
def Ring.slimming (q : Ring α) : Option (Ring α) :=
  if q.size ≤ q.cap / 2 then do
    let cap := q.cap - q.cap / 4
    let growData ← q.slimCopy (List.replicate cap default)
    return { q with data := growData, start := 0, fin := q.size, cap := cap }
  else some q

/-- `data[i] = v` with the bounds check. -/
def write (l : List α) (i : Nat) (v : α) : Option (List α) :=
  if i < l.length then some (l.set i v) else none

/-- queue/linkedarray/queue.go:59-68 `PushBack`. -/
def Ring.pushBack (q : Ring α) (v : α) : Option (Ring α) := do
  let q ← q.grow
  let data ← write q.data q.fin v
  let fin := q.fin + 1
  return { q with data := data, size := q.size + 1, fin := if fin ≥ q.cap then 0 else fin }

/-- queue/linkedarray/queue.go:70-80 `PushFront`. -/
def Ring.pushFront (q : Ring α) (v : α) : Option (Ring α) := do
  let q ← q.grow
  let start := if q.start = 0 then q.cap - 1 else q.start - 1
  let data ← write q.data start v
  return { q with data := data, start := start, size := q.size + 1 }

/-- queue/linkedarray/queue.go:82-93 `Index`; `none` is the panic. -/
def Ring.index (q : Ring α) (idx : Int) : Option α :=
  if idx < q.size then
    let idx := q.start + idx
    let idx := if idx ≥ q.cap then idx - q.cap else idx
    if idx < 0 then none else q.data[idx.toNat]?
  else none

/-- queue/linkedarray/queue.go:95-97 `Front`. -/
def Ring.front (q : Ring α) : Option α := q.data[q.start]?

/-- queue/linkedarray/queue.go:99-105 `Back`. -/
def Ring.back (q : Ring α) : Option α := q.data[if q.fin = 0 then q.cap - 1 else q.fin - 1]?

/-- queue/linkedarray/queue.go:111-127 `PopBack`. -/
def Ring.popBack (q : Ring α) : Option (Ring α × Res α) := do
  if q.size = 0 then return (q, .val none)
  let fin := if q.fin = 0 then q.cap - 1 else q.fin - 1
  let tail ← q.data[fin]?
  let q ← ({ q with fin := fin, size := q.size - 1 } : Ring α).slimming
  return (q, .val (some tail))

/-- queue/linkedarray/queue.go:129-142 `PopFront`. -/
def Ring.popFront (q : Ring α) : Option (Ring α × Res α) := do
  if q.size = 0 then return (q, .val none)
  let head ← q.data[q.start]?
  let start := q.start + 1
  let q ← ({ q with start := if start ≥ q.cap then 0 else start, size := q.size - 1 } : Ring α).slimming
  return (q, .val (some head))

/-- The first loop of `Values` and `Traverse` (172-175, 148-154): `n` is the number of positions
left before `cap`, `i` the position. Returns the values read and the count. -/
def loop1 (data : List α) (size : Nat) : Nat → Nat → Nat → Option (List α × Nat)
  | 0, _, count => some ([], count)
  | n + 1, i, count =>
    if count < size then do
      let v ← data[i]?
      let (r, c) ← loop1 data size n (i + 1) (count + 1)
      return (v :: r, c)
    else some ([], count)

/-- The second loop (178-180, 157-163): positions `i, ..., i + n - 1`. -/
def loop2 (data : List α) : Nat → Nat → Option (List α)
  | 0, _ => some []
  | n + 1, i => do
    let v ← data[i]?
    let r ← loop2 data n (i + 1)
    return v :: r

/-- queue/linkedarray/queue.go:168-185 `Values`. -/
def Ring.values (q : Ring α) : Option (List α) := do
  let (r, count) ← loop1 q.data q.size (q.cap - q.start) q.start 0
  if count < q.size then
    return r ++ (← loop2 q.data q.fin 0)
  else return r

/-- The first loop of `Traverse` with the callback: returns the visited pairs, the count and
whether the callback stopped the traversal. `idx` and `count` are always equal (146-153). -/
def trav1 (data : List α) (size : Nat) (cb : Nat → α → Bool) :
    Nat → Nat → Nat → Option (List (Nat × α) × Nat × Bool)
  | 0, _, count => some ([], count, false)
  | n + 1, i, count =>
    if count < size then do
      let v ← data[i]?
      if !cb count v then return ([(count, v)], count, true)
      let (r, c, b) ← trav1 data size cb n (i + 1) (count + 1)
      return ((count, v) :: r, c, b)
    else some ([], count, false)

def trav2 (data : List α) (cb : Nat → α → Bool) : Nat → Nat → Nat → Option (List (Nat × α))
  | 0, _, _ => some []
  | n + 1, i, idx => do
    let v ← data[i]?
    if !cb idx v then return [(idx, v)]
    let r ← trav2 data cb n (i + 1) (idx + 1)
    return (idx, v) :: r

/-- queue/linkedarray/queue.go:144-165 `Traverse`: the calls made to the callback. -/
def Ring.traverse (q : Ring α) (cb : Nat → α → Bool) : Option (List (Nat × α)) := do
  let (r, count, stop) ← trav1 q.data q.size cb (q.cap - q.start) q.start 0
  if stop then return r
  if count < q.size then
    return r ++ (← trav2 q.data cb q.fin 0 count)
  else return r

/-- One call of the deque API. `Front` and `Back` of an empty queue return a stale slot; see
`Ring.front`. -/
def Ring.step (q : Ring α) : Op α → Option (Ring α × Res α)
  | .pushBack v => (q.pushBack v).map (·, .unit)
  | .pushFront v => (q.pushFront v).map (·, .unit)
  | .popBack => q.popBack
  | .popFront => q.popFront
  | .front => q.front.map fun v => (q, .val (some v))
  | .back => q.back.map fun v => (q, .val (some v))
  | .size => some (q, .int q.size)

end Verif.Queue
