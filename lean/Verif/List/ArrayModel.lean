import Verif.Common.Ord

/-! Model of list/array_list. `uint` is 64 bit and wraps. -/

namespace Verif.AList

/-- How a call can end abnormally: `oom` is `make` refusing a length, `crash` an index or slice
bound out of range (or a loop without end). `log.Panic` on a bad index is not a `Fail`: it is the
result `Res.panic` with the list unchanged. -/
inductive Fail where
  | oom | crash
  deriving DecidableEq

/-- uint addition and subtraction. -/
def add64 (a b : Nat) : Nat := (a + b) % 2 ^ 64
def sub64 (a b : Nat) : Nat := ((2 ^ 64 - b % 2 ^ 64) + a) % 2 ^ 64

/-- list/array_list/array_list.go:16-25; `growthSize` is never used, `comp` is a parameter of
`contains`. -/
structure AL (T : Type) where
  data : List T
  headidx : Nat
  tailidx : Nat
  size : Nat
  shrinkSize : Nat
  deriving DecidableEq

variable {T : Type} [Inhabited T]

/-- array_list.go:36-44 `New`. -/
def AL.new : AL T :=
  { data := List.replicate 8 default, headidx := 8 / 2 - 1, tailidx := 8 / 2, size := 0,
    shrinkSize := 0 }

/-- array_list.go:59-64 `Clear`; `shrinkSize` stays. -/
def AL.clear (l : AL T) : AL T :=
  { l with data := List.replicate 8 default, tailidx := 8 / 2, headidx := 8 / 2 - 1, size := 0 }

/-- `make([]T, n)`: `maxLen` is the largest length the runtime grants. -/
def make (maxLen n : Nat) : Except Fail (List T) :=
  if n ≤ maxLen then .ok (List.replicate n default) else .error .oom

/-- `s[lo:hi]` for a slice whose capacity is its length. -/
def slice (s : List T) (lo hi : Nat) : Except Fail (List T) :=
  if lo ≤ hi ∧ hi ≤ s.length then .ok ((s.take hi).drop lo) else .error .crash

/-- `copy(dst[off:], src)`. -/
def copyAt (dst : List T) (off : Nat) (src : List T) : Except Fail (List T) :=
  if off ≤ dst.length then
    let n := min (dst.length - off) src.length
    .ok (dst.take off ++ src.take n ++ dst.drop (off + n))
  else .error .crash

/-- `s[i]`. -/
def at' (s : List T) (i : Nat) : Except Fail T :=
  match s[i]? with
  | some x => .ok x
  | none => .error .crash

/-- `s[i] = v`. -/
def setAt (s : List T) (i : Nat) (v : T) : Except Fail (List T) :=
  if i < s.length then .ok (s.set i v) else .error .crash

/-- array_list.go:76-98 `shrink`. -/
def AL.shrink (maxLen : Nat) (l : AL T) : Except Fail (AL T) :=
  if l.size ≤ 8 then .ok l
  else if l.size ≤ l.shrinkSize then do
    let lcap := l.data.length
    let nSize := sub64 lcap (lcap >>> 2)
    let temp ← make maxLen nSize
    let ghidx := l.size >>> 2
    let gtidx := add64 (add64 ghidx l.size) 1
    let src ← slice l.data (add64 l.headidx 1) l.tailidx
    let temp ← copyAt temp (add64 ghidx 1) src
    return { l with
      data := temp, headidx := ghidx, tailidx := gtidx, shrinkSize := sub64 l.size (l.size >>> 2) }
  else .ok l

/-- array_list.go:101-119 `growth`. The test against `listMaxLimit` is `log.Panic`. -/
def AL.growth (maxLen : Nat) (l : AL T) : Except Fail (AL T) :=
  if l.size ≥ 2 ^ 63 then .error .oom
  else do
    let lcap := l.data.length
    let nSize := (lcap <<< 1) % 2 ^ 64
    let temp ← make maxLen nSize
    let ghidx := lcap / 2
    let gtidx := add64 (add64 ghidx l.size) 1
    let src ← slice l.data (add64 l.headidx 1) l.tailidx
    let temp ← copyAt temp (add64 ghidx 1) src
    return { l with
      data := temp, headidx := ghidx, tailidx := gtidx, shrinkSize := sub64 l.size (l.size >>> 2) }

/-- A `for cond { growth() }` loop. Every `growth` that does not enlarge the array would repeat for
ever: `crash`. -/
def growLoop (maxLen : Nat) (cond : AL T → Bool) (l : AL T) : Except Fail (AL T) :=
  if cond l then
    match l.growth maxLen with
    | .error e => .error e
    | .ok l' =>
      if _h : l.data.length < l'.data.length ∧ l'.data.length ≤ maxLen then
        growLoop maxLen cond l'
      else .error .crash
  else .ok l
  termination_by maxLen - l.data.length

/-- array_list.go:122-129 `Push`. -/
def AL.push (maxLen : Nat) (l : AL T) (v : T) : Except Fail (AL T) := do
  let l ← growLoop maxLen (fun l => add64 l.tailidx 1 > l.data.length) l
  let data ← setAt l.data l.tailidx v
  return { l with data := data, tailidx := add64 l.tailidx 1, size := add64 l.size 1 }

/-- The loop of 139-142. -/
def frontLoop (data : List T) (headidx : Nat) : List T → Except Fail (List T × Nat)
  | [] => .ok (data, headidx)
  | v :: vs =>
    match setAt data headidx v with
    | .error e => .error e
    | .ok data => frontLoop data (sub64 headidx 1) vs

/-- array_list.go:132-144 `PushFront`. -/
def AL.pushFront (maxLen : Nat) (l : AL T) (vs : List T) : Except Fail (AL T) := do
  let psize := vs.length
  let l ← growLoop maxLen (fun l => sub64 (add64 l.headidx 1) psize > 2 ^ 63) l
  let (data, headidx) ← frontLoop l.data l.headidx vs
  return { l with data := data, headidx := headidx, size := add64 l.size psize }

/-- The loop of 153-156. -/
def backLoop (data : List T) (tailidx : Nat) : List T → Except Fail (List T × Nat)
  | [] => .ok (data, tailidx)
  | v :: vs =>
    match setAt data tailidx v with
    | .error e => .error e
    | .ok data => backLoop data (add64 tailidx 1) vs

/-- array_list.go:147-158 `PushBack`. -/
def AL.pushBack (maxLen : Nat) (l : AL T) (vs : List T) : Except Fail (AL T) := do
  let psize := vs.length
  let l ← growLoop maxLen (fun l => add64 l.tailidx psize > l.data.length) l
  let (data, tailidx) ← backLoop l.data l.tailidx vs
  return { l with data := data, tailidx := tailidx, size := add64 l.size psize }

/-- array_list.go:161-167 `Front`. -/
def AL.front (l : AL T) : Except Fail (Option T) :=
  if l.size ≠ 0 then (at' l.data (add64 l.headidx 1)).map some else .ok none

/-- array_list.go:170-176 `Back`. -/
def AL.back (l : AL T) : Except Fail (Option T) :=
  if l.size ≠ 0 then (at' l.data (sub64 l.tailidx 1)).map some else .ok none

/-- array_list.go:179-189 `PopFront`. -/
def AL.popFront (maxLen : Nat) (l : AL T) : Except Fail (AL T × Option T) :=
  if l.size ≠ 0 then do
    let l := { l with size := sub64 l.size 1, headidx := add64 l.headidx 1 }
    let x ← at' l.data l.headidx
    let l ← l.shrink maxLen
    return (l, some x)
  else .ok (l, none)

/-- array_list.go:192-202 `PopBack`. -/
def AL.popBack (maxLen : Nat) (l : AL T) : Except Fail (AL T × Option T) :=
  if l.size ≠ 0 then do
    let l := { l with size := sub64 l.size 1, tailidx := sub64 l.tailidx 1 }
    let x ← at' l.data l.tailidx
    let l ← l.shrink maxLen
    return (l, some x)
  else .ok (l, none)

/-- array_list.go:205-210 `Index`; `none` is `log.Panic`. -/
def AL.index (l : AL T) (idx : Nat) : Except Fail (Option T) :=
  if idx ≥ l.size then .ok none
  else (at' l.data (add64 (add64 idx l.headidx) 1)).map some

/-- array_list.go:213-216 `Set`; `idx` is an int, converted to uint. -/
def AL.set (l : AL T) (idx : Int) (v : T) : Except Fail (AL T) := do
  let data ← setAt l.data (add64 (add64 (idx % 2 ^ 64).toNat l.headidx) 1) v
  return { l with data := data }

/-- The shift of 229-235. -/
def AL.shift (l : AL T) (offset : Nat) : Except Fail (AL T) :=
  if sub64 l.data.length l.tailidx > l.headidx then do
    let src ← slice l.data (add64 offset 1) l.tailidx
    let data ← copyAt l.data offset src
    return { l with data := data, tailidx := sub64 l.tailidx 1 }
  else do
    let src ← slice l.data (add64 l.headidx 1) offset
    let data ← copyAt l.data (add64 l.headidx 2) src
    return { l with data := data, headidx := add64 l.headidx 1 }

/-- array_list.go:219-240 `Remove`; result `none` is `log.Panic`. -/
def AL.remove (maxLen : Nat) (l : AL T) (idx : Nat) : Except Fail (AL T × Option T) :=
  if idx ≥ l.size then .ok (l, none)
  else do
    let offset := add64 (add64 l.headidx 1) idx
    let x ← at' l.data offset
    let l ← l.shift offset
    let l := { l with size := sub64 l.size 1 }
    let l ← l.shrink maxLen
    return (l, some x)

/-- array_list.go:243-254 `Contains`. -/
def AL.contains (comp : T → T → Int) (l : AL T) (values : List T) : Except Fail Nat := do
  let s ← slice l.data (add64 l.headidx 1) l.tailidx
  return s.foldl (fun count e => values.foldl (fun c v => if comp e v = -1 then c + 1 else c) count) 0

/-- array_list.go:257-261 `Values`. -/
def AL.values (maxLen : Nat) (l : AL T) : Except Fail (List T) := do
  let new ← make maxLen l.size
  let s ← slice l.data (add64 l.headidx 1) l.tailidx
  copyAt new 0 s

/-- array_list.go:269-275 `Traverse`: the values handed to the callback. -/
def AL.traverse (l : AL T) (every : Nat → T → Bool) (i : Nat) : Except Fail (List (Nat × T)) :=
  if i < l.size then
    match at' l.data (add64 (add64 i l.headidx) 1) with
    | .error e => .error e
    | .ok v =>
      if every i v then
        match AL.traverse l every (i + 1) with
        | .error e => .error e
        | .ok r => .ok ((i, v) :: r)
      else .ok [(i, v)]
  else .ok []
  termination_by l.size - i

inductive Op (T : Type) where
  | push (v : T) | pushFront (vs : List T) | pushBack (vs : List T) | popFront | popBack
  | front | back | index (i : Nat) | set (i : Int) (v : T) | remove (i : Nat)
  | contains (comp : T → T → Int) (vs : List T) | values | traverse (every : Nat → T → Bool)
  | clear | empty | size

inductive Res (T : Type) where
  | unit | val (v : Option T) | panic | nat (n : Nat) | bool (b : Bool) | list (l : List T)
  | visited (l : List (Nat × T))
  deriving DecidableEq

/-- The outcome of a call that may `log.Panic`. -/
def orPanic : Option T → Res T
  | some x => .val (some x)
  | none => .panic

/-- One call. -/
def AL.step (maxLen : Nat) (l : AL T) : Op T → Except Fail (AL T × Res T)
  | .push v => (l.push maxLen v).map fun l => (l, .unit)
  | .pushFront vs => (l.pushFront maxLen vs).map fun l => (l, .unit)
  | .pushBack vs => (l.pushBack maxLen vs).map fun l => (l, .unit)
  | .popFront => (l.popFront maxLen).map fun p => (p.1, .val p.2)
  | .popBack => (l.popBack maxLen).map fun p => (p.1, .val p.2)
  | .front => l.front.map fun r => (l, .val r)
  | .back => l.back.map fun r => (l, .val r)
  | .index i => (l.index i).map fun r => (l, orPanic r)
  | .set i v => (l.set i v).map fun l => (l, .unit)
  | .remove i => (l.remove maxLen i).map fun p => (p.1, orPanic p.2)
  | .contains comp vs => (l.contains comp vs).map fun n => (l, .nat n)
  | .values => (l.values maxLen).map fun r => (l, .list r)
  | .traverse every => (l.traverse every 0).map fun r => (l, .visited r)
  | .clear => .ok (l.clear, .unit)
  | .empty => .ok (l, .bool (l.size == 0))                  -- 67-69
  | .size => .ok (l, .nat l.size)                           -- 72-74

/-! ### Iterators: list/array_list/iterator.go and circular_iterator.go -/

/- iterator.go:6-9 and circular_iterator.go:6-9: an iterator is a cursor, a natural number here; the
list is kept beside it. -/

/-- iterator.go:18-20 `Vaild`, circular_iterator.go:58-60. -/
def valid (l : AL T) (c : Nat) : Bool := c < l.size
/-- iterator.go:78-80 `Next`. -/
def next (c : Nat) : Nat := add64 c 1
/-- iterator.go:73-75 `Prev`. -/
def prev (c : Nat) : Nat := sub64 c 1
/-- iterator.go:83-85, circular_iterator.go:97-99 `ToHead`. -/
def toHead : Nat := 0
/-- iterator.go:88-90, circular_iterator.go:102-104 `ToTail`. -/
def toTail (l : AL T) : Nat := sub64 l.size 1
/-- iterator.go:12-14 `Value`, circular_iterator.go:52-54. -/
def value (l : AL T) (c : Nat) : Except Fail (Option T) := l.index c
/-- iterator.go:38-40 `SetValue`, circular_iterator.go:22-24. -/
def setValue (l : AL T) (c : Nat) (v : T) : Except Fail (AL T) := do
  let data ← setAt l.data (add64 (add64 c l.headidx) 1) v
  return { l with data := data }
/-- iterator.go:28-35 `Swap` of two iterators of one list, circular_iterator.go:12-19. -/
def swap (l : AL T) (c o : Nat) : Except Fail (AL T) := do
  let cidx := add64 (add64 c l.headidx) 1
  let oidx := add64 (add64 o l.headidx) 1
  let temp ← at' l.data cidx
  let ov ← at' l.data oidx
  let data ← setAt l.data cidx ov
  let data ← setAt data oidx temp
  return { l with data := data }
/-- iterator.go:56-61 `RemoveToNext`; `none` in the second component is `log.Panic`. -/
def removeToNext (maxLen : Nat) (l : AL T) (c : Nat) : Except Fail (AL T × Option Nat) := do
  let (l, r) ← l.remove maxLen c
  return (l, r.map fun _ => if c = l.size then sub64 c 1 else c)
/-- iterator.go:64-70 `RemoveToPrev`. -/
def removeToPrev (maxLen : Nat) (l : AL T) (c : Nat) : Except Fail (AL T × Option Nat) := do
  let (l, r) ← l.remove maxLen c
  return (l, r.map fun _ => if c = 0 then c else sub64 c 1)
/-- circular_iterator.go:83-94 `Next`. -/
def cnext (l : AL T) (c : Nat) : Nat :=
  if l.size = 0 then c else if c ≥ sub64 l.size 1 then 0 else add64 c 1
/-- circular_iterator.go:68-80 `Prev`. -/
def cprev (l : AL T) (c : Nat) : Nat :=
  if l.size = 0 then c else if c = 0 then sub64 l.size 1 else sub64 c 1
/-- circular_iterator.go:40-43 `RemoveToNext`. -/
def cremoveToNext (maxLen : Nat) (l : AL T) (c : Nat) : Except Fail (AL T × Option Nat) := do
  let (l, r) ← l.remove maxLen c
  return (l, r.map fun _ => c)
/-- circular_iterator.go:46-49 `RemoveToPrev`. -/
def cremoveToPrev (maxLen : Nat) (l : AL T) (c : Nat) : Except Fail (AL T × Option Nat) := do
  let (l, r) ← l.remove maxLen c
  return (l, r.map fun _ => sub64 c 1)
/-- iterator.go:43-48 `IndexTo`, circular_iterator.go:27-32; `none` is `log.Panic`. -/
def indexTo (l : AL T) (i : Nat) : Option Nat := if i ≥ l.size then none else some i

end Verif.AList
