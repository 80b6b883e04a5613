import Verif.Common.History

/-!
Models of stack/array/stack.go, stack/list/stack.go and stack/listarray/stack.go.
`none` is a panic. The zero value of the element type is `default`.
-/

namespace Verif.Stack

/-- The calls of the stack API (all three packages export the same methods). -/
inductive Op (α : Type) where
  | push (v : α) | pop | peek | clear | empty | size | values

/-- What a call returns. -/
inductive Res (α : Type) where
  | unit | val (v : α) (ok : Bool) | bool (b : Bool) | nat (n : Nat) | list (l : List α)
  deriving DecidableEq

variable {α : Type} [Inhabited α]

/-! ### stack/array -/

/-- stack/array/stack.go:8-11. The slice `element` as a list, index 0 is the bottom. The spare
capacity behind the slice is never visible and is not modelled. -/
structure AStack (α : Type) where
  element : List α

/-- stack/array/stack.go:14-17 `New`. -/
def AStack.new : AStack α := ⟨[]⟩

/-- stack/array/stack.go:20-71, one call. -/
def AStack.step (s : AStack α) : Op α → Option (AStack α × Res α)
  | .push v => some (⟨s.element ++ [v]⟩, .unit)                       -- 20-22
  | .peek =>                                                          -- 25-30
    if s.element.length = 0 then some (s, .val default false)
    else match s.element[s.element.length - 1]? with
      | some v => some (s, .val v true)
      | none => none
  | .pop =>                                                           -- 33-43
    if s.element.length = 0 then some (s, .val default false)
    else match s.element[s.element.length - 1]? with
      | some v => some (⟨s.element.take (s.element.length - 1)⟩, .val v true)
      | none => none
  | .clear => some (⟨s.element.take 0⟩, .unit)                        -- 46-48
  | .empty => some (s, .bool (s.element.length == 0))                 -- 51-54
  | .size => some (s, .nat s.element.length)                          -- 57-59
  | .values => some (s, .list s.element)                              -- 67-71 (a copy)

/-! ### stack/list -/

/-- stack/list/stack.go:5-15. The chain of `hNode`s reachable from `top` through `down` is a list,
top first. -/
structure LStack (α : Type) where
  top : List α
  size : Nat

/-- stack/list/stack.go:18-22 `New`. -/
def LStack.new : LStack α := ⟨[], 0⟩

/-- The loop `for ; cur != nil; cur = cur.down { result[n] = cur.value; n-- }` of
stack/list/stack.go:56-59. The index `n` is a Go `uint` that wraps below zero; as the slice is
shorter than 2^64, a wrapped index is out of range, which is modelled by a negative `Int`. -/
def writeDown : List α → Int → List α → Option (List α × Int)
  | result, n, [] => some (result, n)
  | result, n, v :: rest =>
    if 0 ≤ n ∧ n.toNat < result.length then writeDown (result.set n.toNat v) (n - 1) rest
    else none

/-- stack/list/stack.go:46-62 `Values`. -/
def LStack.values (s : LStack α) : Option (List α) :=
  if s.size = 0 then some []
  else (writeDown (List.replicate s.size default) ((s.size : Int) - 1) s.top).map (·.1)

/-- stack/list/stack.go:25-92, one call. -/
def LStack.step (s : LStack α) : Op α → Option (LStack α × Res α)
  | .push v => some (⟨v :: s.top, s.size + 1⟩, .unit)                 -- 65-70
  | .pop =>                                                           -- 73-84
    if s.size = 0 then some (s, .val default false)
    else match s.top with
      | [] => none
      | v :: down => some (⟨down, s.size - 1⟩, .val v true)
  | .peek =>                                                          -- 87-92
    if s.size = 0 then some (s, .val default false)
    else match s.top with
      | [] => none
      | v :: _ => some (s, .val v true)
  | .clear => some (⟨[], 0⟩, .unit)                                   -- 25-28
  | .empty => some (s, .bool (s.size == 0))                           -- 31-33
  | .size => some (s, .nat s.size)                                    -- 36-38
  | .values => s.values.map fun l => (s, .list l)                     -- 46-62

/-! ### stack/listarray -/

/-- stack/listarray/stack.go:7-11 `hNode` without the `down` pointer. `elements` has length
and capacity equal, because it is only created by `make([]T, n)`. -/
structure Seg (α : Type) where
  elements : List α
  cur : Int

/-- stack/listarray/stack.go:14-20. `top` and the nodes below it (`down`), and the cached node. -/
structure GStack (α : Type) where
  top : Seg α
  down : List (Seg α)
  cache : Option (Seg α)
  size : Nat

/-- `make([]T, n)` with `cur: -1`. -/
def Seg.make (n : Nat) : Seg α := ⟨List.replicate n default, -1⟩

/-- stack/listarray/stack.go:68-73 `NewWithCap` (a negative capacity panics in `make` and is not
modelled); `New` (60-65) is `NewWithCap 8`. -/
def GStack.newWithCap (cap : Nat) : GStack α := ⟨Seg.make cap, [], none, 0⟩

/-- stack/listarray/stack.go:31-36, size of a new segment. -/
def growSize (size : Nat) : Nat := if size ≤ 256 then size * 2 else 256 + size / 4

/-- stack/listarray/stack.go:22-46 `grow`. -/
def GStack.grow (s : GStack α) : GStack α :=
  if s.top.cur + 1 = s.top.elements.length then
    match s.cache with
    | some c => { s with top := { c with cur := -1 }, down := s.top :: s.down, cache := none }
    | none => { s with top := Seg.make (growSize s.size), down := s.top :: s.down }
  else s

/-- Bounds checked slice read (`none` is the Go index panic). -/
def sliceGet (l : List α) (i : Int) : Option α :=
  if 0 ≤ i then l[i.toNat]? else none

/-- Bounds checked slice write. -/
def sliceSet (l : List α) (i : Int) (v : α) : Option (List α) :=
  if 0 ≤ i ∧ i.toNat < l.length then some (l.set i.toNat v) else none

/-- stack/listarray/stack.go:136-141 `Push`. -/
def GStack.push (s : GStack α) (v : α) : Option (GStack α) :=
  let s := s.grow
  let cur := s.top.cur + 1
  match sliceSet s.top.elements cur v with
  | none => none
  | some els => some { s with top := ⟨els, cur⟩, size := s.size + 1 }

/-- stack/listarray/stack.go:144-157 `Pop`, with `cacheRemove` (48-57) inlined. -/
def GStack.pop (s : GStack α) : Option (GStack α × Res α) :=
  if s.size = 0 then some (s, .val default false)
  else
    let size := s.size - 1
    match s.top.cur == 0, s.down with
    | true, d :: ds =>
      -- cacheRemove returned true: as.cache.elements[as.cache.cur]
      match sliceGet s.top.elements s.top.cur with
      | none => none
      | some v => some (⟨d, ds, some s.top, size⟩, .val v true)
    | _, _ =>
      match sliceGet s.top.elements s.top.cur with
      | none => none
      | some v =>
        some ({ s with top := { s.top with cur := s.top.cur - 1 }, size := size }, .val v true)

/-- stack/listarray/stack.go:160-165 `Peek`. -/
def GStack.peek (s : GStack α) : Option (GStack α × Res α) :=
  if s.size = 0 then some (s, .val default false)
  else match sliceGet s.top.elements s.top.cur with
    | none => none
    | some v => some (s, .val v true)

/-- The inner loop `for i := range cur.elements { if cur.cur >= i {...} }` of
stack/listarray/stack.go:106-111; `is` are the remaining loop indices. -/
def segLoop (g : Seg α) : List Nat → List α → Int → Option (List α × Int)
  | [], result, n => some (result, n)
  | i :: is, result, n =>
    if g.cur ≥ i then
      match sliceGet g.elements (g.cur - i) with
      | none => none
      | some v =>
        match sliceSet result n v with
        | none => none
        | some result' => segLoop g is result' (n - 1)
    else segLoop g is result n

/-- The outer loop over the nodes, stack/listarray/stack.go:105-112. -/
def segsLoop : List (Seg α) → List α → Int → Option (List α × Int)
  | [], result, n => some (result, n)
  | g :: gs, result, n =>
    match segLoop g (List.range g.elements.length) result n with
    | none => none
    | some (result', n') => segsLoop gs result' n'

/-- stack/listarray/stack.go:100-115 `Values`. -/
def GStack.values (s : GStack α) : Option (List α) :=
  (segsLoop (s.top :: s.down) (List.replicate s.size default) ((s.size : Int) - 1)).map (·.1)

/-- stack/listarray/stack.go:76-165, one call. -/
def GStack.step (s : GStack α) : Op α → Option (GStack α × Res α)
  | .push v => (s.push v).map fun s' => (s', .unit)
  | .pop => s.pop
  | .peek => s.peek
  | .clear => some ({ s with top := { s.top with cur := -1 }, down := [], size := 0 }, .unit)  -- 76-81
  | .empty => some (s, .bool (s.size == 0))                                                    -- 84-86
  | .size => some (s, .nat s.size)                                                             -- 89-91
  | .values => s.values.map fun l => (s, .list l)

end Verif.Stack
