import Verif.Common.History
import Verif.Common.Ord
import Verif.Common.Tac

/-! Model of tree/heap/heap.go. `none` is a panic. -/

namespace Verif.Heap
variable {α : Type} [Inhabited α]

/-- tree/heap/heap.go:8-12 (the comparator is a parameter of the functions). `size` is never
negative and is a natural; overflow of `int` is not modelled. -/
structure PQ (α : Type) where
  size : Nat
  elements : List α

inductive Op (α : Type) where
  | put (v : α) | pop | top | size | empty | clear | reset

inductive Res (α : Type) where
  | unit | val (v : α) (ok : Bool) | nat (n : Nat) | bool (b : Bool)
  deriving DecidableEq

/-- tree/heap/heap.go:15-19 `New`. -/
def PQ.new : PQ α := ⟨0, List.replicate 16 default⟩

/-- Go `copy(dst, src)`. -/
def copy (dst src : List α) : List α := src.take dst.length ++ dst.drop src.length

/-- `elements[i] = v`, with the bounds check. -/
def write (l : List α) (i : Nat) (v : α) : Option (List α) :=
  if i < l.length then some (l.set i v) else none

/-- tree/heap/heap.go:26-34 `grow`. -/
def PQ.grow (h : PQ α) : PQ α :=
  if h.size ≥ h.elements.length then
    { h with elements := copy (List.replicate (h.elements.length * 2) default) h.elements }
  else h

/-- tree/heap/heap.go:71-81, the loop of `Put` with the final store. -/
def up (cmp : α → α → Int) (v : α) (els : List α) (cur : Nat) : Option (List α) :=
  if _h : cur = 0 then write els cur v
  else
    match els[(cur - 1) / 2]? with
    | none => none
    | some pv =>
      if cmp v pv ≤ 0 then
        match write els cur pv with
        | none => none
        | some els => up cmp v els ((cur - 1) / 2)
      else write els cur v
termination_by cur
decreasing_by omega

/-- tree/heap/heap.go:64-82 `Put`. -/
def PQ.put (cmp : α → α → Int) (h : PQ α) (v : α) : Option (PQ α) := do
  let h := h.grow
  let els ← up cmp v h.elements h.size
  return ⟨h.size + 1, els⟩

/-- tree/heap/heap.go:84-97 `slimming`. -/
def PQ.slimming (h : PQ α) : PQ α :=
  if h.elements.length ≥ 32 then
    if h.size ≤ h.elements.length / 2 then
      let ecap := h.elements.length - h.elements.length / 2 / 2
      { h with elements := copy (List.replicate ecap default) h.elements }
    else h
  else h

/-- tree/heap/heap.go:121-137: the child to compare with, `some none` when there is none (the
`break` at 135); `none` is a panic. -/
def child (cmp : α → α → Int) (size : Nat) (els : List α) (cur : Nat) : Option (Option Nat) :=
  if cur * 2 + 2 < size then
    match els[cur * 2 + 1]?, els[cur * 2 + 2]? with
    | some a, some b => if cmp a b < 0 then some (some (cur * 2 + 1)) else some (some (cur * 2 + 2))
    | _, _ => none
  else if cur * 2 + 1 ≥ size then some none
  else some (some (cur * 2 + 1))

omit [Inhabited α] in
theorem child_bounds {cmp : α → α → Int} {size : Nat} {els : List α} {cur c : Nat}
    (h : child cmp size els cur = some (some c)) : cur < c ∧ c < size := by
  unfold child at h
  split at h
  · split at h
    · split at h <;> (simp at h; omega)
    · simp at h
  · split at h
    · simp at h
    · simp at h; omega

/-- tree/heap/heap.go:120-146, the loop of `Pop` with the final store. -/
def down (cmp : α → α → Int) (dv : α) (size : Nat) (els : List α) (cur : Nat) : Option (List α) :=
  match _h : child cmp size els cur with
  | none => none
  | some none => write els cur dv
  | some (some c) =>
    match els[c]? with
    | none => none
    | some cv =>
      if cmp cv dv ≤ 0 then
        match write els cur cv with
        | none => none
        | some els' => down cmp dv size els' c
      else write els cur dv
termination_by size - cur
decreasing_by
  have := child_bounds _h
  omega

/-- tree/heap/heap.go:100-148 `Pop`. -/
def PQ.pop (cmp : α → α → Int) (h : PQ α) : Option (PQ α × Res α) := do
  if h.size = 0 then return (h, .val default false)
  let top ← h.elements[0]?
  let h := ({ h with size := h.size - 1 } : PQ α).slimming
  if h.size = 0 then return (h, .val top true)
  let dv ← h.elements[h.size]?
  let els ← down cmp dv h.size h.elements 0
  return (⟨h.size, els⟩, .val top true)

/-- tree/heap/heap.go:53-61 `Top`. -/
def PQ.top (h : PQ α) : Option (Res α) :=
  if h.size ≠ 0 then (h.elements[0]?).map fun v => .val v true
  else some (.val default false)

/-- One call. -/
def PQ.step (cmp : α → α → Int) (h : PQ α) : Op α → Option (PQ α × Res α)
  | .put v => (h.put cmp v).map (·, .unit)
  | .pop => h.pop cmp
  | .top => h.top.map (h, ·)
  | .size => some (h, .nat h.size)                                        -- 22-24
  | .empty => some (h, .bool (h.size < 1))                                -- 37-39
  | .clear => some ({ h with size := 0 }, .unit)                          -- 42-44
  | .reset => some (⟨0, List.replicate 16 default⟩, .unit)                -- 47-50

end Verif.Heap
