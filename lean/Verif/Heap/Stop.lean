import Verif.Common.Stop
import Verif.Heap.Model

/-! tree/heap with a comparator that may panic: `Put` and `Pop` once more, but each comparison is a place
where the program may stop. The heap is then left as it is at that moment: `size` is already changed and
some of the elements are already moved. -/

namespace Verif.Heap
variable {α : Type} [Inhabited α]

/-- tree/heap/heap.go:71-81, the loop of `Put`; `bad cur`: the comparison with the parent of `cur` panics. -/
def upB (bad : Nat → Bool) (cmp : α → α → Int) (v : α) (els : List α) (cur : Nat) :
    Out (List α) (List α) :=
  if _h : cur = 0 then .of (write els cur v)
  else
    match els[(cur - 1) / 2]? with
    | none => .fail
    | some pv =>
      if bad cur then .stopped els
      else if cmp v pv ≤ 0 then
        match write els cur pv with
        | none => .fail
        | some els => upB bad cmp v els ((cur - 1) / 2)
      else .of (write els cur v)
termination_by cur
decreasing_by omega

/-- tree/heap/heap.go:64-82 `Put`. -/
def PQ.putB (bad : Bad) (cmp : α → α → Int) (h : PQ α) (v : α) : Out (PQ α) (PQ α) :=
  let h := h.grow
  ((upB (bad 0) cmp v h.elements h.size).lift fun els => ⟨h.size + 1, els⟩).map fun els =>
    ⟨h.size + 1, els⟩

/-- tree/heap/heap.go:120-146, the loop of `Pop`; `bad 0 cur`: the comparison of the two children of `cur`
panics; `bad 1 cur`: that of the chosen one with the last element. -/
def downB (bad : Bad) (cmp : α → α → Int) (dv : α) (size : Nat) (els : List α) (cur : Nat) :
    Out (List α) (List α) :=
  if bad 0 cur && decide (cur * 2 + 2 < size) then .stopped els
  else
    match _h : child cmp size els cur with
    | none => .fail
    | some none => .of (write els cur dv)
    | some (some c) =>
      match els[c]? with
      | none => .fail
      | some cv =>
        if bad 1 cur then .stopped els
        else if cmp cv dv ≤ 0 then
          match write els cur cv with
          | none => .fail
          | some els' => downB bad cmp dv size els' c
        else .of (write els cur dv)
termination_by size - cur
decreasing_by
  have := child_bounds _h
  omega

/-- tree/heap/heap.go:100-148 `Pop`. -/
def PQ.popB (bad : Bad) (cmp : α → α → Int) (h : PQ α) : Out (PQ α) (PQ α × Res α) :=
  if h.size = 0 then .done (h, .val default false)
  else
    (Out.of h.elements[0]?).bind fun top =>
    let h := ({ h with size := h.size - 1 } : PQ α).slimming
    if h.size = 0 then .done (h, .val top true)
    else
      (Out.of h.elements[h.size]?).bind fun dv =>
      ((downB bad cmp dv h.size h.elements 0).lift fun els => ⟨h.size, els⟩).map fun els =>
        (⟨h.size, els⟩, .val top true)

/-- One call; those that do not compare are as in `PQ.step`. -/
def PQ.stepB (bad : Bad) (cmp : α → α → Int) (h : PQ α) : Op α → Out (PQ α) (PQ α × Res α)
  | .put v => (h.putB bad cmp v).map (·, .unit)
  | .pop => h.popB bad cmp
  | op => .of (h.step cmp op)

end Verif.Heap
