import Verif.Heap.Props

/-! The loops of the heap with a count of the calls of the comparator. -/

namespace Verif.Heap

variable {α : Type} [Inhabited α]

/-- tree/heap/heap.go:71-81, the loop of `Put`: one call of the comparator for each parent. -/
def upC (cmp : α → α → Int) (v : α) (els : List α) (cur : Nat) : Nat × Option (List α) :=
  if _h : cur = 0 then (0, write els cur v)
  else
    match els[(cur - 1) / 2]? with
    | none => (0, none)
    | some pv =>
      if cmp v pv ≤ 0 then
        match write els cur pv with
        | none => (1, none)
        | some els => ((upC cmp v els ((cur - 1) / 2)).1 + 1, (upC cmp v els ((cur - 1) / 2)).2)
      else (1, write els cur v)
termination_by cur
decreasing_by all_goals omega

/-- tree/heap/heap.go:121-137: one call if there are two children. -/
def childC (size cur : Nat) : Nat := if cur * 2 + 2 < size then 1 else 0

/-- tree/heap/heap.go:120-146, the loop of `Pop`. -/
def downC (cmp : α → α → Int) (dv : α) (size : Nat) (els : List α) (cur : Nat) : Nat × Option (List α) :=
  match _h : child cmp size els cur with
  | none => (childC size cur, none)
  | some none => (childC size cur, write els cur dv)
  | some (some c) =>
    match els[c]? with
    | none => (childC size cur, none)
    | some cv =>
      if cmp cv dv ≤ 0 then
        match write els cur cv with
        | none => (childC size cur + 1, none)
        | some els' => ((downC cmp dv size els' c).1 + childC size cur + 1, (downC cmp dv size els' c).2)
      else (childC size cur + 1, write els cur dv)
termination_by size - cur
decreasing_by
  all_goals
    have := child_bounds _h
    omega

omit [Inhabited α] in
theorem upC_snd (cmp : α → α → Int) (v : α) (els : List α) (cur : Nat) :
    (upC cmp v els cur).2 = up cmp v els cur := by
  induction cur using Nat.strongRecOn generalizing els with
  | ind cur ih =>
    rw [upC, up]
    by_cases h : cur = 0
    · simp [h]
    · simp only [h, dite_false]
      cases els[(cur - 1) / 2]? with
      | none => rfl
      | some pv =>
        simp only
        split
        · cases write els cur pv with
          | none => rfl
          | some els' => exact ih _ (by omega) els'
        · rfl

omit [Inhabited α] in
theorem upC_le (cmp : α → α → Int) (v : α) (els : List α) (cur : Nat) :
    (upC cmp v els cur).1 ≤ Nat.log2 (cur + 1) := by
  induction cur using Nat.strongRecOn generalizing els with
  | ind cur ih =>
    rw [upC]
    split
    · simp
    · rename_i h
      have e : Nat.log2 (cur + 1) = Nat.log2 ((cur - 1) / 2 + 1) + 1 := by
        rw [Nat.log2_def (cur + 1), if_pos (by omega), show (cur + 1) / 2 = (cur - 1) / 2 + 1 by omega]
      split
      · simp
      · split
        · split
          · simp only; omega
          · have h1 := ih ((cur - 1) / 2) (by omega)
            simp only [e]
            exact Nat.succ_le_succ (h1 _)
        · simp only; omega

omit [Inhabited α] in
theorem down_some {cmp : α → α → Int} {dv : α} {size : Nat} {els : List α} {cur c : Nat}
    (hc : child cmp size els cur = some (some c)) : down cmp dv size els cur =
      match els[c]? with
      | none => none
      | some cv =>
        if cmp cv dv ≤ 0 then
          match write els cur cv with
          | none => none
          | some els' => down cmp dv size els' c
        else write els cur dv := by
  rw [down]
  split
  · rename_i h; rw [hc] at h; cases h
  · rename_i h; rw [hc] at h; cases h
  · rename_i h; rw [hc] at h; cases h; rfl

omit [Inhabited α] in
theorem downC_snd (cmp : α → α → Int) (dv : α) (size : Nat) (els : List α) (cur : Nat) :
    (downC cmp dv size els cur).2 = down cmp dv size els cur := by
  induction hn : size - cur using Nat.strongRecOn generalizing els cur with
  | ind n ih =>
    rw [downC]
    split
    · rename_i h1
      rw [down]
      split
      · rfl
      · rename_i h2; rw [h1] at h2; cases h2
      · rename_i h2; rw [h1] at h2; cases h2
    · rename_i h1
      rw [down]
      split
      · rename_i h2; rw [h1] at h2; cases h2
      · rfl
      · rename_i h2; rw [h1] at h2; cases h2
    · rename_i c hc
      have hb := child_bounds hc
      rw [down_some hc]
      cases els[c]? with
      | none => rfl
      | some cv =>
        simp only
        split
        · cases write els cur cv with
          | none => rfl
          | some els' => exact ih _ (by omega) els' c rfl
        · rfl

theorem log2_le_log2 {a b : Nat} (h : a ≤ b) : Nat.log2 a ≤ Nat.log2 b := by
  rcases Nat.eq_zero_or_pos a with rfl | ha
  · simp
  · exact (Nat.le_log2 (by omega)).2 (Nat.le_trans (Nat.log2_self_le (by omega)) h)

theorem log2_child {c cur : Nat} (h : cur * 2 + 1 ≤ c) : Nat.log2 (cur + 1) + 1 ≤ Nat.log2 (c + 1) := by
  have e : Nat.log2 ((cur + 1) * 2) = Nat.log2 (cur + 1) + 1 := by
    rw [Nat.log2_def ((cur + 1) * 2), if_pos (by omega), show (cur + 1) * 2 / 2 = cur + 1 by omega]
  rw [← e]
  exact log2_le_log2 (by omega)

omit [Inhabited α] in
theorem downC_le (cmp : α → α → Int) (dv : α) (size : Nat) (els : List α) (cur : Nat) :
    (downC cmp dv size els cur).1 + 2 * Nat.log2 (cur + 1) ≤ 2 * Nat.log2 (max size (cur + 1)) := by
  induction hn : size - cur using Nat.strongRecOn generalizing els cur with
  | ind n ih =>
    have hz : childC size cur + 2 * Nat.log2 (cur + 1) ≤ 2 * Nat.log2 (max size (cur + 1)) := by
      unfold childC
      split
      · have h1 := log2_child (c := cur * 2 + 2) (cur := cur) (by omega)
        have h2 := log2_le_log2 (show cur * 2 + 2 + 1 ≤ max size (cur + 1) by omega)
        omega
      · have h2 := log2_le_log2 (show cur + 1 ≤ max size (cur + 1) by omega)
        omega
    have hs : ∀ c, child cmp size els cur = some (some c) → cur < c ∧ c < size ∧
        1 + Nat.log2 (cur + 1) ≤ Nat.log2 (c + 1) := by
      intro c hc
      have hb := child_bounds hc
      refine ⟨hb.1, hb.2, ?_⟩
      have := log2_child (c := c) (cur := cur) (by
        unfold child at hc
        split at hc
        · split at hc
          · split at hc <;> (simp at hc; omega)
          · simp at hc
        · split at hc
          · simp at hc
          · simp at hc; omega)
      omega
    have h1 : childC size cur ≤ 1 := by unfold childC; split <;> omega
    rw [downC]
    split
    · exact hz
    · exact hz
    · rename_i c hc
      obtain ⟨h2, h3, h4⟩ := hs c hc
      have h5 := log2_le_log2 (show c + 1 ≤ max size (cur + 1) by omega)
      split
      · exact hz
      · split
        · split
          · simp only; omega
          · rename_i els' _
            have h6 := ih _ (by omega) els' c rfl
            rw [show max size (c + 1) = max size (cur + 1) by omega] at h6
            simp only
            omega
        · simp only; omega

/-- The calls of the comparator in one call on the heap: tree/heap/heap.go:64-82 `Put`, 100-148 `Pop`. -/
def PQ.calls (cmp : α → α → Int) (h : PQ α) : Op α → Nat
  | .put v => (upC cmp v h.grow.elements h.grow.size).1
  | .pop =>
    let h' := ({ h with size := h.size - 1 } : PQ α).slimming
    match h'.elements[h'.size]? with
    | some dv => if h'.size = 0 then 0 else (downC cmp dv h'.size h'.elements 0).1
    | none => 0
  | _ => 0

end Verif.Heap
