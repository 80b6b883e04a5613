import Verif.Common.Amort
import Verif.Heap.Model

/-! The memory asked for by the heap (tree/heap/heap.go). -/

namespace Verif.Heap
variable {α : Type} [Inhabited α]

/-- The cells asked for with `make` in one call of `h`: tree/heap/heap.go:27-30 (`grow`, called by
`Put` at 65), 85-92 (`slimming`, called by `Pop` at 108 when the heap is not empty, with the size one
less) and 49 (`Reset`). -/
def PQ.cells (h : PQ α) : Op α → Nat
  | .put _ => if h.size ≥ h.elements.length then h.elements.length * 2 else 0
  | .pop =>
    if h.size = 0 then 0
    else if h.elements.length ≥ 32 then
      if h.size - 1 ≤ h.elements.length / 2 then h.elements.length - h.elements.length / 2 / 2 else 0
    else 0
  | .reset => 16
  | .top | .size | .empty | .clear => 0

theorem copy_length' (d s : List α) : (copy d s).length = d.length := by
  simp only [copy, List.length_append, List.length_take, List.length_drop]; omega

omit [Inhabited α] in
theorem write_length' {l l' : List α} {i : Nat} {v : α} (h : write l i v = some l') :
    l'.length = l.length := by
  unfold write at h
  split at h
  · cases h; simp
  · cases h

omit [Inhabited α] in
theorem up_length' (cmp : α → α → Int) (v : α) : ∀ (cur : Nat) (els els' : List α),
    up cmp v els cur = some els' → els'.length = els.length := by
  intro cur
  induction cur using Nat.strongRecOn with
  | ind cur ih =>
    intro els els' h
    rw [up] at h
    split at h
    · exact write_length' h
    · rename_i h0
      split at h
      · cases h
      · split at h
        · split at h
          · cases h
          · rename_i hw
            exact (ih _ (by omega) _ _ h).trans (write_length' hw)
        · exact write_length' h

omit [Inhabited α] in
theorem down_length' (cmp : α → α → Int) (dv : α) (size : Nat) : ∀ (n cur : Nat) (els els' : List α),
    size - cur ≤ n → down cmp dv size els cur = some els' → els'.length = els.length := by
  intro n
  induction n with
  | zero =>
    intro cur els els' hn h
    rw [down] at h
    split at h
    · cases h
    · exact write_length' h
    · rename_i c hc
      have := child_bounds hc
      omega
  | succ n ih =>
    intro cur els els' hn h
    rw [down] at h
    split at h
    · cases h
    · exact write_length' h
    · rename_i c hc
      have := child_bounds hc
      split at h
      · cases h
      · split at h
        · split at h
          · cases h
          · rename_i hw
            exact (ih _ _ _ (by omega) h).trans (write_length' hw)
        · exact write_length' h

theorem PQ.put_dim {cmp : α → α → Int} {h h' : PQ α} {v : α} (e : h.put cmp v = some h') :
    h'.size = h.size + 1 ∧ h'.elements.length =
      if h.size ≥ h.elements.length then h.elements.length * 2 else h.elements.length := by
  simp only [put, Option.bind_eq_bind, Option.bind_eq_some_iff] at e
  obtain ⟨els, hu, e⟩ := e
  cases e
  have := up_length' _ _ _ _ _ hu
  simp only [this]
  unfold grow
  split
  · exact ⟨rfl, by simp only [copy_length', List.length_replicate]⟩
  · exact ⟨rfl, rfl⟩

/-- The length that `slimming` leaves. -/
def slimLen (size len : Nat) : Nat :=
  if len ≥ 32 then if size ≤ len / 2 then len - len / 2 / 2 else len else len

theorem PQ.slimming_dim (h : PQ α) : h.slimming.size = h.size ∧
    h.slimming.elements.length = slimLen h.size h.elements.length := by
  unfold slimming slimLen
  split
  · split
    · exact ⟨rfl, by simp only [copy_length', List.length_replicate]⟩
    · exact ⟨rfl, rfl⟩
  · exact ⟨rfl, rfl⟩

theorem PQ.pop_dim {cmp : α → α → Int} {h h' : PQ α} {r : Res α} (e : h.pop cmp = some (h', r)) :
    (h.size = 0 ∧ h' = h) ∨ (h.size ≠ 0 ∧ h'.size = h.size - 1 ∧
      h'.elements.length = slimLen (h.size - 1) h.elements.length) := by
  unfold pop at e
  split at e
  · rename_i h0; cases e; exact .inl ⟨h0, rfl⟩
  · rename_i h0
    refine .inr ⟨h0, ?_⟩
    have hs := slimming_dim ({ h with size := h.size - 1 } : PQ α)
    simp only [Option.bind_eq_bind, Option.bind_eq_some_iff] at e
    obtain ⟨top, -, e⟩ := e
    split at e
    · cases e; exact hs
    · simp only [Option.bind_eq_some_iff] at e
      obtain ⟨dv, -, els, hd, e⟩ := e
      cases e
      exact ⟨hs.1, (down_length' _ _ _ _ _ _ _ (Nat.le_refl _) hd).trans hs.2⟩

/-- What the calls keep about the two lengths. -/
structure PQ.Dim (h : PQ α) : Prop where
  pos : 16 ≤ h.elements.length
  le : h.size ≤ h.elements.length

/-- The potential: three for each cell, and the cells filled over two thirds pay for the growth. -/
def PQ.pot (h : PQ α) : Nat := 3 * h.elements.length + (15 * h.size - 10 * h.elements.length)

/-- The heap has at most as much memory as `Pop` leaves. -/
def PQ.Tight (h : PQ α) : Prop := h.elements.length ≤ max 32 (2 * h.size + 1)

theorem PQ.step_amort (cmp : α → α → Int) (h : PQ α) (o : Op α) (h' : PQ α) (r : Res α) (hD : h.Dim)
    (e : h.step cmp o = some (h', r)) : h'.Dim ∧ h.cells o + h'.pot ≤ h.pot + 16 ∧
      (o ≠ .clear → h.Tight → h'.Tight) := by
  obtain ⟨h1, h2⟩ := hD
  have same : h' = h → h'.Dim ∧ 0 + h'.pot ≤ h.pot + 16 ∧ (o ≠ .clear → h.Tight → h'.Tight) := by
    rintro rfl
    exact ⟨⟨h1, h2⟩, by omega, fun _ h => h⟩
  unfold Tight at *
  cases o with
  | put v =>
    simp only [step, Option.map_eq_some_iff, Prod.mk.injEq] at e
    obtain ⟨_, e, rfl, -⟩ := e
    obtain ⟨e1, e2⟩ := put_dim e
    simp only [pot, cells]
    split at e2 <;> rename_i hc
    · rw [if_pos hc]
      exact ⟨⟨by omega, by omega⟩, by omega, fun _ _ => by omega⟩
    · rw [if_neg hc]
      exact ⟨⟨by omega, by omega⟩, by omega, fun _ _ => by omega⟩
  | pop =>
    rcases pop_dim e with ⟨h0, rfl⟩ | ⟨h0, e1, e2⟩
    · have := same rfl
      simpa only [cells, if_pos h0] using this
    · simp only [pot, cells]
      unfold slimLen at e2
      rw [if_neg h0]
      split at e2 <;> rename_i hc
      · rw [if_pos hc]
        split at e2 <;> rename_i hd
        · rw [if_pos hd]
          exact ⟨⟨by omega, by omega⟩, by omega, fun _ _ => by omega⟩
        · rw [if_neg hd]
          exact ⟨⟨by omega, by omega⟩, by omega, fun _ _ => by omega⟩
      · rw [if_neg hc]
        exact ⟨⟨by omega, by omega⟩, by omega, fun _ _ => by omega⟩
  | top =>
    simp only [step, Option.map_eq_some_iff] at e
    obtain ⟨_, -, e⟩ := e
    exact same (by cases e; rfl)
  | size => simp only [step] at e; exact same (by cases e; rfl)
  | empty => simp only [step] at e; exact same (by cases e; rfl)
  | clear =>
    simp only [step, Option.some.injEq, Prod.mk.injEq] at e
    obtain ⟨rfl, -⟩ := e
    exact ⟨⟨h1, Nat.zero_le _⟩, by simp only [pot, cells]; omega, fun h => absurd rfl h⟩
  | reset =>
    simp only [step, Option.some.injEq, Prod.mk.injEq] at e
    obtain ⟨rfl, -⟩ := e
    exact ⟨⟨by simp, Nat.zero_le _⟩, by simp only [pot, cells, List.length_replicate]; omega,
      fun _ _ => by simp⟩

theorem PQ.cells_le (h : PQ α) (o : Op α) (hD : h.Dim) : h.cells o ≤ h.pot + 16 := by
  obtain ⟨h1, h2⟩ := hD
  unfold pot
  cases o <;> simp only [cells] <;> (try split_ifs) <;> omega

theorem PQ.new_dim : (PQ.new : PQ α).Dim := ⟨by simp [new], by simp [new]⟩

end Verif.Heap
