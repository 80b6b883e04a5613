import Verif.Common.Amort
import Verif.Queue.RingModel

/-! The memory asked for by the circular buffer (queue/linkedarray/queue.go). -/

namespace Verif.Queue
variable {α : Type} [Inhabited α]

/-- The cells asked for with `make` in one call of `q`: queue/linkedarray/queue.go:27-30 (`grow`,
called by the pushes at 60 and 71) and 41-43 (`slimming`, called by the pops at 125 and 140 when the
queue is not empty, with the size one less). -/
def Ring.cells (q : Ring α) : Op α → Nat
  | .pushBack _ | .pushFront _ => if q.size ≥ q.cap then q.cap * 2 else 0
  | .popBack | .popFront =>
    if q.size = 0 then 0
    else if q.size - 1 ≤ q.cap / 2 then q.cap - q.cap / 4 else 0
  | .front | .back | .size => 0

theorem copy_length' (d s : List α) : (copy d s).length = d.length := by
  simp only [copy, List.length_append, List.length_take, List.length_drop]; omega

theorem copyAt_length' {d s l : List α} {k : Nat} (h : copyAt d k s = some l) :
    l.length = d.length := by
  unfold copyAt at h
  split at h
  · cases h
    simp only [List.length_append, List.length_take, copy_length', List.length_drop]; omega
  · cases h

theorem write_length' {l l' : List α} {i : Nat} {v : α} (h : write l i v = some l') :
    l'.length = l.length := by
  unfold write at h
  split at h
  · cases h; simp
  · cases h

theorem Ring.grow_dim {q q' : Ring α} (h : q.grow = some q') :
    q'.size = q.size ∧ (q'.cap = if q.size ≥ q.cap then q.cap * 2 else q.cap) ∧
      (q.data.length = q.cap → q'.data.length = q'.cap) := by
  unfold grow at h
  split at h
  · rename_i hc
    simp only [Option.bind_eq_bind, Option.bind_eq_some_iff] at h
    obtain ⟨a, -, b, -, c, hc', h⟩ := h
    cases h
    exact ⟨rfl, (if_pos hc).symm, fun _ => by
      simp only [copyAt_length' hc', copy_length', List.length_replicate]⟩
  · rename_i hc
    cases h
    exact ⟨rfl, (if_neg hc).symm, id⟩

theorem Ring.slimming_dim {q q' : Ring α} (h : q.slimming = some q') :
    q'.size = q.size ∧ (q'.cap = if q.size ≤ q.cap / 2 then q.cap - q.cap / 4 else q.cap) ∧
      (q.data.length = q.cap → q'.data.length = q'.cap) := by
  unfold slimming at h
  split at h
  · rename_i hc
    simp only [Option.bind_eq_bind, Option.bind_eq_some_iff] at h
    obtain ⟨a, ha, h⟩ := h
    cases h
    refine ⟨rfl, (if_pos hc).symm, fun _ => ?_⟩
    unfold slimCopy at ha
    split at ha
    · simp only [Option.bind_eq_bind, Option.bind_eq_some_iff] at ha
      obtain ⟨_, -, _, -, ha⟩ := ha
      simp only [copyAt_length' ha, copy_length', List.length_replicate]
    · simp only [Option.bind_eq_bind, Option.bind_eq_some_iff] at ha
      obtain ⟨_, -, ha⟩ := ha
      cases ha
      simp only [copy_length', List.length_replicate]
  · rename_i hc
    cases h
    exact ⟨rfl, (if_neg hc).symm, id⟩

theorem Ring.push_dim {q q' : Ring α} {r : Res α} {o : Op α} (ho : (∃ v, o = .pushBack v) ∨ ∃ v, o = .pushFront v)
    (h : q.step o = some (q', r)) :
    q'.size = q.size + 1 ∧ (q'.cap = if q.size ≥ q.cap then q.cap * 2 else q.cap) ∧
      (q.data.length = q.cap → q'.data.length = q'.cap) := by
  rcases ho with ⟨v, rfl⟩ | ⟨v, rfl⟩ <;>
  · simp only [step, pushBack, pushFront, Option.map_eq_some_iff, Option.bind_eq_bind,
      Option.bind_eq_some_iff] at h
    obtain ⟨a, ⟨b, hb, c, hw, h⟩, h'⟩ := h
    cases h; cases h'
    have := grow_dim hb
    exact ⟨by simp only [this.1], this.2.1, fun e => (write_length' hw).trans (this.2.2 e)⟩

theorem Ring.pop_dim {q q' : Ring α} {r : Res α} {o : Op α} (ho : o = .popBack ∨ o = .popFront)
    (h : q.step o = some (q', r)) :
    (q.size = 0 ∧ q' = q) ∨ (q.size ≠ 0 ∧ q'.size = q.size - 1 ∧
      (q'.cap = if q.size - 1 ≤ q.cap / 2 then q.cap - q.cap / 4 else q.cap) ∧
      (q.data.length = q.cap → q'.data.length = q'.cap)) := by
  rcases ho with rfl | rfl <;>
  · simp only [step, popBack, popFront] at h
    split at h
    · rename_i h0; cases h; exact .inl ⟨h0, rfl⟩
    · rename_i h0
      simp only [Option.bind_eq_bind, Option.bind_eq_some_iff] at h
      obtain ⟨_, -, c, hc, h⟩ := h
      cases h
      exact .inr ⟨h0, slimming_dim hc⟩

/-- What the calls keep about the two lengths. -/
structure Ring.Dim (q : Ring α) : Prop where
  len : q.data.length = q.cap
  pos : 1 ≤ q.cap
  le : q.size ≤ q.cap
  space : q.cap ≤ max 8 (2 * q.size + 1)

/-- The potential: three for each cell, and the cells filled over two thirds pay for the growth. -/
def Ring.pot (q : Ring α) : Nat := 3 * q.cap + (15 * q.size - 10 * q.cap)

theorem Ring.step_amort (q : Ring α) (o : Op α) (q' : Ring α) (r : Res α) (hD : q.Dim)
    (h : q.step o = some (q', r)) : q'.Dim ∧ q.cells o + q'.pot ≤ q.pot + 15 := by
  obtain ⟨hl, h1, h2, h3⟩ := hD
  have push : (q'.size = q.size + 1 ∧ (q'.cap = if q.size ≥ q.cap then q.cap * 2 else q.cap) ∧
      (q.data.length = q.cap → q'.data.length = q'.cap)) →
      q'.Dim ∧ (if q.size ≥ q.cap then q.cap * 2 else 0) + q'.pot ≤ q.pot + 15 := by
    intro ⟨e1, e2, e3⟩
    unfold pot
    split at e2 <;> rename_i hc
    · rw [if_pos hc]
      exact ⟨⟨e3 hl, by omega, by omega, by omega⟩, by omega⟩
    · rw [if_neg hc]
      exact ⟨⟨e3 hl, by omega, by omega, by omega⟩, by omega⟩
  have pop : ((q.size = 0 ∧ q' = q) ∨ (q.size ≠ 0 ∧ q'.size = q.size - 1 ∧
      (q'.cap = if q.size - 1 ≤ q.cap / 2 then q.cap - q.cap / 4 else q.cap) ∧
      (q.data.length = q.cap → q'.data.length = q'.cap))) →
      q'.Dim ∧ (if q.size = 0 then 0
        else if q.size - 1 ≤ q.cap / 2 then q.cap - q.cap / 4 else 0) + q'.pot ≤ q.pot + 15 := by
    rintro (⟨h0, rfl⟩ | ⟨h0, e1, e2, e3⟩)
    · exact ⟨⟨hl, h1, h2, h3⟩, by rw [if_pos h0]; omega⟩
    · rw [if_neg h0]
      unfold pot
      split at e2 <;> rename_i hc
      · rw [if_pos hc]
        exact ⟨⟨e3 hl, by omega, by omega, by omega⟩, by omega⟩
      · rw [if_neg hc]
        exact ⟨⟨e3 hl, by omega, by omega, by omega⟩, by omega⟩
  have same : q' = q → q'.Dim ∧ 0 + q'.pot ≤ q.pot + 15 := by
    rintro rfl
    exact ⟨⟨hl, h1, h2, h3⟩, by omega⟩
  cases o with
  | pushBack v => exact push (push_dim (.inl ⟨v, rfl⟩) h)
  | pushFront v => exact push (push_dim (.inr ⟨v, rfl⟩) h)
  | popBack => exact pop (pop_dim (.inl rfl) h)
  | popFront => exact pop (pop_dim (.inr rfl) h)
  | front =>
    simp only [step, Option.map_eq_some_iff] at h
    obtain ⟨_, -, h⟩ := h
    exact same (by cases h; rfl)
  | back =>
    simp only [step, Option.map_eq_some_iff] at h
    obtain ⟨_, -, h⟩ := h
    exact same (by cases h; rfl)
  | size => simp only [step] at h; exact same (by cases h; rfl)

theorem Ring.cells_le (q : Ring α) (o : Op α) (hD : q.Dim) : q.cells o ≤ q.pot + 15 := by
  obtain ⟨hl, h1, h2, h3⟩ := hD
  unfold pot
  cases o <;> simp only [cells] <;> (try split_ifs) <;> omega

theorem Ring.new_dim : (Ring.new : Ring α).Dim := ⟨by simp [new], by simp [new], by simp [new], by simp [new]⟩

end Verif.Queue
