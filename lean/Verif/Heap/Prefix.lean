import Verif.Heap.Weak

/-! The heap behaves the same whatever its capacity and what is left behind its size. -/

set_option linter.unusedSectionVars false

namespace Verif.Heap.Wk
variable {α : Type} [Inhabited α] {cmp : α → α → Int}

/-- The same content in the same order. -/
structure SameHeap (h k : PQ α) : Prop where
  size : k.size = h.size
  cap : 16 ≤ h.elements.length
  cap' : 16 ≤ k.elements.length
  le : h.size ≤ h.elements.length
  le' : h.size ≤ k.elements.length
  elems : ∀ i, i < h.size → g k.elements i = g h.elements i

theorem up_same (v : α) (n : Nat) : ∀ (cur : Nat) (a b : List α), n ≤ a.length → n ≤ b.length → cur < n →
    (∀ i, i < n → i ≠ cur → g b i = g a i) →
    ∃ r q, up cmp v a cur = some r ∧ up cmp v b cur = some q ∧ r.length = a.length ∧ q.length = b.length ∧
      ∀ i, i < n → g q i = g r i := by
  intro cur
  induction cur using Nat.strongRecOn with
  | _ cur ih =>
    intro a b ha hb hc hag
    have hca : cur < a.length := by omega
    have hcb : cur < b.length := by omega
    have hset : ∀ x i, i < n → g (b.set cur x) i = g (a.set cur x) i := by
      intro x i hi
      rw [g_set _ _ _ _ hca, g_set _ _ _ _ hcb]
      split
      · rfl
      · exact hag i hi (by assumption)
    unfold up
    by_cases h0 : cur = 0
    · rw [dif_pos h0, dif_pos h0]
      exact ⟨a.set cur v, b.set cur v, by simp [write, hca], by simp [write, hcb], by simp, by simp, hset v⟩
    · rw [dif_neg h0, dif_neg h0, g_some (show (cur - 1) / 2 < a.length by omega),
        g_some (show (cur - 1) / 2 < b.length by omega), hag _ (by omega) (by omega)]
      simp only
      by_cases hle : cmp v (g a ((cur - 1) / 2)) ≤ 0
      · rw [if_pos hle, if_pos hle]
        simp only [write, if_pos hca, if_pos hcb]
        obtain ⟨r, q, h1, h2, h3, h4, h5⟩ := ih ((cur - 1) / 2) (by omega) (a.set cur (g a ((cur - 1) / 2)))
          (b.set cur (g a ((cur - 1) / 2))) (by simpa using ha) (by simpa using hb) (by omega)
          (fun i hi _ => hset _ i hi)
        exact ⟨r, q, h1, h2, by simpa using h3, by simpa using h4, h5⟩
      · rw [if_neg hle, if_neg hle]
        exact ⟨a.set cur v, b.set cur v, by simp [write, hca], by simp [write, hcb], by simp, by simp, hset v⟩

theorem down_same (dv : α) (n : Nat) : ∀ (m cur : Nat) (a b : List α), n - cur ≤ m → n ≤ a.length → n ≤ b.length →
    cur < n → (∀ i, i < n → i ≠ cur → g b i = g a i) →
    ∃ r q, down cmp dv n a cur = some r ∧ down cmp dv n b cur = some q ∧ r.length = a.length ∧ q.length = b.length ∧
      ∀ i, i < n → g q i = g r i := by
  intro m
  induction m with
  | zero => intro cur a b hm _ _ hc; omega
  | succ m ih =>
    intro cur a b hm ha hb hc hag
    have hca : cur < a.length := by omega
    have hcb : cur < b.length := by omega
    have hset : ∀ x i, i < n → g (b.set cur x) i = g (a.set cur x) i := by
      intro x i hi
      rw [g_set _ _ _ _ hca, g_set _ _ _ _ hcb]
      split
      · rfl
      · exact hag i hi (by assumption)
    have hch : child cmp n b cur = child cmp n a cur := by
      unfold child
      split
      · rw [g_some (show cur * 2 + 1 < b.length by omega), g_some (show cur * 2 + 2 < b.length by omega),
          g_some (show cur * 2 + 1 < a.length by omega), g_some (show cur * 2 + 2 < a.length by omega),
          hag _ (by omega) (by omega), hag _ (by omega) (by omega)]
      · rfl
    rcases child_spec (Weak.all cmp) n a cur ha with ⟨h1, _⟩ | ⟨c, h1, h2, h3, h4, _⟩
    · refine ⟨a.set cur dv, b.set cur dv, ?_, ?_, by simp, by simp, hset dv⟩
      · unfold down; rw [h1]; simp [write, hca]
      · unfold down; rw [hch, h1]; simp [write, hcb]
    · have hcc : c ≠ cur := by omega
      by_cases hle : cmp (g a c) dv ≤ 0
      · obtain ⟨r, q, i1, i2, i3, i4, i5⟩ := ih c (a.set cur (g a c)) (b.set cur (g a c)) (by omega) (by simpa using ha)
          (by simpa using hb) h2 (fun i hi _ => hset _ i hi)
        refine ⟨r, q, ?_, ?_, by simpa using i3, by simpa using i4, i5⟩
        · unfold down
          rw [h1]
          simp only [g_some (show c < a.length by omega), if_pos hle, write, if_pos hca]
          exact i1
        · unfold down
          rw [hch, h1]
          simp only [g_some (show c < b.length by omega), hag c h2 hcc, if_pos hle, write, if_pos hcb]
          exact i2
      · refine ⟨a.set cur dv, b.set cur dv, ?_, ?_, by simp, by simp, hset dv⟩
        · unfold down; rw [h1]; simp [g_some (show c < a.length by omega), if_neg hle, write, hca]
        · unfold down; rw [hch, h1]; simp [g_some (show c < b.length by omega), hag c h2 hcc, if_neg hle, write, hcb]

theorem grow_same (h : PQ α) (hc : 16 ≤ h.elements.length) (hl : h.size ≤ h.elements.length) :
    h.grow.size = h.size ∧ h.size < h.grow.elements.length ∧ 16 ≤ h.grow.elements.length ∧
      ∀ i, i < h.size → g h.grow.elements i = g h.elements i := by
  have hr : Rep (fun _ _ => True) h (h.elements.take h.size) :=
    ⟨hc, hl, fun _ _ _ => trivial, List.Perm.refl _⟩
  obtain ⟨h1, h2, h3⟩ := grow_ok h _ hr
  refine ⟨h2, by omega, h1.cap, ?_⟩
  intro i hi
  unfold PQ.grow
  split
  · exact g_take (copy_take _ _ h.size hl (by simp; omega)) hi
  · rfl

theorem put_same {h k : PQ α} (hs : SameHeap h k) (v : α) :
    ∃ h' k', h.put cmp v = some h' ∧ k.put cmp v = some k' ∧ SameHeap h' k' := by
  obtain ⟨a1, a2, a3, a4⟩ := grow_same h hs.cap hs.le
  obtain ⟨b1, b2, b3, b4⟩ := grow_same k hs.cap' (by rw [hs.size]; exact hs.le')
  have hsz := hs.size
  obtain ⟨r, q, h1, h2, h3, h4, h5⟩ := up_same (cmp := cmp) v (h.size + 1) h.size h.grow.elements k.grow.elements
    (by omega) (by omega) (by omega) (by
      intro i hi hne
      rw [b4 i (by omega), a4 i (by omega)]
      exact hs.elems i (by omega))
  refine ⟨⟨h.size + 1, r⟩, ⟨h.size + 1, q⟩, ?_, ?_, ⟨rfl, ?_, ?_, ?_, ?_, h5⟩⟩
  · simp [PQ.put, a1, h1]
  · simp [PQ.put, b1, hsz, h2]
  · simp only; omega
  · simp only; omega
  · simp only; omega
  · simp only; omega

theorem pop_same {h k : PQ α} (hs : SameHeap h k) :
    ∃ h' k' r, h.pop cmp = some (h', r) ∧ k.pop cmp = some (k', r) ∧ SameHeap h' k' := by
  have hsz := hs.size
  have hl := hs.le
  have hl' := hs.le'
  have hc := hs.cap
  have hc' := hs.cap'
  by_cases h0 : h.size = 0
  · exact ⟨h, k, .val default false, by simp [PQ.pop, h0], by simp [PQ.pop, hsz, h0], hs⟩
  · obtain ⟨a1, a2, a3, a4⟩ := slim_take ({ h with size := h.size - 1 } : PQ α) (by simp only; omega)
    obtain ⟨b1, b2, b3, b4⟩ := slim_take ({ k with size := k.size - 1 } : PQ α) (by simp only; omega)
    simp only at a1 a2 a3 a4 b1 b2 b3 b4
    generalize hp : PQ.slimming { h with size := h.size - 1 } = p at a1 a2 a3 a4
    generalize hq : PQ.slimming { k with size := k.size - 1 } = q at b1 b2 b3 b4
    have ea : ∀ i, i < h.size → g p.elements i = g h.elements i := fun i hi => g_take a4 (by omega)
    have eb : ∀ i, i < h.size → g q.elements i = g h.elements i := fun i hi => by
      rw [g_take b4 (by omega), hs.elems i hi]
    have hk0 : k.size ≠ 0 := by omega
    have top : g k.elements 0 = g h.elements 0 := hs.elems 0 (by omega)
    by_cases h1 : h.size - 1 = 0
    · refine ⟨p, q, .val (g h.elements 0) true, ?_, ?_, ⟨by omega, a3 hc, b3 hc', by omega, by omega, ?_⟩⟩
      · have : p.size = 0 := by omega
        simp [PQ.pop, h0, g_some (show 0 < h.elements.length by omega), hp, this]
      · have : q.size = 0 := by omega
        simp [PQ.pop, hk0, g_some (show 0 < k.elements.length by omega), hq, this, top]
      · intro i hi; omega
    · have hp0 : p.size ≠ 0 := by omega
      have hq0 : q.size ≠ 0 := by omega
      have hqp : q.size = p.size := by omega
      have hdv : g q.elements p.size = g p.elements p.size := by rw [ea _ (by omega), eb _ (by omega)]
      obtain ⟨r, t, d1, d2, d3, d4, d5⟩ := down_same (cmp := cmp) (g p.elements p.size) p.size p.size 0 p.elements q.elements
        (by omega) (by omega) (by omega) (by omega) (by
          intro i hi _
          rw [ea _ (by omega), eb _ (by omega)])
      refine ⟨⟨p.size, r⟩, ⟨p.size, t⟩, .val (g h.elements 0) true, ?_, ?_, ⟨rfl, ?_, ?_, ?_, ?_, d5⟩⟩
      · simp [PQ.pop, h0, g_some (show 0 < h.elements.length by omega), hp, hp0,
          g_some (show p.size < p.elements.length by omega), d1]
      · simp [PQ.pop, hk0, g_some (show 0 < k.elements.length by omega), hq, hp0, hqp,
          g_some (show p.size < q.elements.length by omega), hdv, d2, top]
      · have := a3 hc; simp only; omega
      · have := b3 hc'; simp only; omega
      · simp only; omega
      · simp only; omega

end Verif.Heap.Wk
