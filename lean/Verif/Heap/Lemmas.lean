import Verif.Heap.Model

/-! Helper lemmas for C09 and C10. -/

set_option linter.unusedSectionVars false

namespace Verif.Heap
variable {α : Type} [Inhabited α] {cmp : α → α → Int}

theorem ordOf_gt {c : Int} : ordOf c = .gt ↔ ¬ c ≤ 0 := by
  unfold ordOf; split
  · simp; omega
  · split
    · simp; omega
    · simp; omega

theorem le_trans (hc : Lawful cmp) {a b c : α} (h1 : cmp a b ≤ 0) (h2 : cmp b c ≤ 0) :
    cmp a c ≤ 0 := by
  have := hc.transCmp
  by_contra h
  exact Ord.ngt_trans (o := fun a b => ordOf (cmp a b)) (a := a) (b := b) (c := c)
    (by rw [Ne, ordOf_gt]; omega) (by rw [Ne, ordOf_gt]; omega) (ordOf_gt.2 h)

theorem le_total (hc : Lawful cmp) {a b : α} (h : ¬ cmp a b ≤ 0) : cmp b a ≤ 0 := by
  have := hc.transCmp
  have h1 := (Ord.gt_iff (o := fun a b => ordOf (cmp a b))).1 (ordOf_gt.2 h)
  by_contra h2
  rw [ordOf_gt.2 h2] at h1
  simp at h1

theorem le_refl (hc : Lawful cmp) (a : α) : cmp a a ≤ 0 := by
  by_contra h
  exact h (le_total hc h)

/-- Total read. -/
def g (l : List α) (i : Nat) : α := l.getD i default

theorem g_some {l : List α} {i : Nat} (h : i < l.length) : l[i]? = some (g l i) := by
  simp [g, List.getD_eq_getElem?_getD, h]

theorem g_set (l : List α) (i j : Nat) (v : α) (h : i < l.length) :
    g (l.set i v) j = if j = i then v else g l j := by
  simp only [g, List.getD_eq_getElem?_getD, List.getElem?_set]
  by_cases e : i = j
  · subst e; simp [h]
  · simp [e, Ne.symm e]

/-- Every element among the first `n` is not smaller than its parent. -/
def HeapOK (cmp : α → α → Int) (n : Nat) (a : List α) : Prop :=
  ∀ i, 0 < i → i < n → cmp (g a ((i - 1) / 2)) (g a i) ≤ 0

theorem HeapOK.min (hc : Lawful cmp) {n : Nat} {a : List α} (h : HeapOK cmp n a) :
    ∀ i, i < n → cmp (g a 0) (g a i) ≤ 0 := by
  intro i
  induction i using Nat.strongRecOn with
  | _ i ih =>
    intro hi
    by_cases h0 : i = 0
    · subst h0; exact le_refl hc _
    · exact le_trans hc (ih ((i - 1) / 2) (by omega) (by omega)) (h i (by omega) hi)

/-- Exchanging two positions below `n` permutes the prefix. -/
theorem swap_perm (a : List α) (n i j : Nat) (hn : n ≤ a.length) (hi : i < n) (hj : j < n) :
    (((a.set i (g a j)).set j (g a i)).take n).Perm (a.take n) := by
  have h1 : i < (a.take n).length := by simp; omega
  have h2 : j < (a.take n).length := by simp; omega
  have := List.set_set_perm h1 h2
  rw [List.take_set, List.take_set]
  have e1 : (a.take n)[j] = g a j := by
    simp [g, List.getD_eq_getElem?_getD, show j < a.length by omega]
  have e2 : (a.take n)[i] = g a i := by
    simp [g, List.getD_eq_getElem?_getD, show i < a.length by omega]
  rw [e1, e2] at this
  exact this

structure UpInv (cmp : α → α → Int) (n : Nat) (a : List α) (cur : Nat) : Prop where
  h1 : ∀ i, 0 < i → i < n → i ≠ cur → cmp (g a ((i - 1) / 2)) (g a i) ≤ 0
  h2 : 0 < cur → ∀ i, 0 < i → i < n → (i - 1) / 2 = cur →
    cmp (g a ((cur - 1) / 2)) (g a i) ≤ 0

theorem up_ok (hc : Lawful cmp) (v : α) (n : Nat) : ∀ (cur : Nat) (els : List α),
    n ≤ els.length → cur < n → UpInv cmp n (els.set cur v) cur →
    ∃ r, up cmp v els cur = some r ∧ r.length = els.length ∧ HeapOK cmp n r ∧
      (r.take n).Perm ((els.set cur v).take n) := by
  intro cur
  induction cur using Nat.strongRecOn with
  | _ cur ih =>
    intro els hn hcur hinv
    have hl : cur < els.length := by omega
    unfold up
    by_cases h0 : cur = 0
    · subst h0
      refine ⟨els.set 0 v, by simp [write, hl], by simp, ?_, List.Perm.refl _⟩
      intro i hi hin
      exact hinv.h1 i hi hin (by omega)
    · rw [dif_neg h0]
      have hp : (cur - 1) / 2 < els.length := by omega
      rw [g_some hp]
      simp only
      have hpc : (cur - 1) / 2 ≠ cur := by omega
      by_cases hle : cmp v (g els ((cur - 1) / 2)) ≤ 0
      · rw [if_pos hle]
        simp only [write, if_pos hl]
        -- the virtual array after the step
        have hvirt : ((els.set cur (g els ((cur - 1) / 2))).set ((cur - 1) / 2) v) =
            (((els.set cur v).set cur (g (els.set cur v) ((cur - 1) / 2))).set ((cur - 1) / 2)
              (g (els.set cur v) cur)) := by
          rw [List.set_set, g_set _ _ _ _ hl, g_set _ _ _ _ hl, if_neg hpc, if_pos rfl]
        have hread : ∀ j, g ((els.set cur (g els ((cur - 1) / 2))).set ((cur - 1) / 2) v) j =
            if j = (cur - 1) / 2 then v else if j = cur then g els ((cur - 1) / 2) else g els j := by
          intro j
          rw [g_set _ _ _ _ (by simpa using hp), g_set _ _ _ _ hl]
        have hold : ∀ j, g (els.set cur v) j = if j = cur then v else g els j := by
          intro j; rw [g_set _ _ _ _ hl]
        obtain ⟨r, hr1, hr2, hr3, hr4⟩ := ih ((cur - 1) / 2) (by omega)
          (els.set cur (g els ((cur - 1) / 2))) (by simpa using hn) (by omega) (by
            constructor
            · intro i hi hin hne
              rw [hread, hread]
              by_cases e1 : i = cur
              · subst e1
                rw [if_pos rfl, if_neg (Ne.symm hpc), if_pos rfl]; exact hle
              · have hb := hinv.h1 i hi hin e1
                rw [hold, hold, if_neg e1] at hb
                rw [if_neg hne, if_neg e1]
                by_cases e2 : (i - 1) / 2 = (cur - 1) / 2
                · rw [if_pos e2]
                  rw [e2, if_neg hpc] at hb
                  exact le_trans hc hle hb
                · rw [if_neg e2]
                  by_cases e3 : (i - 1) / 2 = cur
                  · rw [if_pos e3]
                    have := hinv.h2 (by omega) i hi hin e3
                    rw [hold, hold, if_neg hpc, if_neg e1] at this
                    exact this
                  · rw [if_neg e3] at hb ⊢; exact hb
            · intro hp0 i hi hin he
              have hpp := hinv.h1 ((cur - 1) / 2) hp0 (by omega) hpc
              rw [hold, hold, if_neg (by omega), if_neg hpc] at hpp
              rw [hread, hread, if_neg (by omega), if_neg (by omega), if_neg (by omega)]
              by_cases e1 : i = cur
              · rw [if_pos e1]; exact hpp
              · rw [if_neg e1]
                have hb := hinv.h1 i hi hin e1
                rw [hold, hold, if_neg e1, he, if_neg hpc] at hb
                exact le_trans hc hpp hb)
        refine ⟨r, hr1, by simpa using hr2, hr3, hr4.trans ?_⟩
        rw [hvirt]
        exact swap_perm _ _ _ _ (by simpa using hn) hcur (by omega)
      · rw [if_neg hle]
        refine ⟨els.set cur v, by simp [write, hl], by simp, ?_, List.Perm.refl _⟩
        intro i hi hin
        by_cases e : i = cur
        · subst e
          rw [g_set _ _ _ _ hl, g_set _ _ _ _ hl, if_neg hpc, if_pos rfl]
          exact le_total hc hle
        · exact hinv.h1 i hi hin e

structure DownInv (cmp : α → α → Int) (n : Nat) (a : List α) (cur : Nat) : Prop where
  h1 : ∀ i, 0 < i → i < n → (i - 1) / 2 ≠ cur → cmp (g a ((i - 1) / 2)) (g a i) ≤ 0
  h2 : 0 < cur → ∀ i, 0 < i → i < n → (i - 1) / 2 = cur →
    cmp (g a ((cur - 1) / 2)) (g a i) ≤ 0

theorem child_spec (hc : Lawful cmp) (n : Nat) (els : List α) (cur : Nat) (hn : n ≤ els.length) :
    (child cmp n els cur = some none ∧ n ≤ cur * 2 + 1) ∨
    (∃ c, child cmp n els cur = some (some c) ∧ c < n ∧ 0 < c ∧ (c - 1) / 2 = cur ∧
      ∀ i, 0 < i → i < n → (i - 1) / 2 = cur → cmp (g els c) (g els i) ≤ 0) := by
  unfold child
  by_cases h1 : cur * 2 + 2 < n
  · rw [if_pos h1, g_some (show cur * 2 + 1 < els.length by omega),
      g_some (show cur * 2 + 2 < els.length by omega)]
    simp only
    right
    by_cases h2 : cmp (g els (cur * 2 + 1)) (g els (cur * 2 + 2)) < 0
    · rw [if_pos h2]
      refine ⟨_, rfl, by omega, by omega, by omega, ?_⟩
      intro i _ _ hi
      have : i = cur * 2 + 1 ∨ i = cur * 2 + 2 := by omega
      rcases this with rfl | rfl
      · exact le_refl hc _
      · omega
    · rw [if_neg h2]
      refine ⟨_, rfl, by omega, by omega, by omega, ?_⟩
      intro i _ _ hi
      have : i = cur * 2 + 1 ∨ i = cur * 2 + 2 := by omega
      rcases this with rfl | rfl
      · by_contra h3
        have h4 := le_total hc h3
        have h5 : cmp (g els (cur * 2 + 1)) (g els (cur * 2 + 2)) = 0 := by omega
        have := hc.transCmp
        have h6 : ordOf (cmp (g els (cur * 2 + 1)) (g els (cur * 2 + 2))) = .eq := by
          rw [h5]; rfl
        have h7 := Ord.eq_symm (o := fun a b => ordOf (cmp a b)) h6
        rw [ordOf_gt.2 h3] at h7
        simp at h7
      · exact le_refl hc _
  · rw [if_neg h1]
    by_cases h2 : cur * 2 + 1 ≥ n
    · rw [if_pos h2]; exact Or.inl ⟨rfl, by omega⟩
    · rw [if_neg h2]
      right
      refine ⟨_, rfl, by omega, by omega, by omega, ?_⟩
      intro i _ _ hi
      have : i = cur * 2 + 1 := by omega
      subst this
      exact le_refl hc _

theorem down_ok (hc : Lawful cmp) (dv : α) (n : Nat) : ∀ (m cur : Nat) (els : List α),
    n - cur ≤ m → n ≤ els.length → cur < n → DownInv cmp n (els.set cur dv) cur →
    ∃ r, down cmp dv n els cur = some r ∧ r.length = els.length ∧ HeapOK cmp n r ∧
      (r.take n).Perm ((els.set cur dv).take n) := by
  intro m
  induction m with
  | zero => intro cur els hm hn hcur; omega
  | succ m ih =>
    intro cur els hm hn hcur hinv
    have hl : cur < els.length := by omega
    have hold : ∀ j, g (els.set cur dv) j = if j = cur then dv else g els j := by
      intro j; rw [g_set _ _ _ _ hl]
    unfold down
    rcases child_spec hc n els cur hn with ⟨hch, hle⟩ | ⟨c, hch, hcn, hc0, hcp, hmin⟩
    · rw [hch]
      simp only
      refine ⟨els.set cur dv, by simp [write, hl], by simp, ?_, List.Perm.refl _⟩
      intro i hi hin
      exact hinv.h1 i hi hin (by omega)
    · rw [hch]
      simp only
      have hcl : c < els.length := by omega
      have hcc : c ≠ cur := by omega
      rw [g_some hcl]
      simp only
      by_cases hle : cmp (g els c) dv ≤ 0
      · rw [if_pos hle]
        simp only [write, if_pos hl]
        have hvirt : ((els.set cur (g els c)).set c dv) =
            (((els.set cur dv).set cur (g (els.set cur dv) c)).set c (g (els.set cur dv) cur)) := by
          rw [List.set_set, g_set _ _ _ _ hl, g_set _ _ _ _ hl, if_neg hcc, if_pos rfl]
        have hread : ∀ j, g ((els.set cur (g els c)).set c dv) j =
            if j = c then dv else if j = cur then g els c else g els j := by
          intro j
          rw [g_set _ _ _ _ (by simpa using hcl), g_set _ _ _ _ hl]
        obtain ⟨r, hr1, hr2, hr3, hr4⟩ := ih c (els.set cur (g els c)) (by omega)
          (by simpa using hn) hcn (by
            constructor
            · intro i hi hin hne
              rw [hread, hread, if_neg hne]
              by_cases e1 : (i - 1) / 2 = cur
              · rw [if_pos e1]
                by_cases e2 : i = c
                · rw [if_pos e2]; exact hle
                · rw [if_neg e2, if_neg (by omega)]; exact hmin i hi hin e1
              · have hb := hinv.h1 i hi hin e1
                rw [hold, hold, if_neg e1] at hb
                rw [if_neg e1, if_neg (by rintro rfl; exact e1 hcp)]
                by_cases e3 : i = cur
                · subst e3
                  rw [if_pos rfl]
                  have := hinv.h2 hi c hc0 hcn hcp
                  rw [hold, hold, if_neg e1, if_neg hcc] at this
                  exact this
                · rw [if_neg e3] at hb ⊢; exact hb
            · intro _ i hi hin he
              rw [hread, hread, hcp, if_neg (Ne.symm hcc), if_pos rfl, if_neg (by omega),
                if_neg (by omega)]
              have hb := hinv.h1 i hi hin (by omega)
              rw [hold, hold, he, if_neg hcc, if_neg (by omega)] at hb
              exact hb)
        refine ⟨r, hr1, by simpa using hr2, hr3, hr4.trans ?_⟩
        rw [hvirt]
        exact swap_perm _ _ _ _ (by simpa using hn) hcur hcn
      · rw [if_neg hle]
        refine ⟨els.set cur dv, by simp [write, hl], by simp, ?_, List.Perm.refl _⟩
        intro i hi hin
        by_cases e : (i - 1) / 2 = cur
        · rw [hold, hold, if_pos e, if_neg (by omega)]
          exact le_trans hc (le_total hc hle) (hmin i hi hin e)
        · exact hinv.h1 i hi hin e

/-- Representation: the first `size` slots are a heap and permute `m`. -/
structure PQ.Rep (cmp : α → α → Int) (h : PQ α) (m : List α) : Prop where
  cap : 16 ≤ h.elements.length
  size_le : h.size ≤ h.elements.length
  heap : HeapOK cmp h.size h.elements
  perm : (h.elements.take h.size).Perm m

theorem PQ.Rep.size {h : PQ α} {m : List α} (hr : h.Rep cmp m) : h.size = m.length := by
  have := hr.perm.length_eq
  have h2 := hr.size_le
  simp at this; omega

theorem copy_take (dst src : List α) (n : Nat) (h1 : n ≤ src.length) (h2 : n ≤ dst.length) :
    (copy dst src).take n = src.take n := by
  unfold copy
  rw [List.take_append_of_le_length (by simp; omega), List.take_take]
  congr 1; omega

theorem g_take {a b : List α} {n i : Nat} (h : a.take n = b.take n) (hi : i < n) : g a i = g b i := by
  have : (a.take n)[i]? = (b.take n)[i]? := by rw [h]
  rw [List.getElem?_take, List.getElem?_take, if_pos hi, if_pos hi] at this
  simp [g, List.getD_eq_getElem?_getD, this]

theorem HeapOK.congr {a b : List α} {n : Nat} (h : HeapOK cmp n a) (he : b.take n = a.take n) :
    HeapOK cmp n b := by
  intro i hi hin
  rw [g_take he hin, g_take he (by omega)]
  exact h i hi hin

theorem PQ.grow_ok (h : PQ α) (m : List α) (hr : h.Rep cmp m) :
    h.grow.Rep cmp m ∧ h.grow.size = h.size ∧ h.grow.size < h.grow.elements.length := by
  unfold grow
  have h16 := hr.cap
  have hle := hr.size_le
  split
  · rename_i hge
    have hlen : (copy (List.replicate (h.elements.length * 2) default) h.elements).length
        = h.elements.length * 2 := by simp [copy]; omega
    have ht := copy_take (List.replicate (h.elements.length * 2) default) h.elements h.size hle
      (by simp; omega)
    refine ⟨⟨?_, ?_, hr.heap.congr ht, ?_⟩, rfl, ?_⟩
    · simp only; omega
    · simp only; omega
    · simp only [ht]; exact hr.perm
    · simp only; omega
  · exact ⟨hr, rfl, by omega⟩

theorem PQ.put_ok (hc : Lawful cmp) (h : PQ α) (m : List α) (v : α) (hr : h.Rep cmp m) :
    ∃ h', h.put cmp v = some h' ∧ h'.Rep cmp (v :: m) := by
  obtain ⟨hr', hs, hlt⟩ := grow_ok h m hr
  obtain ⟨r, h1, h2, h3, h4⟩ := up_ok hc v (h.grow.size + 1) h.grow.size h.grow.elements
    (by omega) (by omega) (by
      constructor
      · intro i hi hin hne
        rw [g_set _ _ _ _ hlt, g_set _ _ _ _ hlt, if_neg hne, if_neg (by omega)]
        exact hr'.heap i hi (by omega)
      · intro _ i hi hin he; omega)
  refine ⟨⟨h.grow.size + 1, r⟩, by simp [put, h1], ?_, ?_, h3, h4.trans ?_⟩
  · have := hr'.cap; simp only; omega
  · simp only; omega
  · rw [List.take_add_one, List.getElem?_set_self hlt, List.take_set_of_le (by omega)]
    exact (List.perm_append_singleton _ _).trans (hr'.perm.cons v)

theorem slim_take (h : PQ α) (hle : h.size < h.elements.length) :
    h.slimming.size = h.size ∧ h.size < h.slimming.elements.length ∧
    (16 ≤ h.elements.length → 16 ≤ h.slimming.elements.length) ∧
    h.slimming.elements.take (h.size + 1) = h.elements.take (h.size + 1) := by
  unfold PQ.slimming
  split
  · split
    · simp only
      have hlen : (copy (List.replicate (h.elements.length - h.elements.length / 2 / 2) default)
          h.elements).length = h.elements.length - h.elements.length / 2 / 2 := by
        simp [copy]
      refine ⟨trivial, by omega, by omega, ?_⟩
      exact copy_take _ _ _ (by omega) (by simp; omega)
    · exact ⟨rfl, hle, id, rfl⟩
  · exact ⟨rfl, hle, id, rfl⟩

theorem PQ.pop_empty (h : PQ α) (hr : h.Rep cmp []) :
    h.pop cmp = some (h, .val default false) := by
  have := hr.size
  simp at this
  simp [pop, this]

/-- The least element is at position zero. -/
theorem PQ.top_min (hc : Lawful cmp) (h : PQ α) (m : List α) (hr : h.Rep cmp m) (hm : m ≠ []) :
    h.elements[0]? = some (g h.elements 0) ∧ g h.elements 0 ∈ m ∧
    ∀ y ∈ m, cmp (g h.elements 0) y ≤ 0 := by
  have hs := hr.size
  have h16 := hr.cap
  have hle := hr.size_le
  have hpos : 0 < h.size := by
    have := List.length_pos_iff.2 hm; omega
  refine ⟨g_some (by omega), ?_, ?_⟩
  · refine hr.perm.subset ?_
    rw [List.mem_iff_getElem?]
    exact ⟨0, by rw [List.getElem?_take, if_pos hpos, g_some (by omega)]⟩
  · intro y hy
    have hy' := hr.perm.symm.subset hy
    rw [List.mem_iff_getElem?] at hy'
    obtain ⟨i, hi⟩ := hy'
    rw [List.getElem?_take] at hi
    split at hi
    · rename_i hlt
      rw [g_some (by omega)] at hi
      simp at hi
      rw [← hi]
      exact hr.heap.min hc i hlt
    · simp at hi

theorem PQ.pop_ok (hc : Lawful cmp) (h : PQ α) (m : List α) (hr : h.Rep cmp m) (hm : m ≠ []) :
    ∃ h' m', h.pop cmp = some (h', .val (g h.elements 0) true) ∧ h'.Rep cmp m' ∧
      m.Perm (g h.elements 0 :: m') := by
  have hs := hr.size
  have h16 := hr.cap
  have hle := hr.size_le
  have hpos : 0 < h.size := by
    have := List.length_pos_iff.2 hm; omega
  have hne : h.size ≠ 0 := by omega
  obtain ⟨s1, s2, s3, s4⟩ := slim_take ({ h with size := h.size - 1 } : PQ α) (by simp only; omega)
  simp only at s1 s2 s3 s4
  have e1 : h.size - 1 + 1 = h.size := by omega
  rw [e1] at s4
  generalize hq : PQ.slimming { h with size := h.size - 1 } = q at s1 s2 s3 s4
  have hg : ∀ i, i < h.size → g q.elements i = g h.elements i := fun i hi => g_take s4 hi
  have hfull : (q.elements.take h.size).Perm m := by rw [s4]; exact hr.perm
  by_cases h0 : h.size - 1 = 0
  · refine ⟨q, [], ?_, ?_, ?_⟩
    · have : q.size = 0 := by omega
      simp [pop, hne, g_some (show 0 < h.elements.length by omega), hq, this]
    · refine ⟨s3 (by omega), by omega, ?_, ?_⟩
      · intro i hi hin; omega
      · have : q.size = 0 := by omega
        simp [this]
    · have : h.size = 1 := by omega
      rw [this] at hfull
      have e : q.elements.take 1 = [g h.elements 0] := by
        rw [List.take_add_one, g_some (by omega), hg 0 (by omega)]; simp
      rw [e] at hfull
      exact hfull.symm
  · have hq0 : q.size ≠ 0 := by omega
    obtain ⟨r, d1, d2, d3, d4⟩ := down_ok hc (g q.elements q.size) q.size q.size 0 q.elements
      (by omega) (by omega) (by omega) (by
        constructor
        · intro i hi hin he
          rw [g_set _ _ _ _ (by omega), g_set _ _ _ _ (by omega), if_neg he, if_neg (by omega),
            hg _ (by omega), hg _ (by omega)]
          exact hr.heap i hi (by omega)
        · intro hh; omega)
    refine ⟨⟨q.size, r⟩, r.take q.size, ?_, ?_, ?_⟩
    · simp [pop, hne, g_some (show 0 < h.elements.length by omega), hq, hq0, g_some
        (show q.size < q.elements.length by omega), d1]
    · exact ⟨by have := s3 (by omega); simp only; omega, by simp only; omega, d3, List.Perm.refl _⟩
    · refine hfull.symm.trans ?_
      refine List.Perm.trans ?_ (d4.symm.cons _)
      -- the first `size` slots: top, middle, last
      rw [← hg 0 (by omega)]
      have hsz : h.size = q.size + 1 := by omega
      rw [hsz, List.take_add_one, g_some (by omega)]
      obtain ⟨x, xs, hx⟩ : ∃ x xs, q.elements.take q.size = x :: xs := by
        cases hxs : q.elements.take q.size with
        | nil => simp at hxs; rcases hxs with hxs | hxs
                 · omega
                 · simp [hxs] at s2
        | cons x xs => exact ⟨x, xs, rfl⟩
      have hx0 : g q.elements 0 = x := by
        have : (q.elements.take q.size)[0]? = some x := by rw [hx]; rfl
        rw [List.getElem?_take, if_pos (by omega), g_some (by omega)] at this
        simpa using this
      rw [List.take_set, hx, hx0]
      simp only [List.set_cons_zero, List.cons_append, Option.toList_some]
      exact (List.perm_append_singleton _ _).cons _

end Verif.Heap
