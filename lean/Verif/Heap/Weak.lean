import Verif.Heap.Lemmas

/-! The heap under a comparison that is not lawful: `le` is a preorder that its answers are right about. With
`le := fun _ _ => True` this is the claim that nothing gets lost under any comparison. -/

set_option linter.unusedSectionVars false

namespace Verif.Heap.Wk
variable {α : Type} [Inhabited α] {cmp : α → α → Int} {le : α → α → Prop}

/-- Every answer of `cmp` is right about `le`. -/
structure Weak (cmp : α → α → Int) (le : α → α → Prop) : Prop where
  refl : ∀ a, le a a
  trans : ∀ {a b c}, le a b → le b c → le a c
  of_le : ∀ {a b}, cmp a b ≤ 0 → le a b
  of_gt : ∀ {a b}, ¬ cmp a b ≤ 0 → le b a
  of_ge : ∀ {a b}, ¬ cmp a b < 0 → le b a

theorem Weak.all (cmp : α → α → Int) : Weak cmp (fun _ _ => True) :=
  ⟨fun _ => trivial, fun _ _ => trivial, fun _ => trivial, fun _ => trivial, fun _ => trivial⟩

/-- Every element among the first `n` is not smaller than its parent. -/
def HeapOK (le : α → α → Prop) (n : Nat) (a : List α) : Prop :=
  ∀ i, 0 < i → i < n → le (g a ((i - 1) / 2)) (g a i)

theorem HeapOK.min (hc : Weak cmp le) {n : Nat} {a : List α} (h : HeapOK le n a) :
    ∀ i, i < n → le (g a 0) (g a i) := by
  intro i
  induction i using Nat.strongRecOn with
  | _ i ih =>
    intro hi
    by_cases h0 : i = 0
    · subst h0; exact hc.refl _
    · exact hc.trans (ih ((i - 1) / 2) (by omega) (by omega)) (h i (by omega) hi)

structure UpInv (le : α → α → Prop) (n : Nat) (a : List α) (cur : Nat) : Prop where
  h1 : ∀ i, 0 < i → i < n → i ≠ cur → le (g a ((i - 1) / 2)) (g a i)
  h2 : 0 < cur → ∀ i, 0 < i → i < n → (i - 1) / 2 = cur →
    le (g a ((cur - 1) / 2)) (g a i)

theorem up_ok (hc : Weak cmp le) (v : α) (n : Nat) : ∀ (cur : Nat) (els : List α),
    n ≤ els.length → cur < n → UpInv le n (els.set cur v) cur →
    ∃ r, up cmp v els cur = some r ∧ r.length = els.length ∧ HeapOK le n r ∧
      (r.take n).Perm ((els.set cur v).take n) := by
  intro cur
  induction cur using Nat.strongRecOn with
  | _ cur ih =>
    intro els hn hcur hinv
    have hl : cur < els.length := by omega
    unfold up
    by_cases h0 : cur = 0
    · subst h0
      refine ⟨els.set 0 v, by simp [write, hl], by simp, ?_, List.Perm.refl _⟩
      intro i hi hin
      exact hinv.h1 i hi hin (by omega)
    · rw [dif_neg h0]
      have hp : (cur - 1) / 2 < els.length := by omega
      rw [g_some hp]
      simp only
      have hpc : (cur - 1) / 2 ≠ cur := by omega
      by_cases hle : cmp v (g els ((cur - 1) / 2)) ≤ 0
      · rw [if_pos hle]
        simp only [write, if_pos hl]
        -- the virtual array after the step
        have hvirt : ((els.set cur (g els ((cur - 1) / 2))).set ((cur - 1) / 2) v) =
            (((els.set cur v).set cur (g (els.set cur v) ((cur - 1) / 2))).set ((cur - 1) / 2)
              (g (els.set cur v) cur)) := by
          rw [List.set_set, g_set _ _ _ _ hl, g_set _ _ _ _ hl, if_neg hpc, if_pos rfl]
        have hread : ∀ j, g ((els.set cur (g els ((cur - 1) / 2))).set ((cur - 1) / 2) v) j =
            if j = (cur - 1) / 2 then v else if j = cur then g els ((cur - 1) / 2) else g els j := by
          intro j
          rw [g_set _ _ _ _ (by simpa using hp), g_set _ _ _ _ hl]
        have hold : ∀ j, g (els.set cur v) j = if j = cur then v else g els j := by
          intro j; rw [g_set _ _ _ _ hl]
        obtain ⟨r, hr1, hr2, hr3, hr4⟩ := ih ((cur - 1) / 2) (by omega)
          (els.set cur (g els ((cur - 1) / 2))) (by simpa using hn) (by omega) (by
            constructor
            · intro i hi hin hne
              rw [hread, hread]
              by_cases e1 : i = cur
              · subst e1
                rw [if_pos rfl, if_neg (Ne.symm hpc), if_pos rfl]; exact hc.of_le hle
              · have hb := hinv.h1 i hi hin e1
                rw [hold, hold, if_neg e1] at hb
                rw [if_neg hne, if_neg e1]
                by_cases e2 : (i - 1) / 2 = (cur - 1) / 2
                · rw [if_pos e2]
                  rw [e2, if_neg hpc] at hb
                  exact hc.trans (hc.of_le hle) hb
                · rw [if_neg e2]
                  by_cases e3 : (i - 1) / 2 = cur
                  · rw [if_pos e3]
                    have := hinv.h2 (by omega) i hi hin e3
                    rw [hold, hold, if_neg hpc, if_neg e1] at this
                    exact this
                  · rw [if_neg e3] at hb ⊢; exact hb
            · intro hp0 i hi hin he
              have hpp := hinv.h1 ((cur - 1) / 2) hp0 (by omega) hpc
              rw [hold, hold, if_neg (by omega), if_neg hpc] at hpp
              rw [hread, hread, if_neg (by omega), if_neg (by omega), if_neg (by omega)]
              by_cases e1 : i = cur
              · rw [if_pos e1]; exact hpp
              · rw [if_neg e1]
                have hb := hinv.h1 i hi hin e1
                rw [hold, hold, if_neg e1, he, if_neg hpc] at hb
                exact hc.trans hpp hb)
        refine ⟨r, hr1, by simpa using hr2, hr3, hr4.trans ?_⟩
        rw [hvirt]
        exact swap_perm _ _ _ _ (by simpa using hn) hcur (by omega)
      · rw [if_neg hle]
        refine ⟨els.set cur v, by simp [write, hl], by simp, ?_, List.Perm.refl _⟩
        intro i hi hin
        by_cases e : i = cur
        · subst e
          rw [g_set _ _ _ _ hl, g_set _ _ _ _ hl, if_neg hpc, if_pos rfl]
          exact hc.of_gt hle
        · exact hinv.h1 i hi hin e

structure DownInv (le : α → α → Prop) (n : Nat) (a : List α) (cur : Nat) : Prop where
  h1 : ∀ i, 0 < i → i < n → (i - 1) / 2 ≠ cur → le (g a ((i - 1) / 2)) (g a i)
  h2 : 0 < cur → ∀ i, 0 < i → i < n → (i - 1) / 2 = cur →
    le (g a ((cur - 1) / 2)) (g a i)

theorem child_spec (hc : Weak cmp le) (n : Nat) (els : List α) (cur : Nat) (hn : n ≤ els.length) :
    (child cmp n els cur = some none ∧ n ≤ cur * 2 + 1) ∨
    (∃ c, child cmp n els cur = some (some c) ∧ c < n ∧ 0 < c ∧ (c - 1) / 2 = cur ∧
      ∀ i, 0 < i → i < n → (i - 1) / 2 = cur → le (g els c) (g els i)) := by
  unfold child
  by_cases h1 : cur * 2 + 2 < n
  · rw [if_pos h1, g_some (show cur * 2 + 1 < els.length by omega),
      g_some (show cur * 2 + 2 < els.length by omega)]
    simp only
    right
    by_cases h2 : cmp (g els (cur * 2 + 1)) (g els (cur * 2 + 2)) < 0
    · rw [if_pos h2]
      refine ⟨_, rfl, by omega, by omega, by omega, ?_⟩
      intro i _ _ hi
      have : i = cur * 2 + 1 ∨ i = cur * 2 + 2 := by omega
      rcases this with rfl | rfl
      · exact hc.refl _
      · exact hc.of_le (by omega)
    · rw [if_neg h2]
      refine ⟨_, rfl, by omega, by omega, by omega, ?_⟩
      intro i _ _ hi
      have : i = cur * 2 + 1 ∨ i = cur * 2 + 2 := by omega
      rcases this with rfl | rfl
      · exact hc.of_ge h2
      · exact hc.refl _
  · rw [if_neg h1]
    by_cases h2 : cur * 2 + 1 ≥ n
    · rw [if_pos h2]; exact Or.inl ⟨rfl, by omega⟩
    · rw [if_neg h2]
      right
      refine ⟨_, rfl, by omega, by omega, by omega, ?_⟩
      intro i _ _ hi
      have : i = cur * 2 + 1 := by omega
      subst this
      exact hc.refl _

theorem down_ok (hc : Weak cmp le) (dv : α) (n : Nat) : ∀ (m cur : Nat) (els : List α),
    n - cur ≤ m → n ≤ els.length → cur < n → DownInv le n (els.set cur dv) cur →
    ∃ r, down cmp dv n els cur = some r ∧ r.length = els.length ∧ HeapOK le n r ∧
      (r.take n).Perm ((els.set cur dv).take n) := by
  intro m
  induction m with
  | zero => intro cur els hm hn hcur; omega
  | succ m ih =>
    intro cur els hm hn hcur hinv
    have hl : cur < els.length := by omega
    have hold : ∀ j, g (els.set cur dv) j = if j = cur then dv else g els j := by
      intro j; rw [g_set _ _ _ _ hl]
    unfold down
    rcases child_spec hc n els cur hn with ⟨hch, hle⟩ | ⟨c, hch, hcn, hc0, hcp, hmin⟩
    · rw [hch]
      simp only
      refine ⟨els.set cur dv, by simp [write, hl], by simp, ?_, List.Perm.refl _⟩
      intro i hi hin
      exact hinv.h1 i hi hin (by omega)
    · rw [hch]
      simp only
      have hcl : c < els.length := by omega
      have hcc : c ≠ cur := by omega
      rw [g_some hcl]
      simp only
      by_cases hle : cmp (g els c) dv ≤ 0
      · rw [if_pos hle]
        simp only [write, if_pos hl]
        have hvirt : ((els.set cur (g els c)).set c dv) =
            (((els.set cur dv).set cur (g (els.set cur dv) c)).set c (g (els.set cur dv) cur)) := by
          rw [List.set_set, g_set _ _ _ _ hl, g_set _ _ _ _ hl, if_neg hcc, if_pos rfl]
        have hread : ∀ j, g ((els.set cur (g els c)).set c dv) j =
            if j = c then dv else if j = cur then g els c else g els j := by
          intro j
          rw [g_set _ _ _ _ (by simpa using hcl), g_set _ _ _ _ hl]
        obtain ⟨r, hr1, hr2, hr3, hr4⟩ := ih c (els.set cur (g els c)) (by omega)
          (by simpa using hn) hcn (by
            constructor
            · intro i hi hin hne
              rw [hread, hread, if_neg hne]
              by_cases e1 : (i - 1) / 2 = cur
              · rw [if_pos e1]
                by_cases e2 : i = c
                · rw [if_pos e2]; exact hc.of_le hle
                · rw [if_neg e2, if_neg (by omega)]; exact hmin i hi hin e1
              · have hb := hinv.h1 i hi hin e1
                rw [hold, hold, if_neg e1] at hb
                rw [if_neg e1, if_neg (by rintro rfl; exact e1 hcp)]
                by_cases e3 : i = cur
                · subst e3
                  rw [if_pos rfl]
                  have := hinv.h2 hi c hc0 hcn hcp
                  rw [hold, hold, if_neg e1, if_neg hcc] at this
                  exact this
                · rw [if_neg e3] at hb ⊢; exact hb
            · intro _ i hi hin he
              rw [hread, hread, hcp, if_neg (Ne.symm hcc), if_pos rfl, if_neg (by omega),
                if_neg (by omega)]
              have hb := hinv.h1 i hi hin (by omega)
              rw [hold, hold, he, if_neg hcc, if_neg (by omega)] at hb
              exact hb)
        refine ⟨r, hr1, by simpa using hr2, hr3, hr4.trans ?_⟩
        rw [hvirt]
        exact swap_perm _ _ _ _ (by simpa using hn) hcur hcn
      · rw [if_neg hle]
        refine ⟨els.set cur dv, by simp [write, hl], by simp, ?_, List.Perm.refl _⟩
        intro i hi hin
        by_cases e : (i - 1) / 2 = cur
        · rw [hold, hold, if_pos e, if_neg (by omega)]
          exact hc.trans (hc.of_gt hle) (hmin i hi hin e)
        · exact hinv.h1 i hi hin e

/-- Representation: the first `size` slots are a heap and permute `m`. -/
structure Rep (le : α → α → Prop) (h : PQ α) (m : List α) : Prop where
  cap : 16 ≤ h.elements.length
  size_le : h.size ≤ h.elements.length
  heap : HeapOK le h.size h.elements
  perm : (h.elements.take h.size).Perm m

theorem Rep.size {h : PQ α} {m : List α} (hr : Rep le h m) : h.size = m.length := by
  have := hr.perm.length_eq
  have h2 := hr.size_le
  simp at this; omega

theorem HeapOK.congr {a b : List α} {n : Nat} (h : HeapOK le n a) (he : b.take n = a.take n) :
    HeapOK le n b := by
  intro i hi hin
  rw [g_take he hin, g_take he (by omega)]
  exact h i hi hin

theorem grow_ok (h : PQ α) (m : List α) (hr : Rep le h m) :
    Rep le h.grow m ∧ h.grow.size = h.size ∧ h.grow.size < h.grow.elements.length := by
  unfold PQ.grow
  have h16 := hr.cap
  have hle := hr.size_le
  split
  · rename_i hge
    have hlen : (copy (List.replicate (h.elements.length * 2) default) h.elements).length
        = h.elements.length * 2 := by simp [copy]; omega
    have ht := copy_take (List.replicate (h.elements.length * 2) default) h.elements h.size hle
      (by simp; omega)
    refine ⟨⟨?_, ?_, hr.heap.congr ht, ?_⟩, rfl, ?_⟩
    · simp only; omega
    · simp only; omega
    · simp only [ht]; exact hr.perm
    · simp only; omega
  · exact ⟨hr, rfl, by omega⟩

theorem put_ok (hc : Weak cmp le) (h : PQ α) (m : List α) (v : α) (hr : Rep le h m) :
    ∃ h', h.put cmp v = some h' ∧ Rep le h' (v :: m) := by
  obtain ⟨hr', hs, hlt⟩ := grow_ok h m hr
  obtain ⟨r, h1, h2, h3, h4⟩ := up_ok hc v (h.grow.size + 1) h.grow.size h.grow.elements
    (by omega) (by omega) (by
      constructor
      · intro i hi hin hne
        rw [g_set _ _ _ _ hlt, g_set _ _ _ _ hlt, if_neg hne, if_neg (by omega)]
        exact hr'.heap i hi (by omega)
      · intro _ i hi hin he; omega)
  refine ⟨⟨h.grow.size + 1, r⟩, by simp [PQ.put, h1], ?_, ?_, h3, h4.trans ?_⟩
  · have := hr'.cap; simp only; omega
  · simp only; omega
  · rw [List.take_add_one, List.getElem?_set_self hlt, List.take_set_of_le (by omega)]
    exact (List.perm_append_singleton _ _).trans (hr'.perm.cons v)

theorem pop_empty (h : PQ α) (hr : Rep le h []) :
    h.pop cmp = some (h, .val default false) := by
  have := hr.size
  simp at this
  simp [PQ.pop, this]

/-- The least element is at position zero. -/
theorem top_min (hc : Weak cmp le) (h : PQ α) (m : List α) (hr : Rep le h m) (hm : m ≠ []) :
    h.elements[0]? = some (g h.elements 0) ∧ g h.elements 0 ∈ m ∧
    ∀ y ∈ m, le (g h.elements 0) y := by
  have hs := hr.size
  have h16 := hr.cap
  have hle := hr.size_le
  have hpos : 0 < h.size := by
    have := List.length_pos_iff.2 hm; omega
  refine ⟨g_some (by omega), ?_, ?_⟩
  · refine hr.perm.subset ?_
    rw [List.mem_iff_getElem?]
    exact ⟨0, by rw [List.getElem?_take, if_pos hpos, g_some (by omega)]⟩
  · intro y hy
    have hy' := hr.perm.symm.subset hy
    rw [List.mem_iff_getElem?] at hy'
    obtain ⟨i, hi⟩ := hy'
    rw [List.getElem?_take] at hi
    split at hi
    · rename_i hlt
      rw [g_some (by omega)] at hi
      simp at hi
      rw [← hi]
      exact hr.heap.min hc i hlt
    · simp at hi

theorem pop_ok (hc : Weak cmp le) (h : PQ α) (m : List α) (hr : Rep le h m) (hm : m ≠ []) :
    ∃ h' m', h.pop cmp = some (h', .val (g h.elements 0) true) ∧ Rep le h' m' ∧
      m.Perm (g h.elements 0 :: m') := by
  have hs := hr.size
  have h16 := hr.cap
  have hle := hr.size_le
  have hpos : 0 < h.size := by
    have := List.length_pos_iff.2 hm; omega
  have hne : h.size ≠ 0 := by omega
  obtain ⟨s1, s2, s3, s4⟩ := slim_take ({ h with size := h.size - 1 } : PQ α) (by simp only; omega)
  simp only at s1 s2 s3 s4
  have e1 : h.size - 1 + 1 = h.size := by omega
  rw [e1] at s4
  generalize hq : PQ.slimming { h with size := h.size - 1 } = q at s1 s2 s3 s4
  have hg : ∀ i, i < h.size → g q.elements i = g h.elements i := fun i hi => g_take s4 hi
  have hfull : (q.elements.take h.size).Perm m := by rw [s4]; exact hr.perm
  by_cases h0 : h.size - 1 = 0
  · refine ⟨q, [], ?_, ?_, ?_⟩
    · have : q.size = 0 := by omega
      simp [PQ.pop, hne, g_some (show 0 < h.elements.length by omega), hq, this]
    · refine ⟨s3 (by omega), by omega, ?_, ?_⟩
      · intro i hi hin; omega
      · have : q.size = 0 := by omega
        simp [this]
    · have : h.size = 1 := by omega
      rw [this] at hfull
      have e : q.elements.take 1 = [g h.elements 0] := by
        rw [List.take_add_one, g_some (by omega), hg 0 (by omega)]; simp
      rw [e] at hfull
      exact hfull.symm
  · have hq0 : q.size ≠ 0 := by omega
    obtain ⟨r, d1, d2, d3, d4⟩ := down_ok hc (g q.elements q.size) q.size q.size 0 q.elements
      (by omega) (by omega) (by omega) (by
        constructor
        · intro i hi hin he
          rw [g_set _ _ _ _ (by omega), g_set _ _ _ _ (by omega), if_neg he, if_neg (by omega),
            hg _ (by omega), hg _ (by omega)]
          exact hr.heap i hi (by omega)
        · intro hh; omega)
    refine ⟨⟨q.size, r⟩, r.take q.size, ?_, ?_, ?_⟩
    · simp [PQ.pop, hne, g_some (show 0 < h.elements.length by omega), hq, hq0, g_some
        (show q.size < q.elements.length by omega), d1]
    · exact ⟨by have := s3 (by omega); simp only; omega, by simp only; omega, d3, List.Perm.refl _⟩
    · refine hfull.symm.trans ?_
      refine List.Perm.trans ?_ (d4.symm.cons _)
      -- the first `size` slots: top, middle, last
      rw [← hg 0 (by omega)]
      have hsz : h.size = q.size + 1 := by omega
      rw [hsz, List.take_add_one, g_some (by omega)]
      obtain ⟨x, xs, hx⟩ : ∃ x xs, q.elements.take q.size = x :: xs := by
        cases hxs : q.elements.take q.size with
        | nil => simp at hxs; rcases hxs with hxs | hxs
                 · omega
                 · simp [hxs] at s2
        | cons x xs => exact ⟨x, xs, rfl⟩
      have hx0 : g q.elements 0 = x := by
        have : (q.elements.take q.size)[0]? = some x := by rw [hx]; rfl
        rw [List.getElem?_take, if_pos (by omega), g_some (by omega)] at this
        simpa using this
      rw [List.take_set, hx, hx0]
      simp only [List.set_cons_zero, List.cons_append, Option.toList_some]
      exact (List.perm_append_singleton _ _).cons _


end Verif.Heap.Wk
