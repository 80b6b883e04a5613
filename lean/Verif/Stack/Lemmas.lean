import Verif.Stack.Model
import Verif.Common.Tac

/-! Helper lemmas for C04 and C05. -/

set_option linter.unusedSectionVars false

namespace Verif.Stack
variable {α : Type} [Inhabited α]

theorem writeDown_append (d1 d2 : List α) : ∀ (r : List α) (n : Int),
    writeDown r n (d1 ++ d2) = (writeDown r n d1).bind fun p => writeDown p.1 p.2 d2 := by
  induction d1 with
  | nil => intro r n; rfl
  | cons v d ih =>
    intro r n
    simp only [List.cons_append, writeDown]
    split
    · exact ih _ _
    · rfl

theorem writeDown_fill (d : List α) : ∀ (xs post : List α), xs.length = d.length →
    writeDown (xs ++ post) ((xs.length : Int) - 1) d = some (d.reverse ++ post, -1) := by
  induction d with
  | nil => intro xs post h; simp at h; subst h; rfl
  | cons v d ih =>
    intro xs post h
    have hne : xs ≠ [] := by intro hx; simp [hx] at h
    obtain ⟨ys, y, rfl⟩ : ∃ ys y, xs = ys ++ [y] :=
      ⟨xs.dropLast, xs.getLast hne, (List.dropLast_concat_getLast hne).symm⟩
    simp at h
    have h0 : ((ys ++ [y]).length : Int) - 1 = ys.length := by simp
    rw [h0]
    simp only [writeDown]
    rw [if_pos (by simp)]
    have : ((ys ++ [y] ++ post).set ((ys.length : Int)).toNat v) = ys ++ (v :: post) := by
      simp
    rw [this, ih ys (v :: post) h]
    simp

theorem LStack.values_eq (l : List α) : (LStack.values ⟨l, l.length⟩) = some l.reverse := by
  unfold LStack.values
  cases l with
  | nil => rfl
  | cons v l =>
    have := writeDown_fill (v :: l) (List.replicate (v :: l).length default) [] (by simp)
    simp only [List.append_nil, List.length_replicate] at this
    simp only
    rw [this]; simp

/-- The elements of a segment, top first. -/
def Seg.desc (g : Seg α) : List α := (g.elements.take (g.cur + 1).toNat).reverse

/-- The abstract content of the segmented stack, top first. -/
def GStack.content (s : GStack α) : List α := (s.top :: s.down).flatMap Seg.desc

structure Seg.Full (g : Seg α) : Prop where
  cap : 1 ≤ g.elements.length
  cur : g.cur + 1 = g.elements.length

/-- Representation invariant of the segmented stack. -/
structure GStack.WF (s : GStack α) : Prop where
  size_eq : s.size = s.content.length
  cap : 1 ≤ s.top.elements.length
  lo : -1 ≤ s.top.cur
  hi : s.top.cur < s.top.elements.length
  nonneg : s.down ≠ [] → 0 ≤ s.top.cur
  full : ∀ g ∈ s.down, g.Full
  cache : ∀ g ∈ s.cache, 1 ≤ g.elements.length

theorem GStack.newWithCap_wf (cap : Nat) (h : 1 ≤ cap) :
    (GStack.newWithCap cap : GStack α).WF := by
  constructor <;> simp [newWithCap, Seg.make, content, Seg.desc]
  · exact h
  · omega

theorem GStack.newWithCap_content (cap : Nat) : (GStack.newWithCap cap : GStack α).content = [] := by
  simp [newWithCap, Seg.make, content, Seg.desc]

theorem GStack.clear_content (s : GStack α) :
    GStack.content { s with top := { s.top with cur := -1 }, down := [], size := 0 } = [] := by
  simp [content, Seg.desc]

theorem GStack.clear_wf (s : GStack α) (h : s.WF) :
    GStack.WF { s with top := { s.top with cur := -1 }, down := [], size := 0 } := by
  constructor <;> simp [content, Seg.desc]
  · exact h.cap
  · have := h.cap; omega
  · exact h.cache

theorem Seg.desc_cons (g : Seg α) (h0 : 0 ≤ g.cur) (h1 : g.cur < g.elements.length) :
    ∃ v, sliceGet g.elements g.cur = some v ∧
      g.desc = v :: Seg.desc { g with cur := g.cur - 1 } := by
  obtain ⟨n, hn⟩ : ∃ n : Nat, g.cur = n := ⟨g.cur.toNat, by omega⟩
  have hlt : n < g.elements.length := by omega
  refine ⟨g.elements[n], ?_, ?_⟩
  · simp [sliceGet, hn, hlt]
  · have e1 : (g.cur + 1).toNat = n + 1 := by omega
    have e2 : (g.cur - 1 + 1).toNat = n := by omega
    simp only [Seg.desc, e1, e2, List.take_add_one, List.getElem?_eq_getElem hlt]
    simp

theorem Seg.desc_nil (g : Seg α) (h : g.cur < 0) : g.desc = [] := by
  have : (g.cur + 1).toNat = 0 := by omega
  simp [Seg.desc, this]

theorem Seg.Full.desc_ne {g : Seg α} (h : g.Full) : g.desc ≠ [] := by
  have h1 := h.cap; have h2 := h.cur
  obtain ⟨v, -, e⟩ := Seg.desc_cons g (by omega) (by omega)
  simp [e]

theorem GStack.content_nil {s : GStack α} (h : s.WF) (hc : s.content = []) :
    s.size = 0 := by simp [h.size_eq, hc]

theorem GStack.content_cons {s : GStack α} (h : s.WF) {v : α} {l : List α}
    (hc : s.content = v :: l) : s.size = l.length + 1 ∧ 0 ≤ s.top.cur ∧
      sliceGet s.top.elements s.top.cur = some v ∧
      Seg.desc { s.top with cur := s.top.cur - 1 } ++ s.down.flatMap Seg.desc = l := by
  have h0 : 0 ≤ s.top.cur := by
    by_contra hlt
    have hd : s.down = [] := by
      by_contra hne; exact hlt (h.nonneg hne)
    simp [content, hd, Seg.desc_nil s.top (by omega)] at hc
  obtain ⟨w, h1, h2⟩ := Seg.desc_cons s.top h0 h.hi
  simp [content, h2] at hc
  exact ⟨by simp [h.size_eq, content, h2, hc.2.symm], h0, by rw [h1, hc.1], hc.2⟩

theorem GStack.pop_nil (s : GStack α) (h : s.WF) (hc : s.content = []) :
    s.pop = some (s, .val default false) := by
  simp [pop, content_nil h hc]

theorem GStack.peek_nil (s : GStack α) (h : s.WF) (hc : s.content = []) :
    s.peek = some (s, .val default false) := by
  simp [peek, content_nil h hc]

theorem GStack.peek_cons (s : GStack α) (h : s.WF) {v : α} {l : List α}
    (hc : s.content = v :: l) : s.peek = some (s, .val v true) := by
  obtain ⟨h1, h2, h3, h4⟩ := content_cons h hc
  simp [peek, h1, h3]

theorem GStack.pop_cons (s : GStack α) (h : s.WF) {v : α} {l : List α}
    (hc : s.content = v :: l) : ∃ s', s.pop = some (s', .val v true) ∧ s'.WF ∧ s'.content = l := by
  obtain ⟨h1, h2, h3, h4⟩ := content_cons h hc
  obtain ⟨top, down, cache, size⟩ := s
  simp only at h1 h2 h3 h4
  have key : ∀ s' : GStack α, s' = ⟨{ top with cur := top.cur - 1 }, down, cache, size - 1⟩ →
      (down ≠ [] → top.cur ≠ 0) → s'.WF ∧ s'.content = l := by
    rintro s' rfl hne
    refine ⟨⟨?_, h.cap, ?_, ?_, ?_, h.full, h.cache⟩, ?_⟩
    · simp [content, h1, ← h4]
    · simp only; omega
    · have := h.hi; simp only at *; omega
    · intro hd; have := hne hd; simp only; omega
    · simp [content, ← h4]
  have hsz : size ≠ 0 := by omega
  by_cases hz : top.cur = 0
  · cases down with
    | nil =>
      refine ⟨⟨{ top with cur := top.cur - 1 }, [], cache, size - 1⟩, ?_, key _ rfl (by simp)⟩
      simp [pop, hsz, h3]
    | cons d ds =>
      refine ⟨⟨d, ds, some top, size - 1⟩, ?_, ?_⟩
      · simp only [pop, hsz, hz, if_neg, not_false_eq_true]
        rw [hz] at h3
        simp [h3]
      · have hd : d.Full := h.full d (by simp)
        have hnil : Seg.desc { top with cur := top.cur - 1 } = [] :=
          Seg.desc_nil _ (by simp only; omega)
        rw [hnil] at h4
        simp only [List.nil_append] at h4
        have hcap := hd.cap
        have hcur := hd.cur
        refine ⟨⟨?_, hd.cap, ?_, ?_, ?_, ?_, ?_⟩, ?_⟩
        · simp only [content, h4]; omega
        · simp only; omega
        · simp only; omega
        · intro _; simp only; omega
        · intro g hg; exact h.full g (by simp at hg ⊢; exact Or.inr hg)
        · intro g hg; simp at hg; subst hg; exact h.cap
        · simpa [content] using h4
  · refine ⟨⟨{ top with cur := top.cur - 1 }, down, cache, size - 1⟩, ?_, key _ rfl fun _ => hz⟩
    have hb : (top.cur == 0) = false := by simpa using hz
    simp [pop, hsz, hb, h3]

/-- After `grow` the top segment has room, and the content is unchanged. -/
theorem GStack.grow_ok (s : GStack α) (h : s.WF) :
    s.grow.content = s.content ∧ s.grow.size = s.size ∧
    -1 ≤ s.grow.top.cur ∧ s.grow.top.cur + 1 < s.grow.top.elements.length ∧
    (∀ g ∈ s.grow.down, g.Full) ∧ (∀ g ∈ s.grow.cache, 1 ≤ g.elements.length) := by
  obtain ⟨top, down, cache, size⟩ := s
  have hhi := h.hi; have hlo := h.lo; have hcap := h.cap
  simp only at hhi hlo hcap
  unfold grow
  simp only
  split
  · rename_i hfull
    have hfullSeg : top.Full := ⟨hcap, hfull⟩
    have hfl : ∀ g ∈ top :: down, g.Full := by
      intro g hg
      rcases List.mem_cons.1 hg with rfl | hg
      · exact hfullSeg
      · exact h.full g hg
    cases cache with
    | some c =>
      have hc := h.cache c (by simp)
      refine ⟨by simp [content, Seg.desc], rfl, by simp, ?_, hfl, by simp⟩
      simp; omega
    | none =>
      have hs : 1 ≤ size := by
        have := h.size_eq
        obtain ⟨v, -, e⟩ := Seg.desc_cons top (by omega) hhi
        simp [content, e] at this
        omega
      refine ⟨by simp [content, Seg.desc, Seg.make], rfl, by simp [Seg.make], ?_, hfl, by simp⟩
      simp [Seg.make, growSize]
      split <;> omega
  · exact ⟨rfl, rfl, hlo, by simp only; omega, h.full, h.cache⟩

theorem GStack.push_ok (s : GStack α) (v : α) (h : s.WF) :
    ∃ s', s.push v = some s' ∧ s'.WF ∧ s'.content = v :: s.content := by
  obtain ⟨g1, g2, g3, g4, g5, g6⟩ := grow_ok s h
  obtain ⟨n, hn⟩ : ∃ n : Nat, s.grow.top.cur + 1 = n := ⟨(s.grow.top.cur + 1).toNat, by omega⟩
  have hlt : n < s.grow.top.elements.length := by omega
  have hcont : GStack.content { s.grow with
      top := ⟨s.grow.top.elements.set n v, s.grow.top.cur + 1⟩, size := s.grow.size + 1 }
      = v :: s.content := by
    rw [← g1]
    have e1 : (s.grow.top.cur + 1 + 1).toNat = n + 1 := by omega
    have e2 : (s.grow.top.cur + 1).toNat = n := by omega
    simp only [content, List.flatMap_cons, Seg.desc, e1, e2]
    rw [List.take_add_one, List.getElem?_set_self hlt, List.take_set_of_le (by omega)]
    simp
  refine ⟨{ s.grow with top := ⟨s.grow.top.elements.set n v, s.grow.top.cur + 1⟩,
                        size := s.grow.size + 1 }, ?_, ?_, hcont⟩
  · have hc : (0:Int) ≤ (n:Int) ∧ ((n:Int)).toNat < s.grow.top.elements.length := by
      constructor
      · omega
      · simpa using hlt
    simp only [push, hn, sliceSet, if_pos hc]
    simp
  · refine ⟨?_, ?_, ?_, ?_, ?_, g5, g6⟩
    · rw [hcont]; simp [g2, h.size_eq]
    · simp; omega
    · simp only; omega
    · simp; omega
    · intro _; simp only; omega

theorem segLoop_eq (g : Seg α) (h0 : -1 ≤ g.cur) (h1 : g.cur < g.elements.length) (m : Nat) :
    ∀ (i : Nat) (r : List α) (n : Int), g.cur + 1 ≤ i + m →
    segLoop g (List.range' i m) r n
      = writeDown r n (g.elements.take ((g.cur + 1).toNat - i)).reverse := by
  obtain ⟨c, hc⟩ : ∃ c : Nat, g.cur + 1 = c := ⟨(g.cur + 1).toNat, by omega⟩
  have hcn : (g.cur + 1).toNat = c := by omega
  rw [hcn]
  induction m with
  | zero =>
    intro i r n h
    have : c - i = 0 := by omega
    simp [segLoop, this, writeDown]
  | succ m ih =>
    intro i r n h
    rw [List.range'_succ]
    simp only [segLoop]
    by_cases hi : g.cur ≥ i
    · rw [if_pos hi]
      have hlt : c - i - 1 < g.elements.length := by omega
      have hget : sliceGet g.elements (g.cur - i) = some g.elements[c - i - 1] := by
        have e : (g.cur - (i:Int)) = ((c - i - 1 : Nat) : Int) := by omega
        simp [sliceGet, e, hlt]
      have htake : (g.elements.take (c - i)).reverse
          = g.elements[c - i - 1] :: (g.elements.take (c - (i + 1))).reverse := by
        have e : c - i = (c - i - 1) + 1 := by omega
        have e2 : c - (i + 1) = c - i - 1 := by omega
        rw [e2]
        conv_lhs => rw [e]
        rw [List.take_add_one, List.getElem?_eq_getElem hlt]
        simp
      rw [hget, htake]
      simp only [writeDown, sliceSet]
      split
      · rename_i hh
        split at hh
        · simp at hh
        · rename_i hb; rw [if_neg hb]
      · rename_i r' hh
        split at hh
        · rename_i hb
          rw [if_pos hb]
          simp at hh; subst hh
          exact ih (i + 1) _ _ (by push_cast; omega)
        · simp at hh
    · rw [if_neg hi, ih (i + 1) r n (by push_cast; omega)]
      have e1 : c - i = 0 := by omega
      have e2 : c - (i + 1) = 0 := by omega
      simp [e1, e2]

theorem segsLoop_eq (gs : List (Seg α))
    (h : ∀ g ∈ gs, -1 ≤ g.cur ∧ g.cur < g.elements.length) : ∀ (r : List α) (n : Int),
    segsLoop gs r n = writeDown r n (gs.flatMap Seg.desc) := by
  induction gs with
  | nil => intro r n; rfl
  | cons g gs ih =>
    intro r n
    have hg := h g (by simp)
    simp only [segsLoop, List.flatMap_cons, writeDown_append]
    rw [List.range_eq_range', segLoop_eq g hg.1 hg.2 _ 0 r n (by omega)]
    simp only [Nat.sub_zero]
    rw [show (List.take (g.cur + 1).toNat g.elements).reverse = g.desc from rfl]
    cases writeDown r n g.desc with
    | none => rfl
    | some p =>
      obtain ⟨r', n'⟩ := p
      exact ih (fun g hg => h g (by simp [hg])) r' n'

theorem GStack.values_eq (s : GStack α) (h : s.WF) : s.values = some s.content.reverse := by
  unfold values
  rw [segsLoop_eq]
  · have := writeDown_fill s.content (List.replicate s.size default) [] (by simp [h.size_eq])
    simp only [List.append_nil, List.length_replicate] at this
    rw [show (s.top :: s.down).flatMap Seg.desc = s.content from rfl, this]
    rfl
  · intro g hg
    rcases List.mem_cons.1 hg with rfl | hg
    · exact ⟨h.lo, h.hi⟩
    · have := (h.full g hg).cur
      omega

end Verif.Stack
