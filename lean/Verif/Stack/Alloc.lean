import Verif.Common.Amort
import Verif.Stack.Lemmas

/-! The memory asked for by the stack of segments (stack/listarray/stack.go). -/

namespace Verif.Stack
variable {α : Type} [Inhabited α]

/-- The cells asked for with `make` in one call of `s`: stack/listarray/stack.go:23-38 (`grow`,
called by `Push`). The list made by `Values` is not counted. -/
def GStack.cells (s : GStack α) : Op α → Nat
  | .push _ =>
    if s.top.cur + 1 = s.top.elements.length then
      match s.cache with
      | some _ => 0
      | none => if s.size ≤ 256 then s.size * 2 else 256 + s.size / 4
    else 0
  | _ => 0

/-- The cells of some segments. -/
def capSum (gs : List (Seg α)) : Nat := (gs.map fun g => g.elements.length).sum

/-- The cells a stack holds on to, in its segments and in the cached one. -/
def GStack.held (s : GStack α) : Nat := capSum (s.top :: s.down) + capSum s.cache.toList

/-- Each segment has at least a quarter of the cells below it. -/
def Geo : List (Seg α) → Prop
  | [] => True
  | g :: gs => capSum gs ≤ 4 * g.elements.length ∧ Geo gs

/-- Each segment but the first has at most twice the cells below it. -/
def Small (cap : Nat) : List (Seg α) → Prop
  | [] => True
  | g :: gs => (g.elements.length ≤ 2 * capSum gs ∨ gs = [] ∧ g.elements.length ≤ cap) ∧ Small cap gs

omit [Inhabited α] in
theorem capSum_cons (g : Seg α) (gs : List (Seg α)) :
    capSum (g :: gs) = g.elements.length + capSum gs := by simp [capSum]

omit [Inhabited α] in
theorem capSum_full : ∀ (gs : List (Seg α)), (∀ g ∈ gs, g.Full) →
    (gs.flatMap Seg.desc).length = capSum gs
  | [], _ => rfl
  | g :: gs, h => by
    have hg := (h g (by simp)).cur
    have := capSum_full gs fun g hg => h g (by simp [hg])
    rw [List.flatMap_cons, List.length_append, this, capSum_cons]
    simp only [Seg.desc, List.length_reverse, List.length_take]
    omega

structure GStack.Dim (s : GStack α) : Prop where
  wf : s.WF
  geo : Geo (s.top :: s.down)
  cache : ∀ c ∈ s.cache, capSum (s.top :: s.down) ≤ 4 * c.elements.length

structure GStack.Tight (cap : Nat) (s : GStack α) : Prop where
  small : Small cap (s.top :: s.down)
  cache : ∀ c ∈ s.cache, c.elements.length ≤ 2 * capSum (s.top :: s.down)

def GStack.pot (s : GStack α) : Nat :=
  match s.cache with
  | none => 10 * (s.top.cur + 1).toNat
  | some _ => 0

theorem GStack.size_full {s : GStack α} (h : s.WF) (hf : s.top.cur + 1 = s.top.elements.length) :
    s.size = capSum (s.top :: s.down) := by
  rw [h.size_eq]
  unfold content
  apply capSum_full
  intro g hg
  rcases List.mem_cons.1 hg with rfl | hg
  · exact ⟨h.cap, hf⟩
  · exact h.full g hg

omit [Inhabited α] in
theorem Geo.congr {g g' : Seg α} {gs : List (Seg α)} (h : Geo (g :: gs))
    (e : g'.elements.length = g.elements.length) : Geo (g' :: gs) := ⟨by rw [e]; exact h.1, h.2⟩

omit [Inhabited α] in
theorem Small.congr {cap : Nat} {g g' : Seg α} {gs : List (Seg α)} (h : Small cap (g :: gs))
    (e : g'.elements.length = g.elements.length) : Small cap (g' :: gs) := ⟨by rw [e]; exact h.1, h.2⟩

/-- What `grow` does to the lengths. -/
theorem GStack.grow_amort (cap : Nat) (v : α) (s : GStack α) (hD : s.Dim) :
    Geo (s.grow.top :: s.grow.down) ∧
    (∀ c ∈ s.grow.cache, capSum (s.grow.top :: s.grow.down) ≤ 4 * c.elements.length) ∧
    s.cells (.push v) + s.grow.pot ≤ s.pot ∧ (s.Tight cap → s.grow.Tight cap) := by
  obtain ⟨hw, hg, hc⟩ := hD
  unfold grow
  simp only [cells]
  by_cases hf : s.top.cur + 1 = s.top.elements.length
  · have hsz := size_full hw hf
    rw [if_pos hf, if_pos hf]
    cases hcache : s.cache with
    | some c =>
      have := hc c (by simp [hcache])
      refine ⟨⟨this, hg⟩, by simp, by simp [pot], fun hT => ⟨⟨.inl ?_, hT.small⟩, by simp⟩⟩
      exact hT.cache c (by simp [hcache])
    | none =>
      have hgl : (Seg.make (growSize s.size) : Seg α).elements.length = growSize s.size := by
        simp [Seg.make]
      have h1 := hg.1
      rw [capSum_cons] at hsz
      have hcur : (s.top.cur + 1).toNat = s.top.elements.length := by omega
      refine ⟨⟨?_, hg⟩, by simp [hcache], ?_, fun hT => ⟨⟨.inl ?_, hT.small⟩, by simp [hcache]⟩⟩
      · rw [hgl, capSum_cons]; unfold growSize; split <;> omega
      · simp only [pot, hcache, Seg.make, hcur]
        split <;> simp <;> omega
      · rw [hgl, capSum_cons]; unfold growSize; split <;> omega
  · rw [if_neg hf, if_neg hf]
    exact ⟨hg, hc, by omega, id⟩

theorem GStack.step_amort (cap : Nat) (s : GStack α) (o : Op α) (s' : GStack α) (r : Res α) (hD : s.Dim)
    (h : s.step o = some (s', r)) : s'.Dim ∧ s.cells o + s'.pot ≤ s.pot + 10 ∧
      (o ≠ .clear → s.Tight cap → s'.Tight cap) := by
  have same : s' = s → s'.Dim ∧ 0 + s'.pot ≤ s.pot + 10 ∧
      (o ≠ .clear → s.Tight cap → s'.Tight cap) := by
    rintro rfl
    exact ⟨hD, by omega, fun _ h => h⟩
  cases o with
  | push v =>
    simp only [step, Option.map_eq_some_iff, Prod.mk.injEq] at h
    obtain ⟨_, h, rfl, -⟩ := h
    obtain ⟨s'', e, hw, -⟩ := push_ok s v hD.wf
    rw [h] at e
    cases e
    obtain ⟨g1, g2, g3, g4⟩ := grow_amort cap v s hD
    have glo := (grow_ok s hD.wf).2.2.1
    unfold push at h
    simp only at h
    split at h
    · cases h
    · rename_i els hs
      cases h
      have hl : els.length = s.grow.top.elements.length := by
        unfold sliceSet at hs
        split at hs
        · cases hs; simp
        · cases hs
      refine ⟨⟨hw, g1.congr hl, ?_⟩, ?_, fun _ hT => ⟨(g4 hT).small.congr hl, ?_⟩⟩
      · intro c hc
        have := g2 c hc
        simp only [capSum_cons] at this ⊢
        omega
      · refine Nat.le_trans ?_ (Nat.add_le_add_right g3 10)
        simp only [pot]
        cases s.grow.cache with
        | none => simp only; omega
        | some c => simp only; omega
      · intro c hc
        have := (g4 hT).cache c hc
        simp only [capSum_cons] at this ⊢
        omega
  | pop =>
    simp only [step] at h
    have hw : s'.WF := by
      cases hc : s.content with
      | nil =>
        rw [pop_nil s hD.wf hc] at h
        cases h; exact hD.wf
      | cons v l =>
        obtain ⟨s'', e, hw, -⟩ := pop_cons s hD.wf hc
        rw [e] at h
        cases h; exact hw
    show _ ∧ 0 + s'.pot ≤ _ ∧ _
    unfold pop at h
    split at h
    · exact same (by cases h; rfl)
    · simp only at h
      split at h
      · rename_i d ds hcur hdown
        split at h
        · cases h
        · cases h
          have hg := hD.geo
          rw [hdown] at hg
          refine ⟨⟨hw, hg.2, ?_⟩, by simp [pot], fun _ hT => ⟨?_, ?_⟩⟩
          · intro c hc
            cases hc
            exact hg.1
          · have := hT.small; rw [hdown] at this; exact this.2
          · intro c hc
            cases hc
            have := hT.small; rw [hdown] at this
            rcases this.1 with h | ⟨h, -⟩
            · exact h
            · cases h
      · split at h
        · cases h
        · cases h
          refine ⟨⟨hw, hD.geo.congr rfl, hD.cache⟩, ?_, fun _ hT => ⟨hT.small.congr rfl, hT.cache⟩⟩
          simp only [pot]
          cases s.cache with
          | none => simp only; omega
          | some c => simp only; omega
  | peek =>
    simp only [step, peek] at h
    split at h
    · exact same (by cases h; rfl)
    · split at h
      · cases h
      · exact same (by cases h; rfl)
  | clear =>
    simp only [step, Option.some.injEq, Prod.mk.injEq] at h
    obtain ⟨rfl, -⟩ := h
    refine ⟨⟨clear_wf s hD.wf, ⟨by simp [capSum], trivial⟩, ?_⟩, ?_, fun h => absurd rfl h⟩
    · intro c hc
      have := hD.cache c hc
      simp only [capSum_cons] at this ⊢
      simp only [capSum, List.map_nil, List.sum_nil]
      omega
    · simp only [pot, cells]
      cases s.cache <;> simp
  | empty => simp only [step] at h; exact same (by cases h; rfl)
  | size => simp only [step] at h; exact same (by cases h; rfl)
  | values =>
    simp only [step, Option.map_eq_some_iff] at h
    obtain ⟨_, -, h⟩ := h
    exact same (by cases h; rfl)

theorem GStack.cells_le (s : GStack α) (o : Op α) (hD : s.Dim) : s.cells o ≤ s.pot + 10 := by
  cases o with
  | push v => have := (grow_amort 0 v s hD).2.2.1; omega
  | _ => simp [cells]

theorem GStack.newWithCap_dim {cap : Nat} (h : 1 ≤ cap) : (GStack.newWithCap cap : GStack α).Dim :=
  ⟨newWithCap_wf cap h, ⟨by simp [newWithCap, capSum], trivial⟩, by simp [newWithCap]⟩

theorem GStack.newWithCap_tight (cap : Nat) : (GStack.newWithCap cap : GStack α).Tight cap :=
  ⟨⟨.inr ⟨rfl, by simp [newWithCap, Seg.make]⟩, trivial⟩, by simp [newWithCap]⟩

/-- The cells held are few, when the top segment is over others. -/
theorem GStack.Tight.held_le {cap : Nat} {s : GStack α} (hD : s.Dim) (hT : s.Tight cap) :
    s.held ≤ 9 * s.size + 3 * cap := by
  have hdown : capSum s.down ≤ s.size := by
    rw [hD.wf.size_eq, ← capSum_full s.down hD.wf.full]
    simp [content]
  have hcache : capSum s.cache.toList ≤ 2 * capSum (s.top :: s.down) := by
    cases hc : s.cache with
    | none => simp [capSum]
    | some c =>
      have := hT.cache c (by simp [hc])
      simpa [capSum] using this
  unfold held
  rw [capSum_cons] at *
  rcases hT.small.1 with h | ⟨h, h'⟩
  · omega
  · omega

end Verif.Stack
