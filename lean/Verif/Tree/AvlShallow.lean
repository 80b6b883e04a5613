import Verif.Tree.AvlProps
import Verif.Tree.AvlHeapProps

/-! C25, C28, C29 and C87 for maps of any size: a limit on what `Height()` answers instead of one on the number of entries. -/

namespace Verif.Avl

open Tree

variable {K V : Type} {cmp : K → K → Int}

/-- Before each call of the history `Height()` answers at most 126. -/
def Shallow (cmp : K → K → Int) (d : Int) (os : List (Op K V)) : Prop :=
  ∀ os₁ o os₂ m rs x, os = os₁ ++ o :: os₂ → run (step cmp false d) Map.new os₁ = some (m, rs) →
    step cmp false d m .height = some (m, .int x) → x ≤ 126

/-- A history that keeps the map shallow succeeds and keeps the invariant. -/
theorem run_shallow (hc : LawfulEx cmp) {d : Int} (h1 : 1 ≤ d) (h2 : d ≤ 127) {os : List (Op K V)}
    (hf : Shallow cmp d os) : ∃ m rs, run (step cmp false d) Map.new os = some (m, rs) ∧
      Inv cmp d m ∧ Rel cmp m (runSpec (spec (ord cmp)) [] os).1 := by
  suffices h : ∃ m rs, run (step cmp false d) Map.new os = some (m, rs) ∧ Inv cmp d m by
    obtain ⟨m, rs, h3, h4⟩ := h
    exact ⟨m, rs, h3, h4, run_state (step := step cmp false d) (spec := spec (ord cmp)) (Rel cmp)
      (fun s t o s' r hR h => step_state hc hR h) os _ _ _ _ Rel.new h3⟩
  refine run_guard (Inv cmp d) (fun m => m.root.height ≤ 126) (fun m op hI hG => ?_) os Map.new
    Inv.new (fun os₁ os₂ m rs he hne hr hI => ?_)
  · obtain ⟨m', r, h3, h4, -⟩ := step_ok hc (cfg_avl h1 h2) hI hG op
    exact ⟨m', r, h3, h4⟩
  · obtain ⟨o, os₃, rfl⟩ := List.exists_cons_of_ne_nil hne
    have h3 := hf os₁ o os₃ m rs _ he hr (step_height hI.rel)
    have h4 := hI.good.1.hgt
    omega

/-- Histories with few entries are shallow, so the theorems here cover those with `Fits`. -/
theorem shallow_of_fits (hc : LawfulEx cmp) {d : Int} (h1 : 1 ≤ d) (h2 : d ≤ 127) {os : List (Op K V)}
    (hf : Fits (ord cmp) d os) : Shallow cmp d os := by
  intro os₁ o os₂ m rs x he hr hx
  have hp : os₁ <+: os := ⟨o :: os₂, he.symm⟩
  obtain ⟨m', rs', h3, h4, h5⟩ := run_ok hc (cfg_avl h1 h2) (os := os₁) fun os₃ h => hf os₃ (h.trans hp)
  rw [hr] at h3
  cases h3
  rw [step_height h4.rel] at hx
  cases hx
  have h6 := height_of_room h5 h4.good (hf os₁ hp)
  have h7 := h4.good.1.hgt
  omega

/-- C25: no call panics and all answers are those of the ideal map, for maps of any size, as long as `Height()` is at most 126
before each call. Missing: calls on maps of height 127, which can panic (`C25_map_panics`). -/
theorem C25_map_shallow_partial (hc : LawfulEx cmp) {d : Int} (h1 : 1 ≤ d) (h2 : d ≤ 127)
    (os : List (Op K V)) (ha : ∀ op ∈ os, op.abstract = true) (hf : Shallow cmp d os) :
    ∃ m, run (step cmp false d) Map.new os = some (m, (runSpec (spec (ord cmp)) [] os).2) := by
  obtain ⟨m, rs, h3, -⟩ := run_shallow hc h1 h2 hf
  rw [C25_answers_right hc d os ha h3] at h3
  exact ⟨m, h3⟩

/-- C28 and C29: every legal history of calls on an iterator answers as the cursor `ispec` and never panics, on every map made
by a history before each call of which `Height()` is at most 126. Missing: maps after a call at height 127. -/
theorem C28_iterator_partial (hc : LawfulEx cmp) {d : Int} (h1 : 1 ≤ d) (h2 : d ≤ 127) {os : List (Op K V)}
    (hf : Shallow cmp d os) {m : Map K V} {rs : List (Res K V)} (hr : run (step cmp false d) Map.new os = some (m, rs))
    {xs : List (K × V)} (hx : xs = (runSpec (spec (ord cmp)) [] os).1) (ops : List (IOp K))
    (hl : LegalRun (ispec (ord cmp) false xs) (ilegal xs) none ops) :
    ∃ it it', m.iterator = some it ∧ run (istep cmp false m.root) it ops =
      some (it', (runSpec (ispec (ord cmp) false xs) none ops).2) ∧
      ∀ key, Seeks cmp false m.root xs it' key := by
  obtain ⟨m', rs', h3, hI, hR⟩ := run_shallow hc h1 h2 hf
  rw [hr] at h3
  cases h3
  rw [← hx] at hR
  obtain ⟨it, h3, h4⟩ := iterator_ok hI
  have hx' := hR.list
  clear hx
  subst hx'
  obtain ⟨it', h5, -, h6⟩ := iter_run hc false hR.sorted h4 ops hl
  exact ⟨it, it', h3, h5, h6⟩

/-- C28, scans. Missing as in `C28_iterator_partial`. -/
theorem C28_scan_partial (hc : LawfulEx cmp) {d : Int} (h1 : 1 ≤ d) (h2 : d ≤ 127) {os : List (Op K V)}
    (hf : Shallow cmp d os) {m : Map K V} {rs : List (Res K V)} (hr : run (step cmp false d) Map.new os = some (m, rs))
    {xs : List (K × V)} (hx : xs = (runSpec (spec (ord cmp)) [] os).1) :
    ∃ it it' it'', m.iterator = some it ∧
      run (istep cmp false m.root) it (scan false xs.length) = some (it', sees xs) ∧
      run (istep cmp false m.root) it (scan true xs.length) = some (it'', sees xs.reverse) := by
  obtain ⟨f1, f2⟩ := scan_forward_spec (o := ord cmp) (b := false) xs
  obtain ⟨b1, b2⟩ := scan_backward_spec (o := ord cmp) (b := false) xs
  obtain ⟨it, it', g1, g2, -⟩ := C28_iterator_partial hc h1 h2 hf hr hx _ f1
  obtain ⟨it2, it'', g3, g4, -⟩ := C28_iterator_partial hc h1 h2 hf hr hx _ b1
  rw [g1] at g3
  cases g3
  exact ⟨it, it', it'', g1, by rw [g2, f2], by rw [g4, b2]⟩

/-- C29, a seek from any state of the iterator. Missing as in `C28_iterator_partial`. -/
theorem C29_seek_partial (hc : LawfulEx cmp) {d : Int} (h1 : 1 ≤ d) (h2 : d ≤ 127) {os : List (Op K V)}
    (hf : Shallow cmp d os) {m : Map K V} {rs : List (Res K V)} (hr : run (step cmp false d) Map.new os = some (m, rs))
    {xs : List (K × V)} (hx : xs = (runSpec (spec (ord cmp)) [] os).1) (ops : List (IOp K))
    (hl : LegalRun (ispec (ord cmp) false xs) (ilegal xs) none ops) (key : K) :
    ∃ it it' rs', m.iterator = some it ∧ run (istep cmp false m.root) it ops = some (it', rs') ∧
      Seeks cmp false m.root xs it' key := by
  obtain ⟨it, it', h3, h4, h5⟩ := C28_iterator_partial hc h1 h2 hf hr hx ops hl
  exact ⟨it, it', _, h3, h4, h5 key⟩

/-- C27: heights are exact and with threshold `d ≥ 2` siblings differ by less than `d`, for maps of any size, as long as
`Height()` is at most 126 before each call. Missing: the default map (`C27_default_not_avl`), and maps after a call at height
127. -/
theorem C27_height_balance_shallow_partial (hc : LawfulEx cmp) {d : Int} (h1 : 1 ≤ d) (h2 : d ≤ 127) {os : List (Op K V)}
    (hf : Shallow cmp d os) {m : Map K V} {rs : List (Res K V)} (hr : run (step cmp false d) Map.new os = some (m, rs)) :
    m.height = some (m.root.height : Int) ∧ Exact m.root ∧ (2 ≤ d → Bal d m.root) := by
  obtain ⟨m', rs', h3, hI, hR⟩ := run_shallow hc h1 h2 hf
  rw [hr] at h3
  cases h3
  have h3 := step_height (one := false) (d := d) hR
  simp only [step, Option.map_eq_some_iff] at h3
  obtain ⟨hh, h4, h5⟩ := h3
  cases h5
  exact ⟨by rw [h4, hI.good.1.hgt], hI.good.1, hI.good.2⟩

/-- C87: the program on pointers follows no nil pointer and answers as the ideal map, as long as `Height()` is at most 126
before each call. Missing as in `C25_map_shallow_partial`. -/
theorem C87_avl_shallow_partial (hc : LawfulEx cmp) {d : Int} (h1 : 1 ≤ d) (h2 : d ≤ 127) (zero : V)
    (junk : K × V) (os : List (Op K V)) (ha : ∀ op ∈ os, op.abstract = true) (hf : Shallow cmp d os) :
    ∃ s, run (AvlHeap.step cmp false d zero) (AvlHeap.PMap.new junk) os =
      some (s, (runSpec (spec (ord cmp)) [] os).2) ∧ AvlHeap.IsTree s := by
  obtain ⟨m, h3⟩ := C25_map_shallow_partial hc h1 h2 os ha hf
  have h4 := AvlHeap.C87_same_answers cmp false d zero junk os
  rw [h3] at h4
  cases h5 : run (AvlHeap.step cmp false d zero) (AvlHeap.PMap.new junk) os with
  | none => rw [h5] at h4; cases h4
  | some q =>
    obtain ⟨s, rs⟩ := q
    rw [h5] at h4
    cases h4
    exact ⟨s, rfl, AvlHeap.C87_nodes_form_tree cmp false d zero junk os h5⟩

/-! ### Examples -/

/-- A test for `Shallow`. -/
def shallowB (cmp : K → K → Int) (d : Int) : Map K V → List (Op K V) → Bool
  | _, [] => true
  | m, o :: os => (m.height.all fun x => decide (x ≤ 126)) &&
      (step cmp false d m o).all fun p => shallowB cmp d p.1 os

theorem shallow_of_test {d : Int} : ∀ {os : List (Op K V)} {m₀ : Map K V}, shallowB cmp d m₀ os = true →
    ∀ os₁ o os₂ m rs x, os = os₁ ++ o :: os₂ → run (step cmp false d) m₀ os₁ = some (m, rs) →
      step cmp false d m .height = some (m, .int x) → x ≤ 126 := by
  intro os
  induction os with
  | nil => intro m₀ _ os₁ o os₂ m rs x he; simp at he
  | cons p os ih =>
    intro m₀ ht os₁ o os₂ m rs x he hr hx
    simp only [shallowB, Bool.and_eq_true] at ht
    cases os₁ with
    | nil =>
      cases hr
      simp only [step, Option.map_eq_some_iff] at hx
      obtain ⟨y, hy, hz⟩ := hx
      cases hz
      simpa [hy] using ht.1
    | cons q os₁ =>
      simp only [List.cons_append, List.cons.injEq] at he
      obtain ⟨rfl, rfl⟩ := he
      simp only [run] at hr
      cases h1 : step cmp false d m₀ p with
      | none => simp [h1] at hr
      | some s =>
        cases h2 : run (step cmp false d) s.1 os₁ with
        | none => simp [h1, h2] at hr
        | some u =>
          simp only [h1, h2, Option.some.injEq, Prod.mk.injEq] at hr
          obtain ⟨rfl, rfl⟩ := hr
          exact ih (by simpa [h1] using ht.2) os₁ o os₂ u.1 u.2 x rfl h2 hx

/-- The default map with 130 entries, more than `room 1`. -/
def many : List (Op Int Unit) := (List.range 130).map fun i => .put (i : Int) ()

theorem many_shallow : Shallow Compare.anyEx 1 many :=
  shallow_of_test (m₀ := Map.new) (by decide +kernel)

example : ¬ Fits (ord Compare.anyEx) 1 many := fun h => absurd (h many (List.prefix_refl _)) (by decide +kernel)

example : ∃ m, run (step Compare.anyEx false 1) Map.new many =
    some (m, (runSpec (spec (ord Compare.anyEx)) [] many).2) :=
  C25_map_shallow_partial anyEx_lawful (by decide) (by decide) many (by simp [many, Op.abstract]) many_shallow

example : ∃ m : Map Int Unit, m.size = 130 ∧ m.height = some (m.root.height : Int) := by
  obtain ⟨m, rs, h, -, hR⟩ := run_shallow anyEx_lawful (by decide) (by decide) many_shallow
  refine ⟨m, ?_, (C27_height_balance_shallow_partial anyEx_lawful (by decide) (by decide) many_shallow h).1⟩
  rw [hR.size]
  decide +kernel

example : ∃ (m : Map Int Unit) (it it' it'' : Iter Int Int Unit) (xs : List (Int × Unit)), m.iterator = some it ∧
    xs.length = 130 ∧
    run (istep Compare.anyEx false m.root) it (scan false xs.length) = some (it', sees xs) ∧
    run (istep Compare.anyEx false m.root) it (scan true xs.length) = some (it'', sees xs.reverse) := by
  obtain ⟨m, rs, h, -⟩ := run_shallow anyEx_lawful (by decide) (by decide) many_shallow
  obtain ⟨it, it', it'', h1, h2, h3⟩ := C28_scan_partial anyEx_lawful (by decide) (by decide) many_shallow h rfl
  exact ⟨m, it, it', it'', _, h1, by decide +kernel, h2, h3⟩

end Verif.Avl
