import Mathlib.Order.Lex
import Mathlib.Data.List.Lex
import Mathlib.Tactic.SplitIfs
import Mathlib.Algebra.Order.Ring.Int
import Verif.Compare.Model

/-!
C01, C02, C03: the comparators of compare/compare.go.
The specification is Lean's own order on `Int` and the lexicographic order on lists.
-/

namespace Verif.Compare

/-! ### C01 -/

/-- `c` reports the comparison of `a` with `b` under the strict order `lt`. -/
def Reports {κ : Type} (lt : κ → κ → Prop) (f : κ → κ → Int) : Prop :=
  ∀ a b, (f a b = -1 ↔ lt a b) ∧ (f a b = 1 ↔ lt b a) ∧ (f a b = 0 ↔ a = b) ∧
    (f a b = -1 ∨ f a b = 0 ∨ f a b = 1)

/-- C01: `Any` reports the order of the integers and `AnyDesc` the reverse order. -/
theorem C01_any_reports :
    Reports (· < ·) any ∧ Reports (· > ·) anyDesc ∧ ∀ a b, anyDesc a b = any b a := by
  refine ⟨?_, ?_, ?_⟩
  · intro a b; unfold any; split_ifs <;> simp <;> omega
  · intro a b; unfold anyDesc; split_ifs <;> simp <;> omega
  · intro a b; unfold anyDesc any; split_ifs <;> omega

/-- A comparator that reports a strict linear order is lawful. -/
theorem lawful_of_reports {κ : Type} {lt : κ → κ → Prop} {f : κ → κ → Int}
    (h : Reports lt f) (htr : ∀ a b c, lt a b → lt b c → lt a c) : Lawful f := by
  have hlt : ∀ a b, ordOf (f a b) = .lt ↔ lt a b := by
    intro a b; obtain ⟨h1, h2, h3, h4⟩ := h a b
    rw [← h1]; unfold ordOf; split_ifs <;> simp <;> omega
  have hgt : ∀ a b, ordOf (f a b) = .gt ↔ lt b a := by
    intro a b; obtain ⟨h1, h2, h3, h4⟩ := h a b
    rw [← h2]; unfold ordOf; split_ifs <;> simp <;> omega
  have heq : ∀ a b, ordOf (f a b) = .eq ↔ a = b := by
    intro a b; obtain ⟨h1, h2, h3, h4⟩ := h a b
    rw [← h3]; unfold ordOf; split_ifs <;> simp <;> omega
  apply transCmp_of
  · intro a b
    cases hba : ordOf (f b a)
    · exact (hgt a b).2 ((hlt b a).1 hba)
    · exact (heq a b).2 ((heq b a).1 hba).symm
    · exact (hlt a b).2 ((hgt b a).1 hba)
  · intro a b c hab hbc hac
    have hca := (hgt a c).1 hac
    cases h1 : ordOf (f a b)
    · exact hbc ((hgt b c).2 (htr _ _ _ hca ((hlt a b).1 h1)))
    · have := (heq a b).1 h1; subst this; exact hbc hac
    · exact hab h1

/-- C01: both scalar comparators are lawful (total, antisymmetric, transitive). -/
theorem C01_any_lawful : Lawful any ∧ Lawful anyDesc :=
  ⟨lawful_of_reports C01_any_reports.1 (by intro a b c; omega),
   lawful_of_reports C01_any_reports.2.1 (by intro a b c; omega)⟩

example : any 3 5 = -1 ∧ any 5 3 = 1 ∧ any (-2) (-2) = 0 ∧ anyDesc 3 5 = 1 := by decide

/-! ### C02 -/

section
variable {α : Type} [LinearOrder α]

theorem firstDiff_cases (a b : List α) :
    (∃ p x y s t, x ≠ y ∧ a = p ++ x :: s ∧ b = p ++ y :: t ∧ firstDiff a b = some (x, y)) ∨
    (∃ t, b = a ++ t ∧ firstDiff a b = none) ∨
    (∃ x t, a = b ++ x :: t ∧ firstDiff a b = none) := by
  induction a generalizing b with
  | nil => exact Or.inr (Or.inl ⟨b, by simp [firstDiff]⟩)
  | cons x xs ih =>
    cases b with
    | nil => exact Or.inr (Or.inr ⟨x, xs, by simp [firstDiff]⟩)
    | cons y ys =>
      by_cases hxy : x = y
      · subst hxy
        rcases ih ys with ⟨p, u, v, s, t, h1, h2, h3, h4⟩ | ⟨t, h1, h2⟩ | ⟨u, t, h1, h2⟩
        · exact Or.inl ⟨x :: p, u, v, s, t, h1, by simp [h2], by simp [h3], by simp [firstDiff, h4]⟩
        · exact Or.inr (Or.inl ⟨t, by simp [h1], by simp [firstDiff, h2]⟩)
        · exact Or.inr (Or.inr ⟨u, t, by simp [h1], by simp [firstDiff, h2]⟩)
      · exact Or.inl ⟨[], x, y, xs, ys, hxy, by simp, by simp, by simp [firstDiff, hxy]⟩

theorem lex_append_iff (p a b : List α) : p ++ a < p ++ b ↔ a < b := by
  induction p with
  | nil => simp
  | cons x p ih => simp [ih]

/-- C02: `ArrayAny` reports the lexicographic order. -/
theorem C02_arrayAny_reports : Reports (fun a b : List α => a < b) arrayAny := by
  intro a b
  have key : (arrayAny a b = -1 ∧ a < b) ∨ (arrayAny a b = 1 ∧ b < a) ∨
      (arrayAny a b = 0 ∧ a = b) := by
    rcases firstDiff_cases a b with ⟨p, x, y, s, t, hne, ha, hb, hf⟩ | ⟨t, hb, hf⟩ | ⟨x, t, ha, hf⟩
    · have hv : arrayAny a b = if x > y then 1 else -1 := by
        unfold arrayAny; simp only [hf, ite_self]
      rw [hv]
      rcases lt_or_gt_of_ne hne with h | h
      · left; refine ⟨by simp [not_lt.2 h.le], ?_⟩
        rw [ha, hb, lex_append_iff]; simp [List.cons_lt_cons_iff, h]
      · right; left; refine ⟨by simp [h], ?_⟩
        rw [ha, hb, lex_append_iff]; simp [List.cons_lt_cons_iff, h]
    · cases t with
      | nil =>
        right; right
        have : a = b := by simp [hb]
        refine ⟨?_, this⟩
        unfold arrayAny; rw [hf, this]; simp
      | cons y t =>
        left
        refine ⟨?_, ?_⟩
        · unfold arrayAny; rw [hf, hb]; simp
        · rw [hb]
          have := (lex_append_iff a [] (y :: t)).2 (by simp)
          simpa using this
    · right; left
      refine ⟨?_, ?_⟩
      · unfold arrayAny; rw [hf, ha]; simp
      · rw [ha]
        have := (lex_append_iff b [] (x :: t)).2 (by simp)
        simpa using this
  rcases key with ⟨h1, h2⟩ | ⟨h1, h2⟩ | ⟨h1, h2⟩ <;> rw [h1]
  · exact ⟨by simp [h2], by simp [lt_asymm h2], by simp [h2.ne], by simp⟩
  · exact ⟨by simp [lt_asymm h2], by simp [h2], by simp [h2.ne'], by simp⟩
  · subst h2; simp

/-- Specification of "by length, then lexicographic". -/
def LenLex (a b : List α) : Prop := a.length < b.length ∨ (a.length = b.length ∧ a < b)

/-- C02: `ArrayLenAny` reports the order by length and then lexicographically. -/
theorem C02_arrayLenAny_reports : Reports (LenLex (α := α)) arrayLenAny := by
  intro a b
  unfold LenLex
  rcases Nat.lt_trichotomy a.length b.length with h | h | h
  · have hv : arrayLenAny a b = -1 := by
      unfold arrayLenAny; rw [if_neg (by omega), if_pos h]
    have hne : a ≠ b := by intro e; subst e; omega
    rw [hv]
    exact ⟨by simp [h], by simp; omega, by simp [hne], by simp⟩
  · have hv : arrayLenAny a b = arrayAny a b := by
      unfold arrayLenAny arrayAny; simp [h]
    rw [hv]
    have := C02_arrayAny_reports a b
    simpa [h] using this
  · have hv : arrayLenAny a b = 1 := by
      unfold arrayLenAny; rw [if_pos h]
    have hne : a ≠ b := by intro e; subst e; omega
    rw [hv]
    exact ⟨by simp; omega, by simp [h], by simp [hne], by simp⟩

/-- C02: the `Desc` rune comparators are the reversed comparators. -/
theorem C02_runes_desc (a b : List α) :
    runesDesc a b = arrayAny b a ∧ runesLenDesc a b = arrayLenAny b a := ⟨rfl, rfl⟩

theorem reports_swap {κ : Type} {lt : κ → κ → Prop} {f g : κ → κ → Int} (h : Reports lt f)
    (hg : ∀ a b, g a b = f b a) : Reports (fun a b => lt b a) g := by
  intro a b
  obtain ⟨h1, h2, h3, h4⟩ := h b a
  rw [hg]
  exact ⟨h1, h2, by rw [h3]; exact eq_comm, h4⟩

theorem lenLex_trans (a b c : List α) (h1 : LenLex a b) (h2 : LenLex b c) : LenLex a c := by
  rcases h1 with h1 | ⟨h1, h1'⟩ <;> rcases h2 with h2 | ⟨h2, h2'⟩
  · left; omega
  · left; omega
  · left; omega
  · right; exact ⟨by omega, lt_trans h1' h2'⟩

/-- C02: all four sequence comparators are lawful. -/
theorem C02_array_lawful :
    Lawful (arrayAny (α := α)) ∧ Lawful (arrayLenAny (α := α)) ∧
    Lawful (runesDesc (α := α)) ∧ Lawful (runesLenDesc (α := α)) :=
  ⟨lawful_of_reports C02_arrayAny_reports (fun _ _ _ => lt_trans),
   lawful_of_reports C02_arrayLenAny_reports lenLex_trans,
   lawful_of_reports (reports_swap C02_arrayAny_reports fun _ _ => rfl)
     (fun _ _ _ h1 h2 => lt_trans h2 h1),
   lawful_of_reports (reports_swap C02_arrayLenAny_reports fun _ _ => rfl)
     (fun _ _ _ h1 h2 => lenLex_trans _ _ _ h2 h1)⟩

end

example : arrayAny [97, 98] [97, 98, 99] = -1 ∧ arrayAny [98] [97, 98, 99] = 1 ∧
    arrayLenAny [98] [97, 98, 99] = -1 ∧ runesDesc [98] [97, 98, 99] = -1 := by decide

/-! ### C03 -/

/-- C03 (scalar half): `AnyEx` describes the order of the integers in the search-tree convention. -/
theorem C03_anyEx_lawful_partial : LawfulEx anyEx ∧
    ∀ a b, exOrd (anyEx a b) = compare a b := by
  have hc : ∀ a b, exOrd (anyEx a b) = compare a b := by
    intro a b
    unfold exOrd anyEx
    rcases Int.lt_trichotomy a b with h | h | h
    · rw [compare_lt_iff_lt.2 h]; simp [h, not_lt.2 h.le]
    · subst h; simp
    · rw [compare_gt_iff_gt.2 h]; simp [h]
  refine ⟨⟨?_, ?_⟩, hc⟩
  · intro a b; unfold anyEx; split_ifs <;> simp
  · have : (fun a b => exOrd (anyEx a b)) = fun a b => compare a b := by
      funext a b; exact hc a b
    rw [this]; infer_instance

/-- C03 fails for `ArrayAnyEx`: it is not a total order, with the cycle
"a" < "b" < "aa" < "a". -/
theorem C03_arrayAnyEx_not_lawful : ¬ LawfulEx (arrayAnyEx (α := Nat)) := by
  intro h
  have ht := h.trans
  have h1 : exOrd (arrayAnyEx [97] [98]) = .lt := by decide
  have h2 : exOrd (arrayAnyEx [98] [97, 97]) = .lt := by decide
  have h3 : exOrd (arrayAnyEx [97, 97] [97]) = .lt := by decide
  have h12 := Ord.lt_trans (o := fun a b => exOrd (arrayAnyEx (α := Nat) a b)) h1 h2
  have h4 : exOrd (arrayAnyEx [97] [97, 97]) = .gt := by decide
  exact absurd (h12.symm.trans h4) (by decide)

/-- C03 (what remains true of `ArrayAnyEx`): on keys of one common length it describes the
lexicographic order. -/
theorem C03_arrayAnyEx_equal_length_partial {α : Type} [LinearOrder α] (a b : List α)
    (h : a.length = b.length) :
    (exOrd (arrayAnyEx a b) = .lt ↔ a < b) ∧ (exOrd (arrayAnyEx a b) = .gt ↔ b < a) ∧
    (exOrd (arrayAnyEx a b) = .eq ↔ a = b) := by
  obtain ⟨r1, r2, r3, -⟩ := C02_arrayAny_reports a b
  beta_reduce at r1 r2
  rw [← r1, ← r2, ← r3]
  unfold arrayAny arrayAnyEx
  simp only [h, gt_iff_lt, lt_self_iff_false, if_false]
  cases firstDiff a b with
  | none => simp [exOrd]
  | some p => obtain ⟨x, y⟩ := p; by_cases hxy : y < x <;> simp [hxy, exOrd]

example : ([97, 98] : List Nat).length = ([97, 99] : List Nat).length ∧
    exOrd (arrayAnyEx [97, 98] [97, 99]) = .lt := by decide

end Verif.Compare
