import Mathlib.Tactic.Common
import Mathlib.Tactic.SplitIfs
import Mathlib.Tactic.Conv
import Mathlib.Data.List.Basic

/-! Tactics and basic list lemmas used throughout. -/

namespace Verif

theorem nil_or_snoc {α : Type _} (l : List α) : l = [] ∨ ∃ xs x, l = xs ++ [x] := by
  rcases List.eq_nil_or_concat l with h | ⟨xs, x, h⟩
  · exact Or.inl h
  · exact Or.inr ⟨xs, x, by simpa using h⟩

end Verif
