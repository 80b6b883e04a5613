import Verif.List.LinkedProps

/-! C24: the one step count for which `Move` of the circular iterator is wrong. -/

namespace Verif.LList

variable {T : Type} [Inhabited T]

/-- C24: `Move(-2^63)` of the circular iterator does not move, because `-step` overflows; `C24_move` is for all other counts.
It should go back 2^63 elements, which is another element unless 2^63 is a multiple of the length. -/
theorem C24_move_least (os : List (Op T)) (hl : LegalRun spec legal Sp.new os) (j i : Nat)
    (ha : At (ideal os).1 j i) :
    ∃ s s' rs, run step (St.new : St T) os = some (s, rs) ∧ step s (.cmove j (-2 ^ 63)) = some (s', .unit) ∧
      s'.l = s.l ∧ s'.cur = s.cur := by
  obtain ⟨s, hs, hr⟩ := reach os hl
  obtain ⟨c, h1, h2, -, -, -⟩ := ha.idxOf hr
  have hc : s.cur j = some c := by rw [hr.cur]; exact h2
  have h0 : c ≠ 0 := by rintro rfl; exact hr.inv.sent.1 h1
  have e : s.l.cmove (s.cur j) (-2 ^ 63) = some (some c) := by
    have hn : negRounds (-2 ^ 63) = 0 := by decide
    unfold LL.cmove
    split
    · rw [hc]
    · rw [if_neg (by decide), hn, hc, if_neg (by simpa using h0)]
      rfl
  refine ⟨s, { s with cur := upd s.cur j (some c) }, _, hs, by simp only [step, e, onCur, Option.map_some], rfl, ?_⟩
  funext k
  simp only [upd]
  split
  · next h => rw [h, hc]
  · rfl

/-- With three elements the move should end on another element. -/
example : ((0 : Int) + -2 ^ 63) % 3 = 1 ∧ ∃ s s' rs, run step (St.new : St Nat) sample = some (s, rs) ∧
    step s (.cmove 0 (-2 ^ 63)) = some (s', .unit) ∧ s'.l = s.l ∧ s'.cur = s.cur :=
  ⟨by decide, C24_move_least sample sample_ok.1 0 0 sample_ok.2.1⟩

end Verif.LList
