import Mathlib.Algebra.Order.Field.Basic
import Mathlib.Data.Rat.Floor
import Mathlib.Tactic.NormNum
import Mathlib.Tactic.Positivity
import Verif.Bloom.Props

/-! C111: `HitRatio` of filter/bloom/bloom.go. -/

namespace Verif.Bloom

variable {H : Hash64}

/-- What is used of the rounding to float64 (IEEE 754, any direction): it is monotone and keeps numbers that are floats:
integers up to 2^53, the powers of two up to 2^64 and down to 2^-64, and 1 - 2^-53. -/
structure Rounding where
  rnd : ℚ → ℚ
  mono : ∀ {x y : ℚ}, x ≤ y → rnd x ≤ rnd y
  int : ∀ n : Nat, n ≤ 2 ^ 53 → rnd n = n
  big : ∀ n : Nat, n ≤ 64 → rnd (2 ^ n) = 2 ^ n
  small : ∀ n : Nat, n ≤ 64 → rnd (1 / 2 ^ n) = 1 / 2 ^ n
  below : rnd (1 - 1 / 2 ^ 53) = 1 - 1 / 2 ^ 53

/-- bloom.go:109-111 `HitRatio`; `none` is NaN, the quotient of zero and zero. An infinite quotient would need hits in a
filter of no bits, in which `Add` panics. -/
def hitRatio (R : Rounding) (bl : Bloom H) : Option ℚ :=
  if bl.cap = 0 then none else some (R.rnd (R.rnd bl.hitSize / R.rnd bl.cap))

theorem Rounding.zero (R : Rounding) : R.rnd 0 = 0 := by simpa using R.int 0 (by norm_num)
theorem Rounding.one (R : Rounding) : R.rnd 1 = 1 := by simpa using R.int 1 (by norm_num)

theorem Rounding.nat_pos (R : Rounding) {n : Nat} (h : 0 < n) : 1 ≤ R.rnd n := by
  have : (1 : ℚ) ≤ n := by exact_mod_cast h
  simpa [R.one] using R.mono this

theorem Rounding.nat_le (R : Rounding) {n : Nat} (h : n ≤ 2 ^ 64) : R.rnd n ≤ 2 ^ 64 := by
  have : (n : ℚ) ≤ 2 ^ 64 := by exact_mod_cast h
  simpa [R.big 64 (le_refl _)] using R.mono this

/-- C111: after every history the ratio is a number from 0 to 1; it is 0 exactly when no bit is set. In a filter of at most
2^53 bits it is 1 exactly when all bits are set. -/
theorem C111_ratio (R : Rounding) {bitsCap : Nat} (h1 : 1 ≤ bitsCap) (h2 : bitsCap ≤ 2 ^ 64 - 8) (os : List Op) :
    ∃ bl rs q, run step (new H bitsCap) os = some (bl, rs) ∧ hitRatio R bl = some q ∧ 0 ≤ q ∧ q ≤ 1 ∧
      (q = 0 ↔ ∀ i, bitAt bl.bits i = false) ∧
      (bitsCap ≤ 2 ^ 53 → (q = 1 ↔ ∀ i < capOf bitsCap, bitAt bl.bits i = true)) := by
  obtain ⟨bl, h3, hi⟩ := reach (H := H) h1 h2 os
  have hn := C17_hitsize h1 h2 os bl _ h3
  have hc := hi.cap
  have hp := hi.pos
  have hl := hi.lt
  have hle : bl.hitSize ≤ bl.cap := hn.2.2.1
  have hx0 : (0 : ℚ) ≤ R.rnd bl.hitSize := by simpa [R.zero] using R.mono (show (0 : ℚ) ≤ bl.hitSize by positivity)
  have hcpos : 1 ≤ R.rnd bl.cap := R.nat_pos (by omega)
  have hcpos' : 0 < R.rnd bl.cap := lt_of_lt_of_le one_pos hcpos
  have hq1 : R.rnd bl.hitSize / R.rnd bl.cap ≤ 1 := by
    rw [div_le_one hcpos']; exact R.mono (by exact_mod_cast hle)
  refine ⟨bl, _, _, h3, by rw [hitRatio, if_neg (by omega)], ?_, ?_, ?_, fun hb => ?_⟩
  · simpa [R.zero] using R.mono (div_nonneg hx0 hcpos'.le)
  · simpa [R.one] using R.mono hq1
  · have hz : bl.hitSize = 0 ↔ ∀ i, bitAt bl.bits i = false := by
      rw [hn.1, List.countP_eq_zero]
      constructor
      · intro h i
        by_cases hlt : i < bl.cap
        · simpa using h i (List.mem_range.2 hlt)
        · have := hi.len
          unfold bitAt
          rw [List.getElem?_eq_none (by omega)]
      · intro h i _; simp [h i]
    rw [← hz]
    constructor
    · intro h
      by_contra hne
      have h5 : 1 ≤ R.rnd bl.hitSize := R.nat_pos (by omega)
      have h6 : R.rnd bl.cap ≤ 2 ^ 64 := R.nat_le (by omega)
      have h7 : (1 : ℚ) / 2 ^ 64 ≤ R.rnd bl.hitSize / R.rnd bl.cap :=
        div_le_div₀ hx0 h5 hcpos' h6
      have h8 := R.mono h7
      rw [R.small 64 (le_refl _), h] at h8
      norm_num at h8
    · intro h; simp [h, R.zero]
  · have hcb : bl.cap ≤ 2 ^ 53 := by rw [hc]; unfold capOf; omega
    have hf : bl.hitSize = bl.cap ↔ ∀ i < capOf bitsCap, bitAt bl.bits i = true := by
      rw [hn.1, ← hc]
      have := List.countP_eq_length (l := List.range bl.cap) (p := fun i => bitAt bl.bits i)
      rw [List.length_range] at this
      rw [this]
      simp only [List.mem_range]
    rw [← hf, R.int bl.hitSize (by omega), R.int bl.cap hcb]
    have hcq : (0 : ℚ) < bl.cap := by exact_mod_cast (show 0 < bl.cap by omega)
    constructor
    · intro h
      by_contra hne
      have hlt : bl.hitSize + 1 ≤ bl.cap := by omega
      have h5 : (bl.hitSize : ℚ) / bl.cap ≤ 1 - 1 / 2 ^ 53 := by
        have a1 : (bl.hitSize : ℚ) ≤ bl.cap - 1 := by
          have : ((bl.hitSize + 1 : Nat) : ℚ) ≤ bl.cap := by exact_mod_cast hlt
          push_cast at this; linarith
        have a2 : (bl.cap : ℚ) ≤ 2 ^ 53 := by exact_mod_cast hcb
        rw [div_le_iff₀ hcq]
        have a3 : 1 / 2 ^ 53 * (bl.cap : ℚ) ≤ 1 := by
          rw [one_div, inv_mul_le_iff₀ (by positivity)]; linarith
        linarith
      have h6 := R.mono h5
      rw [R.below, h] at h6
      norm_num at h6
    · intro h; rw [h, div_self hcq.ne', R.one]

/-- C111: the ratio does not fall as long as `Reset` is not called. -/
theorem C111_monotone (R : Rounding) {bitsCap : Nat} (h1 : 1 ≤ bitsCap) (h2 : bitsCap ≤ 2 ^ 64 - 8) (os : List Op) (o : Op)
    (ho : o ≠ .reset) :
    ∃ bl rs bl' r q q', run step (new H bitsCap) os = some (bl, rs) ∧ step bl o = some (bl', r) ∧
      hitRatio R bl = some q ∧ hitRatio R bl' = some q' ∧ q ≤ q' := by
  obtain ⟨bl, h3, hi⟩ := reach (H := H) h1 h2 os
  obtain ⟨bl', h4, hi'⟩ := step_ok bl _ o hi
  have hp := hi.pos
  have hle : bl.hitSize ≤ bl'.hitSize := by
    rw [hi.hit, hi'.hit]
    cases o with
    | reset => exact absurd rfl ho
    | add k =>
      simp only [spec, List.map_cons]
      by_cases hm : H.of k % capOf bitsCap ∈
          (runSpec (spec H (capOf bitsCap)) [] os).1.map fun a => H.of a % capOf bitsCap
      · rw [List.dedup_cons_of_mem hm]
      · rw [List.dedup_cons_of_notMem hm, List.length_cons]; omega
    | _ => exact le_refl _
  have e1 := hi.cap
  have e2 := hi'.cap
  refine ⟨bl, _, bl', _, _, _, h3, h4, by rw [hitRatio, if_neg (by omega)], by rw [hitRatio, if_neg (by omega)], ?_⟩
  apply R.mono
  rw [e1, e2]
  exact div_le_div_of_nonneg_right (R.mono (by exact_mod_cast hle)) (le_trans zero_le_one (R.nat_pos hp))

/-- C111: a filter of no bits has no ratio. -/
theorem C111_no_bits (R : Rounding) : hitRatio R (new H 0) = none := rfl

/-- C111: `HitSize` is the number of keys that `Contains` finds among any family of keys, one for each bit. So for a hash
that spreads keys evenly `HitRatio` is the rate of false positives, up to rounding. -/
theorem C111_positives {bitsCap : Nat} (h1 : 1 ≤ bitsCap) (h2 : bitsCap ≤ 2 ^ 64 - 8) (os : List Op)
    (g : Nat → List Byte) (hg : ∀ i < capOf bitsCap, H.of (g i) % capOf bitsCap = i) :
    ∃ bl rs, run step (new H bitsCap) os = some (bl, rs) ∧ bl.cap = capOf bitsCap ∧
      step bl .hitSize = some (bl, .nat ((List.range (capOf bitsCap)).countP fun i =>
        (step bl (.contains (g i))).map (·.2) = some (.bool true))) := by
  obtain ⟨bl, h3, hi⟩ := reach (H := H) h1 h2 os
  have hn := (C17_hitsize h1 h2 os bl _ h3).1
  refine ⟨bl, _, h3, hi.cap, ?_⟩
  simp only [step, Option.some.injEq, Prod.mk.injEq, Res.nat.injEq, true_and]
  rw [hn, hi.cap]
  apply List.countP_congr
  intro i hm
  obtain ⟨bl', h4, -⟩ := step_ok bl _ (.contains (g i)) hi
  have h5 := hg i (List.mem_range.1 hm)
  rw [hi.bits]
  simp only [step, spec, h5] at h4
  simp only [h4, Option.map_some, Option.some.injEq, Res.bool.injEq, decide_eq_true_eq]

/-! ### Examples -/

/-- Rounding down to multiples of 2^-64. -/
def exRounding : Rounding where
  rnd x := ⌊x * 2 ^ 64⌋ / 2 ^ 64
  mono {x y} h := by
    have : ⌊x * (2 : ℚ) ^ 64⌋ ≤ ⌊y * (2 : ℚ) ^ 64⌋ :=
      Int.floor_le_floor (mul_le_mul_of_nonneg_right h (by positivity))
    exact div_le_div_of_nonneg_right (by exact_mod_cast this) (by positivity)
  int n _ := by
    have : ((n : ℚ) * 2 ^ 64) = ((n * 2 ^ 64 : ℤ) : ℚ) := by push_cast; rfl
    rw [this, Int.floor_intCast]; push_cast; exact mul_div_cancel_right₀ _ (by positivity)
  big n _ := by
    have : ((2 : ℚ) ^ n * 2 ^ 64) = ((2 ^ n * 2 ^ 64 : ℤ) : ℚ) := by push_cast; rfl
    rw [this, Int.floor_intCast]; push_cast; exact mul_div_cancel_right₀ _ (by positivity)
  small n h := by
    have : ((1 : ℚ) / 2 ^ n * 2 ^ 64) = ((2 ^ (64 - n) : ℤ) : ℚ) := by
      push_cast
      rw [div_mul_eq_mul_div, one_mul, div_eq_iff (by positivity), ← pow_add]
      congr 1; omega
    rw [this, Int.floor_intCast]; push_cast
    rw [div_eq_div_iff (by positivity) (by positivity), one_mul, ← pow_add]
    congr 1; omega
  below := by norm_num

example : exRounding.rnd (1 / 3) ≠ 1 / 3 := by norm_num [exRounding]

example : ∃ bl rs q, run step (new fnv64 100) [.add [97], .contains [98], .add [98]] = some (bl, rs) ∧
    hitRatio exRounding bl = some q ∧ 0 ≤ q ∧ q ≤ 1 ∧ (q = 0 ↔ ∀ i, bitAt bl.bits i = false) ∧
    (100 ≤ 2 ^ 53 → (q = 1 ↔ ∀ i < capOf 100, bitAt bl.bits i = true)) :=
  C111_ratio exRounding (by decide) (by decide) _

/-- A hash that takes the last byte. -/
def lastByte : Hash64 := ⟨Byte, 0, fun s k => k.getLastD s, fun s => s.setWidth 64⟩

example : ∀ i < capOf 100, lastByte.of [BitVec.ofNat 8 i] % capOf 100 = i := by decide

end Verif.Bloom
