import Verif.Bloom.Model
import Verif.Common.Tac
import Verif.Common.DLL
import Mathlib.Data.List.Dedup
import Mathlib.Data.List.Perm.Basic

/-! Helper lemmas for C15 - C17. -/

namespace Verif.Bloom
variable {H : Hash64}

/-- Bit `i` of the buffer. -/
def bitAt (bits : List Byte) (i : Nat) : Bool :=
  match bits[i / 8]? with
  | some b => b.getLsbD (i % 8)
  | none => false

theorem mask_eq (i : Nat) : mask i = BitVec.twoPow 8 (i % 8) := by
  apply BitVec.eq_of_toNat_eq
  simp [mask, BitVec.twoPow]

theorem and_mask (b : Byte) (i : Nat) : ((b &&& mask i) != 0) = b.getLsbD (i % 8) := by
  rw [mask_eq, BitVec.and_twoPow]
  have h : i % 8 < 8 := Nat.mod_lt _ (by decide)
  have hne : BitVec.twoPow 8 (i % 8) ≠ 0 := by
    intro e
    have := congrArg (fun x : BitVec 8 => x.getLsbD (i % 8)) e
    simp [h] at this
  cases hb : b.getLsbD (i % 8)
  · simp
  · simpa using hne

theorem or_mask (b : Byte) (i j : Nat) (hj : j < 8) :
    (b ||| mask i).getLsbD j = (b.getLsbD j || decide (j = i % 8)) := by
  rw [mask_eq, BitVec.getLsbD_or, BitVec.getLsbD_twoPow]
  have h : i % 8 < 8 := Nat.mod_lt _ (by decide)
  simp [hj, h, eq_comm]

theorem bitAt_set {bits : List Byte} {i : Nat} {b : Byte} (hb : bits[i / 8]? = some b) (j : Nat) :
    bitAt (bits.set (i / 8) (b ||| mask i)) j = (bitAt bits j || decide (j = i)) := by
  have hl : i / 8 < bits.length := by
    by_contra h
    rw [List.getElem?_eq_none (by omega)] at hb
    simp at hb
  unfold bitAt
  by_cases e : i / 8 = j / 8
  · rw [← e, List.getElem?_set_self hl, hb]
    simp only
    rw [or_mask _ _ _ (Nat.mod_lt _ (by decide))]
    congr 1
    apply decide_eq_decide.2
    constructor
    · intro h; omega
    · rintro rfl; rfl
  · rw [List.getElem?_set_ne e]
    have : j ≠ i := by rintro rfl; exact e rfl
    simp [this]

theorem clearLoop_zero (bits : List Byte) (bp : Nat) (h0 : 0 < bp)
    (hz : ∀ i, i < bp → i < bits.length → bits[i]? = some 0) :
    clearLoop bits bp = List.replicate bits.length 0 := by
  induction bits, bp using clearLoop.induct with
  | case1 bits bp h ih =>
    rw [clearLoop, dif_pos h]
    have hlen : (copyUp bits bp).length = bits.length := by
      simp only [copyUp, List.length_append, List.length_take, List.length_drop]; omega
    rw [ih (by omega), hlen]
    intro i hi hl
    rw [hlen] at hl
    unfold copyUp
    by_cases h1 : i < bp
    · rw [List.append_assoc, List.getElem?_append_left (by simp; omega), List.getElem?_take_of_lt h1]
      exact hz i h1 (by omega)
    · have h2 : i - bp < min (bits.length - bp) bp := by omega
      rw [List.append_assoc, List.getElem?_append_right (by simp; omega),
        List.getElem?_append_left (by simp; omega), List.getElem?_take_of_lt (by simp; omega)]
      exact hz _ (by simp; omega) (by simp; omega)
  | case2 bits bp h =>
    rw [clearLoop, dif_neg h]
    apply List.ext_getElem?
    intro i
    by_cases hi : i < bits.length
    · rw [hz i (by omega) hi]
      simp [hi]
    · rw [List.getElem?_eq_none (by omega), List.getElem?_eq_none (by simp; omega)]

theorem reset_bits {bl : Bloom H} (h : bl.bits.length ≠ 0) :
    reset bl = { bl with bits := List.replicate bl.bits.length 0, hitSize := 0 } := by
  unfold reset
  rw [if_neg h, clearLoop_zero _ 1 (by decide)]
  · simp
  · intro i hi hl
    have : i = 0 := by omega
    subst this
    rw [List.length_set] at hl
    rw [List.getElem?_set_self hl]

theorem bitAt_replicate (n i : Nat) : bitAt (List.replicate n 0) i = false := by
  unfold bitAt
  rw [List.getElem?_replicate]
  split
  · rename_i b h
    split at h <;> simp at h
    subst h; simp
  · rfl

theorem readU64_be64 (old n : Nat) (hn : n < 2 ^ 64) (rest : List Byte) :
    readU64 old (be64 n ++ rest) = (n, rest) := by
  have hl : ¬ (be64 n ++ rest).length < 8 := by simp [be64]
  unfold readU64
  rw [if_neg hl]
  have h8 : (be64 n).length = 8 := by simp [be64]
  rw [List.take_left' h8, List.drop_left' h8]
  congr 1
  simp only [be64, List.map_cons, List.map_nil, List.foldl_cons, List.foldl_nil,
    BitVec.toNat_ofNat, Nat.shiftRight_eq_div_pow]
  omega

end Verif.Bloom
