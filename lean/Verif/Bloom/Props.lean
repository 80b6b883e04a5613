import Verif.Bloom.Lemmas
import Verif.Common.History

/-! C15 - C17: the bloom filter. -/

namespace Verif.Bloom
variable {H : Hash64}

/-- The hash value of a key, from a fresh hash state. -/
def Hash64.of (H : Hash64) (key : List Byte) : Nat := (H.sum (H.write H.init key)).toNat

/-- The specification: `S` is the list of keys added since the last `Reset`, `c` the number of
bits. A key is reported present exactly when it collides with a key of `S`. -/
def spec (H : Hash64) (c : Nat) (S : List (List Byte)) : Op → List (List Byte) × Res
  | .add k => (k :: S, .bool (S.any fun a => H.of a % c == H.of k % c))
  | .contains k => (S, .bool (S.any fun a => H.of a % c == H.of k % c))
  | .reset => ([], .unit)
  | .hitSize => (S, .nat (S.map fun a => H.of a % c).dedup.length)
  | .cap => (S, .nat c)

/-- The number of bits of a filter made by `New(bitsCap)`: `bitsCap` rounded up to whole bytes. -/
def capOf (bitsCap : Nat) : Nat := 8 * ((bitsCap + 7) / 8)

/-- Representation invariant. -/
structure Inv (c : Nat) (bl : Bloom H) (S : List (List Byte)) : Prop where
  pos : 0 < c
  lt : c < 2 ^ 64
  cap : bl.cap = c
  len : 8 * bl.bits.length = c
  hs : bl.hs = H.init
  bits : ∀ i, bitAt bl.bits i = S.any fun a => H.of a % c == i
  hit : bl.hitSize = (S.map fun a => H.of a % c).dedup.length

theorem hit_le {c : Nat} (hc : 0 < c) (S : List (List Byte)) :
    (S.map fun a => H.of a % c).dedup.length ≤ c := by
  refine DLL.length_le_of_nodup_lt (List.nodup_dedup _) ?_
  intro a ha
  rw [List.mem_dedup, List.mem_map] at ha
  obtain ⟨k, -, rfl⟩ := ha
  exact Nat.mod_lt _ hc

theorem new_inv {bitsCap : Nat} (h1 : 1 ≤ bitsCap) (h2 : bitsCap ≤ 2 ^ 64 - 8) :
    Inv (capOf bitsCap) (new H bitsCap) [] := by
  have e1 : (bitsCap + 7) % 2 ^ 64 = bitsCap + 7 := Nat.mod_eq_of_lt (by omega)
  have e2 : (bitsCap + 7) >>> 3 = (bitsCap + 7) / 8 := by rw [Nat.shiftRight_eq_div_pow]
  have e3 : ((bitsCap + 7) / 8) <<< 3 = capOf bitsCap := by
    rw [Nat.shiftLeft_eq, capOf]; omega
  have e4 : capOf bitsCap < 2 ^ 64 := by unfold capOf; omega
  refine ⟨by unfold capOf; omega, e4, ?_, ?_, rfl, ?_, rfl⟩
  · simp only [new, e1, e2, e3]; exact Nat.mod_eq_of_lt e4
  · simp only [new, e1, e2, List.length_replicate, capOf]
  · intro i; simp only [new, bitAt_replicate, List.any_nil]

/-- The byte addressed by a key exists. -/
theorem Inv.byte {c : Nat} {bl : Bloom H} {S : List (List Byte)} (hi : Inv c bl S) (h : Nat) :
    ∃ b, bl.bits[(h % bl.cap) >>> 3]? = some b ∧
      ((b &&& mask (h % bl.cap)) != 0) = S.any fun a => H.of a % c == h % c := by
  have h1 : h % c < c := Nat.mod_lt _ hi.pos
  have h2 := hi.len
  have h3 : (h % c) / 8 < bl.bits.length := by omega
  have e : (h % c) >>> 3 = (h % c) / 8 := by rw [Nat.shiftRight_eq_div_pow]
  rw [hi.cap, e]
  refine ⟨bl.bits[(h % c) / 8], List.getElem?_eq_getElem h3, ?_⟩
  rw [and_mask, ← hi.bits]
  unfold bitAt
  rw [List.getElem?_eq_getElem h3]

theorem step_ok {c : Nat} (bl : Bloom H) (S : List (List Byte)) (o : Op) (hi : Inv c bl S) :
    ∃ bl', step bl o = some (bl', (spec H c S o).2) ∧ Inv c bl' (spec H c S o).1 := by
  have hc : bl.cap ≠ 0 := by rw [hi.cap]; have := hi.pos; omega
  cases o with
  | add k =>
    obtain ⟨b, hb, hex⟩ := hi.byte (H.of k)
    have he : H.of k = (H.sum (H.write bl.hs k)).toNat := by rw [hi.hs]; rfl
    have e8 : (H.of k % c) >>> 3 = (H.of k % c) / 8 := by rw [Nat.shiftRight_eq_div_pow]
    have hstep : step bl (.add k) = some (
        { bl with
          bits := bl.bits.set ((H.of k % bl.cap) >>> 3) (b ||| mask (H.of k % bl.cap))
          hitSize := if !(S.any fun a => H.of a % c == H.of k % c) then (bl.hitSize + 1) % 2 ^ 64
            else bl.hitSize
          hs := H.init }, (spec H c S (.add k)).2) := by
      simp only [step, addBytes, hc, if_false, pure, Bind.bind, ← he, hb, Option.bind_some,
        Option.map_some, hex, spec]
    refine ⟨_, hstep, hi.pos, hi.lt, hi.cap, ?_, rfl, ?_, ?_⟩
    · simpa using hi.len
    · intro i
      rw [hi.cap, e8] at hb
      simp only [hi.cap, e8]
      rw [bitAt_set hb, hi.bits, spec, List.any_cons, Bool.or_comm]
      congr 1
      rw [Bool.eq_iff_iff, decide_eq_true_iff, beq_iff_eq]
      exact eq_comm
    · have hle := hit_le (H := H) hi.pos (k :: S)
      have hlt := hi.lt
      simp only [spec, List.map_cons] at hle ⊢
      by_cases hm : (S.any fun a => H.of a % c == H.of k % c) = true
      · have : H.of k % c ∈ S.map fun a => H.of a % c := by
          simpa [List.any_eq_true] using hm
        rw [List.dedup_cons_of_mem this]
        simp [hm, hi.hit]
      · have : H.of k % c ∉ S.map fun a => H.of a % c := by
          simpa [List.any_eq_true] using hm
        rw [List.dedup_cons_of_notMem this] at hle ⊢
        simp only [List.length_cons] at hle ⊢
        rw [if_pos (by simpa using hm), hi.hit]
        exact Nat.mod_eq_of_lt (by omega)
  | contains k =>
    obtain ⟨b, hb, hex⟩ := hi.byte (H.of k)
    have he : H.of k = (H.sum (H.write bl.hs k)).toNat := by rw [hi.hs]; rfl
    have hstep : step bl (.contains k) = some ({ bl with hs := H.init },
        (spec H c S (.contains k)).2) := by
      simp only [step, containsBytes, hc, if_false, pure, Bind.bind, ← he, hb, Option.bind_some,
        Option.map_some, hex, spec]
    exact ⟨_, hstep, hi.pos, hi.lt, hi.cap, hi.len, rfl, hi.bits, hi.hit⟩
  | reset =>
    have hl : bl.bits.length ≠ 0 := by have := hi.pos; have := hi.len; omega
    refine ⟨reset bl, rfl, ?_⟩
    rw [reset_bits hl]
    refine ⟨hi.pos, hi.lt, hi.cap, by simpa using hi.len, hi.hs, ?_, rfl⟩
    intro i; simp only [bitAt_replicate, spec, List.any_nil]
  | hitSize => exact ⟨bl, by simp [step, spec, hi.hit], hi⟩
  | cap => exact ⟨bl, by simp [step, spec, hi.cap], hi⟩

theorem reach {bitsCap : Nat} (h1 : 1 ≤ bitsCap) (h2 : bitsCap ≤ 2 ^ 64 - 8) (os : List Op) :
    ∃ bl, run step (new H bitsCap) os = some (bl, (runSpec (spec H (capOf bitsCap)) [] os).2) ∧
      Inv (capOf bitsCap) bl (runSpec (spec H (capOf bitsCap)) [] os).1 :=
  run_refines (fun bl S => Inv (capOf bitsCap) bl S) (fun bl S o hR => step_ok bl S o hR) os
    (new H bitsCap) [] (new_inv h1 h2)

/-- C15 and C17: for every hash function, every history of a filter made by `New` gives exactly the
results of the specification; no call panics. Missing: capacities above 2^64 - 8, for which it is false (`C15_wraps`). -/
theorem C15_bloom_exact_partial {bitsCap : Nat} (h1 : 1 ≤ bitsCap) (h2 : bitsCap ≤ 2 ^ 64 - 8)
    (os : List Op) :
    ∃ bl, run step (new H bitsCap) os =
      some (bl, (runSpec (spec H (capOf bitsCap)) [] os).2) :=
  (reach h1 h2 os).imp fun _ h => h.1

/-- C15: no false negatives, directly on histories. Missing as in `C15_bloom_exact_partial`. -/
theorem C15_no_false_negative_partial {bitsCap : Nat} (h1 : 1 ≤ bitsCap) (h2 : bitsCap ≤ 2 ^ 64 - 8)
    (os₁ os₂ : List Op) (key : List Byte) (hr : Op.reset ∉ os₂) :
    ∃ bl bl' rs, run step (new H bitsCap) (os₁ ++ .add key :: os₂) = some (bl, rs) ∧
      step bl (.contains key) = some (bl', .bool true) := by
  obtain ⟨bl, h3, h4⟩ := reach (H := H) h1 h2 (os₁ ++ .add key :: os₂)
  obtain ⟨bl', h5, -⟩ := step_ok bl _ (.contains key) h4
  refine ⟨bl, bl', _, h3, ?_⟩
  rw [h5]
  suffices hk : key ∈ (runSpec (spec H (capOf bitsCap)) [] (os₁ ++ .add key :: os₂)).1 by
    simp only [spec, Option.some.injEq, Prod.mk.injEq, true_and, Res.bool.injEq, List.any_eq_true]
    exact ⟨key, hk, by simp⟩
  have keep : ∀ os : List Op, Op.reset ∉ os → ∀ S : List (List Byte), key ∈ S →
      key ∈ (runSpec (spec H (capOf bitsCap)) S os).1 := by
    intro os
    induction os with
    | nil => intro _ S h; exact h
    | cons o os ih =>
      intro hn S h
      simp only [List.mem_cons, not_or] at hn
      simp only [runSpec]
      refine ih hn.2 _ ?_
      cases o with
      | add k => exact List.mem_cons_of_mem _ h
      | reset => exact absurd rfl hn.1
      | _ => exact h
  have pre : ∀ os : List Op, ∀ S : List (List Byte),
      key ∈ (runSpec (spec H (capOf bitsCap)) S (os ++ .add key :: os₂)).1 := by
    intro os
    induction os with
    | nil => intro S; exact keep os₂ hr _ (List.mem_cons_self ..)
    | cons o os ih => intro S; simp only [List.cons_append, runSpec]; exact ih _
  exact pre os₁ []

/-- C15: `Add` returns what `Contains` would have returned. Missing as in `C15_bloom_exact_partial`. -/
theorem C15_add_reports_contains_partial {bitsCap : Nat} (h1 : 1 ≤ bitsCap) (h2 : bitsCap ≤ 2 ^ 64 - 8)
    (os : List Op) (key : List Byte) (bl : Bloom H) (rs : List Res)
    (hr : run step (new H bitsCap) os = some (bl, rs)) :
    (step bl (.add key)).map (·.2) = (step bl (.contains key)).map (·.2) ∧
    (step bl (.add key)).isSome := by
  obtain ⟨bl₀, h3, h4⟩ := reach (H := H) h1 h2 os
  rw [hr] at h3
  simp only [Option.some.injEq, Prod.mk.injEq] at h3
  obtain ⟨rfl, -⟩ := h3
  obtain ⟨b1, h5, -⟩ := step_ok bl _ (.add key) h4
  obtain ⟨b2, h6, -⟩ := step_ok bl _ (.contains key) h4
  rw [h5, h6]
  exact ⟨rfl, rfl⟩

/-- C17: in every reachable state the hit count is the number of set bits, at most the capacity,
and after `Reset` no bit is set. -/
theorem C17_hitsize {bitsCap : Nat} (h1 : 1 ≤ bitsCap) (h2 : bitsCap ≤ 2 ^ 64 - 8) (os : List Op)
    (bl : Bloom H) (rs : List Res) (hr : run step (new H bitsCap) os = some (bl, rs)) :
    bl.hitSize = (List.range bl.cap).countP (fun i => bitAt bl.bits i) ∧
    8 * bl.bits.length = bl.cap ∧ bl.hitSize ≤ bl.cap ∧
    ((reset bl).hitSize = 0 ∧ ∀ b ∈ (reset bl).bits, b = 0) := by
  obtain ⟨bl₀, h3, h4⟩ := reach (H := H) h1 h2 os
  rw [hr] at h3
  simp only [Option.some.injEq, Prod.mk.injEq] at h3
  obtain ⟨rfl, -⟩ := h3
  generalize (runSpec (spec H (capOf bitsCap)) [] os).1 = S at h4
  have hc := h4.cap
  refine ⟨?_, by rw [hc]; exact h4.len, ?_, ?_⟩
  · rw [h4.hit, List.countP_eq_length_filter]
    apply List.Perm.length_eq
    rw [List.perm_ext_iff_of_nodup (List.nodup_dedup _) (List.nodup_range.filter _)]
    intro a
    simp only [List.mem_dedup, List.mem_map, List.mem_filter, List.mem_range, h4.bits,
      List.any_eq_true, beq_iff_eq]
    constructor
    · rintro ⟨k, hk, rfl⟩
      exact ⟨by rw [hc]; exact Nat.mod_lt _ h4.pos, k, hk, rfl⟩
    · rintro ⟨-, k, hk, rfl⟩; exact ⟨k, hk, rfl⟩
  · rw [h4.hit, hc]; exact hit_le h4.pos S
  · have hl : bl.bits.length ≠ 0 := by have := h4.pos; have := h4.len; omega
    rw [reset_bits hl]
    exact ⟨rfl, fun b hb => (List.mem_replicate.1 hb).2⟩

/-! ### C16 -/

/-- C16 does not hold: a filter decoded from any encoding has no bits, and every `Add` and
`Contains` on it panics. -/
theorem C16_decoded_filter_panics (bl : Bloom H) (key : List Byte) :
    step (newByDecode H (encode bl)) (.contains key) = none ∧
    step (newByDecode H (encode bl)) (.add key) = none ∧
    ∀ bl₀ : Bloom H, step (decode bl₀ (encode bl)) (.contains key) = none := by
  have hb : ∀ bl₀ : Bloom H, (decode bl₀ (encode bl)).bits = [] := by
    intro bl₀; simp [decode, readBytes]
  have hcon : ∀ b : Bloom H, b.bits = [] → step b (.contains key) = none := by
    intro b h
    simp only [step, containsBytes, h]
    split <;> rfl
  have hadd : ∀ b : Bloom H, b.bits = [] → step b (.add key) = none := by
    intro b h
    simp only [step, addBytes, h]
    split <;> rfl
  exact ⟨hcon _ (hb _), hadd _ (hb _), fun bl₀ => hcon _ (hb bl₀)⟩

/-- What does survive the round trip: the hit count and the capacity. Missing: the bits, see
`C16_decoded_filter_panics`. -/
theorem C16_roundtrip_partial {bitsCap : Nat} (h1 : 1 ≤ bitsCap) (h2 : bitsCap ≤ 2 ^ 64 - 8)
    (os : List Op) (bl : Bloom H) (rs : List Res)
    (hr : run step (new H bitsCap) os = some (bl, rs)) :
    (newByDecode H (encode bl)).hitSize = bl.hitSize ∧ (newByDecode H (encode bl)).cap = bl.cap := by
  obtain ⟨-, h3, h4, -⟩ := C17_hitsize h1 h2 os bl rs hr
  obtain ⟨bl₀, h5, h6⟩ := reach (H := H) h1 h2 os
  rw [hr] at h5
  simp only [Option.some.injEq, Prod.mk.injEq] at h5
  obtain ⟨rfl, -⟩ := h5
  have hlt : bl.cap < 2 ^ 64 := by rw [h6.cap]; exact h6.lt
  simp only [newByDecode, decode, encode, List.append_assoc,
    readU64_be64 _ bl.hitSize (by omega), readU64_be64 _ bl.cap hlt]
  exact ⟨trivial, trivial⟩

/-- `New(0)` makes a filter on which every call panics. -/
theorem C15_cap_zero_panics (key : List Byte) :
    step (new H 0) (.add key) = none ∧ step (new H 0) (.contains key) = none := by
  constructor <;> rfl

/-- Non-vacuity: a hash adding up the bytes, nine bits wanted. -/
def sumHash : Hash64 :=
  { σ := BitVec 64, init := 0, write := fun s k => k.foldl (fun s b => s + b.setWidth 64) s,
    sum := id }

example : (run step (new sumHash 9) [.add [3], .add [3], .contains [19], .contains [4], .add [12],
    .hitSize, .cap, .reset, .contains [3], .hitSize]).map (·.2) =
    some [.bool false, .bool true, .bool true, .bool false, .bool false, .nat 2, .nat 16, .unit,
      .bool false, .nat 0] := by decide +kernel

/-- The hash the package uses, `hash/fnv` `New64` (FNV-1, 64 bits). -/
def fnv64 : Hash64 :=
  { σ := BitVec 64, init := 14695981039346656037,
    write := fun s k => k.foldl (fun s b => (s * 1099511628211) ^^^ b.setWidth 64) s, sum := id }

example : (run step (new fnv64 100) [.add [97], .contains [97], .contains [98]]).map (·.2) =
    some [.bool false, .bool true, .bool false] := by decide +kernel

end Verif.Bloom
