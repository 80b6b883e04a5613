import Mathlib.Data.Int.ModEq
import Verif.Bloom.Value

/-! C109: the bloom filter with Go values as keys. -/

namespace Verif.Bloom

variable {H : Hash64}

/-! ### The bytes of values of one type -/

theorem length_beBytes {w : Nat} (x : BitVec (8 * w)) : (beBytes w x).length = w := by simp [beBytes]

theorem beBytes_inj {w : Nat} {x y : BitVec (8 * w)} (h : beBytes w x = beBytes w y) : x = y := by
  simp only [beBytes, List.map_inj_left, List.mem_reverse, List.mem_range] at h
  apply BitVec.eq_of_getLsbD_eq
  intro i hi
  have h1 := congrArg (fun z => BitVec.getLsbD z (i % 8)) (h (i / 8) (by omega))
  simp only [BitVec.getLsbD_setWidth, BitVec.getLsbD_ushiftRight] at h1
  have h2 : 8 * (i / 8) + i % 8 = i := by omega
  have h3 : i % 8 < 8 := Nat.mod_lt _ (by decide)
  simpa [h2, h3] using h1

theorem length_flatMap_const {α : Type} {f : α → List Byte} {s : Nat} (h : ∀ a, (f a).length = s) :
    ∀ l : List α, (l.flatMap f).length = l.length * s
  | [] => by simp
  | a :: l => by
    rw [List.flatMap_cons, List.length_append, h, length_flatMap_const h l, List.length_cons, Nat.succ_mul]; omega

theorem length_enc : ∀ (t : Ty) {s : Nat}, t.size = some s → ∀ v, (t.enc v).length = s
  | .bool, s, h, v => by cases h; rfl
  | .num w, s, h, v => by cases h; exact length_beBytes v
  | .word, s, h, v => by cases h
  | .str, s, h, v => by cases h
  | .slice t, s, h, v => by cases h
  | .unit, s, h, v => by cases h; rfl
  | .pair a b, s, h, v => by
    simp only [Ty.size, Option.bind_eq_some_iff, Option.map_eq_some_iff] at h
    obtain ⟨x, hx, y, hy, rfl⟩ := h
    simp only [Ty.enc, List.length_append, length_enc a hx, length_enc b hy]
  | .arr n t, s, h, v => by
    simp only [Ty.size, Option.map_eq_some_iff] at h
    obtain ⟨x, hx, rfl⟩ := h
    simp only [Ty.enc]
    rw [length_flatMap_const (s := x) fun i => length_enc t hx (v i), List.length_finRange]

theorem flatMap_eq {α : Type} {f g : α → List Byte} {s : Nat} (hf : ∀ a, (f a).length = s)
    (hg : ∀ a, (g a).length = s) : ∀ l : List α, l.flatMap f = l.flatMap g → ∀ a ∈ l, f a = g a
  | [], _, _, h => by cases h
  | b :: l, h, a, ha => by
    rw [List.flatMap_cons, List.flatMap_cons] at h
    obtain ⟨h1, h2⟩ := List.append_inj h (by rw [hf, hg])
    rcases List.mem_cons.1 ha with rfl | ha
    · exact h1
    · exact flatMap_eq hf hg l h2 a ha

theorem flatMap_inj {α : Type} {f : α → List Byte} {s : Nat} (hs : 0 < s) (hf : ∀ a, (f a).length = s)
    (hi : ∀ a b, f a = f b → a = b) : ∀ l l' : List α, l.flatMap f = l'.flatMap f → l = l'
  | [], [], _ => rfl
  | [], b :: l', h => by
    have := congrArg List.length h
    rw [length_flatMap_const hf, length_flatMap_const hf, List.length_cons, Nat.succ_mul] at this
    simp at this; omega
  | a :: l, [], h => by
    have := congrArg List.length h
    rw [length_flatMap_const hf, length_flatMap_const hf, List.length_cons, Nat.succ_mul] at this
    simp at this; omega
  | a :: l, b :: l', h => by
    rw [List.flatMap_cons, List.flatMap_cons] at h
    obtain ⟨h1, h2⟩ := List.append_inj h (by rw [hf, hf])
    rw [hi a b h1, flatMap_inj hs hf hi l l' h2]

theorem enc_inj : ∀ (t : Ty) {s : Nat}, t.size = some s → ∀ v w, t.enc v = t.enc w → v = w
  | .bool, s, h, v, w, e => by
    cases v <;> cases w <;> first | rfl | (simp [Ty.enc] at e)
  | .num n, s, h, v, w, e => beBytes_inj e
  | .word, s, h, v, w, e => by cases h
  | .str, s, h, v, w, e => by cases h
  | .slice t, s, h, v, w, e => by cases h
  | .unit, s, h, v, w, e => rfl
  | .pair a b, s, h, v, w, e => by
    simp only [Ty.size, Option.bind_eq_some_iff, Option.map_eq_some_iff] at h
    obtain ⟨x, hx, y, hy, rfl⟩ := h
    simp only [Ty.enc] at e
    obtain ⟨h1, h2⟩ := List.append_inj e (by rw [length_enc a hx, length_enc a hx])
    exact Prod.ext (enc_inj a hx _ _ h1) (enc_inj b hy _ _ h2)
  | .arr n t, s, h, v, w, e => by
    simp only [Ty.size, Option.map_eq_some_iff] at h
    obtain ⟨x, hx, rfl⟩ := h
    simp only [Ty.enc] at e
    funext i
    exact enc_inj t hx _ _ (flatMap_eq (s := x) (fun i => length_enc t hx (v i)) (fun i => length_enc t hx (w i)) _ e i
      (List.mem_finRange i))

/-- Values of the type have bytes, unless it is one like struct{}. -/
def Ty.big : Ty → Prop
  | .slice t => ∃ s, t.size = some (s + 1)
  | t => t.size.isSome

/-- C109: different values of one type that is taken are different keys. Left out: slices of empty values. -/
theorem C109_bytes_injective (t : Ty) (h : t.big) (v w : t.Val) : t.enc v = t.enc w ↔ v = w := by
  refine ⟨fun e => ?_, fun e => by rw [e]⟩
  cases t with
  | slice t =>
    obtain ⟨s, hs⟩ := h
    exact flatMap_inj (Nat.succ_pos s) (length_enc t hs) (enc_inj t hs) v w e
  | _ =>
    obtain ⟨s, hs⟩ := Option.isSome_iff_exists.1 h
    exact enc_inj _ hs v w e

theorem slice_flatMap {α : Type} {f : α → List Byte} {s : Nat} (hf : ∀ a, (f a).length = s) :
    ∀ (l : List α) (i : Nat) (h : i < l.length), ((l.flatMap f).drop (i * s)).take s = f l[i]
  | [], _, h => absurd h (Nat.not_lt_zero _)
  | a :: l, 0, _ => by
    rw [List.flatMap_cons, Nat.zero_mul, List.drop_zero, List.take_append_of_le_length (by rw [hf]),
      List.take_of_length_le (by rw [hf])]; rfl
  | a :: l, i + 1, h => by
    rw [List.flatMap_cons, Nat.succ_mul, Nat.add_comm, List.drop_append, List.drop_of_length_le (by rw [hf]; omega), hf,
      Nat.add_sub_cancel_left, List.nil_append, slice_flatMap hf l i (Nat.lt_of_succ_lt_succ h)]; rfl

/-- C109: where the parts of a key are: fields and elements follow each other in their order without padding. -/
theorem C109_layout {a b : Ty} {m n : Nat} (ha : a.size = some m) (hb : b.size = some n) :
    (∀ v : a.Val × b.Val, (Key.bytes ⟨.pair a b, v⟩).length = m + n ∧
      (Key.bytes ⟨.pair a b, v⟩).take m = Key.bytes ⟨a, v.1⟩ ∧ (Key.bytes ⟨.pair a b, v⟩).drop m = Key.bytes ⟨b, v.2⟩) ∧
    (∀ (k : Nat) (v : Fin k → a.Val), (Key.bytes ⟨.arr k a, v⟩).length = k * m ∧
      ∀ i : Fin k, ((Key.bytes ⟨.arr k a, v⟩).drop (i * m)).take m = Key.bytes ⟨a, v i⟩) ∧
    (∀ l : List a.Val, (Key.bytes ⟨.slice a, l⟩).length = l.length * m ∧
      ∀ (i : Nat) (h : i < l.length), ((Key.bytes ⟨.slice a, l⟩).drop (i * m)).take m = Key.bytes ⟨a, l[i]⟩) := by
  refine ⟨fun v => ⟨?_, ?_, ?_⟩, fun k v => ⟨?_, fun i => ?_⟩, fun l => ⟨?_, fun i h => ?_⟩⟩
  · exact length_enc (.pair a b) (by simp [Ty.size, ha, hb]) v
  · simp only [Key.bytes, Ty.enc]; rw [← length_enc a ha v.1, List.take_left]
  · simp only [Key.bytes, Ty.enc]; rw [← length_enc a ha v.1, List.drop_left]
  · exact length_enc (.arr k a) (by simp [Ty.size, ha]) v
  · have := slice_flatMap (fun i => length_enc a ha (v i)) (List.finRange k) i (by simp)
    simp only [List.getElem_finRange, Fin.cast_mk, Fin.eta] at this
    exact this
  · exact length_flatMap_const (length_enc a ha) l
  · exact slice_flatMap (length_enc a ha) l i h

theorem foldl_beBytes (m : Nat) (x : BitVec m) : ∀ n a : Nat,
    ((List.range n).reverse.map fun i => ((x >>> (8 * i)).setWidth 8 : Byte)).foldl (fun a b => 256 * a + b.toNat) a
      = a * 256 ^ n + x.toNat % 256 ^ n
  | 0, a => by simp [Nat.mod_one]
  | n + 1, a => by
    rw [List.range_succ, List.reverse_append, List.reverse_singleton, List.singleton_append, List.map_cons,
      List.foldl_cons, foldl_beBytes m x n, BitVec.toNat_setWidth, BitVec.toNat_ushiftRight, Nat.shiftRight_eq_div_pow,
      Nat.pow_mul, Nat.pow_succ 256 n, Nat.mod_mul, Nat.add_mul]
    have e : (2 ^ 8 : Nat) = 256 := rfl
    rw [e, Nat.mul_comm (256 ^ n) 256, Nat.mul_comm (256 ^ n) (x.toNat / 256 ^ n % 256), ← Nat.mul_assoc,
      Nat.mul_comm a 256]
    omega

/-- C109: a number is written with its most significant byte first. -/
theorem C109_big_endian (w : Nat) (x : BitVec (8 * w)) :
    (Key.bytes ⟨.num w, x⟩).length = w ∧
      (Key.bytes ⟨.num w, x⟩).foldl (fun a b => 256 * a + b.toNat) 0 = x.toNat := by
  refine ⟨length_beBytes x, ?_⟩
  have h := foldl_beBytes (8 * w) x w 0
  have h1 : x.toNat < 256 ^ w := by have := x.isLt; rwa [Nat.pow_mul] at this
  rw [Nat.zero_mul, Nat.zero_add, Nat.mod_eq_of_lt h1] at h
  exact h

theorem beBytes_one (y : BitVec (8 * 1)) : beBytes 1 y = [y] := by
  simp [beBytes]

/-- C109: the filter cannot tell a number from the array of its bytes, nor `true` from the byte 1, nor slices of empty
values from each other. -/
theorem C109_types_confused :
    (∀ (w : Nat) (x : BitVec (8 * w)), Key.bytes ⟨.num w, x⟩ =
      Key.bytes ⟨.arr w (.num 1), fun i => ((x >>> (8 * (w - 1 - i))).setWidth 8 : Byte)⟩) ∧
    Key.bytes ⟨.bool, true⟩ = Key.bytes ⟨.num 1, 1#8⟩ ∧
    ∀ m n : Nat, Key.bytes ⟨.slice .unit, List.replicate m ()⟩ = Key.bytes ⟨.slice .unit, List.replicate n ()⟩ := by
  refine ⟨fun w x => ?_, by decide, fun m n => ?_⟩
  · simp only [Key.bytes, Ty.enc, beBytes_one]
    rw [← List.map_eq_flatMap (f := fun i : Fin w => ((x >>> (8 * (w - 1 - i))).setWidth 8 : Byte))]
    apply List.ext_getElem
    · simp [beBytes]
    · intro i h1 h2
      simp [beBytes]
  · have : ∀ n, Key.bytes ⟨.slice .unit, List.replicate n ()⟩ = [] := by
      intro n
      apply List.eq_nil_of_length_eq_zero
      have := length_flatMap_const (f := Ty.enc .unit) (s := 0) (fun _ => rfl) (List.replicate n ())
      exact this
    rw [this, this]

/-! ### Which keys are taken -/

/-- The types whose values all have the same size. -/
inductive Fixed : Ty → Prop
  | bool : Fixed .bool
  | num (w : Nat) : Fixed (.num w)
  | unit : Fixed .unit
  | pair {a b : Ty} : Fixed a → Fixed b → Fixed (.pair a b)
  | arr (n : Nat) {t : Ty} : Fixed t → Fixed (.arr n t)

/-- The types of keys that `binary.Write` is documented to take. -/
inductive Writable : Ty → Prop
  | fixed {t : Ty} : Fixed t → Writable t
  | slice {t : Ty} : Fixed t → Writable (.slice t)

theorem size_isSome : ∀ t : Ty, t.size.isSome ↔ Fixed t
  | .bool => ⟨fun _ => .bool, fun _ => rfl⟩
  | .num w => ⟨fun _ => .num w, fun _ => rfl⟩
  | .unit => ⟨fun _ => .unit, fun _ => rfl⟩
  | .word => ⟨fun h => (by cases h), fun h => (by cases h)⟩
  | .str => ⟨fun h => (by cases h), fun h => (by cases h)⟩
  | .slice t => ⟨fun h => (by cases h), fun h => (by cases h)⟩
  | .pair a b => by
    have h1 := size_isSome a
    have h2 := size_isSome b
    constructor
    · intro h
      simp only [Ty.size] at h
      cases ha : a.size <;> cases hb : b.size <;> simp [ha, hb] at h h1 h2
      exact .pair h1 h2
    · intro h
      cases h with
      | pair x y =>
        obtain ⟨i, hi⟩ := Option.isSome_iff_exists.1 (h1.2 x)
        obtain ⟨j, hj⟩ := Option.isSome_iff_exists.1 (h2.2 y)
        simp [Ty.size, hi, hj]
  | .arr n t => by
    have h1 := size_isSome t
    constructor
    · intro h; exact .arr n (h1.1 (by simpa [Ty.size] using h))
    · intro h; cases h with | arr _ x => simpa [Ty.size] using h1.2 x

theorem taken_iff (t : Ty) : t.taken = true ↔ Writable t := by
  cases t with
  | slice t =>
    refine ⟨fun h => .slice ((size_isSome t).1 h), fun h => ?_⟩
    cases h with
    | fixed h => cases h
    | slice h => exact (size_isSome t).2 h
  | _ =>
    refine ⟨fun h => .fixed ((size_isSome _).1 h), fun h => ?_⟩
    cases h with
    | fixed h => exact (size_isSome _).2 h

/-- C109: `Add` and `Contains` panic, in every state, for keys that are not writable; then the filter is as
before. -/
theorem C109_refused (bl : Bloom H) (k : Key) (h : ¬Writable k.ty) :
    stepV bl (.add k) = some (bl, .refused) ∧ stepV bl (.contains k) = some (bl, .refused) := by
  have : ¬k.ty.taken = true := fun e => h ((taken_iff _).1 e)
  simp only [stepV, if_neg this, and_self]

/-- C109: int, uint, string and what contains them, or a slice inside of something, is not writable. -/
theorem C109_not_writable (t u : Ty) (n : Nat) :
    ¬Writable .word ∧ ¬Writable .str ∧ ¬Writable (.slice (.slice t)) ∧ ¬Writable (.pair (.slice t) u) ∧
    ¬Writable (.arr n (.slice t)) ∧ (¬Writable t → ¬Writable (.pair t u) ∧ ¬Writable (.pair u t) ∧
      ¬Writable (.arr n t) ∧ ¬Writable (.slice t)) := by
  refine ⟨?_, ?_, ?_, ?_, ?_, fun h => ⟨?_, ?_, ?_, ?_⟩⟩
  · intro h; cases h with | fixed h => cases h
  · intro h; cases h with | fixed h => cases h
  · intro h
    cases h with
    | fixed h => cases h
    | slice h => cases h
  · intro h; cases h with | fixed h => cases h with | pair h _ => cases h
  · intro h; cases h with | fixed h => cases h with | arr _ h => cases h
  · intro h'; cases h' with | fixed h' => cases h' with | pair x _ => exact h (.fixed x)
  · intro h'; cases h' with | fixed h' => cases h' with | pair _ x => exact h (.fixed x)
  · intro h'; cases h' with | fixed h' => cases h' with | arr _ x => exact h (.fixed x)
  · intro h'
    cases h' with
    | fixed h' => cases h'
    | slice x => exact h (.fixed x)

/-! ### Histories -/

open Classical in
/-- The specification: `S` has the bytes of the keys added since the last `Reset`. -/
noncomputable def specV (H : Hash64) (c : Nat) (S : List (List Byte)) : VOp → List (List Byte) × VRes
  | .add k =>
    if Writable k.ty then (k.bytes :: S, .ok (.bool (S.any fun a => H.of a % c == H.of k.bytes % c)))
    else (S, .refused)
  | .contains k =>
    if Writable k.ty then (S, .ok (.bool (S.any fun a => H.of a % c == H.of k.bytes % c))) else (S, .refused)
  | .other o => ((spec H c S o).1, .ok (spec H c S o).2)

theorem stepV_ok {c : Nat} (bl : Bloom H) (S : List (List Byte)) (o : VOp) (hi : Inv c bl S) :
    ∃ bl', stepV bl o = some (bl', (specV H c S o).2) ∧ Inv c bl' (specV H c S o).1 := by
  cases o with
  | add k =>
    by_cases h : Writable k.ty
    · obtain ⟨bl', h1, h2⟩ := step_ok bl S (.add k.bytes) hi
      exact ⟨bl', by simp only [stepV, if_pos ((taken_iff _).2 h), h1, Option.map_some, specV, if_pos h, spec],
        by simpa only [specV, if_pos h, spec] using h2⟩
    · exact ⟨bl, by rw [(C109_refused bl k h).1]; simp only [specV, if_neg h], by simpa only [specV, if_neg h] using hi⟩
  | contains k =>
    by_cases h : Writable k.ty
    · obtain ⟨bl', h1, h2⟩ := step_ok bl S (.contains k.bytes) hi
      exact ⟨bl', by simp only [stepV, if_pos ((taken_iff _).2 h), h1, Option.map_some, specV, if_pos h, spec],
        by simpa only [specV, if_pos h, spec] using h2⟩
    · exact ⟨bl, by rw [(C109_refused bl k h).2]; simp only [specV, if_neg h], by simpa only [specV, if_neg h] using hi⟩
  | other o =>
    obtain ⟨bl', h1, h2⟩ := step_ok bl S o hi
    exact ⟨bl', by simp only [stepV, h1, Option.map_some, specV], h2⟩

theorem reachV {bitsCap : Nat} (h1 : 1 ≤ bitsCap) (h2 : bitsCap ≤ 2 ^ 64 - 8) (os : List VOp) :
    ∃ bl, run stepV (new H bitsCap) os = some (bl, (runSpec (specV H (capOf bitsCap)) [] os).2) ∧
      Inv (capOf bitsCap) bl (runSpec (specV H (capOf bitsCap)) [] os).1 :=
  run_refines (fun bl S => Inv (capOf bitsCap) bl S) (fun bl S o hR => stepV_ok bl S o hR) os
    (new H bitsCap) [] (new_inv h1 h2)

/-- C109: for every hash, every history of a filter made by `New`, with keys of any types, gives the results of the
specification. -/
theorem C109_values_exact {bitsCap : Nat} (h1 : 1 ≤ bitsCap) (h2 : bitsCap ≤ 2 ^ 64 - 8) (os : List VOp) :
    ∃ bl, run stepV (new H bitsCap) os = some (bl, (runSpec (specV H (capOf bitsCap)) [] os).2) :=
  (reachV h1 h2 os).imp fun _ h => h.1

theorem keepV {c : Nat} {b : List Byte} : ∀ os : List VOp, VOp.other .reset ∉ os → ∀ S : List (List Byte), b ∈ S →
    b ∈ (runSpec (specV H c) S os).1 := by
  intro os
  induction os with
  | nil => intro _ S h; exact h
  | cons o os ih =>
    intro hn S h
    simp only [List.mem_cons, not_or] at hn
    simp only [runSpec]
    refine ih hn.2 _ ?_
    cases o with
    | add k => simp only [specV]; split; exacts [List.mem_cons_of_mem _ h, h]
    | contains k => simp only [specV]; split <;> exact h
    | other o =>
      cases o with
      | reset => exact absurd rfl hn.1
      | add k => exact List.mem_cons_of_mem _ h
      | _ => exact h

/-- C109: a value that was added is found until the next `Reset`, whatever was refused in between; so is every other
value with the same bytes. -/
theorem C109_no_false_negative {bitsCap : Nat} (h1 : 1 ≤ bitsCap) (h2 : bitsCap ≤ 2 ^ 64 - 8) (os₁ os₂ : List VOp)
    (k k' : Key) (hk : Writable k.ty) (hk' : Writable k'.ty) (he : k.bytes = k'.bytes)
    (hr : VOp.other .reset ∉ os₂) :
    ∃ bl bl' rs, run stepV (new H bitsCap) (os₁ ++ .add k :: os₂) = some (bl, rs) ∧
      stepV bl (.contains k') = some (bl', .ok (.bool true)) := by
  obtain ⟨bl, h3, h4⟩ := reachV (H := H) h1 h2 (os₁ ++ .add k :: os₂)
  obtain ⟨bl', h5, -⟩ := stepV_ok bl _ (.contains k') h4
  refine ⟨bl, bl', _, h3, ?_⟩
  rw [h5]
  suffices hm : k.bytes ∈ (runSpec (specV H (capOf bitsCap)) [] (os₁ ++ .add k :: os₂)).1 by
    simp only [specV, if_pos hk', Option.some.injEq, Prod.mk.injEq, true_and, VRes.ok.injEq, Res.bool.injEq,
      List.any_eq_true]
    exact ⟨k.bytes, hm, by simp [he]⟩
  have pre : ∀ os : List VOp, ∀ S : List (List Byte),
      k.bytes ∈ (runSpec (specV H (capOf bitsCap)) S (os ++ .add k :: os₂)).1 := by
    intro os
    induction os with
    | nil =>
      intro S
      simp only [List.nil_append, runSpec]
      refine keepV os₂ hr _ ?_
      simp only [specV, if_pos hk]
      exact List.mem_cons_self ..
    | cons o os ih => intro S; simp only [List.cons_append, runSpec]; exact ih _
  exact pre os₁ []

/-! ### The hash of the package -/

theorem xor_byte (h : BitVec 64) (b : Byte) : (h ^^^ b.setWidth 64).toNat / 256 = h.toNat / 256 := by
  have e : (h ^^^ b.setWidth 64) >>> 8 = h >>> 8 := by
    apply BitVec.eq_of_getLsbD_eq
    intro i _
    simp [BitVec.getLsbD_ushiftRight, BitVec.getLsbD_xor]
  have := congrArg BitVec.toNat e
  simpa only [BitVec.toNat_ushiftRight, Nat.shiftRight_eq_div_pow] using this

theorem of_last (p : List Byte) : ∃ h : BitVec 64, ∀ b : Byte, fnv64.of (p ++ [b]) = (h ^^^ b.setWidth 64).toNat :=
  ⟨HMul.hMul (α := BitVec 64) (fnv64.write fnv64.init p) 1099511628211#64, fun b => by
    simp only [Hash64.of, fnv64, List.foldl_append, List.foldl_cons, List.foldl_nil, id]; rfl⟩

/-- C109: in a filter of 256 bits or more, two keys that differ only in their last byte never share a bit. -/
theorem C109_last_byte (c : Nat) (hc : 256 ≤ c) (p : List Byte) (a b : Byte) :
    fnv64.of (p ++ [a]) % c = fnv64.of (p ++ [b]) % c ↔ a = b := by
  refine ⟨fun h => ?_, fun h => by rw [h]⟩
  obtain ⟨x, hx⟩ := of_last p
  rw [hx, hx] at h
  have ha := xor_byte x a
  have hb := xor_byte x b
  generalize hA : x ^^^ a.setWidth 64 = A at h ha
  generalize hB : x ^^^ b.setWidth 64 = B at h hb
  have h1 : 256 * (x.toNat / 256) + A.toNat % 256 ≡ 256 * (x.toNat / 256) + B.toNat % 256 [MOD c] := by
    have e1 := Nat.div_add_mod A.toNat 256
    have e2 := Nat.div_add_mod B.toNat 256
    rw [ha] at e1; rw [hb] at e2
    rw [e1, e2]; exact h
  have h2 : A.toNat % 256 % c = B.toNat % 256 % c := Nat.ModEq.add_left_cancel (Nat.ModEq.refl _) h1
  have l1 : A.toNat % 256 < c := Nat.lt_of_lt_of_le (Nat.mod_lt _ (by decide)) hc
  have l2 : B.toNat % 256 < c := Nat.lt_of_lt_of_le (Nat.mod_lt _ (by decide)) hc
  rw [Nat.mod_eq_of_lt l1, Nat.mod_eq_of_lt l2] at h2
  have h3 : A = B := BitVec.eq_of_toNat_eq (by omega)
  rw [← hA, ← hB] at h3
  have h4 : a.setWidth 64 = b.setWidth 64 := by
    have := congrArg (x ^^^ ·) h3
    simpa only [← BitVec.xor_assoc, BitVec.xor_self, BitVec.zero_xor] using this
  apply BitVec.eq_of_toNat_eq
  have := congrArg BitVec.toNat h4
  simp only [BitVec.toNat_setWidth] at this
  have := a.isLt; have := b.isLt
  omega

/-- What the call adds has this form. -/
def Only (P : List Byte → Prop) : VOp → Prop
  | .add k => Writable k.ty → P k.bytes
  | .other (.add b) => P b
  | _ => True

theorem only_mem {P : List Byte → Prop} {c : Nat} : ∀ (os : List VOp), (∀ o ∈ os, Only P o) →
    ∀ S : List (List Byte), (∀ b ∈ S, P b) → ∀ b ∈ (runSpec (specV H c) S os).1, P b
  | [], _, S, hS => hS
  | o :: os, ho, S, hS => by
    simp only [runSpec]
    refine only_mem os (fun o' h => ho o' (List.mem_cons_of_mem _ h)) _ ?_
    have h0 := ho o (List.mem_cons_self ..)
    cases o with
    | add k =>
      by_cases hw : Writable k.ty
      · simp only [specV, if_pos hw]
        intro b hb; rcases List.mem_cons.1 hb with rfl | hb; exacts [h0 hw, hS b hb]
      · simp only [specV, if_neg hw]; exact hS
    | contains k => simp only [specV]; split <;> exact hS
    | other o =>
      cases o with
      | add k => intro b hb; rcases List.mem_cons.1 hb with rfl | hb; exacts [h0, hS b hb]
      | reset => intro b hb; cases hb
      | _ => exact hS

/-- The bytes added since the last `Reset`, by `Add` or by `AddBytes`. -/
inductive Added (b : List Byte) : List VOp → Prop
  | value {os₁ os₂ : List VOp} (k : Key) : Writable k.ty → k.bytes = b → VOp.other .reset ∉ os₂ →
      Added b (os₁ ++ .add k :: os₂)
  | bytes {os₁ os₂ : List VOp} : VOp.other .reset ∉ os₂ → Added b (os₁ ++ .other (.add b) :: os₂)

theorem Added.pre {b : List Byte} {os : List VOp} (h : Added b os) (l : List VOp) : Added b (l ++ os) := by
  cases h with
  | value k h1 h2 h3 => rw [← List.append_assoc]; exact .value k h1 h2 h3
  | bytes h => rw [← List.append_assoc]; exact .bytes h

theorem mem_iff {c : Nat} (b : List Byte) : ∀ (os : List VOp) (S : List (List Byte)),
    b ∈ (runSpec (specV H c) S os).1 ↔ Added b os ∨ (VOp.other .reset ∉ os ∧ b ∈ S)
  | [], S => by
    have : ¬Added b [] := by
      intro h
      generalize he : ([] : List VOp) = os at h
      cases h <;> simp at he
    simp [runSpec, this]
  | o :: os, S => by
    have key : Added b (o :: os) ↔ Added b os ∨ (VOp.other .reset ∉ os ∧
        ((∃ k, o = .add k ∧ Writable k.ty ∧ k.bytes = b) ∨ o = .other (.add b))) := by
      constructor
      · intro h
        generalize he : o :: os = l at h
        cases h with
        | @value os₁ os₂ k h1 h2 h3 =>
          cases os₁ with
          | nil => cases he; exact .inr ⟨h3, .inl ⟨k, rfl, h1, h2⟩⟩
          | cons o' os₁ => cases he; exact .inl (.value k h1 h2 h3)
        | @bytes os₁ os₂ h3 =>
          cases os₁ with
          | nil => cases he; exact .inr ⟨h3, .inr rfl⟩
          | cons o' os₁ => cases he; exact .inl (.bytes h3)
      · rintro (h | ⟨h, ⟨k, rfl, h1, h2⟩ | rfl⟩)
        · exact h.pre [o]
        · exact .value (os₁ := []) k h1 h2 h
        · exact .bytes (os₁ := []) h
    simp only [runSpec]
    rw [mem_iff b os, key, or_assoc]
    refine or_congr_right ?_
    cases o with
    | add k =>
      by_cases hw : Writable k.ty
      · simp [specV, hw, eq_comm, and_or_left]
      · simp [specV, hw]
    | contains k => by_cases hw : Writable k.ty <;> simp [specV, hw]
    | other o =>
      cases o with
      | add k => simp [specV, spec, eq_comm, and_or_left]
      | _ => simp [specV, spec]

/-- C109: with the hash of the package and 256 bits or more, a filter whose keys have one byte, such as values of type
bool, int8 or uint8, or differ only in the last byte, has no false positives either: it is an exact set. -/
theorem C109_one_byte_exact {bitsCap : Nat} (h1 : 249 ≤ bitsCap) (h2 : bitsCap ≤ 2 ^ 64 - 8) (p : List Byte)
    (os : List VOp) (ho : ∀ o ∈ os, Only (fun b => ∃ x, b = p ++ [x]) o) (k : Key) (hk : Writable k.ty)
    (hb : ∃ x, k.bytes = p ++ [x]) :
    ∃ bl bl' rs r, run stepV (new fnv64 bitsCap) os = some (bl, rs) ∧
      stepV bl (.contains k) = some (bl', .ok (.bool r)) ∧ (r = true ↔ Added k.bytes os) := by
  have hc : 256 ≤ capOf bitsCap := by unfold capOf; omega
  obtain ⟨bl, h3, h4⟩ := reachV (H := fnv64) (by omega) h2 os
  obtain ⟨bl', h5, -⟩ := stepV_ok bl _ (.contains k) h4
  simp only [specV, if_pos hk] at h5
  refine ⟨bl, bl', _, _, h3, h5, ?_⟩
  have h6 := mem_iff (H := fnv64) (c := capOf bitsCap) k.bytes os []
  simp only [List.not_mem_nil, and_false, or_false] at h6
  rw [← h6, List.any_eq_true]
  constructor
  · rintro ⟨a, ha, hx⟩
    obtain ⟨x, rfl⟩ := only_mem os ho [] (by simp) a ha
    obtain ⟨y, hy⟩ := hb
    rw [beq_iff_eq, hy, C109_last_byte _ hc] at hx
    rw [hy, ← hx]; exact ha
  · intro h; exact ⟨_, h, by simp⟩

/-! ### Examples -/

/-- A struct of a uint16 and an array of two bools. -/
def exTy : Ty := .pair (.num 2) (.pair (.arr 2 .bool) .unit)

example : Writable exTy ∧ exTy.big := ⟨.fixed (.pair (.num 2) (.pair (.arr 2 .bool) .unit)), rfl⟩
example : Ty.big (.slice exTy) := ⟨3, rfl⟩
example : Key.bytes ⟨exTy, (0x1234#16, fun i => i == 1, ())⟩ = [0x12, 0x34, 0, 1] := by decide
example : ¬Writable (.pair .str exTy) := (C109_not_writable .str exTy 0).2.2.2.2.2 (C109_not_writable .str exTy 0).2.1 |>.1

/-- A history that meets the hypotheses of `C109_one_byte_exact`, with a key that is refused. -/
def exOps : List VOp :=
  [.add ⟨.num 1, 9#8⟩, .other .reset, .add ⟨.num 1, 7#8⟩, .add ⟨.word, 7#64⟩, .other .hitSize, .add ⟨.bool, true⟩]

example : ∃ bl bl' rs r, run stepV (new fnv64 249) exOps = some (bl, rs) ∧
    stepV bl (.contains ⟨.num 1, 9#8⟩) = some (bl', .ok (.bool r)) ∧ (r = true ↔ Added [9] exOps) := by
  refine C109_one_byte_exact (by decide) (by decide) [] exOps ?_ ⟨.num 1, 9#8⟩ (.fixed (.num 1)) ⟨9, by decide⟩
  intro o ho
  simp only [exOps, List.mem_cons, List.not_mem_nil, or_false] at ho
  rcases ho with rfl | rfl | rfl | rfl | rfl | rfl
  · exact fun _ => ⟨9, by decide⟩
  · trivial
  · exact fun _ => ⟨7, by decide⟩
  · exact fun h => absurd h (C109_not_writable .unit .unit 0).1
  · trivial
  · exact fun _ => ⟨1, by decide⟩

example : (run stepV (new fnv64 249) (exOps ++ [.contains ⟨.num 1, 9#8⟩, .contains ⟨.num 1, 7#8⟩])).map (·.2) =
    some [.ok (.bool false), .ok .unit, .ok (.bool false), .refused, .ok (.nat 1), .ok (.bool false),
      .ok (.bool false), .ok (.bool true)] := by decide +kernel

/-- `C109_no_false_negative`: 7 is still there. -/
example : VOp.other .reset ∉ ([.add ⟨.word, 7#64⟩, .other .hitSize] : List VOp) := by simp

end Verif.Bloom
