import Verif.Bloom.Props

/-! C15, C112: filters that have no bits, and `Reset`. -/

namespace Verif.Bloom

variable {H : Hash64}

/-- What a caller sees that recovers from panics. -/
inductive RRes where
  | panicked | ok (r : Res)
  deriving DecidableEq

/-- One call with a caller that recovers. bloom.go:49-67 and 80-94 panic at the division or at the index, before the filter
is written; the deferred call resets the hash. -/
def stepR (bl : Bloom H) (o : Op) : Bloom H × RRes :=
  match step bl o with
  | some p => (p.1, .ok p.2)
  | none => ({ bl with hs := H.init }, .panicked)

/-- The answers of a filter without bits: it only knows its two numbers. -/
def emptySpec (hit cap : Nat) : Op → RRes
  | .add _ | .contains _ => .panicked
  | .reset => .ok .unit
  | .hitSize => .ok (.nat hit)
  | .cap => .ok (.nat cap)

theorem stepR_empty {bl : Bloom H} (hb : bl.bits = []) (hh : bl.hs = H.init) (o : Op) :
    stepR bl o = (bl, emptySpec bl.hitSize bl.cap o) := by
  obtain ⟨bits, hit, cap, hs⟩ := bl
  simp only at hb hh
  subst hb hh
  cases o with
  | add k => simp only [stepR, step, addBytes]; split <;> (rename_i h; split at h <;> simp_all [emptySpec])
  | contains k => simp only [stepR, step, containsBytes]; split <;> (rename_i h; split at h <;> simp_all [emptySpec])
  | reset => rfl
  | hitSize => rfl
  | cap => rfl

/-- C112: a filter without bits gives these answers in every history: `Add` and `Contains` panic, and `Reset` does not set
`HitSize` to zero. -/
theorem C112_no_bits {bl : Bloom H} (hb : bl.bits = []) (hh : bl.hs = H.init) (os : List Op) :
    runSpec stepR bl os = (bl, os.map (emptySpec bl.hitSize bl.cap)) := by
  induction os with
  | nil => rfl
  | cons o os ih => simp only [runSpec, stepR_empty hb hh, ih, List.map_cons]

theorem new_empty {bitsCap : Nat} (h : bitsCap = 0 ∨ 2 ^ 64 - 7 ≤ bitsCap) (h2 : bitsCap < 2 ^ 64) :
    new H bitsCap = { bits := [], hitSize := 0, cap := 0, hs := H.init } := by
  have e : ((bitsCap + 7) % 2 ^ 64) >>> 3 = 0 := by rw [Nat.shiftRight_eq_div_pow]; omega
  simp [new, e]

/-- C15 does not hold for the seven greatest capacities, for which `bitsCap + 7` wraps around: the filter has no bits, and
every `Add` and `Contains` panics. The same for capacity zero. -/
theorem C15_wraps {bitsCap : Nat} (h : bitsCap = 0 ∨ 2 ^ 64 - 7 ≤ bitsCap) (h2 : bitsCap < 2 ^ 64) (os : List Op) :
    (runSpec stepR (new H bitsCap) os).2 = os.map (emptySpec 0 0) := by
  rw [new_empty h h2, C112_no_bits rfl rfl]

/-- C17 for the capacities left out in `C17_hitsize`. -/
theorem C17_wraps {bitsCap : Nat} (h : bitsCap = 0 ∨ 2 ^ 64 - 7 ≤ bitsCap) (h2 : bitsCap < 2 ^ 64) (os : List Op) :
    (runSpec stepR (new H bitsCap) os).1.hitSize = 0 ∧ (runSpec stepR (new H bitsCap) os).1.cap = 0 ∧
      (runSpec stepR (new H bitsCap) os).1.bits = [] := by
  rw [new_empty h h2, C112_no_bits rfl rfl]
  exact ⟨rfl, rfl, rfl⟩

/-- C112 does not hold for decoded filters: `HitSize` is that of the filter that was encoded, also after `Reset`. -/
theorem C112_decoded {bitsCap : Nat} (h1 : 1 ≤ bitsCap) (h2 : bitsCap ≤ 2 ^ 64 - 8) (os : List Op) {bl : Bloom H}
    {rs : List Res} (hr : run step (new H bitsCap) os = some (bl, rs)) (os' : List Op) (key : List Byte) :
    (runSpec stepR (newByDecode H (encode bl)) (os' ++ [.reset, .hitSize, .contains key])).2 =
      os'.map (emptySpec bl.hitSize bl.cap) ++ [.ok .unit, .ok (.nat bl.hitSize), .panicked] := by
  obtain ⟨e1, e2⟩ := C16_roundtrip_partial h1 h2 os bl rs hr
  rw [C112_no_bits (by simp [newByDecode, decode, readBytes]) rfl, e1, e2]
  simp [emptySpec]

/-- C112 for filters made by `New` that have bits: after `Reset`, and whatever calls other than `Add` follow, `HitSize` is 0
and no key is found. Missing: filters without bits, see `C112_decoded` and `C15_wraps`. -/
theorem C112_reset_partial {bitsCap : Nat} (h1 : 1 ≤ bitsCap) (h2 : bitsCap ≤ 2 ^ 64 - 8) (os os' : List Op)
    (ha : ∀ k, Op.add k ∉ os') (key : List Byte) :
    ∃ bl rs bl', run step (new H bitsCap) (os ++ .reset :: os') = some (bl, rs) ∧
      step bl .hitSize = some (bl, .nat 0) ∧ step bl (.contains key) = some (bl', .bool false) := by
  obtain ⟨bl, h3, hi⟩ := reach (H := H) h1 h2 (os ++ .reset :: os')
  have stay : ∀ os' : List Op, (∀ k, Op.add k ∉ os') → (runSpec (spec H (capOf bitsCap)) [] os').1 = [] := by
    intro os'
    induction os' with
    | nil => intro _; rfl
    | cons o os' ih =>
      intro ha
      have h := ih fun k hk => ha k (List.mem_cons_of_mem _ hk)
      cases o with
      | add k => exact absurd (List.mem_cons_self ..) (ha k)
      | _ => simpa only [runSpec, spec] using h
  have hS : ∀ (os : List Op) (S : List (List Byte)),
      (runSpec (spec H (capOf bitsCap)) S (os ++ .reset :: os')).1 = [] := by
    intro os
    induction os with
    | nil => intro S; exact stay os' ha
    | cons o os ih => intro S; simp only [List.cons_append, runSpec]; exact ih _
  rw [hS os []] at hi
  obtain ⟨bl', h4, -⟩ := step_ok bl _ (.contains key) hi
  refine ⟨bl, _, bl', h3, ?_, h4⟩
  have := hi.hit
  simp only [step, this]
  rfl

/-! ### Examples -/

example : (runSpec stepR (new sumHash (2 ^ 64 - 1)) [.add [1], .hitSize, .contains [1]]).2 =
    [.panicked, .ok (.nat 0), .panicked] := C15_wraps (.inr (by decide)) (by decide) _

example : ∃ bl rs, run step (new sumHash 9) [.add [3], .add [4]] = some (bl, rs) ∧ bl.hitSize = 2 ∧
    (runSpec stepR (newByDecode sumHash (encode bl)) [.reset, .hitSize, .contains [3]]).2 =
      [.ok .unit, .ok (.nat 2), .panicked] := by
  obtain ⟨bl, h, hi⟩ := reach (H := sumHash) (bitsCap := 9) (by decide) (by decide) [.add [3], .add [4]]
  have h2 : bl.hitSize = 2 := by rw [hi.hit]; decide +kernel
  exact ⟨bl, _, h, h2, by simpa [h2] using C112_decoded (by decide) (by decide) _ h [] [3]⟩

example : ∀ k, Op.add k ∉ [Op.contains [3], .reset, .cap] := by simp

end Verif.Bloom
