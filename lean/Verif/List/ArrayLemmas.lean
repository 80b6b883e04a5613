import Verif.List.ArrayModel
import Verif.Common.History
import Verif.Common.Tac

/-! Helper lemmas for C18 - C21. -/

set_option linter.unusedSectionVars false

namespace Verif.AList
variable {T : Type} [Inhabited T]

theorem add64_eq {a b : Nat} (h : a + b < 2 ^ 64) : add64 a b = a + b := Nat.mod_eq_of_lt h

theorem sub64_eq {a b : Nat} (h : b ≤ a) (h' : a < 2 ^ 64) : sub64 a b = a - b := by
  unfold sub64; omega

/-- Representation: `xs` lies between `pre` and `post` in the array. -/
structure Rep (M : Nat) (l : AL T) (pre xs post : List T) : Prop where
  data : l.data = pre ++ xs ++ post
  hd : add64 l.headidx 1 = pre.length
  hlt : l.headidx < 2 ^ 64
  tl : l.tailidx = pre.length + xs.length
  sz : l.size = xs.length
  len8 : 8 ≤ l.data.length
  lenM : l.data.length ≤ M
  shr : l.data.length = 8 ∨ 8 * l.shrinkSize ≤ 3 * l.data.length + 24

/-- `l` holds the sequence `xs`. -/
def Holds (M : Nat) (l : AL T) (xs : List T) : Prop := ∃ pre post, Rep M l pre xs post

section
variable {M : Nat} {l : AL T} {pre xs post : List T}

theorem Rep.len (h : Rep M l pre xs post) :
    l.data.length = pre.length + xs.length + post.length := by
  rw [h.data, List.length_append, List.length_append]

theorem Rep.window (h : Rep M l pre xs post) :
    slice l.data (add64 l.headidx 1) l.tailidx = .ok xs := by
  have hl := h.len
  unfold slice
  rw [h.hd, h.tl, if_pos ⟨by omega, by omega⟩, h.data]
  congr 1
  rw [List.append_assoc, List.take_length_add_append, List.take_left' rfl, List.drop_left' rfl]

theorem Rep.at (h : Rep M l pre xs post) (hM : M ≤ 2 ^ 62) {i : Nat} (hi : i < xs.length) :
    at' l.data (add64 (add64 i l.headidx) 1) = .ok xs[i] := by
  have hl := h.len
  have hm := h.lenM
  have e : add64 (add64 i l.headidx) 1 = pre.length + i := by
    have h1 := h.hd; have h2 := h.hlt
    unfold add64 at *; omega
  rw [e]
  unfold at'
  rw [h.data, List.append_assoc, List.getElem?_append_right (by omega),
    List.getElem?_append_left (by omega)]
  simp [hi]

theorem new_rep (hM : 8 ≤ M) : Holds M (AL.new : AL T) [] :=
  ⟨List.replicate 4 default, List.replicate 4 default, by constructor <;> simp [AL.new, add64, hM]⟩

theorem Rep.clear (h : Rep M l pre xs post) : Holds M l.clear [] := by
  have h1 := h.len8
  have h2 := h.lenM
  refine ⟨List.replicate 4 default, List.replicate 4 default, ?_⟩
  constructor <;> simp [AL.clear, add64]
  omega

theorem copy_fresh (n k : Nat) (src : List T) (h : k + src.length ≤ n) :
    copyAt (List.replicate n default) k src =
      .ok (List.replicate k default ++ src ++ List.replicate (n - k - src.length) default) := by
  unfold copyAt
  rw [if_pos (by simp; omega)]
  have : min (n - k) src.length = src.length := by omega
  simp only [List.length_replicate, this, List.take_replicate, List.drop_replicate, List.take_length]
  have e1 : min k n = k := by omega
  have e2 : n - (k + src.length) = n - k - src.length := by omega
  rw [e1, e2]

/-- Moving the content to a fresh array of length `n`, starting at `k + 1`. -/
theorem Rep.move (h : Rep M l pre xs post) (n k s : Nat) (hk : k + 1 + xs.length ≤ n) (hn : 8 ≤ n)
    (hnM : n ≤ M) (hM : M ≤ 2 ^ 62) (hs : n = 8 ∨ 8 * s ≤ 3 * n + 24) :
    Rep M { l with
        data := List.replicate (k + 1) default ++ xs ++ List.replicate (n - (k + 1) - xs.length) default
        headidx := k, tailidx := add64 (add64 k l.size) 1, shrinkSize := s }
      (List.replicate (k + 1) default) xs (List.replicate (n - (k + 1) - xs.length) default) := by
  have hlen : (List.replicate (k + 1) (default : T) ++ xs ++
      List.replicate (n - (k + 1) - xs.length) default).length = n := by simp; omega
  refine ⟨rfl, ?_, ?_, ?_, h.sz, ?_, ?_, ?_⟩
  · simp only [List.length_replicate]; unfold add64; omega
  · show k < 2 ^ 64; omega
  · simp only [List.length_replicate]; rw [h.sz]; unfold add64; omega
  · simp only [hlen]; exact hn
  · simp only [hlen]; exact hnM
  · simp only [hlen]; exact hs

/-- `shrink` when it reallocates. -/
theorem Rep.shrinkDo (h : Rep M l pre xs post) (hM : M ≤ 2 ^ 62) (c1 : ¬ xs.length ≤ 8)
    (c2 : xs.length ≤ l.shrinkSize) :
    ∃ l' pre' post', l.shrink M = .ok l' ∧ Rep M l' pre' xs post' ∧
      pre'.length = xs.length / 4 + 1 ∧ l'.data.length = l.data.length - l.data.length / 4 ∧
      l'.shrinkSize = xs.length - xs.length / 4 := by
  have hl := h.len
  have hm := h.lenM
  have h8 := h.len8
  have hsz := h.sz
  unfold AL.shrink
  rw [hsz, if_neg c1, if_pos c2]
  have hs := h.shr
  have e1 : l.data.length >>> 2 = l.data.length / 4 := by rw [Nat.shiftRight_eq_div_pow]
  have e2 : sub64 l.data.length (l.data.length / 4) = l.data.length - l.data.length / 4 :=
    sub64_eq (by omega) (by omega)
  have e3 : l.size >>> 2 = l.size / 4 := by rw [Nat.shiftRight_eq_div_pow]
  have e4 : sub64 l.size (l.size / 4) = l.size - l.size / 4 := sub64_eq (by omega) (by omega)
  have e5 : add64 (l.size / 4) 1 = l.size / 4 + 1 := add64_eq (by omega)
  have hfit : l.size / 4 + 1 + xs.length ≤ l.data.length - l.data.length / 4 := by omega
  simp only [← hsz]
  simp only [e1, e2, e3, e4, e5, h.window, make,
    if_pos (show l.data.length - l.data.length / 4 ≤ M by omega), Bind.bind,
    Except.bind, copy_fresh _ _ _ hfit, Pure.pure, Except.pure]
  refine ⟨_, _, _, rfl, h.move _ (l.size / 4) (l.size - l.size / 4) hfit ?_ ?_ hM ?_, ?_, ?_, rfl⟩
  · omega
  · omega
  · right; omega
  · simp
  · simp; omega

theorem Rep.shrinkNop (h : Rep M l pre xs post) (c : xs.length ≤ 8 ∨ l.shrinkSize < xs.length) :
    l.shrink M = .ok l := by
  unfold AL.shrink
  rw [h.sz]
  by_cases c1 : xs.length ≤ 8
  · rw [if_pos c1]
  · rw [if_neg c1, if_neg (by omega)]

theorem Rep.shrink (h : Rep M l pre xs post) (hM : M ≤ 2 ^ 62) :
    ∃ l', l.shrink M = .ok l' ∧ Holds M l' xs := by
  by_cases c : xs.length ≤ 8 ∨ l.shrinkSize < xs.length
  · exact ⟨l, h.shrinkNop c, pre, post, h⟩
  · obtain ⟨l', pre', post', h1, h2, -⟩ := h.shrinkDo hM (by omega) (by omega)
    exact ⟨l', h1, pre', post', h2⟩

theorem Rep.growth (h : Rep M l pre xs post) (hM : M ≤ 2 ^ 62) :
    (l.growth M = .error .oom ∧ M < 2 * l.data.length) ∨
    ∃ l' pre' post', l.growth M = .ok l' ∧ Rep M l' pre' xs post' ∧
      l'.data.length = 2 * l.data.length ∧ l'.data.length ≤ M ∧
      pre'.length = l.data.length / 2 + 1 ∧ l'.shrinkSize = xs.length - xs.length / 4 := by
  have hl := h.len
  have hm := h.lenM
  have h8 := h.len8
  have hsz := h.sz
  unfold AL.growth
  rw [if_neg (by omega)]
  have e1 : (l.data.length <<< 1) % 2 ^ 64 = 2 * l.data.length := by
    rw [Nat.shiftLeft_eq]; omega
  have e3 : l.size >>> 2 = l.size / 4 := by rw [Nat.shiftRight_eq_div_pow]
  have e4 : sub64 l.size (l.size / 4) = l.size - l.size / 4 := sub64_eq (by omega) (by omega)
  have e5 : add64 (l.data.length / 2) 1 = l.data.length / 2 + 1 := add64_eq (by omega)
  have hfit : l.data.length / 2 + 1 + xs.length ≤ 2 * l.data.length := by omega
  simp only [e1, e3, e4, e5, h.window]
  by_cases c : 2 * l.data.length ≤ M
  · right
    simp only [make, if_pos c, Bind.bind,
        Except.bind, copy_fresh _ _ _ hfit, Pure.pure, Except.pure]
    refine ⟨_, _, _, rfl, h.move _ (l.data.length / 2) (l.size - l.size / 4) hfit ?_ c hM ?_,
      ?_, ?_, ?_, ?_⟩
    · omega
    · right; omega
    · simp; omega
    · simp; omega
    · simp
    · simp only [hsz]
  · left
    simp only [make, if_neg c, Bind.bind, Except.bind]
    exact ⟨trivial, by omega⟩

theorem growLoop_ok (hM : M ≤ 2 ^ 62) (cond : AL T → Bool) (n : Nat) : ∀ (l : AL T),
    M - l.data.length = n → Holds M l xs →
    growLoop M cond l = .error .oom ∨
      ∃ l', growLoop M cond l = .ok l' ∧ Holds M l' xs ∧ cond l' = false := by
  induction n using Nat.strongRecOn with
  | _ n ih =>
    intro l hn ⟨pre, post, h⟩
    rw [growLoop]
    by_cases hc : cond l = true
    · rw [if_pos hc]
      have h8 := h.len8
      rcases h.growth hM with ⟨h1, -⟩ | ⟨l', pre', post', h1, h2, h3, h4, -⟩
      · left; rw [h1]
      · rw [h1]
        simp only
        rw [dif_pos ⟨by omega, h4⟩]
        exact ih (M - l'.data.length) (by omega) l' rfl ⟨_, _, h2⟩
    · rw [if_neg hc]
      exact .inr ⟨l, rfl, ⟨pre, post, h⟩, by simpa using hc⟩

theorem setAt_mid (pre : List T) (x v : T) (post : List T) :
    setAt (pre ++ x :: post) pre.length v = .ok (pre ++ v :: post) := by
  unfold setAt
  rw [if_pos (by simp)]
  simp

theorem backLoop_ok (vs : List T) : ∀ (pre mid post : List T), mid.length = vs.length →
    pre.length + vs.length < 2 ^ 64 →
    backLoop (pre ++ mid ++ post) pre.length vs =
      .ok (pre ++ vs ++ post, pre.length + vs.length) := by
  induction vs with
  | nil =>
    intro pre mid post h _
    have : mid = [] := List.length_eq_zero_iff.1 h
    subst this; simp [backLoop]
  | cons v vs ih =>
    intro pre mid post h hlt
    obtain ⟨m, mid, rfl⟩ : ∃ m mid', mid = m :: mid' := by
      cases mid with
      | nil => simp at h
      | cons m mid => exact ⟨m, mid, rfl⟩
    simp only [List.length_cons, Nat.add_right_cancel_iff] at h hlt
    have e : pre ++ m :: mid ++ post = pre ++ m :: (mid ++ post) := by simp
    rw [backLoop, e, setAt_mid]
    simp only
    have := ih (pre ++ [v]) mid post h (by simp; omega)
    rw [add64_eq (by omega)]
    simp only [List.append_assoc, List.cons_append, List.nil_append, List.length_append,
      List.length_cons, List.length_nil] at this ⊢
    rw [this]
    congr 2
    omega

theorem frontLoop_ok (vs : List T) : ∀ (pre mid post : List T) (hd : Nat),
    mid.length = vs.length → add64 hd 1 = (pre ++ mid).length → hd < 2 ^ 64 →
    (pre ++ mid).length < 2 ^ 64 →
    ∃ hd', frontLoop (pre ++ mid ++ post) hd vs = .ok (pre ++ (vs.reverse ++ post), hd') ∧
      add64 hd' 1 = pre.length ∧ hd' < 2 ^ 64 := by
  induction vs with
  | nil =>
    intro pre mid post hd h h1 h2 _
    have : mid = [] := List.length_eq_zero_iff.1 h
    subst this
    exact ⟨hd, by simp [frontLoop], by simpa using h1, h2⟩
  | cons v vs ih =>
    intro pre mid post hd h h1 h2 h3
    obtain ⟨mid, m, rfl⟩ : ∃ mid' m, mid = mid' ++ [m] := by
      rcases nil_or_snoc mid with h' | ⟨a, b, h'⟩
      · subst h'; simp at h
      · exact ⟨a, b, h'⟩
    simp only [List.length_append, List.length_cons, List.length_nil,
      Nat.zero_add, Nat.add_right_cancel_iff] at h h1 h3
    have ehd : hd = (pre ++ mid).length := by
      rw [List.length_append]; unfold add64 at h1; omega
    have e : pre ++ (mid ++ [m]) ++ post = (pre ++ mid) ++ m :: post := by simp
    rw [frontLoop, e, ehd, setAt_mid]
    simp only
    obtain ⟨hd', i1, i2, i3⟩ := ih pre mid (v :: post) (sub64 (pre ++ mid).length 1) h
      (by rw [List.length_append]; unfold add64 sub64; omega)
      (by unfold sub64; omega)
      (by rw [List.length_append]; omega)
    exact ⟨hd', by rw [i1]; simp, i2, i3⟩

theorem Rep.backFit (hM : M ≤ 2 ^ 62) (h2 : Rep M l pre xs post) (vs : List T)
    (hfit : vs.length ≤ post.length) :
    ∃ data t, backLoop l.data l.tailidx vs = .ok (data, t) ∧ data.length = l.data.length ∧
      Rep M { l with data := data, tailidx := t, size := add64 l.size vs.length } pre (xs ++ vs)
        (post.drop vs.length) := by
  have hl := h2.len
  have hm := h2.lenM
  have hb := backLoop_ok vs (pre ++ xs) (post.take vs.length) (post.drop vs.length)
    (by simp; omega) (by simp; omega)
  rw [List.append_assoc (pre ++ xs), List.take_append_drop, ← h2.data, List.length_append,
    ← h2.tl] at hb
  have hlen : (pre ++ xs ++ vs ++ post.drop vs.length).length = l.data.length := by
    simp [hl]; omega
  refine ⟨_, _, hb, hlen, by simp, h2.hd, h2.hlt, ?_, ?_, ?_, ?_, ?_⟩
  · simp [h2.tl]; omega
  · simp only [h2.sz, List.length_append]; exact add64_eq (by omega)
  · simp only [hlen]; exact h2.len8
  · simp only [hlen]; exact h2.lenM
  · simp only [hlen]; exact h2.shr

theorem Rep.backCond (hM : M ≤ 2 ^ 62) (h2 : Rep M l pre xs post) {k : Nat} (hk : k ≤ 2 ^ 62) :
    (decide (add64 l.tailidx k > l.data.length) = false) ↔ k ≤ post.length := by
  have hl := h2.len
  have hm := h2.lenM
  simp only [gt_iff_lt, decide_eq_false_iff_not, Nat.not_lt]
  rw [h2.tl, add64_eq (by omega)]
  omega

theorem Holds.pushBack (hM : M ≤ 2 ^ 62) (h : Holds M l xs) (vs : List T)
    (hvs : vs.length ≤ 2 ^ 62) :
    l.pushBack M vs = .error .oom ∨ ∃ l', l.pushBack M vs = .ok l' ∧ Holds M l' (xs ++ vs) := by
  unfold AL.pushBack
  rcases growLoop_ok hM (fun l : AL T => add64 l.tailidx vs.length > l.data.length) _ l rfl h with
    h1 | ⟨l', h1, ⟨pre, post, h2⟩, h3⟩
  · left; simp [h1, Bind.bind, Except.bind]
  · right
    obtain ⟨data, t, hb, -, hr⟩ := h2.backFit hM vs ((h2.backCond hM hvs).1 h3)
    refine ⟨_, ?_, pre, _, hr⟩
    simp only [h1, hb, Bind.bind, Except.bind, Pure.pure, Except.pure]

theorem push_eq_pushBack (l : AL T) (v : T) : l.push M v = l.pushBack M [v] := by
  unfold AL.push AL.pushBack
  simp only [List.length_cons, List.length_nil, Nat.zero_add, backLoop]
  congr 1
  funext l'
  cases setAt l'.data l'.tailidx v <;> rfl

theorem Rep.frontFit (hM : M ≤ 2 ^ 62) (h2 : Rep M l pre xs post) (vs : List T)
    (hfit : vs.length ≤ pre.length) :
    ∃ data hd, frontLoop l.data l.headidx vs = .ok (data, hd) ∧ data.length = l.data.length ∧
      Rep M { l with data := data, headidx := hd, size := add64 l.size vs.length }
        (pre.take (pre.length - vs.length)) (vs.reverse ++ xs) post := by
  have hl := h2.len
  have hm := h2.lenM
  have hp : (pre.take (pre.length - vs.length) ++ pre.drop (pre.length - vs.length)) = pre :=
    List.take_append_drop _ _
  obtain ⟨hd', b1, b2, b3⟩ := frontLoop_ok vs (pre.take (pre.length - vs.length))
    (pre.drop (pre.length - vs.length)) (xs ++ post) l.headidx (by simp; omega)
    (by rw [hp]; exact h2.hd) h2.hlt (by rw [hp]; omega)
  rw [hp, ← List.append_assoc pre, ← h2.data] at b1
  have hlen : (pre.take (pre.length - vs.length) ++ (vs.reverse ++ (xs ++ post))).length
      = l.data.length := by
    simp [hl]; omega
  refine ⟨_, _, b1, hlen, by simp, b2, b3, ?_, ?_, ?_, ?_, ?_⟩
  · simp [h2.tl]; omega
  · simp only [h2.sz, List.length_append, List.length_reverse]
    rw [add64_eq (by omega)]; omega
  · simp only [hlen]; exact h2.len8
  · simp only [hlen]; exact h2.lenM
  · simp only [hlen]; exact h2.shr

theorem Rep.frontCond (hM : M ≤ 2 ^ 62) (h2 : Rep M l pre xs post) {k : Nat} (hk : k ≤ 2 ^ 62) :
    (decide (sub64 (add64 l.headidx 1) k > 2 ^ 63) = false) ↔ k ≤ pre.length := by
  have hl := h2.len
  have hm := h2.lenM
  simp only [gt_iff_lt, decide_eq_false_iff_not, Nat.not_lt]
  rw [h2.hd]
  unfold sub64
  omega

theorem Holds.pushFront (hM : M ≤ 2 ^ 62) (h : Holds M l xs) (vs : List T)
    (hvs : vs.length ≤ 2 ^ 62) :
    l.pushFront M vs = .error .oom ∨
      ∃ l', l.pushFront M vs = .ok l' ∧ Holds M l' (vs.reverse ++ xs) := by
  unfold AL.pushFront
  rcases growLoop_ok hM (fun l : AL T => sub64 (add64 l.headidx 1) vs.length > 2 ^ 63) _ l rfl h with
    h1 | ⟨l', h1, ⟨pre, post, h2⟩, h3⟩
  · left; simp [h1, Bind.bind, Except.bind]
  · right
    obtain ⟨data, t, hb, -, hr⟩ := h2.frontFit hM vs ((h2.frontCond hM hvs).1 h3)
    refine ⟨_, ?_, _, post, hr⟩
    simp only [h1, hb, Bind.bind, Except.bind, Pure.pure, Except.pure]

theorem Holds.popFront (hM : M ≤ 2 ^ 62) (h : Holds M l xs) :
    ∃ l', l.popFront M = .ok (l', xs.head?) ∧ Holds M l' xs.tail := by
  obtain ⟨pre, post, h⟩ := h
  unfold AL.popFront
  have hl := h.len
  have hm := h.lenM
  cases xs with
  | nil =>
    rw [if_neg (by simp [h.sz])]
    exact ⟨l, rfl, pre, post, h⟩
  | cons x xs =>
    simp only [List.length_cons] at hl
    rw [if_pos (by simp [h.sz])]
    have hat : at' l.data (add64 l.headidx 1) = .ok x := by
      rw [h.hd, h.data]
      unfold at'
      simp
    have hr : Rep M { l with size := sub64 l.size 1, headidx := add64 l.headidx 1 }
        (pre ++ [x]) xs post := by
      refine ⟨?_, ?_, ?_, ?_, ?_, h.len8, h.lenM, h.shr⟩
      · simp [h.data]
      · simp only [h.hd, List.length_append, List.length_cons, List.length_nil]
        exact add64_eq (by omega)
      · simp only [h.hd]; omega
      · simp [h.tl]; omega
      · have := h.sz
        simp only [List.length_cons] at this
        simp only [this]
        exact sub64_eq (by omega) (by omega)
    obtain ⟨l', h1, h2⟩ := hr.shrink hM
    refine ⟨l', ?_, h2⟩
    simp only [hat, h1, Bind.bind, Except.bind, Pure.pure, Except.pure, List.head?_cons]

/-- `PopBack` up to the call of `shrink`. -/
theorem Rep.popBack (hM : M ≤ 2 ^ 62) {x : T} (h : Rep M l pre (xs ++ [x]) post) :
    ∃ l₁, l.popBack M = (l₁.shrink M).map (fun l => (l, some x)) ∧ Rep M l₁ pre xs (x :: post) ∧
      l₁.data = l.data ∧ l₁.shrinkSize = l.shrinkSize := by
  have hl := h.len
  have hm := h.lenM
  have htl := h.tl
  have hsz := h.sz
  simp only [List.length_append, List.length_cons, List.length_nil] at htl hsz hl
  have e1 : sub64 l.tailidx 1 = pre.length + xs.length := by
    rw [sub64_eq (by omega) (by omega)]; omega
  have hat : at' l.data (sub64 l.tailidx 1) = .ok x := by
    rw [e1, h.data]
    unfold at'
    have : pre ++ (xs ++ [x]) ++ post = (pre ++ xs) ++ x :: post := by simp
    rw [this, ← List.length_append]
    simp
  have hr : Rep M { l with size := sub64 l.size 1, tailidx := sub64 l.tailidx 1 }
      pre xs (x :: post) := by
    refine ⟨?_, h.hd, h.hlt, e1, ?_, h.len8, h.lenM, h.shr⟩
    · simp [h.data]
    · simp only [hsz]
      rw [sub64_eq (by omega) (by omega)]; omega
  refine ⟨_, ?_, hr, rfl, rfl⟩
  unfold AL.popBack
  rw [if_pos (by simp [h.sz])]
  simp only [hat, Bind.bind, Except.bind, Pure.pure, Except.pure]
  cases AL.shrink M { l with size := sub64 l.size 1, tailidx := sub64 l.tailidx 1 } <;> rfl

theorem Holds.popBack (hM : M ≤ 2 ^ 62) (h : Holds M l xs) :
    ∃ l', l.popBack M = .ok (l', xs.getLast?) ∧ Holds M l' xs.dropLast := by
  obtain ⟨pre, post, h⟩ := h
  rcases nil_or_snoc xs with rfl | ⟨xs, x, rfl⟩
  · unfold AL.popBack
    rw [if_neg (by simp [h.sz])]
    exact ⟨l, rfl, pre, post, h⟩
  · obtain ⟨l₁, h1, hr, -⟩ := h.popBack hM
    obtain ⟨l', h2, h3⟩ := hr.shrink hM
    refine ⟨l', ?_, by simpa using h3⟩
    rw [h1, h2]
    simp [Except.map]

theorem Rep.shift (hM : M ≤ 2 ^ 62) (h : Rep M l pre xs post) {i : Nat} (hi : i < xs.length) :
    ∃ l' pre' post', l.shift (pre.length + i) = .ok l' ∧
      Rep M { l' with size := sub64 l'.size 1 } pre' (xs.eraseIdx i) post' := by
  have hl := h.len
  have hm := h.lenM
  have hsz := h.sz
  have htl := h.tl
  have hhd := h.hd
  have hxs : xs = xs.take i ++ xs[i] :: xs.drop (i + 1) := by
    rw [← List.drop_eq_getElem_cons hi, List.take_append_drop]
  have her : xs.eraseIdx i = xs.take i ++ xs.drop (i + 1) := List.eraseIdx_eq_take_drop_succ ..
  have hli : (xs.eraseIdx i).length = xs.length - 1 := by rw [List.length_eraseIdx]; simp [hi]
  unfold AL.shift
  by_cases c : sub64 l.data.length l.tailidx > l.headidx
  · rw [if_pos c]
    have e1 : add64 (pre.length + i) 1 = pre.length + i + 1 := add64_eq (by omega)
    have hsl : slice l.data (pre.length + i + 1) l.tailidx = .ok (xs.drop (i + 1)) := by
      unfold slice
      rw [if_pos ⟨by omega, by omega⟩, h.data, htl, List.append_assoc,
        List.take_length_add_append, List.take_left' rfl, Nat.add_assoc,
        List.drop_length_add_append]
    have hcp : copyAt l.data (pre.length + i) (xs.drop (i + 1)) =
        .ok (pre ++ (xs.eraseIdx i) ++ l.data.drop (pre.length + xs.length - 1)) := by
      unfold copyAt
      have hn : min (l.data.length - (pre.length + i)) (xs.drop (i + 1)).length
          = (xs.drop (i + 1)).length := by simp; omega
      rw [if_pos (by omega), her]
      simp only [hn, List.take_length]
      have e2 : pre.length + i + (xs.drop (i + 1)).length = pre.length + xs.length - 1 := by
        simp; omega
      have e3 : l.data.take (pre.length + i) = pre ++ xs.take i := by
        rw [h.data, List.append_assoc, List.take_length_add_append, List.take_append_of_le_length
          (by omega)]
      simp only [e2, e3, List.append_assoc]
    refine ⟨{ l with data := pre ++ (xs.eraseIdx i) ++ l.data.drop (pre.length + xs.length - 1)
                     tailidx := sub64 l.tailidx 1 }, pre,
      l.data.drop (pre.length + xs.length - 1), ?_, ?_⟩
    · rw [e1, hsl]
      simp only [Bind.bind, Except.bind, hcp, Pure.pure, Except.pure]
    · have hlen : (pre ++ (xs.eraseIdx i) ++ l.data.drop (pre.length + xs.length - 1)).length
          = l.data.length := by
        simp [hli]; omega
      refine ⟨rfl, hhd, h.hlt, ?_, ?_, ?_, ?_, ?_⟩
      · simp only [htl, hli]; rw [sub64_eq (by omega) (by omega)]; omega
      · simp only [hsz, hli]; exact sub64_eq (by omega) (by omega)
      · simp only [hlen]; exact h.len8
      · simp only [hlen]; exact h.lenM
      · simp only [hlen]; exact h.shr
  · rw [if_neg c]
    have hhl := h.hlt
    have e1 : add64 l.headidx 2 = pre.length + 1 := by unfold add64 at *; omega
    have hsl : slice l.data (add64 l.headidx 1) (pre.length + i) = .ok (xs.take i) := by
      unfold slice
      rw [hhd, if_pos ⟨by omega, by omega⟩, h.data, List.append_assoc,
        List.take_length_add_append, List.take_append_of_le_length (by omega),
        List.drop_left' rfl]
    have hcp : copyAt l.data (pre.length + 1) (xs.take i) =
        .ok (l.data.take (pre.length + 1) ++ (xs.eraseIdx i) ++ post) := by
      unfold copyAt
      have hn : min (l.data.length - (pre.length + 1)) (xs.take i).length = (xs.take i).length := by
        simp; omega
      rw [if_pos (by omega), her]
      simp only [hn, List.take_length]
      have e2 : pre.length + 1 + (xs.take i).length = pre.length + (i + 1) := by
        simp; omega
      have e3 : l.data.drop (pre.length + (i + 1)) = xs.drop (i + 1) ++ post := by
        rw [h.data, List.append_assoc, List.drop_length_add_append, List.drop_append_of_le_length
          (by omega)]
      simp only [e2, e3, List.append_assoc]
    refine ⟨{ l with data := l.data.take (pre.length + 1) ++ (xs.eraseIdx i) ++ post
                     headidx := add64 l.headidx 1 },
      l.data.take (pre.length + 1), post, ?_, ?_⟩
    · rw [e1, hsl]
      simp only [Bind.bind, Except.bind, hcp, Pure.pure, Except.pure]
    · have hlt : (l.data.take (pre.length + 1)).length = pre.length + 1 := by simp; omega
      have hlen : (l.data.take (pre.length + 1) ++ (xs.eraseIdx i) ++ post).length
          = l.data.length := by
        simp only [List.length_append, hlt, hli]; omega
      refine ⟨rfl, ?_, ?_, ?_, ?_, ?_, ?_, ?_⟩
      · simp only [hhd, hlt]; exact add64_eq (by omega)
      · simp only [hhd]; omega
      · simp only [htl, hli, hlt]; omega
      · simp only [hsz, hli]; exact sub64_eq (by omega) (by omega)
      · simp only [hlen]; exact h.len8
      · simp only [hlen]; exact h.lenM
      · simp only [hlen]; exact h.shr

theorem Holds.remove (hM : M ≤ 2 ^ 62) (h : Holds M l xs) (i : Nat) :
    ∃ l', l.remove M i = .ok (l', xs[i]?) ∧ Holds M l' (xs.eraseIdx i) := by
  obtain ⟨pre, post, h⟩ := h
  have hl := h.len
  have hm := h.lenM
  unfold AL.remove
  by_cases c : i ≥ l.size
  · rw [if_pos c]
    rw [h.sz] at c
    refine ⟨l, by rw [List.getElem?_eq_none c], pre, post, ?_⟩
    rw [List.eraseIdx_of_length_le c]
    exact h
  · rw [if_neg c]
    rw [h.sz] at c
    have hi : i < xs.length := by omega
    have e : add64 (add64 l.headidx 1) i = pre.length + i := by
      rw [h.hd]; exact add64_eq (by omega)
    have hat : at' l.data (pre.length + i) = .ok xs[i] := by
      unfold at'
      rw [h.data, List.append_assoc, List.getElem?_append_right (by omega),
        List.getElem?_append_left (by omega)]
      simp [hi]
    obtain ⟨l', pre', post', h1, h2⟩ := h.shift hM hi
    obtain ⟨l'', h3, h4⟩ := h2.shrink hM
    refine ⟨l'', ?_, h4⟩
    rw [e]
    simp only [hat, h1, h3, Bind.bind, Except.bind, Pure.pure, Except.pure,
      List.getElem?_eq_getElem hi]

theorem Holds.index (hM : M ≤ 2 ^ 62) (h : Holds M l xs) (i : Nat) : l.index i = .ok xs[i]? := by
  obtain ⟨pre, post, h⟩ := h
  unfold AL.index
  rw [h.sz]
  by_cases c : i ≥ xs.length
  · rw [if_pos c, List.getElem?_eq_none c]
  · rw [if_neg c, h.at hM (by omega), List.getElem?_eq_getElem (by omega)]
    rfl

theorem Holds.front (h : Holds M l xs) : l.front = .ok xs.head? := by
  obtain ⟨pre, post, h⟩ := h
  unfold AL.front
  cases xs with
  | nil => rw [if_neg (by simp [h.sz])]; rfl
  | cons x xs =>
    rw [if_pos (by simp [h.sz]), h.hd, h.data]
    unfold at'
    simp [Except.map]

theorem Holds.back (hM : M ≤ 2 ^ 62) (h : Holds M l xs) : l.back = .ok xs.getLast? := by
  obtain ⟨pre, post, h⟩ := h
  unfold AL.back
  have hl := h.len
  have hm := h.lenM
  rcases nil_or_snoc xs with rfl | ⟨xs, x, rfl⟩
  · rw [if_neg (by simp [h.sz])]; rfl
  · have htl := h.tl
    simp only [List.length_append, List.length_cons, List.length_nil] at htl hl
    have e1 : sub64 l.tailidx 1 = (pre ++ xs).length := by
      rw [sub64_eq (by omega) (by omega), List.length_append]; omega
    rw [if_pos (by simp [h.sz]), e1, h.data]
    unfold at'
    have : pre ++ (xs ++ [x]) ++ post = (pre ++ xs) ++ x :: post := by simp
    rw [this]
    simp [Except.map]

theorem setAt_rep (hM : M ≤ 2 ^ 62) (h : Rep M l pre xs post) {i : Nat} (hi : i < xs.length)
    (v : T) : setAt l.data (add64 (add64 i l.headidx) 1) v = .ok (pre ++ xs.set i v ++ post) := by
  have hl := h.len
  have hm := h.lenM
  have e : add64 (add64 i l.headidx) 1 = pre.length + i := by
    have h1 := h.hd; have h2 := h.hlt
    unfold add64 at *; omega
  unfold setAt
  rw [e, if_pos (by omega), h.data, List.append_assoc, List.set_append_right _ _ (by omega),
    Nat.add_sub_cancel_left, List.set_append_left _ _ hi, List.append_assoc]

theorem Rep.set (h : Rep M l pre xs post) (i : Nat) (v : T) :
    Rep M { l with data := pre ++ xs.set i v ++ post } pre (xs.set i v) post := by
  have hlen : (pre ++ xs.set i v ++ post).length = l.data.length := by
    rw [h.len]; simp [Nat.add_assoc]
  refine ⟨rfl, h.hd, h.hlt, ?_, ?_, ?_, ?_, ?_⟩
  · simpa using h.tl
  · simpa using h.sz
  · simp only [hlen]; exact h.len8
  · simp only [hlen]; exact h.lenM
  · simp only [hlen]; exact h.shr

theorem Rep.set' (hM : M ≤ 2 ^ 62) (h : Rep M l pre xs post) {i : Int} (h0 : 0 ≤ i)
    (h1 : i < xs.length) (v : T) :
    ∃ l', l.set i v = .ok l' ∧ Rep M l' pre (xs.set i.toNat v) post ∧
      l'.data.length = l.data.length := by
  have hl := h.len
  have hm := h.lenM
  have e : (i % 2 ^ 64).toNat = i.toNat := by omega
  have hi : i.toNat < xs.length := by omega
  refine ⟨_, ?_, h.set i.toNat v, ?_⟩
  · unfold AL.set
    rw [e, setAt_rep hM h hi]
    rfl
  · simp [hl]; omega

theorem Holds.set (hM : M ≤ 2 ^ 62) (h : Holds M l xs) {i : Int} (h0 : 0 ≤ i)
    (h1 : i < xs.length) (v : T) :
    ∃ l', l.set i v = .ok l' ∧ Holds M l' (xs.set i.toNat v) := by
  obtain ⟨pre, post, h⟩ := h
  obtain ⟨l', g1, g2, -⟩ := h.set' hM h0 h1 v
  exact ⟨l', g1, pre, post, g2⟩

/-- Outside the range `Set` either crashes or writes outside the content. -/
theorem Holds.set_out (hM : M ≤ 2 ^ 62) (h : Holds M l xs) {i : Int} (hlo : -2 ^ 63 ≤ i)
    (hhi : i < 2 ^ 63) (ho : i < 0 ∨ (xs.length : Int) ≤ i) (v : T) :
    l.set i v = .error .crash ∨ ∃ l', l.set i v = .ok l' ∧ Holds M l' xs := by
  obtain ⟨pre, post, h⟩ := h
  have hl := h.len
  have hm := h.lenM
  have hhd := h.hd
  have hhl := h.hlt
  unfold AL.set setAt
  generalize hk : add64 (add64 (i % 2 ^ 64).toNat l.headidx) 1 = k
  have hout : k < pre.length ∨ pre.length + xs.length ≤ k := by
    unfold add64 at hk hhd
    omega
  by_cases c : k < l.data.length
  · right
    rw [if_pos c]
    have hlen : (l.data.set k v).length = l.data.length := List.length_set ..
    rcases hout with ho' | ho'
    · refine ⟨_, rfl, pre.set k v, post, ?_, ?_, h.hlt, ?_, h.sz, ?_, ?_, ?_⟩
      · simp only [h.data]
        rw [List.append_assoc, List.set_append_left _ _ ho', List.append_assoc]
      · simpa using h.hd
      · simpa using h.tl
      · simp only [hlen]; exact h.len8
      · simp only [hlen]; exact h.lenM
      · simp only [hlen]; exact h.shr
    · refine ⟨_, rfl, pre, post.set (k - (pre.length + xs.length)) v, ?_, h.hd, h.hlt, h.tl, h.sz,
        ?_, ?_, ?_⟩
      · simp only [h.data]
        rw [List.set_append_right _ _ (by simp; omega), List.length_append]
      · simp only [hlen]; exact h.len8
      · simp only [hlen]; exact h.lenM
      · simp only [hlen]; exact h.shr
  · left; rw [if_neg c]; rfl

theorem Holds.values (h : Holds M l xs) : l.values M = .ok xs := by
  obtain ⟨pre, post, h⟩ := h
  have hl := h.len
  have hm := h.lenM
  unfold AL.values
  rw [h.window, h.sz]
  simp only [make, if_pos (show xs.length ≤ M by omega), Bind.bind, Except.bind]
  rw [copy_fresh _ _ _ (by omega)]
  simp

theorem Holds.window (h : Holds M l xs) :
    slice l.data (add64 l.headidx 1) l.tailidx = .ok xs := by
  obtain ⟨pre, post, h⟩ := h
  exact h.window

theorem Holds.size (h : Holds M l xs) : l.size = xs.length := by
  obtain ⟨pre, post, h⟩ := h
  exact h.sz

theorem Holds.length_le (h : Holds M l xs) : xs.length ≤ M := by
  obtain ⟨pre, post, h⟩ := h
  have := h.len; have := h.lenM; omega

end

end Verif.AList
