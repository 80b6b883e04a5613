import Verif.List.ArrayLemmas
import Verif.Common.Ord
import Mathlib.Logic.Function.Iterate

/-! C18 - C21: the array list. -/

set_option linter.unusedSectionVars false

namespace Verif.AList
variable {T : Type} [Inhabited T]

/-- The elements handed to a callback that says when to stop. -/
def upTo {α : Type} (p : α → Bool) : List α → List α
  | [] => []
  | a :: l => if p a then a :: upTo p l else [a]

/-- The specification: a sequence. -/
def spec (xs : List T) : Op T → List T × Res T
  | .push v => (xs ++ [v], .unit)
  | .pushFront vs => (vs.reverse ++ xs, .unit)
  | .pushBack vs => (xs ++ vs, .unit)
  | .popFront => (xs.tail, .val xs.head?)
  | .popBack => (xs.dropLast, .val xs.getLast?)
  | .front => (xs, .val xs.head?)
  | .back => (xs, .val xs.getLast?)
  | .index i => (xs, if h : i < xs.length then .val (some xs[i]) else .panic)
  | .set i v => (if 0 ≤ i then xs.set i.toNat v else xs, .unit)
  | .remove i => (xs.eraseIdx i, if h : i < xs.length then .val (some xs[i]) else .panic)
  | .contains comp vs => (xs, .nat ((xs.map fun e => vs.countP fun v => comp e v = -1).sum))
  | .values => (xs, .list xs)
  | .traverse every => (xs, .visited (upTo (fun e => every e.1 e.2) (xs.zipIdx.map fun e => (e.2, e.1))))
  | .clear => ([], .unit)
  | .empty => (xs, .bool xs.isEmpty)
  | .size => (xs, .nat xs.length)

/-- What a caller must respect: `Set` inside the list (see `C19_set_out_of_range_unreported`), and
argument slices that fit in memory. -/
def legal (xs : List T) : Op T → Prop
  | .set i _ => 0 ≤ i ∧ i < xs.length
  | .pushFront vs => vs.length ≤ 2 ^ 62
  | .pushBack vs => vs.length ≤ 2 ^ 62
  | _ => True

theorem contains_eq (comp : T → T → Int) (xs vs : List T) (n : Nat) :
    xs.foldl (fun count e => vs.foldl (fun c v => if comp e v = -1 then c + 1 else c) count) n
      = n + (xs.map fun e => vs.countP fun v => comp e v = -1).sum := by
  have inner : ∀ (e : T) (vs : List T) (n : Nat),
      vs.foldl (fun c v => if comp e v = -1 then c + 1 else c) n
        = n + vs.countP fun v => comp e v = -1 := by
    intro e vs
    induction vs with
    | nil => intro n; simp
    | cons v vs ih =>
      intro n
      simp only [List.foldl_cons, ih, List.countP_cons]
      by_cases h : comp e v = -1 <;> simp [h]; omega
  induction xs generalizing n with
  | nil => simp
  | cons x xs ih =>
    rw [List.foldl_cons, ih, inner, List.map_cons, List.sum_cons]
    omega

theorem traverse_eq {M : Nat} {l : AL T} {xs : List T} (hM : M ≤ 2 ^ 62) (h : Holds M l xs)
    (every : Nat → T → Bool) (n : Nat) : ∀ i, xs.length - i = n →
    l.traverse every i =
      .ok (upTo (fun e => every e.1 e.2) (((xs.drop i).zipIdx i).map fun e => (e.2, e.1))) := by
  obtain ⟨pre, post, h⟩ := h
  induction n with
  | zero =>
    intro i hi
    rw [AL.traverse, h.sz, if_neg (by omega), List.drop_of_length_le (by omega)]
    rfl
  | succ n ih =>
    intro i hi
    have hlt : i < xs.length := by omega
    rw [AL.traverse, h.sz, if_pos hlt, h.at hM hlt, ih (i + 1) (by omega),
      List.drop_eq_getElem_cons hlt]
    simp only [List.zipIdx_cons, List.map_cons, upTo]
    split <;> rfl

theorem AL.step_ok {M : Nat} (hM : M ≤ 2 ^ 62) (l : AL T) (xs : List T) (o : Op T)
    (hl : legal xs o) (h : Holds M l xs) :
    l.step M o = .error .oom ∨
      ∃ l', l.step M o = .ok (l', (spec xs o).2) ∧ Holds M l' (spec xs o).1 := by
  have hpanic : ∀ i, orPanic xs[i]? = if h : i < xs.length then .val (some xs[i]) else .panic := by
    intro i
    by_cases h : i < xs.length
    · simp [h, orPanic]
    · rw [List.getElem?_eq_none (by omega)]; simp [h, orPanic]
  cases o with
  | push v =>
    rcases h.pushBack hM [v] (by simp) with h1 | ⟨l', h1, h2⟩
    · left; simp [step, push_eq_pushBack, h1, Except.map]
    · right; exact ⟨l', by simp [step, push_eq_pushBack, h1, Except.map, spec], h2⟩
  | pushFront vs =>
    rcases h.pushFront hM vs hl with h1 | ⟨l', h1, h2⟩
    · left; simp [step, h1, Except.map]
    · right; exact ⟨l', by simp [step, h1, Except.map, spec], h2⟩
  | pushBack vs =>
    rcases h.pushBack hM vs hl with h1 | ⟨l', h1, h2⟩
    · left; simp [step, h1, Except.map]
    · right; exact ⟨l', by simp [step, h1, Except.map, spec], h2⟩
  | popFront =>
    obtain ⟨l', h1, h2⟩ := h.popFront hM
    right; exact ⟨l', by simp [step, h1, Except.map, spec], h2⟩
  | popBack =>
    obtain ⟨l', h1, h2⟩ := h.popBack hM
    right; exact ⟨l', by simp [step, h1, Except.map, spec], h2⟩
  | front => right; exact ⟨l, by simp [step, h.front, Except.map, spec], h⟩
  | back => right; exact ⟨l, by simp [step, h.back hM, Except.map, spec], h⟩
  | index i => right; exact ⟨l, by simp [step, h.index hM, Except.map, spec, hpanic], h⟩
  | set i v =>
    obtain ⟨l', h1, h2⟩ := h.set hM hl.1 hl.2 v
    right; exact ⟨l', by simp [step, h1, Except.map, spec], by simpa [spec, hl.1] using h2⟩
  | remove i =>
    obtain ⟨l', h1, h2⟩ := h.remove hM i
    right; exact ⟨l', by simp [step, h1, Except.map, spec, hpanic], h2⟩
  | contains comp vs =>
    right
    refine ⟨l, ?_, h⟩
    simp only [step, contains, h.window, Bind.bind, Except.bind, Pure.pure, Except.pure, Except.map,
      contains_eq, spec, Nat.zero_add]
  | values => right; exact ⟨l, by simp [step, h.values, Except.map, spec], h⟩
  | traverse every =>
    right
    refine ⟨l, ?_, h⟩
    simp [step, traverse_eq hM h every _ 0 rfl, Except.map, spec]
  | clear =>
    obtain ⟨pre, post, h⟩ := h
    right; exact ⟨l.clear, rfl, h.clear⟩
  | empty =>
    right; refine ⟨l, ?_, h⟩
    simp only [step, spec, h.size]
    cases xs <;> rfl
  | size => right; exact ⟨l, by simp [step, spec, h.size], h⟩

/-- C18, C19: every history of legal calls gives the results of the ideal sequence, unless an
allocation is refused; no index ever leaves the array. Missing for the full statement: that a list
of bounded size never asks for unbounded memory, which is false, see
`C18_small_list_exhausts_memory`. -/
theorem C18_array_sequence_partial {M : Nat} (h8 : 8 ≤ M) (hM : M ≤ 2 ^ 62) (os : List (Op T))
    (hl : LegalRun spec legal [] os) :
    runE (AL.step M) (AL.new : AL T) os = .error .oom ∨
      ∃ l, runE (AL.step M) (AL.new : AL T) os = .ok (l, (runSpec spec [] os).2) := by
  rcases runE_refines (step := AL.step M) (spec := spec) (legal := legal) .oom
    (fun l xs => Holds M l xs) (fun l xs o hl h => AL.step_ok hM l xs o hl h) os AL.new [] hl
    (new_rep h8) with h | ⟨l, h, -⟩
  · exact .inl h
  · exact .inr ⟨l, h⟩

theorem reach {M : Nat} (h8 : 8 ≤ M) (hM : M ≤ 2 ^ 62) {os : List (Op T)} {l : AL T}
    {rs : List (Res T)} (hl : LegalRun spec legal [] os)
    (hr : runE (AL.step M) (AL.new : AL T) os = .ok (l, rs)) :
    Holds M l (runSpec spec [] os).1 := by
  rcases runE_refines (step := AL.step M) (spec := spec) (legal := legal) .oom
    (fun l xs => Holds M l xs) (fun l xs o hl h => AL.step_ok hM l xs o hl h) os AL.new [] hl
    (new_rep h8) with h | ⟨l', h, h'⟩
  · rw [hr] at h; simp at h
  · rw [hr] at h
    simp only [Except.ok.injEq, Prod.mk.injEq] at h
    rw [h.1]; exact h'

/-- Non-vacuity: a history that grows at both ends, removes in the middle and reads out of range. -/
example : ((runE (AL.step 64) (AL.new : AL Nat)
    [.pushFront [1, 2, 3, 4, 5], .pushBack [6, 7, 8, 9, 10, 11], .remove 3, .remove 20, .set 0 9,
     .popFront, .index 100, .values]).map (·.2)).toOption =
    some [.unit, .unit, .val (some 2), .panic, .unit, .val (some 9), .panic,
      .list [4, 3, 1, 6, 7, 8, 9, 10, 11]] := by decide +kernel

/-! ### Memory -/

section
variable {M : Nat} {l : AL T} {pre xs post : List T}

theorem growLoop_stop {cond : AL T → Bool} (h : cond l = false) : growLoop M cond l = .ok l := by
  rw [growLoop, if_neg (by simp [h])]

/-- One `PushFront` with room. -/
theorem Rep.front1 (hM : M ≤ 2 ^ 62) (h : Rep M l pre xs post) (hp : 0 < pre.length) (v : T) :
    ∃ l' pre', l.step M (.pushFront [v]) = .ok (l', .unit) ∧ Rep M l' pre' (v :: xs) post ∧
      pre'.length + 1 = pre.length ∧ l'.data.length = l.data.length ∧
      l'.shrinkSize = l.shrinkSize := by
  obtain ⟨data, hd, h1, h2, h3⟩ := h.frontFit hM [v] (by simp; omega)
  refine ⟨_, _, ?_, h3, by simp; omega, h2, rfl⟩
  simp only [AL.step, AL.pushFront]
  have hc := (h.frontCond hM (k := [v].length) (by simp)).2 (by simp; omega)
  rw [growLoop_stop (cond := fun l : AL T => decide (sub64 (add64 l.headidx 1) [v].length > 2 ^ 63)) hc]
  simp only [h1, Bind.bind, Except.bind, Pure.pure, Except.pure, Except.map]

theorem Rep.fronts (hM : M ≤ 2 ^ 62) (v : T) (k : Nat) : ∀ {l : AL T} {pre xs post : List T},
    Rep M l pre xs post → k ≤ pre.length →
    ∃ l' pre' xs' rs, runE (AL.step M) l (List.replicate k (.pushFront [v])) = .ok (l', rs) ∧
      Rep M l' pre' xs' post ∧ xs'.length = xs.length + k ∧
      pre'.length + k = pre.length ∧ l'.data.length = l.data.length ∧
      l'.shrinkSize = l.shrinkSize := by
  induction k with
  | zero => intro l pre xs post h _; exact ⟨l, pre, xs, [], rfl, h, rfl, rfl, rfl, rfl⟩
  | succ k ih =>
    intro l pre xs post h hk
    obtain ⟨l1, pre1, s1, r1, p1, d1, q1⟩ := h.front1 hM (by omega) v
    obtain ⟨l2, pre2, xs2, rs, s2, r2, x2, p2, d2, q2⟩ := ih r1 (by omega)
    refine ⟨l2, pre2, xs2, .unit :: rs, ?_, r2, ?_, by omega, by omega, by omega⟩
    · simp [List.replicate_succ, runE, s1, s2]
    · simp at x2; omega

/-- `PushFront` without room. -/
theorem Rep.frontGrow (hM : M ≤ 2 ^ 62) (h : Rep M l pre xs post) (hp : pre.length = 0) (v : T) :
    (l.step M (.pushFront [v]) = .error .oom ∧ M < 2 * l.data.length) ∨
    ∃ l' pre' post', l.step M (.pushFront [v]) = .ok (l', .unit) ∧ Rep M l' pre' (v :: xs) post' ∧
      pre'.length = l.data.length / 2 ∧ l'.data.length = 2 * l.data.length ∧
      l'.shrinkSize = xs.length - xs.length / 4 := by
  have hc : (decide (sub64 (add64 l.headidx 1) [v].length > 2 ^ 63)) = true := by
    have := h.frontCond hM (k := [v].length) (by simp)
    rw [← Bool.not_eq_false, this, hp]
    simp
  have h8 := h.len8
  rcases h.growth hM with ⟨h1, h2⟩ | ⟨l', pre', post', h1, h2, h3, h4, h5, h6⟩
  · left
    refine ⟨?_, h2⟩
    simp only [AL.step, AL.pushFront]
    rw [growLoop, if_pos hc, h1]
    rfl
  · right
    obtain ⟨l'', pre'', i1, i2, i3, i4, i5⟩ := h2.front1 hM (by omega) v
    refine ⟨l'', pre'', post', ?_, i2, by omega, by omega, by omega⟩
    simp only [AL.step, AL.pushFront] at i1 ⊢
    rw [growLoop, if_pos hc, h1]
    simp only
    rw [dif_pos ⟨by omega, h4⟩]
    exact i1

/-- `PopBack` that does not shrink. -/
theorem Rep.back1 (hM : M ≤ 2 ^ 62) (h : Rep M l pre xs post) (hx : l.shrinkSize + 1 < xs.length) :
    ∃ l' xs' post' r, l.step M .popBack = .ok (l', r) ∧ Rep M l' pre xs' post' ∧
      xs'.length + 1 = xs.length ∧ l'.data.length = l.data.length ∧
      l'.shrinkSize = l.shrinkSize := by
  rcases nil_or_snoc xs with rfl | ⟨xs, x, rfl⟩
  · simp at hx
  · obtain ⟨l1, h1, h2, h3, h4⟩ := h.popBack hM
    simp only [List.length_append, List.length_cons, List.length_nil] at hx
    have := h2.shrinkNop (.inr (by omega))
    exact ⟨l1, xs, _, .val (some x), by simp [AL.step, h1, this, Except.map], h2, by simp,
      by rw [h3], h4⟩

theorem Rep.backs (hM : M ≤ 2 ^ 62) (k : Nat) : ∀ {l : AL T} {xs post : List T},
    Rep M l pre xs post → l.shrinkSize + k < xs.length →
    ∃ l' xs' post' rs, runE (AL.step M) l (List.replicate k .popBack) = .ok (l', rs) ∧
      Rep M l' pre xs' post' ∧ xs'.length + k = xs.length ∧
      l'.data.length = l.data.length ∧ l'.shrinkSize = l.shrinkSize := by
  induction k with
  | zero => intro l xs post h _; exact ⟨l, xs, post, [], rfl, h, rfl, rfl, rfl⟩
  | succ k ih =>
    intro l xs post h hk
    obtain ⟨l1, xs1, post1, r, s1, r1, p1, d1, q1⟩ := h.back1 hM (by omega)
    obtain ⟨l2, xs2, post2, rs, s2, r2, p2, d2, q2⟩ := ih r1 (by omega)
    refine ⟨l2, xs2, post2, r :: rs, ?_, r2, by omega, by omega, by omega⟩
    simp [List.replicate_succ, runE, s1, s2]

/-- `PopBack` that shrinks. -/
theorem Rep.backShrink (hM : M ≤ 2 ^ 62) (h : Rep M l pre xs post) (h9 : 9 < xs.length)
    (hx : xs.length - 1 ≤ l.shrinkSize) :
    ∃ l' pre' xs' post' r, l.step M .popBack = .ok (l', r) ∧ Rep M l' pre' xs' post' ∧
      xs'.length + 1 = xs.length ∧ pre'.length = (xs.length - 1) / 4 + 1 ∧
      l'.data.length = l.data.length - l.data.length / 4 ∧
      l'.shrinkSize = (xs.length - 1) - (xs.length - 1) / 4 := by
  rcases nil_or_snoc xs with rfl | ⟨xs, x, rfl⟩
  · simp at h9
  · obtain ⟨l1, h1, h2, h3, h4⟩ := h.popBack hM
    simp only [List.length_append, List.length_cons, List.length_nil] at hx h9
    obtain ⟨l', pre', post', i1, i2, i3, i4, i5⟩ := h2.shrinkDo hM (by omega) (by omega)
    refine ⟨l', pre', xs, post', .val (some x), by simp [AL.step, h1, i1, Except.map], i2, by simp,
      by simpa using i3, by rw [i4, h3], by simpa using i5⟩

end

theorem runE_append_ok {σ ω ρ ε : Type} {step : σ → ω → Except ε (σ × ρ)} (os₁ os₂ : List ω) :
    ∀ {s s' : σ} {rs : List ρ}, runE step s os₁ = .ok (s', rs) →
    (runE step s (os₁ ++ os₂)).map (·.1) = (runE step s' os₂).map (·.1) := by
  induction os₁ with
  | nil =>
    intro s s' rs h
    simp only [runE, Except.ok.injEq, Prod.mk.injEq] at h
    rw [h.1]; rfl
  | cons o os ih =>
    intro s s' rs h
    simp only [runE, List.cons_append] at h ⊢
    cases hs : step s o with
    | error e => simp [hs] at h
    | ok p =>
      obtain ⟨s1, r⟩ := p
      simp only [hs] at h ⊢
      cases ht : runE step s1 os with
      | error e => simp [ht] at h
      | ok q =>
        obtain ⟨s2, rs2⟩ := q
        simp only [ht, Except.ok.injEq, Prod.mk.injEq] at h
        have := ih ht
        rw [← h.1, ← this]
        cases runE step s1 (os ++ os₂) <;> rfl

theorem runE_error_iff {σ ω ρ ε : Type} {step : σ → ω → Except ε (σ × ρ)} {os : List ω} {s : σ}
    {e : ε} : (runE step s os).map (·.1) = .error e ↔ runE step s os = .error e := by
  cases runE step s os <;> simp [Except.map]

theorem prefix_append_cases {α : Type} {p a b : List α} (h : p <+: a ++ b) :
    p <+: a ∨ ∃ t, p = a ++ t ∧ t <+: b := by
  obtain ⟨t, ht⟩ := h
  rcases List.append_eq_append_iff.1 ht with ⟨c, rfl, -⟩ | ⟨c, rfl, rfl⟩
  · exact .inl (List.prefix_append _ _)
  · exact .inr ⟨c, rfl, List.prefix_append _ _⟩

/-- One round of the leak: four `PushFront`, four `PopBack`. -/
def leakRound : List (Op Nat) :=
  List.replicate 4 (.pushFront [0]) ++ List.replicate 4 .popBack

/-- The calls that bring a new list into the state where the leak starts. -/
def leakStart : List (Op Nat) :=
  List.replicate 18 (.pushFront [0]) ++ List.replicate 6 .popBack ++
    (List.replicate 1 (.pushFront [0]) ++ List.replicate 4 .popBack)

/-- The state between two rounds: nine elements, `n` slots. -/
def Leaky (M : Nat) (l : AL Nat) (n : Nat) : Prop :=
  ∃ pre xs post, Rep M l pre xs post ∧ xs.length = 9 ∧ pre.length = 3 ∧ l.data.length = n

theorem leak_tail {M : Nat} (hM : M ≤ 2 ^ 62) {l : AL Nat} {pre xs post : List Nat}
    (h : Rep M l pre xs post) (hx : xs.length = 12) (hp : pre.length = 0) :
    runE (AL.step M) l (List.replicate 1 (.pushFront [0]) ++ List.replicate 4 .popBack)
      = .error .oom ∨
    ∃ l' rs, runE (AL.step M) l (List.replicate 1 (.pushFront [0]) ++ List.replicate 4 .popBack)
      = .ok (l', rs) ∧ Leaky M l' (2 * l.data.length - l.data.length / 2) := by
  rcases h.frontGrow hM hp 0 with ⟨h1, -⟩ | ⟨l1, pre1, post1, s1, r1, p1, d1, q1⟩
  · left; simp [runE, h1]
  · obtain ⟨l2, xs2, post2, rs2, s2, r2, x2, d2, q2⟩ := r1.backs hM 3 (by simp; omega)
    simp only [List.length_cons] at x2
    obtain ⟨l3, pre3, xs3, post3, r, s3, r3, x3, p3, d3, q3⟩ := r2.backShrink hM (by omega) (by omega)
    right
    simp only [List.replicate, runE] at s2
    refine ⟨l3, ?_⟩
    have : ∃ rs, runE (AL.step M) l (List.replicate 1 (.pushFront [0]) ++ List.replicate 4 .popBack)
        = .ok (l3, rs) := by
      have e : (List.replicate 1 (Op.pushFront [0]) ++ List.replicate 4 .popBack)
          = List.replicate 1 (Op.pushFront [0]) ++ (List.replicate 3 .popBack ++ [.popBack]) := rfl
      have g1 : runE (AL.step M) l (List.replicate 1 (.pushFront [0])) = .ok (l1, [.unit]) := by
        simp [runE, s1]
      have g2 : runE (AL.step M) l1 (List.replicate 3 .popBack) = .ok (l2, rs2) := by
        simp only [List.replicate, runE]; exact s2
      have a1 := runE_append_ok (List.replicate 1 (Op.pushFront [0]))
        (List.replicate 3 .popBack ++ [.popBack]) g1
      have a2 := runE_append_ok (List.replicate 3 Op.popBack) [.popBack] g2
      have g3 : runE (AL.step M) l2 [.popBack] = .ok (l3, [r]) := by simp [runE, s3]
      rw [a2, g3] at a1
      rw [e]
      cases hh : runE (AL.step M) l
          (List.replicate 1 (Op.pushFront [0]) ++ (List.replicate 3 .popBack ++ [.popBack])) with
      | error e => rw [hh] at a1; simp [Except.map] at a1
      | ok p =>
        rw [hh] at a1
        simp only [Except.map, Except.ok.injEq] at a1
        exact ⟨p.2, by rw [← a1]⟩
    obtain ⟨rs, hrs⟩ := this
    exact ⟨rs, hrs, pre3, xs3, post3, r3, by omega, by omega, by omega⟩

theorem leak_round {M : Nat} (hM : M ≤ 2 ^ 62) {l : AL Nat} {n : Nat} (h : Leaky M l n) :
    runE (AL.step M) l leakRound = .error .oom ∨
    ∃ l' rs, runE (AL.step M) l leakRound = .ok (l', rs) ∧ Leaky M l' (2 * n - n / 2) := by
  obtain ⟨pre, xs, post, h, hx, hp, hn⟩ := h
  obtain ⟨l1, pre1, xs1, rs1, s1, r1, x1, p1, d1, q1⟩ := h.fronts hM 0 3 (by omega)
  have e : leakRound = List.replicate 3 (.pushFront [0]) ++
      (List.replicate 1 (.pushFront [0]) ++ List.replicate 4 .popBack) := rfl
  have a := runE_append_ok (List.replicate 3 (Op.pushFront [0]))
    (List.replicate 1 (.pushFront [0]) ++ List.replicate 4 .popBack) s1
  rw [← e] at a
  rcases leak_tail hM r1 (by omega) (by omega) with h1 | ⟨l2, rs2, h1, h2⟩
  · left
    rw [h1] at a
    exact runE_error_iff.1 a
  · right
    rw [h1] at a
    rw [d1, hn] at h2
    cases hh : runE (AL.step M) l leakRound with
    | error e => rw [hh] at a; simp [Except.map] at a
    | ok p =>
      rw [hh] at a
      simp only [Except.map, Except.ok.injEq] at a
      exact ⟨l2, p.2, by rw [← a], h2⟩

theorem leak_start {M : Nat} (h8 : 8 ≤ M) (hM : M ≤ 2 ^ 62) :
    runE (AL.step M) AL.new leakStart = .error .oom ∨
    ∃ l' rs, runE (AL.step M) AL.new leakStart = .ok (l', rs) ∧ Leaky M l' 48 := by
  have h0 : Rep M (AL.new : AL Nat) (List.replicate 4 0) [] (List.replicate 4 0) := by
    constructor <;> simp [AL.new, add64, h8]
  have cont : ∀ (os₁ os₂ : List (Op Nat)) (s s' : AL Nat) (rs : List (Res Nat)) (n : Nat),
      runE (AL.step M) s os₁ = .ok (s', rs) →
      (runE (AL.step M) s' os₂ = .error .oom ∨
        ∃ l' rs, runE (AL.step M) s' os₂ = .ok (l', rs) ∧ Leaky M l' n) →
      (runE (AL.step M) s (os₁ ++ os₂) = .error .oom ∨
        ∃ l' rs, runE (AL.step M) s (os₁ ++ os₂) = .ok (l', rs) ∧ Leaky M l' n) := by
    intro os₁ os₂ s s' rs n h1 h2
    have a := runE_append_ok os₁ os₂ h1
    rcases h2 with h2 | ⟨l', rs', h2, h3⟩
    · left; rw [h2] at a; exact runE_error_iff.1 a
    · right
      rw [h2] at a
      cases hh : runE (AL.step M) s (os₁ ++ os₂) with
      | error e => rw [hh] at a; simp [Except.map] at a
      | ok p =>
        rw [hh] at a
        simp only [Except.map, Except.ok.injEq] at a
        exact ⟨l', p.2, by rw [← a], h3⟩
  have e : leakStart = List.replicate 4 (.pushFront [0]) ++ ([.pushFront [0]] ++
      (List.replicate 4 (.pushFront [0]) ++ ([.pushFront [0]] ++
      (List.replicate 8 (.pushFront [0]) ++ (List.replicate 6 .popBack ++
      (List.replicate 1 (.pushFront [0]) ++ List.replicate 4 .popBack)))))) := rfl
  rw [e]
  obtain ⟨l1, pre1, xs1, rs1, s1, r1, x1, p1, d1, q1⟩ := h0.fronts hM 0 4 (by simp)
  simp only [AL.new, List.length_replicate, List.length_nil] at x1 p1 d1 q1
  refine cont _ _ _ _ _ _ s1 ?_
  rcases r1.frontGrow hM (by omega) 0 with ⟨g, -⟩ | ⟨l2, pre2, post2, s2, r2, p2, d2, q2⟩
  · left; simp [runE, g]
  have s2' : runE (AL.step M) l1 [.pushFront [0]] = .ok (l2, [.unit]) := by simp [runE, s2]
  refine cont _ _ _ _ _ _ s2' ?_
  obtain ⟨l3, pre3, xs3, rs3, s3, r3, x3, p3, d3, q3⟩ := r2.fronts hM 0 4 (by omega)
  simp only [List.length_cons] at x3
  refine cont _ _ _ _ _ _ s3 ?_
  rcases r3.frontGrow hM (by omega) 0 with ⟨g, -⟩ | ⟨l4, pre4, post4, s4, r4, p4, d4, q4⟩
  · left; simp [runE, g]
  have s4' : runE (AL.step M) l3 [.pushFront [0]] = .ok (l4, [.unit]) := by simp [runE, s4]
  refine cont _ _ _ _ _ _ s4' ?_
  obtain ⟨l5, pre5, xs5, rs5, s5, r5, x5, p5, d5, q5⟩ := r4.fronts hM 0 8 (by omega)
  simp only [List.length_cons] at x5
  refine cont _ _ _ _ _ _ s5 ?_
  obtain ⟨l6, xs6, post6, rs6, s6, r6, x6, d6, q6⟩ := r5.backs hM 6 (by omega)
  refine cont _ _ _ _ _ _ s6 ?_
  have := leak_tail hM r6 (by omega) (by omega)
  have e48 : 2 * l6.data.length - l6.data.length / 2 = 48 := by omega
  rw [e48] at this
  exact this

/-- The rounds of the leak, repeated. -/
def leak (k : Nat) : List (Op Nat) := leakStart ++ (List.replicate k leakRound).flatten

/-- During the leak the list never has more than 18 elements. -/
theorem leak_small (k : Nat) : ∀ pre, pre <+: leak k → (runSpec spec [] pre).1.length ≤ 18 := by
  have start : ∀ pre, pre <+: leakStart → (runSpec spec [] pre).1.length ≤ 18 := by
    intro pre hp
    have : ∀ n < leakStart.length + 1, (runSpec spec [] (leakStart.take n)).1.length ≤ 18 := by
      decide +kernel
    rw [List.prefix_iff_eq_take.1 hp]
    exact this _ (Nat.lt_succ_of_le hp.length_le)
  have app : ∀ (os₁ os₂ : List (Op Nat)) (xs : List Nat),
      (runSpec spec xs (os₁ ++ os₂)).1 = (runSpec spec (runSpec spec xs os₁).1 os₂).1 := by
    intro os₁
    induction os₁ with
    | nil => intro os₂ xs; rfl
    | cons o os ih => intro os₂ xs; simp only [List.cons_append, runSpec]; exact ih os₂ _
  have endS : (runSpec spec [] leakStart).1 = List.replicate 9 0 := by decide +kernel
  have endR : (runSpec spec (List.replicate 9 0) leakRound).1 = List.replicate 9 0 := by
    decide +kernel
  have midR : ∀ pre, pre <+: leakRound →
      (runSpec spec (List.replicate 9 0) pre).1.length ≤ 18 := by
    intro pre hp
    have : ∀ n < leakRound.length + 1,
        (runSpec spec (List.replicate 9 0) (leakRound.take n)).1.length ≤ 18 := by
      decide +kernel
    rw [List.prefix_iff_eq_take.1 hp]
    exact this _ (Nat.lt_succ_of_le hp.length_le)
  have rs : ∀ k pre, pre <+: (List.replicate k leakRound).flatten →
      (runSpec spec (List.replicate 9 0) pre).1.length ≤ 18 := by
    intro k
    induction k with
    | zero =>
      intro pre hp
      simp at hp; subst hp; decide
    | succ k ih =>
      intro pre hp
      simp only [List.replicate_succ, List.flatten_cons] at hp
      rcases prefix_append_cases hp with h | ⟨t, rfl, h⟩
      · exact midR pre h
      · rw [app, endR]; exact ih t h
  intro pre hp
  unfold leak at hp
  rcases prefix_append_cases hp with h | ⟨t, rfl, h⟩
  · exact start pre h
  · rw [app, endS]; exact rs k t h

/-- C18 does not hold in full: with any amount of memory `M` there is a history of `PushFront` and
`PopBack` calls during which the list never has more than 18 elements, and which ends with a
refused allocation. -/
theorem C18_small_list_exhausts_memory {M : Nat} (h8 : 8 ≤ M) (hM : M ≤ 2 ^ 62) :
    ∃ os : List (Op Nat), LegalRun spec legal [] os ∧
      (∀ pre, pre <+: os → (runSpec spec [] pre).1.length ≤ 18) ∧
      runE (AL.step M) AL.new os = .error .oom := by
  have rounds : ∀ n : Nat, ∀ (l : AL Nat) (m : Nat), M - m = n → 4 ≤ m → m ≤ M → Leaky M l m →
      ∃ k, runE (AL.step M) l (List.replicate k leakRound).flatten = .error .oom := by
    intro n
    induction n using Nat.strongRecOn with
    | _ n ih =>
      intro l m hn h4 hm hl
      rcases leak_round hM hl with h | ⟨l', rs, h1, h2⟩
      · exact ⟨1, by simpa using h⟩
      · have hm' : 2 * m - m / 2 ≤ M := by
          obtain ⟨_, _, _, hr, _, _, hd⟩ := h2
          rw [← hd]; exact hr.lenM
        obtain ⟨k, hk⟩ := ih (M - (2 * m - m / 2)) (by omega) l' _ rfl (by omega) hm' h2
        refine ⟨k + 1, ?_⟩
        have a := runE_append_ok leakRound (List.replicate k leakRound).flatten h1
        rw [hk] at a
        simp only [List.replicate_succ, List.flatten_cons]
        exact runE_error_iff.1 a
  have fin : ∃ k, runE (AL.step M) AL.new (leak k) = .error .oom := by
    rcases leak_start h8 hM with h | ⟨l', rs, h1, h2⟩
    · exact ⟨0, by simpa [leak] using h⟩
    · have hm : 48 ≤ M := by
        obtain ⟨_, _, _, hr, _, _, hd⟩ := h2
        rw [← hd]; exact hr.lenM
      obtain ⟨k, hk⟩ := rounds _ l' 48 rfl (by omega) hm h2
      refine ⟨k, ?_⟩
      have a := runE_append_ok leakStart (List.replicate k leakRound).flatten h1
      rw [hk] at a
      exact runE_error_iff.1 a
  obtain ⟨k, hk⟩ := fin
  refine ⟨leak k, ?_, ?_, hk⟩
  · have : ∀ (os : List (Op Nat)) (xs : List Nat),
        (∀ o ∈ os, o = .pushFront [0] ∨ o = .popBack) → LegalRun spec legal xs os := by
      intro os
      induction os with
      | nil => intro xs _; trivial
      | cons o os ih =>
        intro xs h
        refine ⟨?_, ih _ fun o ho => h o (by simp [ho])⟩
        rcases h o (by simp) with rfl | rfl
        · simp [legal]
        · trivial
    apply this
    intro o ho
    simp only [leak, leakStart, leakRound, List.mem_append, List.mem_flatten, List.mem_replicate] at ho
    rcases ho with ((⟨-, h⟩ | ⟨-, h⟩) | (⟨-, h⟩ | ⟨-, h⟩)) | ⟨l, ⟨-, rfl⟩, h⟩
    · exact .inl h
    · exact .inr h
    · exact .inl h
    · exact .inr h
    · rcases List.mem_append.1 h with h | h
      · exact .inl (List.eq_of_mem_replicate h)
      · exact .inr (List.eq_of_mem_replicate h)
  · exact leak_small k

/-! ### Memory that suffices without removals -/

/-- Room on both sides is at least a quarter of the array, up to the elements stored. -/
def Roomy (M : Nat) (l : AL T) (xs : List T) : Prop :=
  ∃ pre post, Rep M l pre xs post ∧ l.data.length ≤ 4 * pre.length + 4 * xs.length + 8 ∧
    l.data.length ≤ 4 * post.length + 4 * xs.length + 8

theorem Roomy.holds {M : Nat} {l : AL T} {xs : List T} (h : Roomy M l xs) : Holds M l xs := by
  obtain ⟨pre, post, h, -⟩ := h; exact ⟨pre, post, h⟩

theorem Roomy.growLoop {M : Nat} (hM : M ≤ 2 ^ 62) {xs : List T} (k : Nat)
    (hk : 8 * (xs.length + k) + 16 ≤ M) (cond : AL T → Bool)
    (hc : ∀ l pre post, Rep M l pre xs post → cond l = true →
      pre.length < k ∨ post.length < k) (n : Nat) :
    ∀ l : AL T, M - l.data.length = n → Roomy M l xs →
      ∃ l', growLoop M cond l = .ok l' ∧ Roomy M l' xs ∧ cond l' = false := by
  induction n using Nat.strongRecOn with
  | _ n ih =>
    intro l hn hr
    obtain ⟨pre, post, h, hp, hq⟩ := hr
    by_cases c : cond l = true
    · have h8 := h.len8
      have hlen := h.len
      have := hc l pre post h c
      rcases h.growth hM with ⟨-, h2⟩ | ⟨l', pre', post', h1, h2, h3, h4, h5, h6⟩
      · omega
      · have hlen' := h2.len
        obtain ⟨l'', i1, i2, i3⟩ := ih (M - l'.data.length) (by omega) l' rfl
          ⟨pre', post', h2, by omega, by omega⟩
        refine ⟨l'', ?_, i2, i3⟩
        rw [AList.growLoop, if_pos c, h1]
        simp only
        rw [dif_pos ⟨by omega, h4⟩]
        exact i1
    · refine ⟨l, growLoop_stop (by simpa using c), ⟨pre, post, h, hp, hq⟩, by simpa using c⟩

theorem Roomy.pushBack {M : Nat} (hM : M ≤ 2 ^ 62) {l : AL T} {xs : List T} (h : Roomy M l xs)
    (vs : List T) (hvs : 8 * (xs.length + vs.length) + 16 ≤ M) :
    ∃ l', l.pushBack M vs = .ok l' ∧ Roomy M l' (xs ++ vs) := by
  unfold AL.pushBack
  obtain ⟨l', h1, ⟨pre, post, h2, h3, h4⟩, hf⟩ := Roomy.growLoop hM vs.length hvs
    (fun l : AL T => add64 l.tailidx vs.length > l.data.length)
    (by
      intro l pre post hr hc
      right
      apply Nat.lt_of_not_le
      intro hn
      have := (hr.backCond hM (k := vs.length) (by omega)).2 hn
      rw [hc] at this; exact absurd this (by simp)) _ l rfl h
  have hfit := (h2.backCond hM (k := vs.length) (by omega)).1 hf
  obtain ⟨data, t, hb, hd, hr⟩ := h2.backFit hM vs hfit
  refine ⟨_, ?_, pre, _, hr, ?_, ?_⟩
  · simp only [h1, hb, Bind.bind, Except.bind, Pure.pure, Except.pure]
  · simp only [hd, List.length_append]; omega
  · simp only [hd, List.length_append, List.length_drop]; omega

theorem Roomy.pushFront {M : Nat} (hM : M ≤ 2 ^ 62) {l : AL T} {xs : List T} (h : Roomy M l xs)
    (vs : List T) (hvs : 8 * (xs.length + vs.length) + 16 ≤ M) :
    ∃ l', l.pushFront M vs = .ok l' ∧ Roomy M l' (vs.reverse ++ xs) := by
  unfold AL.pushFront
  obtain ⟨l', h1, ⟨pre, post, h2, h3, h4⟩, hf⟩ := Roomy.growLoop hM vs.length hvs
    (fun l : AL T => sub64 (add64 l.headidx 1) vs.length > 2 ^ 63)
    (by
      intro l pre post hr hc
      left
      apply Nat.lt_of_not_le
      intro hn
      have := (hr.frontCond hM (k := vs.length) (by omega)).2 hn
      rw [hc] at this; exact absurd this (by simp)) _ l rfl h
  have hfit := (h2.frontCond hM (k := vs.length) (by omega)).1 hf
  obtain ⟨data, t, hb, hd, hr⟩ := h2.frontFit hM vs hfit
  refine ⟨_, ?_, _, post, hr, ?_, ?_⟩
  · simp only [h1, hb, Bind.bind, Except.bind, Pure.pure, Except.pure]
  · simp only [hd, List.length_append, List.length_take, List.length_reverse]; omega
  · simp only [hd, List.length_append, List.length_reverse]; omega

/-- How many elements a call adds. -/
def pushed : Op T → Nat
  | .push _ => 1
  | .pushFront vs => vs.length
  | .pushBack vs => vs.length
  | _ => 0

/-- Calls other than those that remove single elements. -/
def keeps : Op T → Bool
  | .popFront | .popBack | .remove _ => false
  | _ => true

theorem Roomy.step {M : Nat} (hM : M ≤ 2 ^ 62) {l : AL T} {xs : List T} (h : Roomy M l xs)
    {o : Op T} (hk : keeps o = true) (hl : legal xs o)
    (hvs : 8 * (xs.length + pushed o) + 16 ≤ M) :
    ∃ l', l.step M o = .ok (l', (spec xs o).2) ∧ Roomy M l' (spec xs o).1 ∧
      (spec xs o).1.length ≤ xs.length + pushed o := by
  have read : ∀ r, l.step M o = .ok (l, r) → (spec xs o).1 = xs →
      ∃ l', l.step M o = .ok (l', (spec xs o).2) ∧ Roomy M l' (spec xs o).1 ∧
      (spec xs o).1.length ≤ xs.length + pushed o := by
    intro r h1 h2
    rcases AL.step_ok hM l xs o hl h.holds with h3 | ⟨l', h3, -⟩
    · rw [h1] at h3; simp at h3
    · rw [h1] at h3
      simp only [Except.ok.injEq, Prod.mk.injEq] at h3
      refine ⟨l, ?_, by rw [h2]; exact h, by rw [h2]; omega⟩
      rw [h1, h3.2]
  have hh := h.holds
  cases o with
  | push v =>
    obtain ⟨l', h1, h2⟩ := h.pushBack hM [v] hvs
    exact ⟨l', by simp [AL.step, push_eq_pushBack, h1, Except.map, spec], h2, by simp [spec, pushed]⟩
  | pushFront vs =>
    obtain ⟨l', h1, h2⟩ := h.pushFront hM vs hvs
    exact ⟨l', by simp [AL.step, h1, Except.map, spec], h2, by simp [spec, pushed]; omega⟩
  | pushBack vs =>
    obtain ⟨l', h1, h2⟩ := h.pushBack hM vs hvs
    exact ⟨l', by simp [AL.step, h1, Except.map, spec], h2, by simp [spec, pushed]⟩
  | popFront => cases hk
  | popBack => cases hk
  | remove i => cases hk
  | front => exact read _ (by simp only [AL.step, hh.front, Except.map]; rfl) rfl
  | back => exact read _ (by simp only [AL.step, hh.back hM, Except.map]; rfl) rfl
  | index i => exact read _ (by simp only [AL.step, hh.index hM, Except.map]; rfl) rfl
  | set i v =>
    obtain ⟨pre, post, hr, h1, h2⟩ := h
    obtain ⟨l', g1, g2, g3⟩ := hr.set' hM hl.1 hl.2 v
    refine ⟨l', by simp [AL.step, g1, Except.map, spec], ?_, ?_⟩
    · simp only [spec, if_pos hl.1]
      exact ⟨pre, post, g2, by rw [g3]; simpa using h1, by rw [g3]; simpa using h2⟩
    · simp only [spec, if_pos hl.1, List.length_set]; omega
  | contains comp vs =>
    exact read (.nat ((xs.map fun e => vs.countP fun v => comp e v = -1).sum)) (by
      simp only [AL.step, AL.contains, hh.window, Bind.bind, Except.bind, Pure.pure, Except.pure,
        Except.map, contains_eq, Nat.zero_add]) rfl
  | values => exact read _ (by simp only [AL.step, hh.values, Except.map]; rfl) rfl
  | traverse every =>
    exact read _ (by simp only [AL.step, traverse_eq hM hh every _ 0 rfl, Except.map]; rfl) rfl
  | clear =>
    obtain ⟨pre, post, hr, h1, h2⟩ := h
    obtain ⟨pre', post', hr'⟩ := hr.clear
    refine ⟨l.clear, rfl, ⟨pre', post', hr', ?_, ?_⟩, by simp [spec]⟩
    · have := hr'.len
      have e : l.clear.data.length = 8 := by simp [AL.clear]
      simp [e]
    · have e : l.clear.data.length = 8 := by simp [AL.clear]
      simp [e]
  | empty => exact read _ rfl rfl
  | size => exact read _ rfl rfl

/-- C18, enough memory: as long as nothing is popped or removed, room for eight times the number of
elements pushed so far (plus 16) is enough for every call to succeed with the results of the ideal
sequence. (With removals no bound exists, `C18_small_list_exhausts_memory`.) -/
theorem C18_pushes_fit {M : Nat} (hM : M ≤ 2 ^ 62) (os : List (Op T))
    (hl : LegalRun spec legal [] os) (hk : ∀ o ∈ os, keeps o = true)
    (hfit : 8 * (os.map pushed).sum + 16 ≤ M) :
    ∃ l, runE (AL.step M) (AL.new : AL T) os = .ok (l, (runSpec spec [] os).2) := by
  have h0 : Roomy M (AL.new : AL T) [] := by
    refine ⟨List.replicate 4 default, List.replicate 4 default, ?_, by simp [AL.new], by simp [AL.new]⟩
    constructor <;> simp [AL.new, add64]
    omega
  suffices H : ∀ (os : List (Op T)) (l : AL T) (xs : List T), LegalRun spec legal xs os →
      (∀ o ∈ os, keeps o = true) → 8 * (xs.length + (os.map pushed).sum) + 16 ≤ M → Roomy M l xs →
      ∃ l', runE (AL.step M) l os = .ok (l', (runSpec spec xs os).2) from
    H os _ _ hl hk (by simpa using hfit) h0
  intro os
  induction os with
  | nil => intro l xs _ _ _ _; exact ⟨l, rfl⟩
  | cons o os ih =>
    intro l xs hl hk hf hr
    simp only [List.map_cons, List.sum_cons] at hf
    obtain ⟨l1, s1, r1, n1⟩ := hr.step hM (hk o (by simp)) hl.1 (by omega)
    obtain ⟨l2, h2⟩ := ih l1 (spec xs o).1 hl.2 (fun o ho => hk o (by simp [ho])) (by omega) r1
    exact ⟨l2, by simp [runE, runSpec, s1, h2]⟩

example : ∃ l, runE (AL.step 1000) (AL.new : AL Nat)
    [.pushFront [1, 2, 3, 4, 5, 6, 7, 8, 9], .set 3 0, .pushBack [1, 2, 3, 4, 5, 6], .back] =
    .ok (l, [.unit, .unit, .unit, .val (some 6)]) :=
  C18_pushes_fit (by decide) _ (by simp [LegalRun, legal, spec]) (by simp [keeps])
    (by simp [pushed])

/-! ### Set, Remove -/

/-- `l` is reached from a new list by legal calls, and the ideal sequence is then `xs`. -/
inductive Reach (M : Nat) : AL T → List T → Prop where
  | new : Reach M AL.new []
  | call {l l' : AL T} {xs : List T} {o : Op T} {r : Res T} : Reach M l xs → legal xs o →
      l.step M o = .ok (l', r) → Reach M l' (spec xs o).1

theorem Reach.holds {M : Nat} (h8 : 8 ≤ M) (hM : M ≤ 2 ^ 62) {l : AL T} {xs : List T}
    (h : Reach M l xs) : Holds M l xs := by
  induction h with
  | new => exact new_rep h8
  | @call l l' xs o r _ hl hs ih =>
    rcases AL.step_ok hM l xs o hl ih with h | ⟨l'', h1, h2⟩
    · rw [hs] at h; simp at h
    · rw [hs] at h1
      simp only [Except.ok.injEq, Prod.mk.injEq] at h1
      rw [h1.1]; exact h2

/-- C19, `Set` inside the list. -/
theorem C19_set_in_range {M : Nat} (h8 : 8 ≤ M) (hM : M ≤ 2 ^ 62) {l : AL T} {xs : List T}
    (h : Reach M l xs) (i : Nat) (hi : i < xs.length) (v : T) :
    ∃ l', l.set i v = .ok l' ∧ Reach M l' (xs.take i ++ v :: xs.drop (i + 1)) := by
  obtain ⟨l', h1, h2⟩ := (h.holds h8 hM).set hM (i := i) (by omega) (by omega) v
  refine ⟨l', h1, ?_⟩
  have := Reach.call (o := .set (i : Int) v) h ⟨by omega, by omega⟩
    (show l.step M (.set (i : Int) v) = .ok (l', .unit) by simp [AL.step, h1, Except.map])
  simp only [spec, if_pos (show (0 : Int) ≤ (i : Int) by omega), Int.toNat_natCast] at this
  rwa [List.set_eq_take_append_cons_drop, if_pos hi] at this

/-- C19, `Remove`: inside the list it deletes and returns the element, outside it changes nothing
and reports a panic. -/
theorem C19_remove {M : Nat} (h8 : 8 ≤ M) (hM : M ≤ 2 ^ 62) {l : AL T} {xs : List T}
    (h : Reach M l xs) (i : Nat) :
    (∀ hi : i < xs.length, ∃ l', l.remove M i = .ok (l', some xs[i]) ∧
      Reach M l' (xs.take i ++ xs.drop (i + 1))) ∧
    (xs.length ≤ i → l.remove M i = .ok (l, none)) := by
  constructor
  · intro hi
    obtain ⟨l', h1, h2⟩ := (h.holds h8 hM).remove hM i
    rw [List.getElem?_eq_getElem hi] at h1
    refine ⟨l', h1, ?_⟩
    have := Reach.call (o := .remove i) h trivial
      (show l.step M (.remove i) = .ok (l', .val (some xs[i])) by
        simp [AL.step, h1, Except.map, orPanic])
    simpa only [spec, List.eraseIdx_eq_take_drop_succ] using this
  · intro hi
    unfold AL.remove
    rw [if_pos (by rw [(h.holds h8 hM).size]; omega)]

/-- C19, the part of the statement on `Set` outside the list that holds: no element of the list is
changed. Missing: the call need not report anything (`C19_set_out_of_range_unreported`). -/
theorem C19_set_out_of_range_partial {M : Nat} (h8 : 8 ≤ M) (hM : M ≤ 2 ^ 62) {l : AL T}
    {xs : List T} (h : Reach M l xs) {i : Int} (hlo : -2 ^ 63 ≤ i) (hhi : i < 2 ^ 63)
    (ho : i < 0 ∨ (xs.length : Int) ≤ i) (v : T) :
    l.set i v = .error .crash ∨ ∃ l', l.set i v = .ok l' ∧ l'.values M = .ok xs := by
  rcases (h.holds h8 hM).set_out hM hlo hhi ho v with h1 | ⟨l', h1, h2⟩
  · exact .inl h1
  · exact .inr ⟨l', h1, h2.values⟩

/-- C19 fails for `Set`: on a list of one element, `Set(1, v)` and `Set(-1, v)` return normally
and store nothing, while `Set(100, v)` crashes. -/
theorem C19_set_out_of_range_unreported :
    ∃ l : AL Nat, Reach 64 l [7] ∧
      (∃ l', l.set 1 5 = .ok l' ∧ l'.values 64 = .ok [7]) ∧
      (∃ l', l.set (-1) 5 = .ok l' ∧ l'.values 64 = .ok [7]) ∧ l.set 100 5 = .error .crash := by
  have hs : (AL.new : AL Nat).step 64 (.push 7) =
      .ok (⟨[0, 0, 0, 0, 7, 0, 0, 0], 3, 5, 1, 0⟩, .unit) := by decide +kernel
  refine ⟨_, Reach.call (o := .push 7) .new trivial hs, ⟨_, rfl, by decide +kernel⟩,
    ⟨_, rfl, by decide +kernel⟩, by decide +kernel⟩

example : ∃ l : AL Nat, Reach 64 l [5, 7] :=
  ⟨_, .call (o := .push 7) (.call (o := .push 5) .new trivial (l' :=
    ⟨[0, 0, 0, 0, 5, 0, 0, 0], 3, 5, 1, 0⟩) (r := .unit) (by decide +kernel)) trivial
    (l' := ⟨[0, 0, 0, 0, 5, 7, 0, 0], 3, 6, 2, 0⟩) (r := .unit) (by decide +kernel)⟩

/-! ### Contains -/

/-- C20 for the array list, under a comparator that answers −1 exactly on equal values (the
`compare.*Ex` convention) and pairwise different arguments. Missing: comparators of the ordinary
convention, for which the count is another one (`C20_contains_ordinary_comparator`). -/
theorem C20_array_contains_partial [DecidableEq T] {M : Nat} (h8 : 8 ≤ M) (hM : M ≤ 2 ^ 62)
    {l : AL T} {xs : List T} (h : Reach M l xs) (comp : T → T → Int)
    (hc : ∀ a b, comp a b = -1 ↔ a = b) (vs : List T) (hv : vs.Nodup) :
    l.contains comp vs = .ok (xs.countP fun e => e ∈ vs) := by
  have hw := (h.holds h8 hM).window
  simp only [AL.contains, hw, Bind.bind, Except.bind, Pure.pure, Except.pure, contains_eq,
    Nat.zero_add]
  simp only [hc]
  congr 1
  have one : ∀ e, (vs.countP fun v => decide (e = v)) = if e ∈ vs then 1 else 0 := by
    intro e
    have : (fun v => decide (e = v)) = (· == e) := by
      funext v; rw [Bool.eq_iff_iff, decide_eq_true_iff, beq_iff_eq]; exact eq_comm
    rw [this, ← List.count]
    split
    · rename_i hm
      have h1 := List.nodup_iff_count.1 hv e
      have h2 := List.count_pos_iff.2 hm
      omega
    · exact List.count_eq_zero_of_not_mem ‹_›
  simp only [one]
  clear h hw
  induction xs with
  | nil => rfl
  | cons x xs ih =>
    simp only [List.map_cons, List.sum_cons, ih, List.countP_cons]
    by_cases hx : x ∈ vs <;> simp [hx]; omega

/-- C20 fails for every comparator of the ordinary convention: `Contains(v)` then counts the
elements smaller than `v`, and not those equal to it. -/
theorem C20_contains_ordinary_comparator {M : Nat} (h8 : 8 ≤ M) (hM : M ≤ 2 ^ 62)
    {l : AL T} {xs : List T} (h : Reach M l xs) (comp : T → T → Int) (_hc : Lawful comp)
    (hr : ∀ a b, comp a b = -1 ∨ comp a b = 0 ∨ comp a b = 1) (v : T) :
    l.contains comp [v] = .ok (xs.countP fun e => ordOf (comp e v) = Ordering.lt) := by
  have hw := (h.holds h8 hM).window
  simp only [AL.contains, hw, Bind.bind, Except.bind, Pure.pure, Except.pure, contains_eq,
    Nat.zero_add]
  congr 1
  clear h hw
  have : ∀ e, (comp e v = -1) ↔ ordOf (comp e v) = Ordering.lt := by
    intro e
    rcases hr e v with h | h | h <;> simp [ordOf, h]
  induction xs with
  | nil => rfl
  | cons x xs ih =>
    rw [List.map_cons, List.sum_cons, ih, List.countP_cons, List.countP_cons]
    simp only [this, List.countP_nil]
    omega

/-! ### Iterators -/

theorem Holds.toTail {M : Nat} {l : AL T} {xs : List T} (hM : M ≤ 2 ^ 62) (h : Holds M l xs)
    (i : Nat) (hi : i < xs.length) : prev^[i] (toTail l) = xs.length - 1 - i := by
  have hlen := h.length_le
  induction i with
  | zero => simp only [Function.iterate_zero, id, AList.toTail, h.size]; rw [sub64_eq (by omega) (by omega)]; omega
  | succ i ih =>
    rw [Function.iterate_succ_apply', ih (by omega), prev, sub64_eq (by omega) (by omega)]; omega

/-- C21: `for it.ToHead(); it.Vaild(); it.Next()` sees every element once, in order. -/
theorem C21_forward {M : Nat} (h8 : 8 ≤ M) (hM : M ≤ 2 ^ 62) {l : AL T} {xs : List T}
    (h : Reach M l xs) (i : Nat) (hi : i ≤ xs.length) :
    valid l (next^[i] toHead) = decide (i < xs.length) ∧
    value l (next^[i] toHead) = .ok xs[i]? := by
  have hh := h.holds h8 hM
  have hlen := hh.length_le
  have e : next^[i] toHead = i := by
    induction i with
    | zero => rfl
    | succ i ih => rw [Function.iterate_succ_apply', ih (by omega), next, add64_eq (by omega)]
  rw [e]
  exact ⟨by simp [valid, hh.size], hh.index hM i⟩

/-- C21: `for it.ToTail(); it.Vaild(); it.Prev()` sees every element once, in reverse. -/
theorem C21_backward {M : Nat} (h8 : 8 ≤ M) (hM : M ≤ 2 ^ 62) {l : AL T} {xs : List T}
    (h : Reach M l xs) (i : Nat) (hi : i ≤ xs.length) :
    valid l (prev^[i] (toTail l)) = decide (i < xs.length) ∧
    value l (prev^[i] (toTail l)) = .ok xs.reverse[i]? := by
  have hh := h.holds h8 hM
  have hlen := hh.length_le
  by_cases hlt : i < xs.length
  · rw [hh.toTail hM i hlt]
    refine ⟨by simp only [valid, hh.size]; rw [decide_eq_decide]; omega, ?_⟩
    rw [value, hh.index hM, List.getElem?_reverse hlt]
  · have e : prev^[i] (toTail l) = 2 ^ 64 - 1 := by
      have hi' : i = xs.length := by omega
      subst hi'
      cases hn : xs.length with
      | zero =>
        simp only [Function.iterate_zero, id, AList.toTail, hh.size, hn]
        decide
      | succ n =>
        rw [Function.iterate_succ_apply', hh.toTail hM n (by omega), hn]
        have : n + 1 - 1 - n = 0 := by omega
        rw [this]; decide
    rw [e]
    refine ⟨by simp only [valid, hh.size]; rw [decide_eq_decide]; omega, ?_⟩
    rw [value, hh.index hM, List.getElem?_eq_none (by omega), List.getElem?_eq_none (by simp; omega)]

/-- C21: the circular iterator wraps around, in both directions. -/
theorem C21_circular {M : Nat} (h8 : 8 ≤ M) (hM : M ≤ 2 ^ 62) {l : AL T} {xs : List T}
    (h : Reach M l xs) {c : Nat} (hc : c < xs.length) (k : Nat) :
    (value l ((cnext l)^[k] c) = .ok xs[(c + k) % xs.length]? ∧
      (cnext l)^[k] c < xs.length) ∧
    (∃ d, d < xs.length ∧ (cprev l)^[k] c = d ∧ (d + k) % xs.length = c ∧
      value l ((cprev l)^[k] c) = .ok xs[d]?) := by
  have hh := h.holds h8 hM
  have hlen := hh.length_le
  constructor
  · have e : (cnext l)^[k] c = (c + k) % xs.length := by
      induction k with
      | zero => simp [Nat.mod_eq_of_lt hc]
      | succ k ih =>
        rw [Function.iterate_succ_apply', ih, cnext, hh.size, if_neg (by omega)]
        have hlt := Nat.mod_lt (c + k) (show 0 < xs.length by omega)
        have hs : c + (k + 1) = (c + k) + 1 := by omega
        rw [hs, Nat.add_mod (c + k) 1]
        by_cases h1 : (c + k) % xs.length = xs.length - 1
        · rw [if_pos (by rw [sub64_eq (by omega) (by omega)]; omega), h1]
          by_cases h2 : xs.length = 1
          · simp [h2]
          · rw [Nat.mod_eq_of_lt (show 1 < xs.length by omega),
              show xs.length - 1 + 1 = xs.length by omega, Nat.mod_self]
        · rw [if_neg (by rw [sub64_eq (by omega) (by omega)]; omega), add64_eq (by omega),
            Nat.mod_eq_of_lt (show 1 < xs.length by omega),
            Nat.mod_eq_of_lt (show (c + k) % xs.length + 1 < xs.length by omega)]
    rw [e]
    exact ⟨hh.index hM _, Nat.mod_lt _ (by omega)⟩
  · suffices H : ∃ d, d < xs.length ∧ (cprev l)^[k] c = d ∧ (d + k) % xs.length = c by
      obtain ⟨d, h1, h2, h3⟩ := H
      exact ⟨d, h1, h2, h3, by rw [h2]; exact hh.index hM _⟩
    induction k with
    | zero => exact ⟨c, hc, rfl, by simp [Nat.mod_eq_of_lt hc]⟩
    | succ k ih =>
      obtain ⟨d, h1, h2, h3⟩ := ih
      rw [Function.iterate_succ_apply', h2, cprev, hh.size, if_neg (by omega)]
      by_cases h0 : d = 0
      · refine ⟨xs.length - 1, by omega, ?_, ?_⟩
        · rw [if_pos h0, sub64_eq (by omega) (by omega)]
        · rw [← h3, h0, show xs.length - 1 + (k + 1) = (0 + k) + xs.length by omega,
            Nat.add_mod_right]
      · refine ⟨d - 1, by omega, ?_, ?_⟩
        · rw [if_neg h0, sub64_eq (by omega) (by omega)]
        · rw [← h3]; congr 1; omega

/-- C21: removal through an iterator deletes the current element; the cursor then names the
element that followed, or the new last one if there was none (`RemoveToNext`); the element that
preceded, or the new first one if there was none (`RemoveToPrev`). -/
theorem C21_remove {M : Nat} (h8 : 8 ≤ M) (hM : M ≤ 2 ^ 62) {l : AL T} {xs : List T}
    (h : Reach M l xs) {c : Nat} (hc : c < xs.length) :
    ∃ l', Reach M l' (xs.eraseIdx c) ∧
      (∃ d, removeToNext M l c = .ok (l', some d) ∧
        value l' d = .ok (if c + 1 < xs.length then xs[c + 1]? else (xs.eraseIdx c).getLast?)) ∧
      (∃ d, removeToPrev M l c = .ok (l', some d) ∧
        value l' d = .ok (if 0 < c then xs[c - 1]? else (xs.eraseIdx c).head?)) := by
  have hh := h.holds h8 hM
  have hlen := hh.length_le
  obtain ⟨l', h1, h2⟩ := hh.remove hM c
  rw [List.getElem?_eq_getElem hc] at h1
  have hr : Reach M l' (xs.eraseIdx c) := Reach.call (o := .remove c) h trivial
    (show l.step M (.remove c) = .ok (l', .val (some xs[c])) by
      simp [AL.step, h1, Except.map, orPanic])
  have hl' : (xs.eraseIdx c).length = xs.length - 1 := by rw [List.length_eraseIdx, if_pos hc]
  refine ⟨l', hr, ⟨if c = l'.size then sub64 c 1 else c, ?_, ?_⟩,
    ⟨if c = 0 then c else sub64 c 1, ?_, ?_⟩⟩
  · simp only [removeToNext, h1, Bind.bind, Except.bind, Pure.pure, Except.pure, Option.map_some]
  · rw [value, h2.index hM, h2.size, hl']
    by_cases h3 : c + 1 < xs.length
    · rw [if_neg (by omega), if_pos h3, List.getElem?_eraseIdx_of_ge (by omega)]
    · rw [if_pos (by omega), if_neg h3, List.getLast?_eq_getElem?, hl']
      congr 1
      by_cases h4 : c = 0
      · have : xs.eraseIdx c = [] := List.eq_nil_of_length_eq_zero (by omega)
        simp [this]
      · rw [sub64_eq (by omega) (by omega)]
        congr 1
        omega
  · simp only [removeToPrev, h1, Bind.bind, Except.bind, Pure.pure, Except.pure, Option.map_some]
  · rw [value, h2.index hM]
    by_cases h3 : 0 < c
    · rw [if_neg (by omega), if_pos h3, sub64_eq (by omega) (by omega),
        List.getElem?_eraseIdx_of_lt (by omega)]
    · rw [if_pos (by omega), if_neg h3, show c = 0 by omega, List.head?_eq_getElem?]

/-- C21: `SetValue` and `Swap` through iterators. -/
theorem C21_edit {M : Nat} (h8 : 8 ≤ M) (hM : M ≤ 2 ^ 62) {l : AL T} {xs : List T}
    (h : Reach M l xs) {c d : Nat} (hc : c < xs.length) (hd : d < xs.length) (v : T) :
    (∃ l', setValue l c v = .ok l' ∧ Reach M l' (xs.set c v)) ∧
    (∃ l', swap l c d = .ok l' ∧ Reach M l' ((xs.set c xs[d]).set d xs[c])) := by
  have hh := h.holds h8 hM
  have hlen := hh.length_le
  have key : ∀ {l : AL T} {xs : List T} (h : Reach M l xs) {c : Nat} (hc : c < xs.length) (v : T),
      setValue l c v = l.set c v ∧ ∃ l', l.set c v = .ok l' ∧ Reach M l' (xs.set c v) := by
    intro l xs h c hc v
    have hlen := (h.holds h8 hM).length_le
    have e : ((c : Int) % 2 ^ 64).toNat = c := by omega
    refine ⟨by simp only [setValue, AL.set, e], ?_⟩
    obtain ⟨l', h1, h2⟩ := (h.holds h8 hM).set hM (i := c) (by omega) (by omega) v
    refine ⟨l', h1, ?_⟩
    have := Reach.call (o := .set (c : Int) v) h ⟨by omega, by omega⟩
      (show l.step M (.set (c : Int) v) = .ok (l', .unit) by simp [AL.step, h1, Except.map])
    simpa only [spec, if_pos (show (0 : Int) ≤ (c : Int) by omega), Int.toNat_natCast] using this
  refine ⟨?_, ?_⟩
  · obtain ⟨h1, l', h2, h3⟩ := key h hc v
    exact ⟨l', by rw [h1, h2], h3⟩
  · obtain ⟨h1, l1, h2, h3⟩ := key h hc xs[d]
    obtain ⟨h4, l2, h5, h6⟩ := key h3 (c := d) (by simpa using hd) xs[c]
    refine ⟨l2, ?_, h6⟩
    obtain ⟨pre, post, hr⟩ := hh
    have i1 := hr.at hM hc
    have i2 := hr.at hM hd
    rw [← h1] at h2
    rw [← h4] at h5
    simp only [setValue, Bind.bind, Except.bind, Pure.pure, Except.pure] at h2 h5
    simp only [swap, i1, i2, Bind.bind, Except.bind, Pure.pure, Except.pure]
    cases hs : setAt l.data (add64 (add64 c l.headidx) 1) xs[d] with
    | error e => rw [hs] at h2; simp at h2
    | ok data =>
      rw [hs] at h2
      simp only [Except.ok.injEq] at h2
      rw [← h2] at h5
      simp only at h5 ⊢
      exact h5

/-- C21 fails for the circular iterator: `RemoveToNext` on the last element leaves a cursor outside
the list instead of the first element, `RemoveToPrev` on the first one leaves a cursor outside the
list instead of the last element. -/
theorem C21_circular_remove_invalid {M : Nat} (h8 : 8 ≤ M) (hM : M ≤ 2 ^ 62) {l : AL T}
    {xs : List T} (h : Reach M l xs) (hx : 2 ≤ xs.length) :
    (∃ l' d, cremoveToNext M l (xs.length - 1) = .ok (l', some d) ∧ valid l' d = false) ∧
    (∃ l' d, cremoveToPrev M l 0 = .ok (l', some d) ∧ valid l' d = false) := by
  have hh := h.holds h8 hM
  have hlen := hh.length_le
  constructor
  · obtain ⟨l', h1, h2⟩ := hh.remove hM (xs.length - 1)
    rw [List.getElem?_eq_getElem (by omega)] at h1
    refine ⟨l', xs.length - 1, ?_, ?_⟩
    · simp only [cremoveToNext, h1, Bind.bind, Except.bind, Pure.pure, Except.pure, Option.map_some]
    · simp only [valid, h2.size, List.length_eraseIdx, if_pos (show xs.length - 1 < xs.length by omega)]
      simp
  · obtain ⟨l', h1, h2⟩ := hh.remove hM 0
    rw [List.getElem?_eq_getElem (by omega)] at h1
    refine ⟨l', sub64 0 1, ?_, ?_⟩
    · simp only [cremoveToPrev, h1, Bind.bind, Except.bind, Pure.pure, Except.pure, Option.map_some]
    · have : (xs.eraseIdx 0).length ≤ xs.length := by
        rw [List.length_eraseIdx]; split <;> omega
      have e : sub64 0 1 = 2 ^ 64 - 1 := by decide
      simp only [valid, h2.size, e]
      rw [decide_eq_false_iff_not]; omega

/-- C21, circular removal at the other positions: the cursor names the neighbour. Missing: the two
positions of `C21_circular_remove_invalid`. -/
theorem C21_circular_remove_partial {M : Nat} (h8 : 8 ≤ M) (hM : M ≤ 2 ^ 62) {l : AL T}
    {xs : List T} (h : Reach M l xs) {c : Nat} (hc : c < xs.length) :
    (c + 1 < xs.length → ∃ l' d, cremoveToNext M l c = .ok (l', some d) ∧
      Reach M l' (xs.eraseIdx c) ∧ value l' d = .ok xs[c + 1]?) ∧
    (0 < c → ∃ l' d, cremoveToPrev M l c = .ok (l', some d) ∧
      Reach M l' (xs.eraseIdx c) ∧ value l' d = .ok xs[c - 1]?) := by
  have hh := h.holds h8 hM
  have hlen := hh.length_le
  obtain ⟨l', h1, h2⟩ := hh.remove hM c
  rw [List.getElem?_eq_getElem hc] at h1
  have hr : Reach M l' (xs.eraseIdx c) := Reach.call (o := .remove c) h trivial
    (show l.step M (.remove c) = .ok (l', .val (some xs[c])) by
      simp [AL.step, h1, Except.map, orPanic])
  constructor
  · intro h3
    refine ⟨l', c, ?_, hr, ?_⟩
    · simp only [cremoveToNext, h1, Bind.bind, Except.bind, Pure.pure, Except.pure, Option.map_some]
    · rw [value, h2.index hM, List.getElem?_eraseIdx_of_ge (by omega)]
  · intro h3
    refine ⟨l', sub64 c 1, ?_, hr, ?_⟩
    · simp only [cremoveToPrev, h1, Bind.bind, Except.bind, Pure.pure, Except.pure, Option.map_some]
    · rw [value, h2.index hM, sub64_eq (by omega) (by omega),
        List.getElem?_eraseIdx_of_lt (by omega)]

end Verif.AList
