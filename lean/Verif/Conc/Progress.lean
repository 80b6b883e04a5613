import Verif.Conc.Lin

/-! Locks acquired in the order of their ranks do not deadlock. -/

namespace Verif.Conc

variable {L σ O ρ : Type} [DecidableEq L]

/-- A call that has started and not returned. -/
def Unfinished (c : Conf L σ O ρ) (n : Nat) : Prop := c.pc n ≠ .idle ∧ c.pc n ≠ .gone

/-- There are calls under way and none can take a step. -/
def Deadlock (body : O → Prog L σ O ρ) (c : Conf L σ O ρ) : Prop :=
  (∃ n, Unfinished c n) ∧ ∀ n, next body c (.go n) = none

/-- Every lock is greater than those held; tail calls are made without locks, and are `ok`. -/
def Ascending (rank : L → Nat) (ok : O → Prop) : List L → Prog L σ O ρ → Prop
  | _, .ret _ => True
  | _, .panic => True
  | held, .lock l k => (∀ h ∈ held, rank h < rank l) ∧ Ascending rank ok (l :: held) k
  | held, .acc _ _ k => ∀ s, Ascending rank ok held (k s)
  | held, .tail o => held = [] ∧ ok o

/-- The calls that a schedule starts. -/
def Starts (ok : O → Prop) (xs : List (Choice O)) : Prop := ∀ n o, Choice.start n o ∈ xs → ok o

structure PInv (rank : L → Nat) (ok : O → Prop) (c : Conf L σ O ρ) (ids : List Nat) : Prop where
  asc : ∀ n o p held, c.pc n = .busy o p held → Ascending rank ok held p
  own : ∀ l n, c.owner l = some n → l ∈ heldOf (c.pc n)
  ids : ∀ n, n ∉ ids → c.pc n = .idle

variable {body : O → Prog L σ O ρ} {rank : L → Nat} {ok : O → Prop}

theorem PInv.upd {c : Conf L σ O ρ} {ids : List Nat} (h : PInv rank ok c ids) {c' : Conf L σ O ρ} {n : Nat}
    {q : PC L σ O ρ} (hpc : c'.pc = upd c.pc n q) (ha : ∀ o p held, q = .busy o p held → Ascending rank ok held p)
    (ho : ∀ l m, c'.owner l = some m → (m = n ∧ l ∈ heldOf q) ∨ (m ≠ n ∧ c.owner l = some m)) :
    PInv rank ok c' (n :: ids) := by
  refine ⟨fun m o p held hb => ?_, fun l m hl => ?_, fun m hm => ?_⟩
  · by_cases e : m = n
    · subst e; rw [hpc, upd_same] at hb; exact ha o p held hb
    · rw [hpc, upd_ne _ _ e] at hb; exact h.asc m o p held hb
  · rcases ho l m hl with ⟨rfl, h1⟩ | ⟨e, h1⟩
    · rw [hpc, upd_same]; exact h1
    · rw [hpc, upd_ne _ _ e]; exact h.own l m h1
  · simp only [List.mem_cons, not_or] at hm
    rw [hpc, upd_ne _ _ hm.1]; exact h.ids m hm.2

theorem PInv.next (hbody : ∀ o, ok o → Ascending rank ok [] (body o)) {c c' : Conf L σ O ρ} {ids : List Nat}
    (h : PInv rank ok c ids) {x : Choice O} (hok : ∀ n o, x = .start n o → ok o) (hx : next body c x = some c') :
    ∃ ids', PInv rank ok c' ids' := by
  have same : ∀ n (q : PC L σ O ρ), (∀ l ∈ heldOf (c.pc n), l ∈ heldOf q) → ∀ l m, c.owner l = some m →
      (m = n ∧ l ∈ heldOf q) ∨ (m ≠ n ∧ c.owner l = some m) := by
    intro n q hq l m hl
    by_cases e : m = n
    · subst e; exact .inl ⟨rfl, hq l (h.own l m hl)⟩
    · exact .inr ⟨e, hl⟩
  cases x with
  | start n o =>
    simp only [Conc.next] at hx
    cases hp : c.pc n with
    | idle =>
      rw [hp] at hx
      cases hx
      refine ⟨_, h.upd (n := n) (q := .busy o (body o) []) rfl ?_ (same _ _ (by rw [hp]; simp [heldOf]))⟩
      rintro o' p held ⟨⟩
      exact hbody o (hok n o rfl)
    | _ => rw [hp] at hx; cases hx
  | go n =>
    simp only [Conc.next] at hx
    cases hp : c.pc n with
    | idle => rw [hp] at hx; cases hx
    | gone => rw [hp] at hx; cases hx
    | busy o p held =>
      have hasc := h.asc n o p held hp
      rw [hp] at hx
      cases p with
      | ret r =>
        cases hx
        refine ⟨_, h.upd (n := n) (q := .leaving o (some r) held) rfl ?_ (same _ _ (by rw [hp]; simp [heldOf]))⟩
        rintro _ _ _ ⟨⟩
      | panic =>
        cases hx
        refine ⟨_, h.upd (n := n) (q := .leaving o none held) rfl ?_ (same _ _ (by rw [hp]; simp [heldOf]))⟩
        rintro _ _ _ ⟨⟩
      | lock l k =>
        simp only at hx
        cases hol : c.owner l with
        | some m => rw [hol] at hx; cases hx
        | none =>
          rw [hol] at hx
          cases hx
          refine ⟨_, h.upd (n := n) (q := .busy o k (l :: held)) rfl ?_ ?_⟩
          · rintro _ _ _ ⟨⟩; exact hasc.2
          · intro l' m hl
            by_cases e : l' = l
            · subst e
              simp only [upd_same, Option.some.injEq] at hl
              exact .inl ⟨hl.symm, by simp [heldOf]⟩
            · simp only [upd_ne _ _ e] at hl
              exact same n _ (by rw [hp]; simp only [heldOf]; intro x hx; exact List.mem_cons_of_mem _ hx) l' m hl
      | acc l f k =>
        cases hx
        refine ⟨_, h.upd (n := n) (q := .busy o (k (c.mem l)) held) rfl ?_ (same _ _ (by rw [hp]; simp [heldOf]))⟩
        rintro _ _ _ ⟨⟩; exact hasc _
      | tail o' =>
        cases hx
        refine ⟨_, h.upd (n := n) (q := .busy o' (body o') held) rfl ?_ (same _ _ (by rw [hp]; simp [heldOf]))⟩
        rintro _ _ _ ⟨⟩
        obtain ⟨rfl, h2⟩ := hasc
        exact hbody o' h2
    | leaving o r held =>
      rw [hp] at hx
      cases held with
      | nil =>
        cases hx
        refine ⟨_, h.upd (n := n) (q := .gone) rfl ?_ (same _ _ (by rw [hp]; simp [heldOf]))⟩
        rintro _ _ _ ⟨⟩
      | cons l held =>
        cases hx
        refine ⟨_, h.upd (n := n) (q := .leaving o r held) rfl ?_ ?_⟩
        · rintro _ _ _ ⟨⟩
        · intro l' m hl
          by_cases e : l' = l
          · subst e; simp only [upd_same] at hl; cases hl
          · simp only [upd_ne _ _ e] at hl
            by_cases e' : m = n
            · subst e'
              have := h.own l' m hl
              rw [hp] at this
              exact .inl ⟨rfl, (List.mem_cons.1 this).resolve_left e⟩
            · exact .inr ⟨e', hl⟩

theorem PInv.sched (hbody : ∀ o, ok o → Ascending rank ok [] (body o)) (xs : List (Choice O)) :
    ∀ {c c' : Conf L σ O ρ} {ids : List Nat}, PInv rank ok c ids → Starts ok xs → sched body c xs = some c' →
    ∃ ids', PInv rank ok c' ids' := by
  induction xs with
  | nil => intro c c' ids h _ e; cases e; exact ⟨ids, h⟩
  | cons x xs ih =>
    intro c c' ids h hs e
    simp only [Conc.sched] at e
    cases hn : Conc.next body c x with
    | none => rw [hn] at e; cases e
    | some c1 =>
      rw [hn] at e
      obtain ⟨ids', h'⟩ := h.next hbody (fun n o hx => hs n o (by rw [hx]; simp)) hn
      exact ih h' (fun n o hx => hs n o (List.mem_cons_of_mem _ hx)) e

/-- A call that cannot take a step waits for a lock. -/
theorem waits {c : Conf L σ O ρ} {n : Nat} (hu : Unfinished c n) (hn : next body c (.go n) = none) :
    ∃ o l k held m, c.pc n = .busy o (.lock l k) held ∧ c.owner l = some m := by
  simp only [next] at hn
  cases hp : c.pc n with
  | idle => exact absurd hp hu.1
  | gone => exact absurd hp hu.2
  | leaving o r held => rw [hp] at hn; cases held <;> cases hn
  | busy o p held =>
    rw [hp] at hn
    cases p with
    | ret r => cases hn
    | panic => cases hn
    | acc l f k => cases hn
    | tail o' => cases hn
    | lock l k =>
      simp only at hn
      cases hol : c.owner l with
      | none => rw [hol] at hn; cases hn
      | some m => exact ⟨o, l, k, held, m, rfl, hol⟩

theorem PInv.progress {c : Conf L σ O ρ} {ids : List Nat} (h : PInv rank ok c ids) : ¬ Deadlock body c := by
  rintro ⟨⟨n0, hu⟩, hd⟩
  have bound : ∃ N, ∀ n o l k held, c.pc n = .busy o (.lock l k) held → rank l < N := by
    have : ∀ xs : List Nat, ∃ N, ∀ n ∈ xs, ∀ o l k held, c.pc n = .busy o (.lock l k) held → rank l < N := by
      intro xs
      induction xs with
      | nil => exact ⟨0, fun n h => by cases h⟩
      | cons x xs ih =>
        obtain ⟨N, hN⟩ := ih
        by_cases hx : ∃ o l k held, c.pc x = .busy o (.lock l k) held
        · obtain ⟨o, l, k, held, hx⟩ := hx
          refine ⟨max N (rank l + 1), fun n hn o' l' k' held' hb => ?_⟩
          rcases List.mem_cons.1 hn with rfl | hn
          · rw [hx] at hb; cases hb; omega
          · have := hN n hn o' l' k' held' hb; omega
        · refine ⟨N, fun n hn o' l' k' held' hb => ?_⟩
          rcases List.mem_cons.1 hn with rfl | hn
          · exact absurd ⟨_, _, _, _, hb⟩ hx
          · exact hN n hn o' l' k' held' hb
    obtain ⟨N, hN⟩ := this ids
    refine ⟨N, fun n o l k held hb => ?_⟩
    by_cases hn : n ∈ ids
    · exact hN n hn o l k held hb
    · rw [h.ids n hn] at hb; cases hb
  obtain ⟨N, hN⟩ := bound
  have climb : ∀ r, ∃ n o l k held, c.pc n = .busy o (.lock l k) held ∧ r ≤ rank l := by
    intro r
    induction r with
    | zero =>
      obtain ⟨o, l, k, held, m, hp, -⟩ := waits hu (hd n0)
      exact ⟨n0, o, l, k, held, hp, Nat.zero_le _⟩
    | succ r ih =>
      obtain ⟨n, o, l, k, held, hp, hr⟩ := ih
      obtain ⟨o', l', k', held', m, hp', ho⟩ := waits ⟨by rw [hp]; simp, by rw [hp]; simp⟩ (hd n)
      rw [hp] at hp'
      cases hp'
      have hl := h.own l m ho
      have hum : Unfinished c m := by
        constructor
        · intro e; rw [e] at hl; cases hl
        · intro e; rw [e] at hl; cases hl
      obtain ⟨o2, l2, k2, held2, m2, hp2, -⟩ := waits hum (hd m)
      rw [hp2] at hl
      have := (h.asc m o2 _ held2 hp2).1 l hl
      exact ⟨m, o2, l2, k2, held2, hp2, by omega⟩
  obtain ⟨n, o, l, k, held, hp, hr⟩ := climb N
  have := hN n o l k held hp
  omega

/-- Calls that acquire their locks in ascending order do not deadlock. -/
theorem no_deadlock (hbody : ∀ o, ok o → Ascending rank ok [] (body o)) (m : L → σ) (xs : List (Choice O))
    (hs : Starts ok xs) (c : Conf L σ O ρ) (hc : sched body (init m) xs = some c) : ¬ Deadlock body c := by
  have h0 : PInv rank ok (init m : Conf L σ O ρ) [] :=
    ⟨fun n o p held hb => (by cases hb), fun l n hl => (by cases hl), fun n _ => rfl⟩
  obtain ⟨ids, h⟩ := h0.sched hbody xs hs hc
  exact h.progress

end Verif.Conc
