import Verif.Conc.Progress

/-! Calls that end when run alone also end together, if the locks are acquired in the order of their ranks. -/

namespace Verif.Conc

variable {L σ O ρ : Type} [DecidableEq L]

/-- The program ends, whatever it reads. -/
inductive Ends (body : O → Prog L σ O ρ) : Prog L σ O ρ → Prop
  | ret (r : ρ) : Ends body (.ret r)
  | panic : Ends body .panic
  | lock (l : L) {k : Prog L σ O ρ} : Ends body k → Ends body (.lock l k)
  | acc (l : L) (f : σ → σ) {k : σ → Prog L σ O ρ} : (∀ s, Ends body (k s)) → Ends body (.acc l f k)
  | tail {o : O} : Ends body (body o) → Ends body (.tail o)

theorem Locked.ends {body : O → Prog L σ O ρ} (p : Prog L σ O ρ) : ∀ {held}, Locked held p → Ends body p := by
  induction p with
  | ret r => intro held _; exact .ret r
  | panic => intro held _; exact .panic
  | lock l k ih => intro held h; exact .lock l (ih h)
  | acc l f k ih => intro held h; exact .acc l f fun s => ih s (h.2 s)
  | tail o => intro held h; exact h.elim

/-- The tail calls are `ok`. -/
def Tails (ok : O → Prop) : Prog L σ O ρ → Prop
  | .ret _ => True
  | .panic => True
  | .lock _ k => Tails ok k
  | .acc _ _ k => ∀ s, Tails ok (k s)
  | .tail o => ok o

theorem Tails.ends {body : O → Prog L σ O ρ} {ok : O → Prop} (hok : ∀ o, ok o → Ends body (body o))
    (p : Prog L σ O ρ) : Tails ok p → Ends body p := by
  induction p with
  | ret r => intro _; exact .ret r
  | panic => intro _; exact .panic
  | lock l k ih => intro h; exact .lock l (ih h)
  | acc l f k ih => intro h; exact .acc l f fun s => ih s (h s)
  | tail o => intro h; exact .tail (hok o h)

/-- `PStep body q' q`: a call at `q` may be at `q'` after one step. -/
inductive PStep (body : O → Prog L σ O ρ) : PC L σ O ρ → PC L σ O ρ → Prop
  | ret (o : O) (r : ρ) (held : List L) : PStep body (.leaving o (some r) held) (.busy o (.ret r) held)
  | panic (o : O) (held : List L) : PStep body (.leaving o none held) (.busy o .panic held)
  | lock (o : O) (l : L) (k : Prog L σ O ρ) (held : List L) :
    PStep body (.busy o k (l :: held)) (.busy o (.lock l k) held)
  | acc (o : O) (l : L) (f : σ → σ) (k : σ → Prog L σ O ρ) (held : List L) (s : σ) :
    PStep body (.busy o (k s) held) (.busy o (.acc l f k) held)
  | tail (o o' : O) (held : List L) : PStep body (.busy o' (body o') held) (.busy o (.tail o') held)
  | unlock (o : O) (r : Option ρ) (l : L) (held : List L) : PStep body (.leaving o r held) (.leaving o r (l :: held))
  | gone (o : O) (r : Option ρ) : PStep body .gone (.leaving o r [])

variable {body : O → Prog L σ O ρ}

/-- A step of a call changes where this call is, and nothing about the others. -/
theorem next_pstep {c c' : Conf L σ O ρ} {n : Nat} (h : next body c (.go n) = some c') :
    ∃ q, c'.pc = upd c.pc n q ∧ PStep body q (c.pc n) := by
  simp only [next] at h
  cases hp : c.pc n with
  | idle => rw [hp] at h; cases h
  | gone => rw [hp] at h; cases h
  | busy o p held =>
    rw [hp] at h
    cases p with
    | ret r => cases h; exact ⟨_, rfl, .ret _ _ _⟩
    | panic => cases h; exact ⟨_, rfl, .panic _ _⟩
    | acc l f k => cases h; exact ⟨_, rfl, .acc _ _ _ _ _ _⟩
    | tail o' => cases h; exact ⟨_, rfl, .tail _ _ _⟩
    | lock l k =>
      simp only at h
      cases hol : c.owner l with
      | some j => rw [hol] at h; cases h
      | none => rw [hol] at h; cases h; exact ⟨_, rfl, .lock _ _ _ _⟩
  | leaving o r held =>
    rw [hp] at h
    cases held with
    | nil => cases h; exact ⟨_, rfl, .gone _ _⟩
    | cons l held => cases h; exact ⟨_, rfl, .unlock _ _ _ _⟩

theorem acc_gone : Acc (PStep body) (.gone : PC L σ O ρ) := ⟨_, fun _ h => by cases h⟩

theorem acc_idle : Acc (PStep body) (.idle : PC L σ O ρ) := ⟨_, fun _ h => by cases h⟩

theorem acc_leaving (o : O) (r : Option ρ) (held : List L) : Acc (PStep body) (.leaving o r held : PC L σ O ρ) := by
  induction held with
  | nil => exact ⟨_, fun _ h => by cases h; exact acc_gone⟩
  | cons l held ih => exact ⟨_, fun _ h => by cases h; exact ih⟩

theorem Ends.acc_busy {p : Prog L σ O ρ} (h : Ends body p) :
    ∀ o held, Acc (PStep body) (.busy o p held : PC L σ O ρ) := by
  induction h with
  | ret r => intro o held; exact ⟨_, fun _ h => by cases h; exact acc_leaving _ _ _⟩
  | panic => intro o held; exact ⟨_, fun _ h => by cases h; exact acc_leaving _ _ _⟩
  | lock l _ ih => intro o held; exact ⟨_, fun _ h => by cases h; exact ih _ _⟩
  | acc l f _ ih => intro o held; exact ⟨_, fun _ h => by cases h; exact ih _ _ _⟩
  | tail _ ih => intro o held; exact ⟨_, fun _ h => by cases h; exact ih _ _⟩

/-- `After body ids c' c`: from `c` to `c'` in one step of a call among `ids`. -/
def After (body : O → Prog L σ O ρ) (ids : List Nat) (c' c : Conf L σ O ρ) : Prop :=
  ∃ n ∈ ids, next body c (.go n) = some c'

theorem acc_after (ids : List Nat) : ∀ c : Conf L σ O ρ, (∀ n, Acc (PStep body) (c.pc n)) →
    Acc (After body ids) c := by
  induction ids with
  | nil => intro c _; exact ⟨_, fun _ ⟨n, hn, _⟩ => by cases hn⟩
  | cons n ids ih =>
    have key : ∀ q, Acc (PStep body) q → ∀ c : Conf L σ O ρ, c.pc n = q → (∀ m, Acc (PStep body) (c.pc m)) →
        Acc (After body (n :: ids)) c := by
      intro q hq
      induction hq with
      | intro q _ ihq =>
        intro c hcq hall
        have hc := ih c hall
        induction hc with
        | intro c _ ihc =>
          refine ⟨_, fun c' hc' => ?_⟩
          obtain ⟨m, hm, hn⟩ := hc'
          obtain ⟨q', hpc, hst⟩ := next_pstep hn
          have hall' : ∀ i, Acc (PStep body) (c'.pc i) := by
            intro i
            by_cases e : i = m
            · subst e; rw [hpc, upd_same]; exact (hall i).inv hst
            · rw [hpc, upd_ne _ _ e]; exact hall i
          by_cases e : m = n
          · subst e
            exact ihq q' (hcq ▸ hst) c' (by rw [hpc, upd_same]) hall'
          · refine ihc c' ⟨m, (List.mem_cons.1 hm).resolve_left e, hn⟩ ?_ hall'
            rw [hpc, upd_ne _ _ (Ne.symm e)]; exact hcq
    intro c hall
    exact key _ (hall n) c rfl hall

/-- What holds of all reachable configurations if all calls end: all program counters are accessible, only `ids`
have been started, and calls that are gone have returned. -/
structure EInv (body : O → Prog L σ O ρ) (c : Conf L σ O ρ) (ids : List Nat) : Prop where
  acc : ∀ n, Acc (PStep body) (c.pc n)
  ids : ∀ n, n ∉ ids → c.pc n = .idle
  idle : ∀ n, c.pc n = .idle → ∀ o, .inv n o ∉ c.hist
  gone : ∀ n, c.pc n = .gone → ∃ o r, .ret n o r ∈ c.hist

theorem EInv.go {c c' : Conf L σ O ρ} {ids : List Nat} (h : EInv body c ids) {n : Nat}
    (hx : next body c (.go n) = some c') : EInv body c' ids := by
  obtain ⟨q, hpc, hst⟩ := next_pstep hx
  have hni : c.pc n ≠ .idle := by intro e; rw [e] at hst; cases hst
  have hmem : n ∈ ids := by
    by_cases e : n ∈ ids
    · exact e
    · exact absurd (h.ids n e) hni
  have hqi : q ≠ .idle := by rintro rfl; cases hst
  have hacc : ∀ i, Acc (PStep body) (c'.pc i) := by
    intro i
    by_cases e : i = n
    · subst e; rw [hpc, upd_same]; exact (h.acc i).inv hst
    · rw [hpc, upd_ne _ _ e]; exact h.acc i
  have hids : ∀ i, i ∉ ids → c'.pc i = .idle := by
    intro i hi
    rw [hpc, upd_ne _ _ (by rintro rfl; exact hi hmem)]
    exact h.ids i hi
  have hsub : ∃ es, c'.hist = c.hist ++ es ∧ (∀ i o, .inv i o ∈ es → i = n) ∧
      (q = .gone → ∃ o r, .ret n o r ∈ es) := by
    simp only [next] at hx
    cases hp : c.pc n with
    | idle => rw [hp] at hx; cases hx
    | gone => rw [hp] at hx; cases hx
    | busy o p held =>
      rw [hp] at hx hst
      cases p with
      | ret r => cases hx; exact ⟨[], by simp, by simp, by rintro rfl; cases hst⟩
      | panic => cases hx; exact ⟨[], by simp, by simp, by rintro rfl; cases hst⟩
      | acc l f k => cases hx; exact ⟨[], by simp, by simp, by rintro rfl; cases hst⟩
      | tail o' =>
        cases hx
        exact ⟨_, rfl, by simp, by rintro rfl; cases hst⟩
      | lock l k =>
        simp only at hx
        cases hol : c.owner l with
        | some j => rw [hol] at hx; cases hx
        | none => rw [hol] at hx; cases hx; exact ⟨[], by simp, by simp, by rintro rfl; cases hst⟩
    | leaving o r held =>
      rw [hp] at hx hst
      cases held with
      | nil => cases hx; exact ⟨_, rfl, by simp, fun _ => ⟨o, r, by simp⟩⟩
      | cons l held => cases hx; exact ⟨[], by simp, by simp, by rintro rfl; cases hst⟩
  obtain ⟨es, hh, hinv, hret⟩ := hsub
  refine ⟨hacc, hids, fun i hi o hm => ?_, fun i hi => ?_⟩
  · have e : i ≠ n := by rintro rfl; rw [hpc, upd_same] at hi; exact hqi hi
    rw [hh, List.mem_append] at hm
    rcases hm with hm | hm
    · rw [hpc, upd_ne _ _ e] at hi; exact h.idle i hi o hm
    · exact e (hinv i o hm)
  · by_cases e : i = n
    · subst e
      rw [hpc, upd_same] at hi
      obtain ⟨o, r, hr⟩ := hret hi
      exact ⟨o, r, by rw [hh]; simp [hr]⟩
    · rw [hpc, upd_ne _ _ e] at hi
      obtain ⟨o, r, hr⟩ := h.gone i hi
      exact ⟨o, r, by rw [hh]; simp [hr]⟩

theorem EInv.start {c c' : Conf L σ O ρ} {ids : List Nat} (h : EInv body c ids) {n : Nat} {o : O}
    (he : Ends body (body o)) (hx : next body c (.start n o) = some c') : EInv body c' (n :: ids) := by
  simp only [next] at hx
  cases hp : c.pc n with
  | idle =>
    rw [hp] at hx
    cases hx
    refine ⟨fun i => ?_, fun i hi => ?_, fun i hi o' hm => ?_, fun i hi => ?_⟩
    · by_cases e : i = n
      · subst e; simp only [upd_same]; exact he.acc_busy _ _
      · simp only [upd_ne _ _ e]; exact h.acc i
    · simp only [List.mem_cons, not_or] at hi
      simp only [upd_ne _ _ hi.1]; exact h.ids i hi.2
    · by_cases e : i = n
      · subst e; simp only [upd_same] at hi; cases hi
      · simp only [upd_ne _ _ e] at hi
        simp only [List.mem_append, List.mem_singleton, Event.inv.injEq] at hm
        rcases hm with hm | hm
        · exact h.idle i hi o' hm
        · exact e hm.1
    · by_cases e : i = n
      · subst e; simp only [upd_same] at hi; cases hi
      · simp only [upd_ne _ _ e] at hi
        obtain ⟨o', r, hr⟩ := h.gone i hi
        exact ⟨o', r, by simp [hr]⟩
  | _ => rw [hp] at hx; cases hx

theorem EInv.sched {ok : O → Prop} (he : ∀ o, ok o → Ends body (body o)) (xs : List (Choice O)) :
    ∀ {c c' : Conf L σ O ρ} {ids : List Nat}, EInv body c ids → Starts ok xs → sched body c xs = some c' →
    ∃ ids', EInv body c' ids' := by
  induction xs with
  | nil => intro c c' ids h _ e; cases e; exact ⟨ids, h⟩
  | cons x xs ih =>
    intro c c' ids h hs e
    simp only [Conc.sched] at e
    cases hn : Conc.next body c x with
    | none => rw [hn] at e; cases e
    | some c1 =>
      rw [hn] at e
      have hs' : Starts ok xs := fun n o hx => hs n o (List.mem_cons_of_mem _ hx)
      cases x with
      | start n o => exact ih (h.start (he o (hs n o (by simp))) hn) hs' e
      | go n => exact ih (h.go hn) hs' e

theorem EInv.init (m : L → σ) : EInv body (init m) [] :=
  ⟨fun _ => acc_idle, fun _ _ => rfl, fun _ _ _ => List.not_mem_nil, fun n h => nomatch (show (PC.idle : PC L σ O ρ) = .gone from h)⟩

theorem sched_append (xs ys : List (Choice O)) : ∀ c : Conf L σ O ρ,
    sched body c (xs ++ ys) = (sched body c xs).bind fun c' => sched body c' ys := by
  induction xs with
  | nil => intro c; rfl
  | cons x xs ih =>
    intro c
    simp only [List.cons_append, sched]
    cases next body c x with
    | none => rfl
    | some c1 => simp only [Option.bind_some]; exact ih c1

/-- A schedule without new calls. -/
def gos (ns : List Nat) : List (Choice O) := ns.map .go

theorem EInv.gos {ids : List Nat} (ns : List Nat) : ∀ {c c' : Conf L σ O ρ}, EInv body c ids →
    Conc.sched body c (Conc.gos ns) = some c' → EInv body c' ids := by
  induction ns with
  | nil => intro c c' h e; cases e; exact h
  | cons n ns ih =>
    intro c c' h e
    simp only [Conc.gos, List.map_cons, Conc.sched] at e
    cases hn : Conc.next body c (.go n) with
    | none => rw [hn] at e; cases e
    | some c1 => rw [hn] at e; exact ih (h.go hn) e

theorem EInv.after {c : Conf L σ O ρ} {ids : List Nat} (h : EInv body c ids) {n : Nat} {c' : Conf L σ O ρ}
    (hx : next body c (.go n) = some c') : After body ids c' c := by
  refine ⟨n, ?_, hx⟩
  by_cases e : n ∈ ids
  · exact e
  · have := h.ids n e
    simp only [next, this] at hx
    cases hx

/-- Without new calls, no schedule goes on for ever. -/
theorem EInv.finite {c : Conf L σ O ρ} {ids : List Nat} (h : EInv body c ids) :
    ∀ f : Nat → Nat, ∃ k, Conc.sched body c (Conc.gos ((List.range k).map f)) = none := by
  have hc := acc_after (body := body) ids c h.acc
  induction hc with
  | intro c _ ih =>
    intro f
    cases hn : next body c (.go (f 0)) with
    | none => exact ⟨1, by simp [Conc.gos, Conc.sched, hn, List.range_succ]⟩
    | some c1 =>
      obtain ⟨k, hk⟩ := ih c1 (h.after hn) (h.go hn) (fun i => f (i + 1))
      refine ⟨k + 1, ?_⟩
      rw [List.range_succ_eq_map]
      simp only [Conc.gos, List.map_cons, Conc.sched, hn, Option.bind_some, List.map_map] at hk ⊢
      exact hk

/-- From every configuration a maximal schedule exists. -/
theorem EInv.maximal {c : Conf L σ O ρ} {ids : List Nat} (h : EInv body c ids) :
    ∃ ns c', Conc.sched body c (Conc.gos ns) = some c' ∧ ∀ n, next body c' (.go n) = none := by
  have hc := acc_after (body := body) ids c h.acc
  induction hc with
  | intro c _ ih =>
    by_cases hd : ∀ n, next body c (.go n) = none
    · exact ⟨[], c, rfl, hd⟩
    · obtain ⟨n, hn⟩ := Classical.not_forall.1 hd
      cases hx : next body c (.go n) with
      | none => exact absurd hx hn
      | some c1 =>
        obtain ⟨ns, c', e, hm⟩ := ih c1 (h.after hx) (h.go hx)
        exact ⟨n :: ns, c', by simpa [Conc.gos, Conc.sched, hx] using e, hm⟩

end Verif.Conc
