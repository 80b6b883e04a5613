import Verif.Conc.Props

/-! Property C99: data races on skip lists. -/

namespace Verif.Conc

open Verif.Skip (SL Op Res Iter IOp IRes new)

/-! ### Definitions -/

section
variable {L σ O ρ : Type} [DecidableEq L]

/-- The next step of call `n` is the access `f` to the object `l`. -/
def Accesses (c : Conf L σ O ρ) (n : Nat) (l : L) (f : σ → σ) : Prop :=
  ∃ o k held, c.pc n = .busy o (.acc l f k) held

/-- A data race: two calls are about to access one object, and one of the accesses may write. -/
def Race (c : Conf L σ O ρ) (n m : Nat) (l : L) : Prop :=
  n ≠ m ∧ ∃ f g, Accesses c n l f ∧ Accesses c m l g ∧ (f ≠ id ∨ g ≠ id)

/-- A data race that makes a difference: call `n` is about to access the object `l` and goes on in another way
if call `m`, which is about to access it, too, comes first. -/
def Conflict (c : Conf L σ O ρ) (n m : Nat) (l : L) : Prop :=
  n ≠ m ∧ ∃ o f k held g, c.pc n = .busy o (.acc l f k) held ∧ Accesses c m l g ∧
    k (c.mem l) ≠ k (g (c.mem l))

theorem Conflict.race {c : Conf L σ O ρ} {n m : Nat} {l : L} (h : Conflict c n m l) : Race c n m l := by
  obtain ⟨hn, o, f, k, held, g, h1, h2, h3⟩ := h
  refine ⟨hn, f, g, ⟨o, k, held, h1⟩, h2, .inr ?_⟩
  rintro rfl
  exact h3 rfl

variable {body : O → Prog L σ O ρ} {good : O → Bool} {spec : (L → σ) → O → Option ((L → σ) × ρ)}
  {Safe : (L → σ) → Prop} {s0 : L → σ}

theorem inv_sched (ho : Obj body good spec Safe) (xs : List (Choice O)) : ∀ (c0 c : Conf L σ O ρ) A lin,
    Inv good spec Safe s0 c0 A lin → sched body c0 xs = some c → ∃ A' lin', Inv good spec Safe s0 c A' lin' := by
  induction xs with
  | nil => intro c0 c A lin h e; cases e; exact ⟨A, lin, h⟩
  | cons x xs ih =>
    intro c0 c A lin h e
    simp only [sched] at e
    cases hn : Conc.next body c0 x with
    | none => rw [hn] at e; cases e
    | some c1 =>
      rw [hn] at e
      obtain ⟨A', lin', h'⟩ := h.next ho hn
      exact ih c1 c A' lin' h' e

/-- What the invariant says about accesses. -/
theorem Inv.access {c : Conf L σ O ρ} {A : L → σ} {lin : List (Nat × O × ρ)}
    (h : Inv good spec Safe s0 c A lin) {n : Nat} {o : O} {l : L} {f : σ → σ} {k : σ → Prog L σ O ρ} {held : List L}
    (e : c.pc n = .busy o (.acc l f k) held) : (good o = true ∧ c.owner l = some n) ∨ (good o = false ∧ f = id) := by
  cases hg : good o with
  | false => exact .inr ⟨rfl, (h.read n o _ held e hg).1⟩
  | true =>
    refine .inl ⟨rfl, (h.held n).2 l ?_⟩
    rw [e]
    exact (h.busy n o _ held e hg).1.1

end

/-! ### C99 -/

variable {L K V : Type} [DecidableEq L] {cmp : K → K → Int}

/-- What all schedules lead to. -/
def Reachable (body : Call L K V → Code L K V) (c : Conf L (SL K V) (Call L K V) (CRes K V)) : Prop :=
  ∃ (maxLevel : L → Int) (junk : K × V) (xs : List (Choice (Call L K V))), sched body (init fun l => new (maxLevel l) junk) xs = some c

/-- C99: whenever a call may write a list, it owns the lock of this list, and no other call with a lock is
about to access the list. Any number of goroutines, lists and calls of all methods, with any schedule, however
the work under the locks is cut into accesses. -/
theorem C99_writer_owns (hc : Lawful cmp) (body : Call L K V → Code L K V) (hb : Implements cmp body)
    {c : Conf L (SL K V) (Call L K V) (CRes K V)} (h : Reachable body c) {n : Nat} {l : L}
    {f : SL K V → SL K V} (ha : Accesses c n l f) (hw : f ≠ id) : c.owner l = some n ∧
      ∀ m o k held g, m ≠ n → c.pc m = .busy o (.acc l g k) held → locks o = false := by
  obtain ⟨maxLevel, junk, xs, hx⟩ := h
  obtain ⟨A, lin, hI⟩ := inv_sched (hb.obj hc) xs _ c _ _
    (Inv.init fun l => ⟨[], Skip.new_ok (maxLevel l) junk⟩) hx
  obtain ⟨o, k, held, e⟩ := ha
  have hn := hI.access e
  have hn : c.owner l = some n := by
    rcases hn with h | h
    · exact h.2
    · exact absurd h.2 hw
  refine ⟨hn, fun m o' k' held' g hm e' => ?_⟩
  rcases hI.access e' with h | h
  · rw [hn] at h
    exact absurd (Option.some.inj h.2).symm hm
  · exact h.1

/-- C99: there is no data race while the calls under way are methods with locks: all methods of the list but
`RemoveHead` and `DifferenceSets`, and of the iterators `SeekToLast`, `SeekGE`, `SeekGT`, `SeekLE`, `SeekLT`,
`SeekByIndex`, `Prev`. Of two calls that race, one is of another method and reads. -/
theorem C99_no_race_partial (hc : Lawful cmp) (body : Call L K V → Code L K V) (hb : Implements cmp body)
    {c : Conf L (SL K V) (Call L K V) (CRes K V)} (h : Reachable body c) {n m : Nat} {l : L}
    (hr : Race c n m l) : ∃ i o k held, (i = n ∨ i = m) ∧ c.pc i = .busy o (.acc l id k) held ∧ locks o = false := by
  obtain ⟨hne, f, g, hf, hg, hw⟩ := hr
  have key : ∀ {n m : Nat} {f g : SL K V → SL K V}, n ≠ m → Accesses c n l f → Accesses c m l g → f ≠ id →
      ∃ o k held, c.pc m = .busy o (.acc l id k) held ∧ locks o = false := by
    intro n m f g hne hf hg hw
    obtain ⟨h1, h2⟩ := C99_writer_owns hc body hb h hf hw
    obtain ⟨o, k, held, e⟩ := hg
    have hl := h2 m o k held g (Ne.symm hne) e
    by_cases hi : g = id
    · subst hi; exact ⟨o, k, held, e, hl⟩
    · have := (C99_writer_owns hc body hb h ⟨o, k, held, e⟩ hi).1
      rw [h1] at this
      exact absurd (Option.some.inj this) hne
  rcases hw with hw | hw
  · obtain ⟨o, k, held, h1, h2⟩ := key hne hf hg hw
    exact ⟨m, o, k, held, .inr rfl, h1, h2⟩
  · obtain ⟨o, k, held, h1, h2⟩ := key (Ne.symm hne) hg hf hw
    exact ⟨n, o, k, held, .inl rfl, h1, h2⟩

/-- The same for a state in which all calls are of methods with locks. -/
theorem C99_locked_calls_partial (hc : Lawful cmp) (body : Call L K V → Code L K V) (hb : Implements cmp body)
    {c : Conf L (SL K V) (Call L K V) (CRes K V)} (h : Reachable body c)
    (hl : ∀ n o p held, c.pc n = .busy o p held → locks o = true) (n m : Nat) (l : L) : ¬ Race c n m l := by
  intro hr
  obtain ⟨i, o, k, held, -, e, h2⟩ := C99_no_race_partial hc body hb h hr
  rw [hl i o _ held e] at h2
  cases h2

/-! ### The other methods -/

/-- What can be compared of the rest of a program. -/
def shows : Code Nat Int Int → Nat × Option (Iter × IRes Int Int) × Option (Res Int Int)
  | .ret (.iter it r) => (0, some (it, r), none)
  | .ret r => (1, none, r.view)
  | .panic => (2, none, none)
  | .lock _ _ => (3, none, none)
  | .acc _ _ _ => (4, none, none)
  | .tail _ => (5, none, none)

def conflicts (c : Conf Nat (SL Int Int) (Call Nat Int Int) (CRes Int Int)) (n m l : Nat) : Bool :=
  match c.pc n, c.pc m with
  | .busy _ (.acc a _ k) _, .busy _ (.acc b g _) _ =>
    decide (a = l) && decide (b = l) && decide (shows (k (c.mem l)) ≠ shows (k (g (c.mem l))))
  | _, _ => false

theorem conflicts_ok {c : Conf Nat (SL Int Int) (Call Nat Int Int) (CRes Int Int)} {n m l : Nat} (hn : n ≠ m)
    (h : conflicts c n m l = true) : Conflict c n m l := by
  unfold conflicts at h
  split at h
  · next o a f k held o' b g k' held' h1 h2 =>
    simp only [Bool.and_eq_true, decide_eq_true_eq] at h
    obtain ⟨⟨rfl, rfl⟩, h3⟩ := h
    exact ⟨hn, o, f, k, held, g, h1, ⟨o', k', held', h2⟩, fun e => h3 (by rw [e])⟩
  · cases h

/-- Call 8 is the call `o` of a goroutine, brought to an access without a lock by `ws` steps after the calls
`before`; call 9 is a call `Put(k, v)` on list 0 that has got the lock. -/
def meet (before : List (Choice (Call Nat Int Int))) (o : Call Nat Int Int) (ws : Nat) (k v : Int) :
    List (Choice (Call Nat Int Int)) :=
  before ++ .start 8 o :: steps 8 ws ++ [.start 9 (.on 0 (.put k v [])), .go 9]

theorem conflict_of {xs : List (Choice (Call Nat Int Int))}
    (h : ((sched (code Compare.any) start xs).map fun c => conflicts c 8 9 0) = some true) :
    ∃ c, sched (code Compare.any) start xs = some c ∧ Conflict c 8 9 0 := by
  cases e : sched (code Compare.any) start xs with
  | none => rw [e] at h; cases h
  | some c =>
    rw [e] at h
    exact ⟨c, rfl, conflicts_ok (by decide) (Option.some.inj h)⟩

/-- The claim is false for `RemoveHead`, for the second list of `DifferenceSets`, and for `Next`, `Value` and
`SeekToFirst` of iterators: each has a data race with `Put` that makes a difference. -/
theorem C99_races :
    (∃ c, sched (code Compare.any) start (meet [] (.on 0 .removeHead) 0 1 10) = some c ∧ Conflict c 8 9 0) ∧
    (∃ c, sched (code Compare.any) start
      (meet (alone 0 1 (.put 1 10 [])) (.diff 1 0 (fun _ => []) (0, 0)) 2 1 10) = some c ∧ Conflict c 8 9 0) ∧
    (∃ c, sched (code Compare.any) start
      (meet (alone 0 0 (.put 1 10 [])) (.iter 0 ⟨some 1, 0⟩ .next) 0 2 20) = some c ∧ Conflict c 8 9 0) ∧
    (∃ c, sched (code Compare.any) start
      (meet (alone 0 0 (.put 1 10 [])) (.iter 0 ⟨some 1, 0⟩ .slice) 0 1 11) = some c ∧ Conflict c 8 9 0) ∧
    (∃ c, sched (code Compare.any) start (meet [] (.iter 0 ⟨none, 0⟩ .seekToFirst) 0 1 10) = some c ∧
      Conflict c 8 9 0) :=
  ⟨conflict_of (by decide +kernel), conflict_of (by decide +kernel), conflict_of (by decide +kernel),
    conflict_of (by decide +kernel), conflict_of (by decide +kernel)⟩

/-- A state for `C99_locked_calls_partial`: two calls of `Put`, of which one has the lock and is about to write
while the other waits. -/
example : ∃ c f, sched (code Compare.any) start [.start 0 (.on 0 (.put 1 10 [])), .go 0,
      .start 1 (.on 0 (.put 2 20 []))] = some c ∧ Accesses c 0 0 f ∧ f ≠ id ∧
    (∀ n o p held, c.pc n = .busy o p held → locks o = true) ∧ ¬ Race c 0 1 0 := by
  refine ⟨_, _, rfl, ⟨_, _, _, rfl⟩, ?_, ?_⟩
  · intro h
    have := congrArg (fun f => (f (new 16 (0, 0))).size) h
    revert this
    decide +kernel
  · have hl : ∀ n o p held, ((sched (code Compare.any) start [.start 0 (.on 0 (.put 1 10 [])), .go 0,
        .start 1 (.on 0 (.put 2 20 []))]).map fun c => c.pc n) = some (.busy o p held) → locks o = true := by
      intro n o p held h
      match n with
      | 0 => cases h; rfl
      | 1 => cases h; rfl
      | n + 2 => cases h
    refine ⟨fun n o p held h => hl n o p held (congrArg some h), ?_⟩
    exact C99_locked_calls_partial IndexTree.any_lawful _ code_implements
      ⟨fun _ => 16, (0, 0), [.start 0 (.on 0 (.put 1 10 [])), .go 0, .start 1 (.on 0 (.put 2 20 []))], rfl⟩
      (fun n o p held h => hl n o p held (congrArg some h)) 0 1 0

end Verif.Conc
