import Verif.Conc.Skip
import Verif.Conc.Ends

/-! Properties C59 to C61 and C69: skip lists shared by goroutines. -/

namespace Verif.Conc

open Verif.Skip (SL Op Res Iter IOp IRes new)
open Verif.Size (ord)
open IndexTree (any_lawful)

variable {L K V : Type} [DecidableEq L] {cmp : K → K → Int}

/-- The calls that lock, started and returned. -/
abbrev locking (c : Conf L (SL K V) (Call L K V) (CRes K V)) : List (Event (Call L K V) (CRes K V)) :=
  c.hist.filter fun e => locks e.op

/-! ### C59 -/

/-- C59: any number of goroutines that use any number of lists, with any schedule, however the work under the
locks is cut into accesses: the locking calls (`RemoveHead` counts as the `Remove` that it ends in) are
linearizable, with the sequential skip list as the specification, and none of them panics. The other calls may
run at the same time. -/
theorem C59_linearizable (hc : Lawful cmp) (body : Call L K V → Code L K V) (hb : Implements cmp body)
    (maxLevel : L → Int) (junk : K × V) (xs : List (Choice (Call L K V)))
    (c : Conf L (SL K V) (Call L K V) (CRes K V)) (h : sched body (init fun l => new (maxLevel l) junk) xs = some c) :
    Linearizable (seq cmp) (fun l => new (maxLevel l) junk) (locking c) :=
  linearizable (hb.obj hc) (fun l => ⟨[], Skip.new_ok (maxLevel l) junk⟩) xs c h

/-- The ideal sorted maps of the lists, one call at a time. -/
def ideal (cmp : K → K → Int) (m : L → List (K × V)) : Call L K V → Option ((L → List (K × V)) × CRes K V)
  | .on l op => some (upd m l (Skip.spec (ord cmp) (m l) op).1, .res (Skip.spec (ord cmp) (m l) op).2)
  | _ => none

theorem run_ideal (hc : Lawful cmp) : ∀ (os : List (Call L K V)) (m : L → SL K V) (A : L → List (K × V)),
    (∀ l, Skip.Sim cmp (m l) (A l)) → (∀ o ∈ os, ∃ l op, o = .on l op ∧ op.plain) → ∀ m' rs,
    run (seq cmp) m os = some (m', rs) → ∃ A', run (ideal cmp) A os = some (A', rs)
  | [], m, A, _, _, m', rs, h => by cases h; exact ⟨A, rfl⟩
  | o :: os, m, A, hs, ho, m', rs, h => by
    obtain ⟨l, op, rfl, hp⟩ := ho o (by simp)
    obtain ⟨s', e, h'⟩ := Skip.step_ok hc (hs l) op (Skip.plain_legal hp _)
    simp only [run, seq, e, Option.map_some] at h
    cases hr : run (seq cmp) (upd m l s') os with
    | none => rw [hr] at h; cases h
    | some q =>
      rw [hr] at h
      cases h
      obtain ⟨A', e'⟩ := run_ideal hc os (upd m l s') (upd A l (Skip.spec (ord cmp) (A l) op).1) (fun l' => by
        by_cases hl : l' = l
        · subst hl; rw [upd_same, upd_same]; exact h'
        · rw [upd_ne _ _ hl, upd_ne _ _ hl]; exact hs l') (fun o ho' => ho o (List.mem_cons_of_mem _ ho')) _ _ hr
      exact ⟨A', by simp [run, ideal, e']⟩

/-- C59: with the ideal sorted map as the specification, if the locking calls are those of C55. -/
theorem C59_sorted_maps (hc : Lawful cmp) (body : Call L K V → Code L K V) (hb : Implements cmp body)
    (maxLevel : L → Int) (junk : K × V) (xs : List (Choice (Call L K V)))
    (c : Conf L (SL K V) (Call L K V) (CRes K V)) (h : sched body (init fun l => new (maxLevel l) junk) xs = some c)
    (hp : ∀ e ∈ locking c, ∃ l op, e.op = .on l op ∧ op.plain) :
    Linearizable (ideal cmp) (fun _ => []) (locking c) := by
  obtain ⟨lin, h1, h2, h3, h4, m', h5⟩ := C59_linearizable hc body hb maxLevel junk xs c h
  refine ⟨lin, h1, h2, h3, h4, ?_⟩
  refine run_ideal hc _ _ _ (fun l => Skip.new_ok (maxLevel l) junk) ?_ _ _ h5
  intro o ho
  obtain ⟨⟨n, o', r⟩, hm, rfl⟩ := List.mem_map.1 ho
  exact hp _ (h2 n o' r hm)

/-- There is code as required, and with the ascending locks of C61. -/
example : Implements Compare.any (code Compare.any : Call Nat Int Int → Code Nat Int Int) := code_implements

/-- Results that can be compared. -/
def CRes.view : CRes K V → Option (Res K V)
  | .res r => some r
  | .list s => s.nodes.map fun as => .list (as.map s.ent)
  | .iter _ _ => none

/-- The results so far; none for a panic. -/
def results (c : Conf L (SL K V) (Call L K V) (CRes K V)) : List (Nat × Option (Res K V)) :=
  c.hist.filterMap fun e => match e with
    | .ret n _ r => some (n, r.bind CRes.view)
    | .inv _ _ => none

/-- `k` steps of call `n`. -/
def steps (n k : Nat) : List (Choice (Call L K V)) := List.replicate k (.go n)

/-- A call that does not wait: its lock, its access, its return, the unlock and the end. -/
def alone (n : Nat) (l : L) (op : Op K V) : List (Choice (Call L K V)) := .start n (.on l op) :: steps n 5

abbrev start : Conf Nat (SL Int Int) (Call Nat Int Int) (CRes Int Int) := init fun _ => new 16 (0, 0)

/-- Two calls of `Put` that overlap: the second waits. -/
example : (sched (code Compare.any) start
    ([.start 0 (.on 0 (.put 1 10 [true])), .go 0, .start 1 (.on 0 (.put 1 11 [])), .go 0] ++ steps 0 3 ++ steps 1 5 ++
      alone 2 0 (.get 1))).map results =
    some [(0, some (.bool true)), (1, some (.bool false)), (2, some (.found (some 11)))] := by decide +kernel

example : (sched (code Compare.any) start
    ([.start 0 (.on 0 (.put 1 10 [true])), .go 0, .start 1 (.on 0 (.put 1 11 [])), .go 1])).isNone = true := by
  decide +kernel

/-! ### C60 -/

/-- `RemoveHead` panics if the list is emptied between the test of the size and the access to the first node. -/
theorem C60_panics : (sched (code Compare.any) start
    (alone 0 0 (.put 1 10 []) ++ [.start 1 (.on 0 .removeHead), .go 1, .go 1] ++ alone 2 0 (.remove 1) ++
      steps 1 3)).map results =
    some [(0, some (.bool true)), (2, some (.slice (some (1, 10)))), (1, none)] := by decide +kernel

/-- `RemoveHead` returns nothing although there are entries all the time: two of them choose the same key. -/
theorem C60_nothing : (sched (code Compare.any) start
    (alone 0 0 (.put 1 10 []) ++ alone 1 0 (.put 2 20 []) ++
      (.start 2 (.on 0 .removeHead) :: steps 2 5) ++ (.start 3 (.on 0 .removeHead) :: steps 3 5) ++
      steps 2 5 ++ steps 3 5 ++ alone 4 0 .slices)).map results =
    some [(0, some (.bool true)), (1, some (.bool true)), (2, some (.slice (some (1, 10)))), (3, some (.slice none)),
      (4, some (.list [(2, 20)]))] := by decide +kernel

/-! ### C61 -/

/-- Call `n` waits for the lock `l`. -/
def Waits (c : Conf L (SL K V) (Call L K V) (CRes K V)) (n : Nat) (l : L) : Prop :=
  ∃ o k held, c.pc n = .busy o (.lock l k) held

/-- A waits for a lock of B and B for a lock of A, or A for its own lock; nobody else will release these. -/
structure Stuck (c : Conf L (SL K V) (Call L K V) (CRes K V)) (n m : Nat) (a b : L) : Prop where
  first : Waits c n b
  second : Waits c m a
  ownA : c.owner a = some n
  ownB : c.owner b = some m
  other : ∀ i, i ≠ n → i ≠ m → a ∉ heldOf (c.pc i) ∧ b ∉ heldOf (c.pc i)

theorem Stuck.next {c c' : Conf L (SL K V) (Call L K V) (CRes K V)} {n m : Nat} {a b : L}
    {body : Call L K V → Code L K V} (h : Stuck c n m a b) {x : Choice (Call L K V)} (hx : next body c x = some c') :
    Stuck c' n m a b := by
  obtain ⟨o1, k1, held1, e1⟩ := h.first
  obtain ⟨o2, k2, held2, e2⟩ := h.second
  have key : ∀ i (q : PC L (SL K V) (Call L K V) (CRes K V)), i ≠ n → i ≠ m → c'.pc = upd c.pc i q →
      (a ∉ heldOf q ∧ b ∉ heldOf q) → c'.owner a = some n → c'.owner b = some m → Stuck c' n m a b := by
    intro i q hn hm hp hq ha hb
    refine ⟨⟨o1, k1, held1, ?_⟩, ⟨o2, k2, held2, ?_⟩, ha, hb, fun j h1 h2 => ?_⟩
    · rw [hp, upd_ne _ _ (Ne.symm hn)]; exact e1
    · rw [hp, upd_ne _ _ (Ne.symm hm)]; exact e2
    · by_cases e : j = i
      · subst e; rw [hp, upd_same]; exact hq
      · rw [hp, upd_ne _ _ e]; exact h.other j h1 h2
  cases x with
  | start i o =>
    simp only [Conc.next] at hx
    cases hp : c.pc i with
    | idle =>
      rw [hp] at hx
      cases hx
      exact key i _ (by rintro rfl; rw [e1] at hp; cases hp) (by rintro rfl; rw [e2] at hp; cases hp) rfl
        (by simp [heldOf]) h.ownA h.ownB
    | _ => rw [hp] at hx; cases hx
  | go i =>
    have hin : i ≠ n := by
      rintro rfl
      simp only [Conc.next, e1, h.ownB] at hx
      cases hx
    have him : i ≠ m := by
      rintro rfl
      simp only [Conc.next, e2, h.ownA] at hx
      cases hx
    have ho := h.other i hin him
    simp only [Conc.next] at hx
    cases hp : c.pc i with
    | idle => rw [hp] at hx; cases hx
    | gone => rw [hp] at hx; cases hx
    | busy o p held =>
      rw [hp] at hx ho
      cases p with
      | ret r => cases hx; exact key i _ hin him rfl ho h.ownA h.ownB
      | panic => cases hx; exact key i _ hin him rfl ho h.ownA h.ownB
      | acc l f k => cases hx; exact key i _ hin him rfl ho h.ownA h.ownB
      | tail o' => cases hx; exact key i _ hin him rfl ho h.ownA h.ownB
      | lock l k =>
        simp only at hx
        cases hol : c.owner l with
        | some j => rw [hol] at hx; cases hx
        | none =>
          rw [hol] at hx
          cases hx
          have hal : a ≠ l := by rintro rfl; rw [h.ownA] at hol; cases hol
          have hbl : b ≠ l := by rintro rfl; rw [h.ownB] at hol; cases hol
          refine key i _ hin him rfl ?_ ?_ ?_
          · simp only [heldOf, List.mem_cons, not_or]
            exact ⟨⟨hal, ho.1⟩, hbl, ho.2⟩
          · simp only [upd_ne _ _ hal]; exact h.ownA
          · simp only [upd_ne _ _ hbl]; exact h.ownB
    | leaving o r held =>
      rw [hp] at hx ho
      cases held with
      | nil => cases hx; exact key i _ hin him rfl ho h.ownA h.ownB
      | cons l held =>
        cases hx
        simp only [heldOf, List.mem_cons, not_or] at ho
        refine key i _ hin him rfl ⟨ho.1.2, ho.2.2⟩ ?_ ?_
        · simp only [upd_ne _ _ ho.1.1]; exact h.ownA
        · simp only [upd_ne _ _ ho.2.1]; exact h.ownB

theorem Stuck.sched {n m : Nat} {a b : L} {body : Call L K V → Code L K V} (xs : List (Choice (Call L K V))) :
    ∀ {c c' : Conf L (SL K V) (Call L K V) (CRes K V)}, Stuck c n m a b → sched body c xs = some c' →
    Stuck c' n m a b := by
  induction xs with
  | nil => intro c c' h e; cases e; exact h
  | cons x xs ih =>
    intro c c' h e
    simp only [Conc.sched] at e
    cases hn : Conc.next body c x with
    | none => rw [hn] at e; cases e
    | some c1 => rw [hn] at e; exact ih (h.next hn) e

theorem Stuck.unfinished {c : Conf L (SL K V) (Call L K V) (CRes K V)} {n m : Nat} {a b : L} (h : Stuck c n m a b) :
    Unfinished c n ∧ Unfinished c m := by
  obtain ⟨o1, k1, held1, e1⟩ := h.first
  obtain ⟨o2, k2, held2, e2⟩ := h.second
  exact ⟨⟨by rw [e1]; simp, by rw [e1]; simp⟩, by rw [e2]; simp, by rw [e2]; simp⟩

/-- Two goroutines that intersect two lists in opposite order may block each other: neither of the calls
returns, whatever happens after. -/
theorem C61_deadlock (a b : L) (hab : a ≠ b) (m : L → SL K V) (coins coins' : Nat → List Bool) (junk junk' : K × V) :
    ∃ c, sched (code cmp) (init m) [.start 0 (.inter a b coins junk), .start 1 (.inter b a coins' junk'), .go 0, .go 1] =
        some c ∧ Deadlock (code cmp) c ∧
      ∀ xs c', sched (code cmp) c xs = some c' → Unfinished c' 0 ∧ Unfinished c' 1 := by
  have hba := Ne.symm hab
  have e : sched (code cmp) (init m) [.start 0 (.inter a b coins junk), .start 1 (.inter b a coins' junk'), .go 0,
      .go 1] = some
      { mem := m, owner := upd (upd (fun _ => none) a (some 0)) b (some 1)
        pc := fun n => if n = 0 then .busy (.inter a b coins junk) (.lock b (.acc a id fun s => .acc b id fun t =>
            match Skip.intersection cmp s t coins junk with
            | none => .panic
            | some r => .ret (.list r))) [a]
          else if n = 1 then .busy (.inter b a coins' junk') (.lock a (.acc b id fun s => .acc a id fun t =>
            match Skip.intersection cmp s t coins' junk' with
            | none => .panic
            | some r => .ret (.list r))) [b]
          else .idle
        hist := [.inv 0 (.inter a b coins junk), .inv 1 (.inter b a coins' junk')] } := by
    simp only [sched, next, init, upd_same, Option.bind_some, upd_ne _ _ (show (1 : Nat) ≠ 0 by decide),
      upd_ne _ _ (show (0 : Nat) ≠ 1 by decide), code, upd_ne _ _ hba, List.nil_append, List.cons_append,
      Option.some.injEq, Conf.mk.injEq, true_and, and_true]
    funext n
    by_cases h0 : n = 0
    · subst h0; rfl
    · by_cases h1 : n = 1
      · subst h1; rfl
      · simp [upd, h0, h1]
  rw [e]
  refine ⟨_, rfl, ?_, fun xs c' h => (Stuck.sched (n := 0) (m := 1) (a := a) (b := b) xs ?_ h).unfinished⟩
  · refine ⟨⟨0, by simp [Unfinished]⟩, fun n => ?_⟩
    by_cases h0 : n = 0
    · subst h0; simp [next, upd]
    · by_cases h1 : n = 1
      · subst h1; simp [next, upd, hab]
      · simp [next, h0, h1]
  · refine ⟨⟨_, _, _, rfl⟩, ⟨_, _, _, rfl⟩, ?_, ?_, fun i h0 h1 => ?_⟩
    · simp [upd, hab]
    · simp [upd]
    · simp [h0, h1, heldOf]

/-- The same for `UnionSets`. -/
theorem C61_deadlock_union (a b : L) (hab : a ≠ b) (m : L → SL K V) (coins coins' : Nat → List Bool)
    (junk junk' : K × V) :
    ∃ c, sched (code cmp) (init m) [.start 0 (.union a b coins junk), .start 1 (.union b a coins' junk'), .go 0, .go 0,
        .go 1, .go 1] = some c ∧ Deadlock (code cmp) c ∧
      ∀ xs c', sched (code cmp) c xs = some c' → Unfinished c' 0 ∧ Unfinished c' 1 := by
  have hba := Ne.symm hab
  have e : sched (code cmp) (init m) [.start 0 (.union a b coins junk), .start 1 (.union b a coins' junk'), .go 0, .go 0,
      .go 1, .go 1] = some
      { mem := m, owner := upd (upd (fun _ => none) a (some 0)) b (some 1)
        pc := fun n => if n = 0 then .busy (.union a b coins junk) (.lock b (.acc b id fun t =>
            match Skip.union cmp (m a) t coins junk with
            | none => .panic
            | some r => .ret (.list r))) [a]
          else if n = 1 then .busy (.union b a coins' junk') (.lock a (.acc a id fun t =>
            match Skip.union cmp (m b) t coins' junk' with
            | none => .panic
            | some r => .ret (.list r))) [b]
          else .idle
        hist := [.inv 0 (.union a b coins junk), .inv 1 (.union b a coins' junk')] } := by
    simp only [sched, next, init, upd_same, Option.bind_some, upd_ne _ _ (show (1 : Nat) ≠ 0 by decide),
      upd_ne _ _ (show (0 : Nat) ≠ 1 by decide), code, upd_ne _ _ hba, id, upd_id, List.nil_append, List.cons_append,
      Option.some.injEq, Conf.mk.injEq, true_and, and_true]
    funext n
    by_cases h0 : n = 0
    · subst h0; rfl
    · by_cases h1 : n = 1
      · subst h1; rfl
      · simp [upd, h0, h1]
  rw [e]
  refine ⟨_, rfl, ?_, fun xs c' h => (Stuck.sched (n := 0) (m := 1) (a := a) (b := b) xs ?_ h).unfinished⟩
  · refine ⟨⟨0, by simp [Unfinished]⟩, fun n => ?_⟩
    by_cases h0 : n = 0
    · subst h0; simp [next, upd]
    · by_cases h1 : n = 1
      · subst h1; simp [next, upd, hab]
      · simp [next, h0, h1]
  · refine ⟨⟨_, _, _, rfl⟩, ⟨_, _, _, rfl⟩, ?_, ?_, fun i h0 h1 => ?_⟩
    · simp [upd, hab]
    · simp [upd]
    · simp [h0, h1, heldOf]

/-- The intersection or union of a list with itself never returns, even in a program with one goroutine. -/
theorem C61_self (a : L) (m : L → SL K V) (coins : Nat → List Bool) (junk : K × V) :
    (∃ c, sched (code cmp) (init m) [.start 0 (.inter a a coins junk), .go 0] = some c ∧ Deadlock (code cmp) c) ∧
    (∃ c, sched (code cmp) (init m) [.start 0 (.union a a coins junk), .go 0, .go 0] = some c ∧
      Deadlock (code cmp) c) := by
  refine ⟨⟨_, rfl, ⟨0, by simp [Unfinished, upd]⟩, fun n => ?_⟩, ⟨_, rfl, ⟨0, by simp [Unfinished, upd]⟩, fun n => ?_⟩⟩
  · by_cases h0 : n = 0
    · subst h0; simp [next, upd]
    · simp [next, upd, h0, init]
  · by_cases h0 : n = 0
    · subst h0; simp [next, upd]
    · simp [next, upd, h0, init]

/-- The set operations are called only on pairs of lists in ascending order. -/
def Ranked (rank : L → Nat) : Call L K V → Prop
  | .inter a b _ _ => rank a < rank b
  | .union a b _ _ => rank a < rank b
  | _ => True

theorem diffLoop_ascending (rank : L → Nat) (ok : Call L K V → Prop) (b : L) (coins : Nat → List Bool) (junk : K × V)
    (held : List L) (es : List (K × V)) : ∀ kept, Ascending rank ok held (diffLoop cmp b coins junk es kept) := by
  induction es with
  | nil =>
    intro kept
    rw [diffLoop]
    split <;> trivial
  | cons e es ih =>
    intro kept
    rw [diffLoop]
    intro t
    simp only
    split
    · exact ih _
    · exact ih _
    · trivial

theorem code_ascending (rank : L → Nat) (o : Call L K V) (ho : Ranked rank o) :
    Ascending rank (Ranked rank) [] (code cmp o) := by
  have hw : ∀ l f, Ascending rank (Ranked rank) [] (whole l f : Code L K V) := by
    intro l f
    refine ⟨by simp, fun s => ?_⟩
    simp only
    split <;> trivial
  cases o with
  | on l op =>
    cases op <;> try exact hw _ _
    intro s
    simp only
    split
    · trivial
    · intro s s'
      simp only
      split
      · exact fun s => ⟨rfl, trivial⟩
      · trivial
  | inter a b coins junk =>
    refine ⟨by simp, ⟨?_, fun s t => ?_⟩⟩
    · intro h hh
      rw [List.mem_singleton.1 hh]
      exact ho
    · simp only
      split <;> trivial
  | union a b coins junk =>
    refine ⟨by simp, fun s => ⟨?_, fun t => ?_⟩⟩
    · intro h hh
      rw [List.mem_singleton.1 hh]
      exact ho
    · simp only
      split <;> trivial
  | diff a b coins junk =>
    refine ⟨by simp, fun s => ?_⟩
    simp only
    split
    · trivial
    · exact diffLoop_ascending _ _ _ _ _ _ _ _
  | iter l it op =>
    have hl : ∀ held, Ascending rank (Ranked rank) held (.acc l id fun s =>
        match Skip.istep cmp s it op with
        | none => .panic
        | some p => .ret (.iter p.1 p.2) : Code L K V) := by
      intro held s
      simp only
      split <;> trivial
    simp only [code]
    split
    · exact ⟨by simp, hl _⟩
    · exact hl _

/-- C61: if every pair of lists is intersected or united in one order only (and no list with itself), some call
can always take a step. The work between the locks may be cut into any accesses. Missing from the full
statement: pairs in both orders, for which it is false (`C61_deadlock`). -/
theorem C61_progress_partial (rank : L → Nat) (body : Call L K V → Code L K V)
    (hb : ∀ o, Ranked rank o → Ascending rank (Ranked rank) [] (body o)) (m : L → SL K V)
    (xs : List (Choice (Call L K V))) (hs : Starts (Ranked rank) xs)
    (c : Conf L (SL K V) (Call L K V) (CRes K V)) (h : sched body (init m) xs = some c) : ¬ Deadlock body c :=
  no_deadlock hb m xs hs c h

/-- The hypotheses of `C61_progress_partial` are met by the code and a schedule of two intersections. -/
example : (∀ o, Ranked id o → Ascending id (Ranked id) [] (code Compare.any o : Code Nat Int Int)) ∧
    Starts (Ranked (L := Nat) (K := Int) (V := Int) id) [.start 0 (.inter 0 1 (fun _ => []) (0, 0)),
      .start 1 (.inter 0 1 (fun _ => []) (0, 0)), .go 0, .go 0] ∧
    (sched (code Compare.any) start [.start 0 (.inter 0 1 (fun _ => []) (0, 0)),
      .start 1 (.inter 0 1 (fun _ => []) (0, 0)), .go 0, .go 0]).isSome = true := by
  refine ⟨fun o ho => code_ascending id o ho, ?_, rfl⟩
  intro n o h
  simp only [List.mem_cons, List.not_mem_nil, or_false, reduceCtorEq, Choice.start.injEq] at h
  rcases h with ⟨-, rfl⟩ | ⟨-, rfl⟩
  · exact Nat.zero_lt_one
  · exact Nat.zero_lt_one

/-- The tail calls lock, in `code`: `RemoveHead` ends in `Remove`. -/
theorem code_tails (o : Call L K V) : Tails (fun o => locks o = true) (code cmp o) := by
  have hw : ∀ l f, Tails (fun o => locks o = true) (whole l f : Code L K V) := by
    intro l f s
    simp only
    split <;> trivial
  cases o with
  | on l op =>
    cases op <;> try exact hw _ _
    intro s
    simp only
    split
    · trivial
    · intro s s'
      simp only
      split
      · exact fun s => rfl
      · trivial
  | inter a b coins junk =>
    intro s t
    simp only
    split <;> trivial
  | union a b coins junk =>
    intro s t
    simp only
    split <;> trivial
  | diff a b coins junk =>
    intro s
    simp only
    split
    · trivial
    · rename_i as _
      generalize as.map s.ent = es
      have : ∀ (es kept : List (K × V)),
          Tails (fun o => locks o = true) (diffLoop cmp b coins junk es kept : Code L K V) := by
        intro es
        induction es with
        | nil => intro kept; rw [diffLoop]; split <;> trivial
        | cons e es ih =>
          intro kept
          rw [diffLoop]
          intro t
          simp only
          split
          · exact ih _
          · exact ih _
          · trivial
      exact this _ _
  | iter l it op =>
    have hl : Tails (fun o => locks o = true) (.acc l id fun s =>
        match Skip.istep cmp s it op with
        | none => .panic
        | some p => .ret (.iter p.1 p.2) : Code L K V) := by
      intro s
      simp only
      split <;> trivial
    simp only [code]
    split
    · exact hl
    · exact hl

/-- C61: if every pair of lists is intersected or united in one order only (and no list with itself), all calls
return. From any configuration that can be reached, if no further calls start: no schedule goes on for ever,
and when no call can take a step any more, all have returned; the locking ones without a panic. Missing from the
full statement: pairs in both orders, for which it is false (`C61_deadlock`). -/
theorem C61_completes_partial (hc : Lawful cmp) (rank : L → Nat) (body : Call L K V → Code L K V)
    (himp : Implements cmp body) (ht : ∀ o, Tails (fun o => locks o = true) (body o))
    (hb : ∀ o, Ranked rank o → Ascending rank (Ranked rank) [] (body o)) (maxLevel : L → Int) (junk : K × V)
    (xs : List (Choice (Call L K V))) (hs : Starts (Ranked rank) xs)
    (c : Conf L (SL K V) (Call L K V) (CRes K V)) (h : sched body (init fun l => new (maxLevel l) junk) xs = some c) :
    (∀ f : Nat → Nat, ∃ k, sched body c (gos ((List.range k).map f)) = none) ∧
    (∃ ns c', sched body c (gos ns) = some c' ∧ ∀ n, next body c' (.go n) = none) ∧
    ∀ ns c', sched body c (gos ns) = some c' → (∀ n, next body c' (.go n) = none) →
      ∀ n o, .inv n o ∈ c'.hist → ∃ o' r, .ret n o' r ∈ c'.hist ∧ (locks o' = true → r ≠ none) := by
  have he : ∀ o, Ends body (body o) := fun o => Tails.ends (fun o ho => (himp.locked o ho).ends) _ (ht o)
  obtain ⟨ids, hi⟩ := (EInv.init fun l => new (maxLevel l) junk).sched (fun o _ => he o) xs hs h
  refine ⟨hi.finite, hi.maximal, fun ns c' hg hd n o ho => ?_⟩
  have hi' := hi.gos ns hg
  have hsched : sched body (init fun l => new (maxLevel l) junk) (xs ++ gos ns) = some c' := by
    rw [sched_append, h]; exact hg
  have hst : Starts (Ranked rank) (xs ++ gos ns : List (Choice (Call L K V))) := by
    intro n o hm
    rcases List.mem_append.1 hm with hm | hm
    · exact hs n o hm
    · simp [gos] at hm
  have hnd := no_deadlock hb _ _ hst c' hsched
  have hgone : c'.pc n = .gone := by
    by_cases hgn : c'.pc n = .gone
    · exact hgn
    · exact absurd ⟨⟨n, fun e => hi'.idle n e o ho, hgn⟩, hd⟩ hnd
  obtain ⟨o', r, hr⟩ := hi'.gone n hgone
  refine ⟨o', r, hr, fun hl => ?_⟩
  obtain ⟨lin, -, -, h3, -⟩ := C59_linearizable hc body himp maxLevel junk _ c' hsched
  obtain ⟨r', e, -⟩ := h3 n o' r (List.mem_filter.2 ⟨hr, hl⟩)
  rw [e]; simp

/-- The hypotheses of `C61_completes_partial` about the code are met by `code`; the others are those of
`C61_progress_partial`. -/
example : Implements Compare.any (code Compare.any : Call Nat Int Int → Code Nat Int Int) ∧
    ∀ o, Tails (fun o => locks o = true) (code Compare.any o : Code Nat Int Int) := ⟨code_implements, code_tails⟩

/-! ### C69 -/

/-- The results of the set operations at one moment: the contents of the difference of list 0 and list 1. -/
def diffNow (c : Conf Nat (SL Int Int) (Call Nat Int Int) (CRes Int Int)) : Option (List (Int × Int)) :=
  (Skip.difference Compare.any (c.mem 0) (c.mem 1) (fun _ => []) (0, 0)).bind fun r => r.nodes.map fun as => as.map r.ent

/-- A `DifferenceSets` of list 0 and list 1, while keys are put into list 1. -/
def diffRace : List (Choice (Call Nat Int Int)) :=
  alone 0 0 (.put 1 10 []) ++ alone 1 0 (.put 2 20 []) ++
    [.start 2 (.diff 0 1 (fun _ => []) (0, 0)), .go 2, .go 2, .go 2] ++
    alone 3 1 (.put 1 0 []) ++ alone 4 1 (.put 2 0 []) ++ steps 2 4

/-- `DifferenceSets` is not atomic: its result is not the difference at any moment between its start and its
end (nor any other moment while list 0 holds two entries). -/
theorem C69_difference_not_atomic :
    (sched (code Compare.any) start diffRace).map results =
      some [(0, some (.bool true)), (1, some (.bool true)), (3, some (.bool true)), (4, some (.bool true)),
        (2, some (.list [(1, 10)]))] ∧
    ∀ k, 12 ≤ k → k ≤ diffRace.length →
      (sched (code Compare.any) start (diffRace.take k)).bind diffNow ≠ some [(1, 10)] := by
  refine ⟨by decide +kernel, ?_⟩
  have : ((List.range (diffRace.length + 1)).all fun k => decide (k < 12) ||
      decide ((sched (code Compare.any) start (diffRace.take k)).bind diffNow ≠ some [(1, 10)])) = true := by
    decide +kernel
  intro k h1 h2
  have h := List.all_eq_true.1 this k (by simp; omega)
  simp only [Bool.or_eq_true, decide_eq_true_eq] at h
  exact h.resolve_left (by omega)

end Verif.Conc
