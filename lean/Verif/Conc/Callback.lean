import Verif.Conc.Props

/-! C86: callbacks of `Traverse` and `PutDuplicate` that call the skip list they are called from. -/

namespace Verif.Conc

open Verif.Skip (SL Op Res)

variable {L K V : Type} [DecidableEq L]

/-- What a callback does with an entry: it goes on, it stops the traversal, or it calls a method of the list. -/
inductive Cb (K V : Type) : Type
  | more
  | stop
  | call (op : Op K V)

/-- The calls: those of `Call`, and those with a callback. -/
inductive CbCall (L K V : Type) : Type
  | plain (o : Call L K V)
  | traverse (a : L) (cb : K × V → Cb K V)
  | putDup (a : L) (k : K) (v : V) (coins : List Bool) (cb : K × V → Cb K V)

abbrev CbCode (L K V : Type) := Prog L (SL K V) (CbCall L K V) (CRes K V)

/-- The code of a call without callback. -/
def lift : Code L K V → CbCode L K V
  | .ret r => .ret r
  | .panic => .panic
  | .lock l k => .lock l (lift k)
  | .acc l f k => .acc l f fun s => lift (k s)
  | .tail o => .tail (.plain o)

section
variable (cmp : K → K → Int)

/-- skiplist.go:264-270, the loop of `Traverse`; `seen` are the entries before. The code after the return of a
call made by the callback is left out: no such call returns (`C86_traverse`). -/
def visit (a : L) (cb : K × V → Cb K V) : List (K × V) → List (K × V) → CbCode L K V
  | seen, [] => .ret (.res (.list seen))
  | seen, e :: es =>
    match cb e with
    | .more => visit a cb (seen ++ [e]) es
    | .stop => .ret (.res (.list (seen ++ [e])))
    | .call op => lift (code cmp (.on a op))

/-- The code. 260-271 `Traverse`. 505-555 `PutDuplicate`: the search and the new entry are one access; the
callback is called with the entry found, before its value is replaced. -/
def cbCode : CbCall L K V → CbCode L K V
  | .plain o => lift (code cmp o)
  | .traverse a cb => .lock a (.acc a id fun s =>
      match s.nodes with
      | none => .panic
      | some as => visit cmp a cb [] (as.map s.ent))
  | .putDup a k v coins cb => .lock a (.acc a id fun s =>
      match Skip.putWith cmp s k v coins with
      | none => .panic
      | some (_, b, some e) =>
        match cb e with
        | .call op => lift (code cmp (.on a op))
        | _ => .acc a (fun s => ((Skip.putWith cmp s k v coins).map (·.1)).getD s) fun _ =>
            .ret (.res (.dup b (some e)))
      | some (_, b, none) =>
        .acc a (fun s => ((Skip.putWith cmp s k v coins).map (·.1)).getD s) fun _ => .ret (.res (.dup b none)))

end

variable {cmp : K → K → Int}

/-! ### A call that waits for its own lock -/

section
variable {σ O ρ : Type}

/-- Call `n` has the lock `a` and waits for it. -/
structure Own (c : Conf L σ O ρ) (n : Nat) (a : L) : Prop where
  waits : ∃ o k held, c.pc n = .busy o (.lock a k) held
  own : c.owner a = some n
  other : ∀ i, i ≠ n → a ∉ heldOf (c.pc i)

theorem Own.next {c c' : Conf L σ O ρ} {n : Nat} {a : L} {body : O → Prog L σ O ρ} (h : Own c n a) {x : Choice O}
    (hx : next body c x = some c') : Own c' n a := by
  obtain ⟨o1, k1, held1, e1⟩ := h.waits
  have key : ∀ i (q : PC L σ O ρ), i ≠ n → c'.pc = upd c.pc i q → a ∉ heldOf q → c'.owner a = some n →
      Own c' n a := by
    intro i q hn hp hq ha
    refine ⟨⟨o1, k1, held1, ?_⟩, ha, fun j h1 => ?_⟩
    · rw [hp, upd_ne _ _ (Ne.symm hn)]; exact e1
    · by_cases e : j = i
      · subst e; rw [hp, upd_same]; exact hq
      · rw [hp, upd_ne _ _ e]; exact h.other j h1
  cases x with
  | start i o =>
    simp only [Conc.next] at hx
    cases hp : c.pc i with
    | idle =>
      rw [hp] at hx
      cases hx
      exact key i _ (by rintro rfl; rw [e1] at hp; cases hp) rfl (by simp [heldOf]) h.own
    | _ => rw [hp] at hx; cases hx
  | go i =>
    have hin : i ≠ n := by
      rintro rfl
      simp only [Conc.next, e1, h.own] at hx
      cases hx
    have ho := h.other i hin
    simp only [Conc.next] at hx
    cases hp : c.pc i with
    | idle => rw [hp] at hx; cases hx
    | gone => rw [hp] at hx; cases hx
    | busy o p held =>
      rw [hp] at hx ho
      cases p with
      | ret r => cases hx; exact key i _ hin rfl ho h.own
      | panic => cases hx; exact key i _ hin rfl ho h.own
      | acc l f k => cases hx; exact key i _ hin rfl ho h.own
      | tail o' => cases hx; exact key i _ hin rfl ho h.own
      | lock l k =>
        simp only at hx
        cases hol : c.owner l with
        | some j => rw [hol] at hx; cases hx
        | none =>
          rw [hol] at hx
          cases hx
          have hal : a ≠ l := by rintro rfl; rw [h.own] at hol; cases hol
          refine key i _ hin rfl ?_ ?_
          · simp only [heldOf, List.mem_cons, not_or]
            exact ⟨hal, ho⟩
          · simp only [upd_ne _ _ hal]; exact h.own
    | leaving o r held =>
      rw [hp] at hx ho
      cases held with
      | nil => cases hx; exact key i _ hin rfl ho h.own
      | cons l held =>
        cases hx
        simp only [heldOf, List.mem_cons, not_or] at ho
        refine key i _ hin rfl ho.2 ?_
        simp only [upd_ne _ _ ho.1]; exact h.own

/-- Call `j` has been started, and waits for the lock `a` as its first step. -/
def Front (c : Conf L σ O ρ) (j : Nat) (a : L) : Prop := ∃ o k, c.pc j = .busy o (.lock a k) []

theorem Front.next {c c' : Conf L σ O ρ} {n j : Nat} {a : L} {body : O → Prog L σ O ρ} (h : Own c n a)
    (hj : Front c j a) {x : Choice O} (hx : next body c x = some c') : Front c' j a := by
  obtain ⟨o1, k1, e1⟩ := hj
  cases x with
  | start i o =>
    have hij : j ≠ i := by
      rintro rfl
      simp only [Conc.next, e1] at hx
      cases hx
    simp only [Conc.next] at hx
    cases hp : c.pc i with
    | idle => rw [hp] at hx; cases hx; exact ⟨o1, k1, by simp only [upd_ne _ _ hij, e1]⟩
    | _ => rw [hp] at hx; cases hx
  | go i =>
    have hij : j ≠ i := by
      rintro rfl
      simp only [Conc.next, e1, h.own] at hx
      cases hx
    obtain ⟨q, hq, -⟩ := next_pstep hx
    exact ⟨o1, k1, by rw [hq, upd_ne _ _ hij, e1]⟩

/-- The call that waits for itself never goes on, nor does any later call that first takes the same lock. -/
theorem Own.sched {n : Nat} {a : L} {body : O → Prog L σ O ρ} (xs : List (Choice O)) :
    ∀ {c c' : Conf L σ O ρ}, Own c n a → sched body c xs = some c' →
    Own c' n a ∧ (∀ j, Front c j a → Front c' j a) ∧
      ∀ j o k, .start j o ∈ xs → body o = .lock a k → Front c' j a := by
  induction xs with
  | nil => intro c c' h e; cases e; exact ⟨h, fun j hj => hj, fun j o k hj => by simp at hj⟩
  | cons x xs ih =>
    intro c c' h e
    simp only [Conc.sched] at e
    cases hn : Conc.next body c x with
    | none => rw [hn] at e; cases e
    | some c1 =>
      rw [hn] at e
      obtain ⟨h1, h2, h3⟩ := ih (h.next hn) e
      refine ⟨h1, fun j hj => h2 j (hj.next h hn), fun j o k hj hb => ?_⟩
      rcases List.mem_cons.1 hj with rfl | hj
      · refine h2 j ?_
        simp only [Conc.next] at hn
        cases hp : c.pc j with
        | idle => rw [hp] at hn; cases hn; exact ⟨o, k, by simp only [upd_same, hb]⟩
        | _ => rw [hp] at hn; cases hn
      · exact h3 j o k hj hb

end

/-! ### Theorems -/

theorem on_lock (a : L) {op : Op K V} (ho : locks (.on a op : Call L K V) = true) :
    ∃ k, lift (code cmp (.on a op)) = (.lock a k : CbCode L K V) := by
  cases op <;> first | exact ⟨_, rfl⟩ | cases ho

/-- The calls on list `a` block: call `n` does not return, nor does any call on the list that is made later (but
`RemoveHead` may: it reads without a lock), whatever else happens. -/
def Blocked (cmp : K → K → Int) (c : Conf L (SL K V) (CbCall L K V) (CRes K V)) (n : Nat) (a : L) : Prop :=
  ∀ xs c', sched (cbCode cmp) c xs = some c' → Unfinished c' n ∧
    ∀ j op, op ≠ .removeHead → .start j (.plain (.on a op)) ∈ xs → Unfinished c' j

theorem Own.blocked {c : Conf L (SL K V) (CbCall L K V) (CRes K V)} {n : Nat} {a : L} (h : Own c n a) :
    Blocked cmp c n a := by
  intro xs c' e
  obtain ⟨h1, -, h3⟩ := h.sched xs e
  obtain ⟨o, k, held, e1⟩ := h1.waits
  refine ⟨⟨by rw [e1]; simp, by rw [e1]; simp⟩, fun j op ho hj => ?_⟩
  have hl : locks (.on a op : Call L K V) = true := by cases op <;> first | rfl | exact absurd rfl ho
  obtain ⟨k, hk⟩ := on_lock (cmp := cmp) a hl
  obtain ⟨o', k', e2⟩ := h3 j _ k hj hk
  exact ⟨by rw [e2]; simp, by rw [e2]; simp⟩

theorem visit_call (a : L) (cb : K × V → Cb K V) (e : K × V) (es : List (K × V)) (op : Op K V)
    (he : cb e = .call op) (pre : List (K × V)) : (∀ x ∈ pre, cb x = .more) → ∀ seen,
    visit cmp a cb seen (pre ++ e :: es) = lift (code cmp (.on a op)) := by
  induction pre with
  | nil => intro _ seen; simp only [List.nil_append, visit, he]
  | cons x pre ih =>
    intro h seen
    simp only [List.cons_append, visit, h x (by simp)]
    exact ih (fun y hy => h y (by simp [hy])) _

theorem own_start (m : L → SL K V) (n : Nat) (a : L) (o : CbCall L K V) (f : SL K V → CbCode L K V)
    (hb : cbCode cmp o = .lock a (.acc a id f)) (k : CbCode L K V) (hk : f (m a) = .lock a k) :
    ∃ c, sched (cbCode cmp) (init m) [.start n o, .go n, .go n] = some c ∧ Own c n a := by
  refine ⟨{ mem := upd m a (m a), owner := upd (fun _ => none) a (some n),
            pc := upd (upd (upd (fun _ => .idle) n (.busy o (.lock a (.acc a id f)) [])) n
              (.busy o (.acc a id f) [a])) n (.busy o (.lock a k) [a]),
            hist := [.inv n o] }, ?_, ?_⟩
  · simp only [sched, next, init, Option.bind_some, upd_same, hb, id, hk, List.nil_append]
  · refine ⟨⟨o, k, [a], upd_same _ _ _⟩, (by simp [upd]), fun i hi => ?_⟩
    simp only [upd_ne _ _ hi, heldOf, List.not_mem_nil, not_false_eq_true]

/-- C86 fails: if the callback of `Traverse` calls a method of the list (other than `RemoveHead`) at an entry
that it gets, neither this `Traverse` nor any later call on the list returns. -/
theorem C86_traverse (m : L → SL K V) (n : Nat) (a : L) (cb : K × V → Cb K V) (as : List Nat)
    (hm : (m a).nodes = some as) (pre es : List (K × V)) (e : K × V) (op : Op K V)
    (has : as.map (m a).ent = pre ++ e :: es) (hpre : ∀ x ∈ pre, cb x = .more) (he : cb e = .call op)
    (hop : op ≠ .removeHead) :
    ∃ c, sched (cbCode cmp) (init m) [.start n (.traverse a cb), .go n, .go n] = some c ∧ Blocked cmp c n a := by
  have hl : locks (.on a op : Call L K V) = true := by cases op <;> first | rfl | exact absurd rfl hop
  obtain ⟨k, hk⟩ := on_lock (cmp := cmp) a hl
  obtain ⟨c, h1, h2⟩ := own_start (cmp := cmp) m n a (.traverse a cb) _ rfl k
    (by simp only [hm, has]; rw [visit_call a cb e es op he pre hpre, hk])
  exact ⟨c, h1, h2.blocked⟩

/-- C86 fails: the same for the callback of `PutDuplicate` with a key that is in the list. -/
theorem C86_putDuplicate (m : L → SL K V) (n : Nat) (a : L) (cb : K × V → Cb K V) (k : K) (v : V)
    (coins : List Bool) (s' : SL K V) (b : Bool) (e : K × V) (op : Op K V)
    (hm : Skip.step cmp (m a) (.putDup k v coins) = some (s', .dup b (some e))) (he : cb e = .call op)
    (hop : op ≠ .removeHead) :
    ∃ c, sched (cbCode cmp) (init m) [.start n (.putDup a k v coins cb), .go n, .go n] = some c ∧
      Blocked cmp c n a := by
  have hl : locks (.on a op : Call L K V) = true := by cases op <;> first | rfl | exact absurd rfl hop
  obtain ⟨k', hk⟩ := on_lock (cmp := cmp) a hl
  have hw : ∃ s'', Skip.putWith cmp (m a) k v coins = some (s'', b, some e) := by
    simp only [Skip.step] at hm
    cases hp : Skip.putWith cmp (m a) k v coins with
    | none => rw [hp] at hm; cases hm
    | some p =>
      rw [hp] at hm
      obtain ⟨s'', b', e'⟩ := p
      simp only [Option.map_some, Option.some.injEq, Prod.mk.injEq, Res.dup.injEq] at hm
      obtain ⟨-, rfl, rfl⟩ := hm
      exact ⟨s'', rfl⟩
  obtain ⟨s'', hw⟩ := hw
  obtain ⟨c, h1, h2⟩ := own_start (cmp := cmp) m n a (.putDup a k v coins cb) _ rfl k'
    (by simp only [hw, he]; rw [hk])
  exact ⟨c, h1, h2.blocked⟩

theorem visit_quiet (a : L) (cb : K × V → Cb K V) (m : L → SL K V) (es : List (K × V)) :
    (∀ x ∈ es, ∀ op, cb x ≠ .call op) → ∀ seen, exec (visit cmp a cb seen es) m = some (m, .res (.list (seen ++
      es.take ((es.takeWhile fun x => match cb x with | .more => true | _ => false).length + 1)))) := by
  induction es with
  | nil => intro _ seen; simp [visit, exec]
  | cons e es ih =>
    intro h seen
    have h' := ih fun x hx => h x (by simp [hx])
    cases hc : cb e with
    | more => simp only [visit, hc]; rw [h']; simp [hc]
    | stop => simp [visit, hc, exec]
    | call op => exact absurd hc (h e (by simp) op)

theorem visit_locked (a : L) (cb : K × V → Cb K V) (hcb : ∀ x op, cb x ≠ .call op) (es : List (K × V)) :
    ∀ seen, Locked [a] (visit cmp a cb seen es) := by
  induction es with
  | nil => intro seen; trivial
  | cons e es ih =>
    intro seen
    cases hc : cb e with
    | more => simp only [visit, hc]; exact ih _
    | stop => simp only [visit, hc]; trivial
    | call op => exact absurd hc (hcb e op)

/-- C86, what holds: run alone with callbacks that do not call the list, `Traverse` and `PutDuplicate` do what
the sequential list does, and lock only their list. Missing: callbacks that call the list, for which it is
false. -/
theorem C86_quiet_partial (m : L → SL K V) (a : L) (cb : K × V → Cb K V) (hcb : ∀ x op, cb x ≠ .call op) :
    (Locked [] (cbCode cmp (.traverse a cb)) ∧
      exec (cbCode cmp (.traverse a cb)) m = (Skip.step cmp (m a) (.traverse fun x => match cb x with
        | .more => true
        | _ => false)).map fun p => (upd m a p.1, .res p.2)) ∧
    ∀ k v coins, Locked [] (cbCode cmp (.putDup a k v coins cb)) ∧
      exec (cbCode cmp (.putDup a k v coins cb)) m =
        (Skip.step cmp (m a) (.putDup k v coins)).map fun p => (upd m a p.1, .res p.2) := by
  refine ⟨⟨⟨by simp, fun s => ?_⟩, ?_⟩, fun k v coins => ⟨⟨by simp, fun s => ?_⟩, ?_⟩⟩
  · simp only
    split
    · trivial
    · exact visit_locked a cb hcb _ _
  · simp only [cbCode, exec, id, upd_id, Skip.step]
    cases (m a).nodes with
    | none => rfl
    | some as =>
      simp only [Option.map_some]
      rw [visit_quiet a cb m _ fun x _ => hcb x]
      simp [upd_id]
  · simp only
    split
    · trivial
    · split
      · rename_i h; exact absurd h (hcb _ _)
      · exact ⟨by simp, fun _ => trivial⟩
    · exact ⟨by simp, fun _ => trivial⟩
  · simp only [cbCode, exec, id, upd_id, Skip.step]
    cases hp : Skip.putWith cmp (m a) k v coins with
    | none => rfl
    | some p =>
      obtain ⟨s', b, e⟩ := p
      cases e with
      | none => simp [exec, hp]
      | some e =>
        cases hc : cb e with
        | call op => exact absurd hc (hcb e op)
        | more => simp [exec, hp, hc]
        | stop => simp [exec, hp, hc]

/-- A list with one entry, and a callback that asks for the size. -/
example : ∃ (s : SL Int Int) (as : List Nat), s.nodes = some as ∧ as.map s.ent = [] ++ (1, 10) :: [] ∧
    (fun _ => .call .size : Int × Int → Cb Int Int) (1, 10) = .call .size := by
  refine ⟨(((Skip.step Compare.any (Skip.new Skip.MaxLevel (0, 0)) (.put 1 10 [])).map (·.1)).getD
    (Skip.new Skip.MaxLevel (0, 0))), _, rfl, ?_, rfl⟩
  decide +kernel


end Verif.Conc
