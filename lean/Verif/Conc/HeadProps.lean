import Verif.Conc.Head

/-! Property C60, what holds: `RemoveHead` of a skip list shared by goroutines, in the code with few accesses
(`code`: those under a lock are one). -/

namespace Verif.Conc

open Verif.Skip (SL Op Res Iter IOp IRes new Good Holds)
open Verif.Size (ord)

variable {L K V : Type} [DecidableEq L] {cmp : K → K → Int}

/-- Call `n` is in the code of `RemoveHead`, before its `Remove`. -/
def Choosing (c : SConf L K V) (n : Nat) (l : L) : Prop := ∃ p held, c.pc n = .busy (.on l .removeHead) p held

/-- The list `l` is empty at a moment at which call `n` is in `RemoveHead`. -/
def EmptyOnce (cmp : K → K → Int) (c0 : SConf L K V) (xs : List (Choice (Call L K V))) (n : Nat) (l : L) : Prop :=
  ∃ c, Moment (code cmp) c0 xs c ∧ Choosing c n l ∧ Holds cmp (c.mem l) []

/-- `k` is the key of the first entry of the list `l` at a moment at which call `n` is in `RemoveHead`. -/
def HeadOnce (cmp : K → K → Int) (c0 : SConf L K V) (xs : List (Choice (Call L K V))) (n : Nat) (l : L) (k : K) : Prop :=
  ∃ c e es, Moment (code cmp) c0 xs c ∧ Choosing c n l ∧ Holds cmp (c.mem l) (e :: es) ∧ e.1 = k

/-- While call `n` is under way no other call that may remove entries of `l` is. -/
def AloneRemoving (cmp : K → K → Int) (c0 : SConf L K V) (xs : List (Choice (Call L K V))) (n : Nat) (l : L) : Prop :=
  ∀ c, Moment (code cmp) c0 xs c → (∃ o p held, c.pc n = .busy o p held) → ∀ m, m ≠ n → ∀ o p held,
    c.pc m = .busy o p held → o.removes l = false

/-- The lists before the first call. -/
abbrev fresh (maxLevel : L → Int) (junk : K × V) : SConf L K V := init fun l => new (maxLevel l) junk

theorem head_out (hc : Lawful cmp) (maxLevel : L → Int) (junk : K × V) (n : Nat) (l : L)
    (xs : List (Choice (Call L K V))) (hs : ∀ o, .start n o ∈ xs → o = .on l .removeHead) (c : SConf L K V)
    (h : sched (code cmp) (fresh maxLevel junk) xs = some c) (o : Call L K V) (r : Option (CRes K V))
    (hr : .ret n o r ∈ c.hist) :
    Out cmp l (EmptyOnce cmp (fresh maxLevel junk) xs n l) (AloneRemoving cmp (fresh maxLevel junk) xs n l)
      (HeadOnce cmp (fresh maxLevel junk) xs n l) o r :=
  (head_inv hc (fresh maxLevel junk) n l xs
    (fun l => by obtain ⟨as, ht, g, -⟩ := Skip.new_ok (cmp := cmp) (maxLevel l) junk; exact ⟨as, ht, g⟩)
    (fun _ => rfl) rfl hs (fun c hm p held hb he => ⟨c, hm, ⟨p, held, hb⟩, he⟩) (fun ha => ha)
    (fun c hm p held e es hb hh => ⟨c, e, es, hm, ⟨p, held, hb⟩, hh, rfl⟩) c ⟨xs, List.prefix_refl _, h⟩).hist o r hr

/-- C60, with any other calls at the same time: a `RemoveHead` (call `n`) does not panic unless the list is empty
at a moment at which the call is looking for the first entry, and ends as the `Remove` of a key that was the
smallest one at such a moment. Whether this `Remove` finds an entry is another matter: `C60_nothing`. -/
theorem C60_chooses_partial (hc : Lawful cmp) (maxLevel : L → Int) (junk : K × V) (n : Nat) (l : L)
    (xs : List (Choice (Call L K V))) (hs : ∀ o, .start n o ∈ xs → o = .on l .removeHead) (c : SConf L K V)
    (h : sched (code cmp) (fresh maxLevel junk) xs = some c)
    (hne : ∀ c, Moment (code cmp) (fresh maxLevel junk) xs c → Choosing c n l → ¬ Holds cmp (c.mem l) [])
    (o : Call L K V) (r : Option (CRes K V)) (hr : .ret n o r ∈ c.hist) :
    ∃ k x, o = .on l (.remove k) ∧ r = some (.res (.slice x)) ∧ HeadOnce cmp (fresh maxLevel junk) xs n l k := by
  have hnE : ¬ EmptyOnce cmp (fresh maxLevel junk) xs n l := fun ⟨c, hm, hch, he⟩ => hne c hm hch he
  rcases head_out hc maxLevel junk n l xs hs c h o r hr with ⟨-, hE, -⟩ | ⟨k, x, h1, h2, h3, -⟩
  · exact absurd hE hnE
  · exact ⟨k, x, h1, h2, h3.resolve_left hnE⟩

/-- C60, if no other call that may remove entries of the list is under way at the same time: a `RemoveHead` does
not panic; it returns nothing only if the list is empty at a moment during the call, and otherwise an entry
whose key was the smallest one at a moment during the call. Other calls, also `Put` of the same list, may run
at the same time. -/
theorem C60_alone_partial (hc : Lawful cmp) (maxLevel : L → Int) (junk : K × V) (n : Nat) (l : L)
    (xs : List (Choice (Call L K V))) (hs : ∀ o, .start n o ∈ xs → o = .on l .removeHead) (c : SConf L K V)
    (h : sched (code cmp) (fresh maxLevel junk) xs = some c)
    (ha : AloneRemoving cmp (fresh maxLevel junk) xs n l)
    (o : Call L K V) (r : Option (CRes K V)) (hr : .ret n o r ∈ c.hist) :
    r = some (.res (.slice none)) ∧ EmptyOnce cmp (fresh maxLevel junk) xs n l ∨
    ∃ e k, r = some (.res (.slice (some e))) ∧ ord cmp e.1 k = .eq ∧ HeadOnce cmp (fresh maxLevel junk) xs n l k := by
  rcases head_out hc maxLevel junk n l xs hs c h o r hr with ⟨-, hE, h1⟩ | ⟨k, x, -, h2, -, h4⟩
  · rcases h1 with h1 | ⟨-, h1⟩
    · exact .inl ⟨h1, hE⟩
    · exact absurd ha h1
  · obtain ⟨h5, e, rfl, h6⟩ := h4 ha
    exact .inr ⟨e, k, h2, h6, h5⟩

/-- The tail calls of calls that do not remove do not remove either. -/
theorem code_keeps (l : L) (o : Call L K V) (ho : o.removes l = false) :
    Tails (fun o' : Call L K V => o'.removes l = false) (code cmp o) := by
  have hw : ∀ (l' : L) (f : SL K V → Option (SL K V × CRes K V)),
      Tails (fun o' : Call L K V => o'.removes l = false) (whole l' f) := by
    intro l' f s
    simp only
    split <;> trivial
  have hd : ∀ (b : L) (coins : Nat → List Bool) (junk : K × V) (es kept : List (K × V)),
      Tails (fun o' : Call L K V => o'.removes l = false) (diffLoop cmp b coins junk es kept) := by
    intro b coins junk es
    induction es with
    | nil =>
      intro kept
      rw [diffLoop]
      split <;> trivial
    | cons e es ih =>
      intro kept
      rw [diffLoop]
      intro t
      simp only
      split
      · exact ih _
      · exact ih _
      · trivial
  cases o with
  | on l' op =>
    cases op <;> first | exact hw _ _ | skip
    have hl : l' ≠ l := by
      rintro rfl
      simp [Call.removes, Op.removes] at ho
    intro s
    simp only
    split
    · trivial
    · intro s s'
      simp only
      split
      · intro s
        simp [Tails, Call.removes, hl]
      · trivial
  | inter a b coins junk =>
    intro s t
    simp only
    split <;> trivial
  | union a b coins junk =>
    intro s t
    simp only
    split <;> trivial
  | diff a b coins junk =>
    intro s
    simp only
    split
    · trivial
    · exact hd _ _ _ _ _
  | iter l' it op =>
    simp only [code]
    split
    · intro s
      simp only
      split <;> trivial
    · intro s
      simp only
      split <;> trivial

/-- It is enough that no other call that is started may remove entries of the list. -/
theorem aloneRemoving (maxLevel : L → Int) (junk : K × V) (n : Nat) (l : L) (xs : List (Choice (Call L K V)))
    (h : ∀ m o, m ≠ n → .start m o ∈ xs → o.removes l = false) : AloneRemoving cmp (fresh maxLevel junk) xs n l := by
  suffices H : ∀ ys, ys <+: xs → ∀ c : SConf L K V, sched (code cmp) (fresh maxLevel junk) ys = some c → ∀ m, m ≠ n →
      ∀ o p held, c.pc m = .busy o p held → o.removes l = false ∧
        Tails (fun o' : Call L K V => o'.removes l = false) p by
    rintro c ⟨ys, hp, hc⟩ - m hm o p held hb
    exact (H ys hp c hc m hm o p held hb).1
  intro ys
  induction ys using List.reverseRecOn with
  | nil =>
    intro _ c hc m _ o p held hb
    cases hc
    cases hb
  | append_singleton ys x ih =>
    intro hp c hc m hm o p held hb
    have ih := ih ((List.prefix_append ys [x]).trans hp)
    have hxm : x ∈ xs := hp.subset (by simp)
    rw [sched_append] at hc
    cases hy : sched (code cmp) (fresh maxLevel junk) ys with
    | none => rw [hy] at hc; cases hc
    | some c1 =>
      rw [hy] at hc
      simp only [Option.bind_some, sched] at hc
      cases hn : next (code cmp) c1 x with
      | none => rw [hn] at hc; cases hc
      | some c2 =>
        rw [hn] at hc
        cases hc
        have ih := ih c1 hy
        cases x with
        | start i o' =>
          simp only [next] at hn
          split at hn
          · cases hn
            by_cases hi : m = i
            · subst hi
              simp only [upd_same] at hb
              cases hb
              have := h m _ hm hxm
              exact ⟨this, code_keeps l _ this⟩
            · simp only [upd_ne _ _ hi] at hb
              exact ih m hm o p held hb
          · cases hn
        | go i =>
          obtain ⟨q, hq, hst⟩ := next_pstep hn
          rw [hq] at hb
          by_cases hi : m = i
          · subst hi
            rw [upd_same] at hb
            subst hb
            generalize hpc : c1.pc m = q at hst
            cases hst with
            | lock => exact ⟨(ih m hm _ _ _ hpc).1, (ih m hm _ _ _ hpc).2⟩
            | acc o l' f k held s => exact ⟨(ih m hm _ _ _ hpc).1, (ih m hm _ _ _ hpc).2 s⟩
            | tail =>
              have := (ih m hm _ _ _ hpc).2
              exact ⟨this, code_keeps l _ this⟩
          · rw [upd_ne _ _ hi] at hb
            exact ih m hm o p held hb

/-- A `RemoveHead` (call 2), and a `Put` of a smaller key (call 3) in the middle of it. -/
def headRace : List (Choice (Call Nat Int Int)) :=
  alone 0 0 (.put 2 20 []) ++ alone 1 0 (.put 3 30 []) ++ [.start 2 (.on 0 .removeHead), .go 2, .go 2, .go 2] ++
    alone 3 0 (.put 1 10 []) ++ steps 2 7

example : (sched (code Compare.any) start headRace).map results =
    some [(0, some (.bool true)), (1, some (.bool true)), (3, some (.bool true)), (2, some (.slice (some (2, 20))))] := by
  decide +kernel

example : ∀ o, .start 2 o ∈ headRace → o = .on 0 .removeHead := by
  intro o h
  simp [headRace, alone, steps] at h
  exact h

/-- Every moment of a schedule satisfies `P`. -/
def always (P : SConf Nat Int Int → Bool) : SConf Nat Int Int → List (Choice (Call Nat Int Int)) → Bool
  | c, [] => P c
  | c, x :: xs => P c && (match next (code Compare.any) c x with
    | some c' => always P c' xs
    | none => true)

theorem always_moment {P : SConf Nat Int Int → Bool} : ∀ {xs : List (Choice (Call Nat Int Int))}
    {c0 : SConf Nat Int Int}, always P c0 xs = true → ∀ c, Moment (code Compare.any) c0 xs c → P c = true
  | [], c0, h, c, ⟨ys, hp, hy⟩ => by
    rw [List.prefix_nil.1 hp] at hy
    cases hy; exact h
  | x :: xs, c0, h, c, ⟨ys, hp, hy⟩ => by
    simp only [always, Bool.and_eq_true] at h
    cases ys with
    | nil => cases hy; exact h.1
    | cons y ys =>
      obtain ⟨rfl, hp'⟩ := List.cons_prefix_cons.1 hp
      simp only [sched] at hy
      cases hn : next (code Compare.any) c0 y with
      | none => rw [hn] at hy; cases hy
      | some c1 =>
        rw [hn] at hy
        have h2 := h.2
        rw [hn] at h2
        exact always_moment h2 c ⟨ys, hp', hy⟩

/-- The hypotheses of `C60_chooses_partial` and of `C60_alone_partial` are met. -/
example : ∀ c, Moment (code Compare.any) (fresh (fun _ => 16) (0, 0)) headRace c → Choosing c 2 0 →
    ¬ Holds Compare.any (c.mem 0) [] := by
  intro c hm ⟨p, held, hb⟩ hh
  have := always_moment (P := fun c => match c.pc 2 with
    | .busy _ _ _ => decide ((c.mem 0).nodes ≠ some [])
    | _ => true) (by decide +kernel) c hm
  rw [hb] at this
  refine of_decide_eq_true this ?_
  cases hn : (c.mem 0).nodes with
  | none => simp [Holds, Skip.step, hn] at hh
  | some as =>
    simp only [Holds, Skip.step, hn, Option.map_some, Option.some.injEq, Prod.mk.injEq, true_and, Res.list.injEq,
      List.map_eq_nil_iff] at hh
    rw [hh]

example : AloneRemoving Compare.any (fresh (fun _ => 16) (0, 0)) headRace 2 0 := by
  refine aloneRemoving _ _ _ _ _ fun m o hm h => ?_
  simp [headRace, alone, steps] at h
  rcases h with ⟨rfl, rfl⟩ | ⟨rfl, rfl⟩ | ⟨rfl, rfl⟩ | ⟨rfl, rfl⟩
  · rfl
  · rfl
  · exact absurd rfl hm
  · rfl

end Verif.Conc
