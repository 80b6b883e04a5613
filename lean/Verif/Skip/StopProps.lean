import Verif.Skip.Stop
import Verif.Skip.Props

/-! Property C107 for tree/skiplist: calls during which the comparator panics. -/

namespace Verif.Skip

open Verif.Size (ord ord_lt ord_gt ord_eq)
open IndexTree (any_lawful)
open Out (Same same_if same_done)

variable {K V : Type} {cmp : K → K → Int}

/-! ### Specification -/

section
variable (o : K → K → Ordering)

/-- What the entries `xs` may have become when a call was ended by a panic of the comparator: nothing has
happened, but `RemoveRangeByIndex`, `Trim` and `TrimByIndex` may have removed some of those that they had to
remove. -/
def Left (xs : List (K × V)) : Op K V → List (K × V) → Prop
  | .removeRangeByIndex low high, ys => ys.Sublist xs ∧ (spec o xs (.removeRangeByIndex low high)).1.Sublist ys
  | .trim low high, ys => ys.Sublist xs ∧ (spec o xs (.trim low high)).1.Sublist ys
  | .trimByIndex low high, ys => ys.Sublist xs ∧ (spec o xs (.trimByIndex low high)).1.Sublist ys
  | _, ys => ys = xs

/-- A history of the ideal sorted map in which some calls, all of them allowed to, are ended by a panic. -/
inductive Course : List (K × V) → List (Op K V × Bads) → List (Option (Res K V)) → List (K × V) → Prop
  | nil (xs) : Course xs [] [] xs
  | returns {xs op b os rs zs} (h : Course (spec o xs op).1 os rs zs) :
      Course xs ((op, b) :: os) (some (spec o xs op).2 :: rs) zs
  | panics {xs ys op b os rs zs} (hb : b.some) (hl : Left o xs op ys) (h : Course ys os rs zs) :
      Course xs ((op, b) :: os) (none :: rs) zs

end

/-! ### Lemmas -/

section
variable {s : SL K V} {xs : List (K × V)}

theorem Sim.unique (hc : Lawful cmp) {ys : List (K × V)} (h : Sim cmp s xs) (h' : Sim cmp s ys) : xs = ys := by
  obtain ⟨_, e, -⟩ := step_ok hc h .slices trivial
  obtain ⟨_, e', -⟩ := step_ok hc h' .slices trivial
  rw [e] at e'
  simp only [Option.some.injEq, Prod.mk.injEq, spec, Res.list.injEq] at e'
  exact e'.2

theorem removeAllB_ok (hc : Lawful cmp) (bad : Bads) : ∀ (ks : List K) (j : Nat) (s : SL K V) (xs : List (K × V)),
    Sim cmp s xs → (∃ s' q, removeAllB cmp bad j ks s = .stopped s' ∧ bad.some ∧ Sim cmp s' (xs.filter q) ∧
        ∀ e, (ks.all fun k => ord cmp e.1 k != .eq) = true → q e = true) ∨
      removeAllB cmp bad j ks s = .of (removeAll cmp ks s)
  | [], _, _, _, _ => .inr rfl
  | k :: ks, j, s, xs, hs => by
    rw [removeAllB, removeAll]
    rcases same_remove (cmp := cmp) (s := s) (P := bad.some) (bad := bad j) (fun i b h => ⟨j, i, b, h⟩) k with
      ⟨h, hb⟩ | h
    · exact .inl ⟨s, fun _ => true, by rw [h]; rfl, hb, by simpa using hs, by simp⟩
    · obtain ⟨s1, e1, h1⟩ := remove_ok hc hs k
      rw [h, e1]
      simp only [Out.of, Out.bind, Option.bind_some]
      rcases removeAllB_ok hc bad ks (j + 1) s1 _ h1 with ⟨s', q, e, hb, h2, h3⟩ | e
      · rw [List.filter_filter] at h2
        refine .inl ⟨s', _, e, hb, h2, fun e he => ?_⟩
        simp only [List.all_cons, Bool.and_eq_true] at he
        simp only [Bool.and_eq_true]
        exact ⟨h3 e he.2, he.1⟩
      · exact .inr e

/-- What `removeAll` of these keys does, if it is what the call `op` does. -/
theorem removeAllB_left (hc : Lawful cmp) (hs : Sim cmp s xs) (bad : Bads) (j : Nat) (ks : List K)
    {zs : List (K × V)} (hz : ∀ s', removeAll cmp ks s = some s' → Sim cmp s' zs) :
    (∃ s' ys, removeAllB cmp bad j ks s = .stopped s' ∧ bad.some ∧ Sim cmp s' ys ∧ ys.Sublist xs ∧ zs.Sublist ys) ∨
      removeAllB cmp bad j ks s = .of (removeAll cmp ks s) := by
  rcases removeAllB_ok hc bad ks j s xs hs with ⟨s', q, e, hb, h2, h3⟩ | e
  · obtain ⟨s2, e2, h4⟩ := removeAll_ok hc ks s xs hs
    have := (hz s2 e2).unique hc h4
    refine .inl ⟨s', _, e, hb, h2, List.filter_sublist, ?_⟩
    rw [this]
    exact List.monotone_filter_right _ h3
  · exact .inr e

theorem removeLoopB_ok (hc : Lawful cmp) (bad : Bads) {L R : List Nat} {ht : Nat → Nat} :
    ∀ (M : List Nat) (j : Nat) (s : SL K V), Good cmp s (L ++ (M ++ R)) ht →
    (∃ s' M', removeLoopB cmp bad j M.length s (M ++ R).head? = .stopped s' ∧ bad.some ∧ M'.Sublist M ∧
        Good cmp s' (L ++ (M' ++ R)) ht ∧ ∀ a, s'.ent a = s.ent a) ∨
      removeLoopB cmp bad j M.length s (M ++ R).head? = .of (removeLoop cmp M.length s (M ++ R).head?)
  | [], _, _, _ => .inr rfl
  | c :: M, j, s, g => by
    obtain ⟨h1, h2⟩ := Good.go_at (R := M ++ R) hc g
    obtain ⟨s1, e, g1, he, -⟩ := takeOut_good (R := M ++ R) g
    have hn : (s.heap c).fwd[0]? = some (M ++ R).head? := by
      have hr := g.run0
      rw [← List.cons_append, run_append] at hr
      have := hr.2.1
      simpa using this
    have hd := Good.descend (R := c :: (M ++ R)) g h1 h2
    rw [List.cons_append, List.head?_cons, List.length_cons, removeLoop, removeLoopB, hn]
    simp only [Option.bind_some, Out.of, Out.bind]
    rcases same_descend (s := s) (P := bad.some) (bad := fun i b => b != c && bad j i b)
      (go := fun b => b != c && before cmp s.heap (s.heap c).key b)
      (by intro i b h; simp only [Bool.and_eq_true] at h; exact ⟨j, i, b, h.2⟩) s.free s.level s.header with
      ⟨h, hb⟩ | h
    · exact .inl ⟨s, c :: M, by rw [h], hb, .refl _, g, fun _ => rfl⟩
    · rw [h, hd]
      simp only [Option.bind_some, Out.of]
      rw [e]
      simp only [Option.bind_some]
      rcases removeLoopB_ok hc bad M (j + 1) s1 g1 with ⟨s', M', e', hb, hM, g', he'⟩ | e'
      · exact .inl ⟨s', M', e', hb, .cons _ hM, g', fun a => by rw [he', he]⟩
      · exact .inr e'

theorem removeRangeB_ok (hc : Lawful cmp) (hs : Sim cmp s xs) (bad : Bads) (low high : Int) :
    (∃ s' ys, doRemoveRangeByIndexB cmp bad s low high = .stopped s' ∧ bad.some ∧ Sim cmp s' ys ∧
        Left (ord cmp) xs (.removeRangeByIndex low high) ys) ∨
      doRemoveRangeByIndexB cmp bad s low high = .of (doRemoveRangeByIndex cmp s low high) := by
  have hs0 := hs
  obtain ⟨as, ht, g, rfl⟩ := hs
  have hsz := g.size
  have hall := removeRange_ok hc g low high
  rw [doRemoveRangeByIndex] at hall ⊢
  rw [doRemoveRangeByIndexB]
  simp only [hsz] at hall ⊢
  generalize hlo : (if low < 0 then (0 : Int) else low) = lo at hall ⊢
  generalize hhi : (if high ≥ (as.length : Int) then (as.length : Int) - 1 else high) = hi at hall ⊢
  have h1 : lo = max low 0 := by rw [← hlo]; split <;> omega
  have h2 : hi = min high (as.length - 1) := by rw [← hhi]; split <;> omega
  by_cases hlh : lo > hi
  · rw [if_pos hlh, if_pos hlh]; exact .inr rfl
  · rw [if_neg hlh] at hall
    rw [if_neg hlh, if_neg hlh]
    obtain ⟨L, T, hT, hL⟩ : ∃ L T, as = L ++ T ∧ (L.length : Int) = lo :=
      ⟨as.take lo.toNat, as.drop lo.toNat, by simp, by simp; omega⟩
    subst hT
    simp only [List.length_append] at h2
    push_cast at h2
    obtain ⟨M, R, hM, hMl⟩ : ∃ M R, T = M ++ R ∧ (M.length : Int) = hi - lo + 1 :=
      ⟨T.take (hi - lo + 1).toNat, T.drop (hi - lo + 1).toNat, by simp, by simp; omega⟩
    subst hM
    have hsk := g.skip
    rw [hsk.1] at hall ⊢
    simp only [Option.bind_some, Out.of, Out.bind] at hall ⊢
    rw [show lo.toNat = L.length by omega, hsk.2] at hall ⊢
    simp only [Option.bind_some] at hall ⊢
    rw [show (hi - lo + 1).toNat = M.length by omega] at hall ⊢
    obtain ⟨s2, e2, h2⟩ := hall
    obtain ⟨s3, e3, g3, he3⟩ := removeLoop_ok hc M s g
    rw [e2] at e3
    cases e3
    have hz := h2.unique hc ⟨_, ht, g3, rfl⟩
    rcases removeLoopB_ok hc bad M 0 s g with ⟨s', M', e', hb, hM, g', he'⟩ | e'
    · refine .inl ⟨s', _, e', hb, ⟨_, ht, g', rfl⟩, ?_, ?_⟩
      · rw [List.map_congr_left fun a _ => he' a]
        exact ((List.Sublist.refl L).append (hM.append (.refl R))).map _
      · simp only [spec]
        rw [hz, List.map_congr_left fun a _ => he' a, List.map_congr_left fun a _ => he3 a]
        exact ((List.Sublist.refl L).append (List.sublist_append_right M' R)).map _
    · exact .inr e'

theorem stepB_ok (hc : Lawful cmp) (hs : Sim cmp s xs) (bad : Bads) (op : Op K V) (hl : legal xs op) :
    (∃ s' ys, stepB cmp bad s op = .stopped s' ∧ bad.some ∧ Sim cmp s' ys ∧ Left (ord cmp) xs op ys) ∨
      stepB cmp bad s op = .of (step cmp s op) := by
  have key : op.single → ((∃ s' ys, stepB cmp bad s op = .stopped s' ∧ bad.some ∧ Sim cmp s' ys ∧ ys = xs) ∨
      stepB cmp bad s op = .of (step cmp s op)) := fun h => by
    rcases same_step cmp bad s op h with ⟨h, hb⟩ | h
    · exact .inl ⟨s, xs, h, hb, hs, rfl⟩
    · exact .inr h
  cases op with
  | removeRangeByIndex low high =>
    rw [stepB, step]
    rcases removeRangeB_ok hc hs bad low high with ⟨s', ys, e, h⟩ | e
    · exact .inl ⟨s', ys, by rw [e]; rfl, h⟩
    · exact .inr (by rw [e]; cases doRemoveRangeByIndex cmp s low high <;> rfl)
  | trim low high =>
    obtain ⟨as, ht, g, hx⟩ := id hs
    obtain ⟨s2, e2, h2⟩ := trim_ok hc g low high
    rw [← hx] at h2
    rw [stepB, step, g.nodes]
    simp only [Out.of, Out.bind, Option.bind_some]
    rcases same_outside (cmp := cmp) (s := s) (P := bad.some) (bad := bad 0) (fun i b h => ⟨0, i, b, h⟩)
      low high as with ⟨h, hb⟩ | h
    · refine .inl ⟨s, xs, by rw [h], hb, hs, .refl _, ?_⟩
      simp only [spec]
      exact List.filter_sublist
    · rw [h]
      simp only [Out.of]
      rcases removeAllB_left hc hs bad 1 _ (zs := (spec (ord cmp) xs (.trim low high)).1)
        (fun s' e => by rw [e2] at e; cases e; exact h2) with ⟨s', ys, e, h⟩ | e
      · exact .inl ⟨s', ys, by rw [e]; rfl, h⟩
      · exact .inr (by rw [e, e2]; rfl)
  | trimByIndex low high =>
    obtain ⟨as, ht, g, hx⟩ := id hs
    have hall := step_ok hc hs (.trimByIndex low high) hl
    rw [stepB]
    rw [step] at hall ⊢
    rw [doTrimByIndex, g.nodes] at hall ⊢
    rw [doTrimByIndexB, g.nodes]
    simp only [Out.of, Out.bind, Option.bind_some] at hall ⊢
    by_cases hlh : (if low < 0 then (0 : Int) else low) > if high ≥ s.size then s.size - 1 else high
    · rw [if_pos hlh, if_pos hlh]; exact .inr rfl
    · rw [if_neg hlh] at hall
      rw [if_neg hlh, if_neg hlh]
      obtain ⟨s2, e2, h2⟩ := hall
      obtain ⟨s3, e3, e4⟩ := Option.map_eq_some_iff.1 e2
      cases e4
      rcases removeAllB_left hc hs bad 0 _ (zs := (spec (ord cmp) xs (.trimByIndex low high)).1)
        (fun s' e => by rw [e3] at e; cases e; exact h2) with ⟨s', ys, e, h⟩ | e
      · exact .inl ⟨s', ys, by rw [e]; rfl, h⟩
      · exact .inr (by rw [e, e3]; rfl)
  | _ => exact key trivial

theorem runStop_course (hc : Lawful cmp) : ∀ (os : List (Op K V × Bads)), (∀ x ∈ os, x.1.plain) →
    ∀ (s : SL K V) (xs : List (K × V)), Sim cmp s xs →
      ∃ s' rs zs, runStop (stepB cmp) s os = some (s', rs) ∧ Course (ord cmp) xs os rs zs ∧ Sim cmp s' zs
  | [], _, s, xs, hs => ⟨s, [], xs, rfl, .nil xs, hs⟩
  | (op, b) :: os, ho, s, xs, hs => by
    have ho' : ∀ x ∈ os, x.1.plain := fun x hx => ho x (List.mem_cons_of_mem _ hx)
    have hl : legal xs op := plain_legal (ho _ List.mem_cons_self) xs
    rcases stepB_ok hc hs b op hl with ⟨s1, ys, e, hb, h1, h2⟩ | e
    · obtain ⟨s', rs, zs, e', hco, h'⟩ := runStop_course hc os ho' s1 ys h1
      exact ⟨s', none :: rs, zs, by simp only [runStop, e, e', Option.map_some], .panics hb h2 hco, h'⟩
    · obtain ⟨s1, e1, h1⟩ := step_ok hc hs op hl
      obtain ⟨s', rs, zs, e', hco, h'⟩ := runStop_course hc os ho' s1 _ h1
      exact ⟨s', _, zs, by simp only [runStop, e, e1, Out.of, e', Option.map_some], .returns hco, h'⟩

end

/-! ### C107 -/

/-- C107 for tree/skiplist with any comparison: a history with panics of the comparator is, down to the
nodes and links, that of the other calls. Missing from the full statement: the calls that remove more
than one entry, for which it is false, see `C107_removeRange_spoils` and `C107_trim_spoils`. -/
theorem C107_no_trace_partial (cmp : K → K → Int) (maxLevel : Int) (junk : K × V) (os : List (Op K V × Bads))
    (ho : ∀ x ∈ os, x.1.single) {s : SL K V} {rs : List (Option (Res K V))}
    (h : runStop (stepB cmp) (new maxLevel junk) os = some (s, rs)) :
    Justified Bads.some os rs ∧
      run (step cmp) (new maxLevel junk) (survived os rs) = some (s, rs.filterMap id) :=
  runStop_trace (P := Bads.some) (Q := fun x => x.1.single) (fun b s o hq => same_step cmp b s o hq) os ho _ _ _ h

/-- C107 for tree/skiplist with a lawful comparison, all calls but `TrimByIndex` (C58): whatever panics there
are, no call fails otherwise, all calls that return are answered as by the ideal sorted map, and a call ended by
a panic changes nothing, except that `RemoveRangeByIndex` and `Trim` may have removed a part of what
they had to remove. This exception is what is missing from the full statement. -/
theorem C107_skip_partial (hc : Lawful cmp) (maxLevel : Int) (junk : K × V) (os : List (Op K V × Bads))
    (ho : ∀ x ∈ os, x.1.plain) :
    ∃ s rs zs, runStop (stepB cmp) (new maxLevel junk) os = some (s, rs) ∧ Course (ord cmp) [] os rs zs ∧
      (step cmp s .slices).map (·.2) = some (.list zs) := by
  obtain ⟨s, rs, zs, h1, h2, h3⟩ := runStop_course hc os ho _ _ (new_ok maxLevel junk)
  obtain ⟨s', e, -⟩ := step_ok hc h3 .slices trivial
  exact ⟨s, rs, zs, h1, h2, by rw [e]; rfl⟩

/-- The comparator never panics. -/
def quiet : Bads := fun _ _ _ => false

/-- It always does. -/
def always : Bads := fun _ _ _ => true

/-- Four entries. -/
def four : List (Op Int Int × Bads) :=
  [(.put 1 10 [true], quiet), (.put 2 20 [], quiet), (.put 3 30 [true, true], quiet), (.put 4 40 [], quiet)]

/-- C107 fails for `Trim`: the call panicked when it was about to remove the second entry, but the first is gone. -/
theorem C107_trim_spoils :
    (runStop (stepB Compare.any) (new 4 ((0, 0) : Int × Int))
      (four ++ [(.trim 3 4, fun j _ _ => j == 2), (.size, quiet), (.slices, quiet)])).map (·.2) =
      some [some (.bool true), some (.bool true), some (.bool true), some (.bool true), none, some (.int 3),
        some (.list [(2, 20), (3, 30), (4, 40)])] := by
  decide +kernel

/-- C107 fails for `RemoveRangeByIndex`: the call panicked, but one of three entries is gone. -/
theorem C107_removeRange_spoils :
    (runStop (stepB Compare.any) (new 4 ((0, 0) : Int × Int))
      (four ++ [(.removeRangeByIndex 1 3, fun j _ _ => j == 1), (.size, quiet), (.slices, quiet)])).map (·.2) =
      some [some (.bool true), some (.bool true), some (.bool true), some (.bool true), none, some (.int 3),
        some (.list [(1, 10), (3, 30), (4, 40)])] := by
  decide +kernel

/-- A history with panics in all kinds of calls. -/
def stops : List (Op Int Int × Bads) :=
  four ++ [(.put 5 50 [true], always), (.get 3, always), (.putDup 3 33 [], fun _ i _ => i == inDo), (.get 3, quiet),
    (.remove 2, fun _ i _ => i == atEnd), (.removeHead, always), (.removeTail, always), (.removeIndex 2, always),
    (.indexOf 4, fun _ _ a => a == 4), (.indexOf 3, fun _ _ a => a == 4), (.trim 2 3, fun j _ _ => j == 2),
    (.slices, quiet)]

example : Lawful Compare.any ∧ (∀ x ∈ stops, x.1.plain) ∧
    (runStop (stepB Compare.any) (new 4 ((0, 0) : Int × Int)) stops).map (·.2) =
      some [some (.bool true), some (.bool true), some (.bool true), some (.bool true), none, none, none,
        some (.found (some 30)), none, none, none, none, none, some (.int 2), none,
        some (.list [(2, 20), (3, 30), (4, 40)])] := by
  refine ⟨any_lawful, by simp [stops, four, Op.plain], by decide +kernel⟩

example : (∀ x ∈ four ++ [(.put 5 50 [true], always), (.remove 3, quiet), (.removeTail, always)], x.1.single) ∧
    (runStop (stepB Compare.any) (new 4 ((0, 0) : Int × Int))
      (four ++ [(.put 5 50 [true], always), (.remove 3, quiet), (.removeTail, always)])).map (·.2) =
      some [some (.bool true), some (.bool true), some (.bool true), some (.bool true), none,
        some (.slice (some (3, 30))), none] := by
  refine ⟨by simp [four, Op.single], by decide +kernel⟩

end Verif.Skip
