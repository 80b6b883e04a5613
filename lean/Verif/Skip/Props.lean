import Verif.Skip.Iter
import Verif.Skip.Sets
import Verif.Tree.IndexProps

/-! Properties C55 to C58: the skip list, one goroutine. -/

namespace Verif.Skip

open Verif.Size (ord ord_lt ord_gt ord_eq at?)
open IndexTree (any_lawful)

variable {K V : Type} {cmp : K → K → Int}

/-! ### C55 -/

/-- All calls but `TrimByIndex`, whose specification it does not always meet (C58). -/
def Op.plain : Op K V → Prop
  | .trimByIndex _ _ => False
  | _ => True

theorem plain_legal {op : Op K V} (h : op.plain) (xs : List (K × V)) : legal xs op := by
  cases op <;> trivial

/-- C55: for every maximum level, every history and all random numbers drawn in its course the skip list
answers as the ideal sorted map and never panics. -/
theorem C55_sorted_map (hc : Lawful cmp) (maxLevel : Int) (junk : K × V) (os : List (Op K V))
    (ho : ∀ o ∈ os, o.plain) :
    ∃ s, run (step cmp) (new maxLevel junk) os = some (s, (runSpec (spec (ord cmp)) [] os).2) := by
  obtain ⟨s, h, -⟩ := run_refines_on (step := step cmp) (spec := spec (ord cmp)) (Sim cmp) Op.plain
    (fun s xs op hp hs => step_ok hc hs op (plain_legal hp xs)) os ho _ _ (new_ok maxLevel junk)
  exact ⟨s, h⟩

/-- C55: the random numbers do not matter: histories that differ only in them have the same results. -/
theorem C55_levels_unobservable (hc : Lawful cmp) (m m' : Int) (junk junk' : K × V) (os os' : List (Op K V))
    (ho : ∀ o ∈ os, o.plain) (ho' : ∀ o ∈ os', o.plain)
    (hsame : runSpec (spec (ord cmp)) [] os = runSpec (spec (ord cmp)) [] os') :
    (run (step cmp) (new m junk) os).map (·.2) = (run (step cmp) (new m' junk') os').map (·.2) := by
  obtain ⟨s, h⟩ := C55_sorted_map hc m junk os ho
  obtain ⟨s', h'⟩ := C55_sorted_map hc m' junk' os' ho'
  rw [h, h', hsame]
  rfl

/-- A history for the examples. -/
def demo : List (Op Int Int) :=
  [.put 3 30 [true, true], .put 1 10 [], .put 5 50 [true], .put 3 31 [true], .putDup 1 11 [], .get 3, .get 4,
    .indexOf 5, .index 1, .index 3, .put 4 40 [true, true, true, true], .remove 3, .remove 3, .removeHead, .tail,
    .removeTail, .size, .put 9 90 [], .put 8 80 [true], .removeIndex 1, .slices, .clear, .head, .removeHead]

example : Lawful Compare.any ∧ ∀ o ∈ demo, o.plain := by
  refine ⟨any_lawful, ?_⟩
  simp [demo, Op.plain]

example : (run (step Compare.any) (new 4 ((0, 0) : Int × Int)) demo).map (·.2) =
    some [.bool true, .bool true, .bool true, .bool false, .dup false (some (1, 10)), .found (some 31), .found none,
      .int 2, .slice (some (3, 31)), .slice none, .bool true, .slice (some (3, 31)), .slice none,
      .slice (some (1, 11)), .slice (some (5, 50)), .slice (some (5, 50)), .int 1, .bool true, .bool true,
      .slice (some (8, 80)), .list [(4, 40), (9, 90)], .unit, .slice none, .slice none] := by decide +kernel

/-! ### C56 -/

theorem step_any (hc : Lawful cmp) {s : SL K V} {xs : List (K × V)} (hs : Sim cmp s xs) (op : Op K V) :
    ∃ s' r ys, step cmp s op = some (s', r) ∧ Sim cmp s' ys := by
  by_cases hl : legal xs op
  · obtain ⟨s', e, h⟩ := step_ok hc hs op hl
    exact ⟨s', _, _, e, h⟩
  · cases op <;> try exact absurd trivial hl
    rename_i low high
    refine ⟨s, .unit, xs, ?_, hs⟩
    have hk : ¬ Keeps xs low high := hl
    obtain ⟨as, ht, g, rfl⟩ := hs
    have hsz := g.size
    rw [step, doTrimByIndex]
    simp only [hsz]
    rw [if_pos]
    · rfl
    · by_contra hc
      refine hk (.inr ⟨(max low 0).toNat, ?_, ?_, ?_⟩) <;>
        ((try simp only [List.length_map]); split at hc <;> split at hc <;> omega)

/-- Every history comes to an end, in a good state. -/
theorem run_any (hc : Lawful cmp) (os : List (Op K V)) : ∀ {s : SL K V} {xs : List (K × V)}, Sim cmp s xs →
    ∃ s' rs ys, run (step cmp) s os = some (s', rs) ∧ Sim cmp s' ys := by
  induction os with
  | nil => intro s xs h; exact ⟨s, [], xs, rfl, h⟩
  | cons o os ih =>
    intro s xs h
    obtain ⟨s1, r1, ys1, e1, h1⟩ := step_any hc h o
    obtain ⟨s2, r2, ys2, e2, h2⟩ := ih h1
    exact ⟨s2, r1 :: r2, ys2, by simp [run, e1, e2], h2⟩

/-- The chains are consistent: `c i` are the nodes that the pointers of level `i` lead along from the header
to nil. -/
def Consistent (cmp : K → K → Int) (s : SL K V) (c : Nat → List Nat) : Prop :=
  (∀ i, i < MaxLevel → Run s.heap i (s.header :: c i) none) ∧
  (∀ i, (c (i + 1)).Sublist (c i)) ∧
  (∀ i, (c i).Pairwise fun a b => cmp (s.heap a).key (s.heap b).key < 0) ∧
  (∀ i, s.level ≤ i → c i = []) ∧
  1 ≤ s.level ∧ s.level ≤ s.maxLevel ∧ s.maxLevel ≤ MaxLevel ∧ s.size = (c 0).length

theorem Good.consistent {s : SL K V} {as : List Nat} {ht : Nat → Nat} (g : Good cmp s as ht) :
    Consistent cmp s fun i => as.filter fun a => decide (i < ht a) := by
  refine ⟨g.levels, fun i => ?_, fun i => ?_, fun i hi => ?_, g.lvl.1, g.lvl.2.1, g.lvl.2.2, ?_⟩
  · have : as.filter (fun a => decide (i + 1 < ht a)) =
        (as.filter fun a => decide (i < ht a)).filter fun a => decide (i + 1 < ht a) := by
      rw [List.filter_filter]
      refine List.filter_congr fun a _ => ?_
      rw [Bool.eq_iff_iff]
      simp only [Bool.and_eq_true, decide_eq_true_eq]
      omega
    simp only
    rw [this]
    exact List.filter_sublist
  · refine List.Pairwise.sublist List.filter_sublist (g.pairwise.imp ?_)
    intro a b h
    exact ord_lt.1 h
  · refine List.filter_eq_nil_iff.2 fun a ha => ?_
    have := (g.tower a ha).2
    simp; omega
  · simp only
    rw [g.size, List.filter_eq_self.2]
    intro a ha
    have := (g.tower a ha).1
    simp; omega

/-- C56: after every history of all calls, with all random numbers, the chains of the levels are sorted, each
is a subsequence of the one below, none reaches a level that is not in use, and `Size` counts level 0. No call
of the history panics; in particular none reads outside of a tower. -/
theorem C56_levels (hc : Lawful cmp) (maxLevel : Int) (junk : K × V) (os : List (Op K V)) :
    ∃ s rs c, run (step cmp) (new maxLevel junk) os = some (s, rs) ∧ Consistent cmp s c := by
  obtain ⟨s, rs, ys, e, as, ht, g, -⟩ := run_any hc os (new_ok maxLevel junk)
  exact ⟨s, rs, _, e, g.consistent⟩

/-- C56: no search of an iterator reads outside of a tower either, wherever the iterator is among the nodes of
the list. -/
theorem C56_iterators (hc : Lawful cmp) (maxLevel : Int) (junk : K × V) (os : List (Op K V)) (s : SL K V)
    (rs : List (Res K V)) (h : run (step cmp) (new maxLevel junk) os = some (s, rs)) (ios : List (IOp K)) :
    ∃ it, iterator s = some it ∧ (run (istep cmp s) it ios).isSome := by
  obtain ⟨s', rs', ys, e, as, ht, g, -⟩ := run_any hc os (new_ok maxLevel junk)
  rw [h] at e
  cases e
  refine ⟨⟨as.head?, 0⟩, by rw [iterator, g.first]; rfl, ?_⟩
  suffices H : ∀ (it : Iter) (p : Option Nat), ISim as it p → (run (istep cmp s) it ios).isSome by
    refine H _ (if as = [] then none else some 0) ?_
    simpa using isim_head [] as 0
  induction ios with
  | nil => intro it p _; rfl
  | cons o ios ih =>
    intro it p hi
    by_cases ho : o = .index
    · subst ho
      have := ih it p hi
      simp only [run, istep]
      obtain ⟨q, hq⟩ := Option.isSome_iff_exists.1 this
      rw [hq]; rfl
    · obtain ⟨it', e', hi'⟩ := istep_ok hc g hi o ho
      have := ih it' _ hi'
      obtain ⟨q, hq⟩ := Option.isSome_iff_exists.1 this
      simp only [run, e', hq]; rfl

/-- The hypothesis of `C56_iterators` is met by a list with several levels. -/
example : ∃ s rs, run (step Compare.any) (new 16 ((0, 0) : Int × Int))
    [.put 3 30 [true, true], .put 1 10 [], .put 5 50 [true], .remove 3] = some (s, rs) ∧ s.level = 2 ∧
    s.size = 2 := by
  obtain ⟨s, rs, ys, e, -⟩ := run_any any_lawful
    [.put 3 30 [true, true], .put 1 10 [], .put 5 50 [true], .remove 3] (new_ok 16 ((0, 0) : Int × Int))
  refine ⟨s, rs, e, ?_⟩
  have h : ((run (step Compare.any) (new 16 ((0, 0) : Int × Int))
    [.put 3 30 [true, true], .put 1 10 [], .put 5 50 [true], .remove 3]).map fun p => (p.1.level, p.1.size)) =
    some (2, 2) := by decide +kernel
  rw [e] at h
  simp only [Option.map_some, Option.some.injEq, Prod.mk.injEq] at h
  exact h

/-! ### C57 -/

/-- The contents after a history: what `Slices` answers. -/
theorem contents (hc : Lawful cmp) (maxLevel : Int) (junk : K × V) (os : List (Op K V)) {s : SL K V}
    {rs : List (Res K V)} (h : run (step cmp) (new maxLevel junk) os = some (s, rs)) :
    ∃ as ht, Good cmp s as ht ∧ step cmp s .slices = some (s, .list (as.map s.ent)) := by
  obtain ⟨s', rs', ys, e, as, ht, g, -⟩ := run_any hc os (new_ok maxLevel junk)
  rw [h] at e
  cases e
  exact ⟨as, ht, g, by rw [step, g.nodes]; rfl⟩

/-- C57: all seeks and moves of an iterator on the list after any history: `SeekGE` and `SeekGT` go to the first
entry that is not smaller, or greater; `SeekLE` and `SeekLT` to the last that is not greater, or smaller; they
answer whether there is one, and make the iterator invalid if there is none. Missing from the full statement:
`Index` is the rank (see `C57_index_partial`, `C57_index_wrong`). -/
theorem C57_seek_partial (hc : Lawful cmp) (maxLevel : Int) (junk : K × V) (os : List (Op K V)) (s : SL K V)
    (rs : List (Res K V)) (h : run (step cmp) (new maxLevel junk) os = some (s, rs)) (xs : List (K × V))
    (hx : step cmp s .slices = some (s, .list xs)) (ios : List (IOp K)) (hio : ∀ o ∈ ios, o ≠ .index) :
    ∃ it it', iterator s = some it ∧ run (istep cmp s) it ios =
      some (it', (runSpec (ispec (ord cmp) xs) (if xs = [] then none else some 0) ios).2) := by
  obtain ⟨as, ht, g, hs⟩ := contents hc maxLevel junk os h
  rw [hs] at hx
  simp only [Option.some.injEq, Prod.mk.injEq, Res.list.injEq, true_and] at hx
  subst hx
  obtain ⟨it', e, -⟩ := run_refines_on (step := istep cmp s) (spec := ispec (ord cmp) (as.map s.ent)) (ISim as)
    (fun o => o ≠ .index) (fun it p o ho hi => istep_ok hc g hi o ho) ios hio ⟨as.head?, 0⟩
    (if as.map s.ent = [] then none else some 0) (by simpa using isim_head [] as 0)
  exact ⟨_, it', by rw [iterator, g.first]; rfl, e⟩

/-- Moves that keep the iterator on the list, seeks to an end of it, and questions. -/
def Stays (n : Nat) (p : Option Nat) : IOp K → Prop
  | .next => ∃ r, p = some r ∧ r + 1 < n
  | .prev => ∃ r, p = some (r + 1)
  | .seekToFirst | .seekToLast | .valid | .slice | .index => True
  | _ => False

/-- C57: `Index` is the rank as long as the iterator is moved by `Next`, `Prev`, `SeekToFirst` and `SeekToLast`
only and does not leave the list. -/
theorem C57_index_partial (hc : Lawful cmp) (maxLevel : Int) (junk : K × V) (os : List (Op K V)) (s : SL K V)
    (rs : List (Res K V)) (h : run (step cmp) (new maxLevel junk) os = some (s, rs)) (xs : List (K × V))
    (hx : step cmp s .slices = some (s, .list xs)) (hne : xs ≠ []) (ios : List (IOp K))
    (hio : LegalRun (ispec (ord cmp) xs) (Stays xs.length) (some 0) ios) :
    ∃ it it', iterator s = some it ∧ run (istep cmp s) it ios =
      some (it', (runSpec (ispec (ord cmp) xs) (some 0) ios).2) := by
  obtain ⟨as, ht, g, hs⟩ := contents hc maxLevel junk os h
  rw [hs] at hx
  simp only [Option.some.injEq, Prod.mk.injEq, Res.list.injEq, true_and] at hx
  subst hx
  have hne' : as ≠ [] := by simpa using hne
  have hlen : 0 < as.length := List.length_pos_iff.2 hne'
  obtain ⟨it', e, -⟩ := run_refines_legal (step := istep cmp s) (spec := ispec (ord cmp) (as.map s.ent))
    (legal := Stays (as.map s.ent).length)
    (fun it p => ISim as it p ∧ ∃ r : Nat, p = some r ∧ it.index = r)
    (fun it p o hl hi => by
      obtain ⟨hi, r, rfl, hr⟩ := hi
      have hlt := hi.2 r rfl
      have hnode : it.node = some as[r] := by rw [hi.1]; simp [hlt]
      by_cases ho : o = .index
      · subst ho
        exact ⟨it, by rw [istep, ispec, hr], hi, r, rfl, hr⟩
      · obtain ⟨it', e, h'⟩ := istep_ok hc g hi o ho
        refine ⟨it', e, h', ?_⟩
        have e0 := e
        cases o <;> try exact hl.elim
        case seekToFirst =>
          rw [istep, g.first] at e
          simp only [Option.map_some, Option.some.injEq, Prod.mk.injEq] at e
          exact ⟨0, by simp [ispec, hne'], by rw [← e.1]; rfl⟩
        case seekToLast =>
          rw [istep, g.nodes] at e
          simp only [Option.map_some, Option.some.injEq, Prod.mk.injEq] at e
          refine ⟨as.length - 1, by simp [ispec, hne'], ?_⟩
          rw [← e.1]
          have : as.getLast?.isSome = true := by simp [hne']
          simp only [this, if_true, g.size]
          have : 0 < as.length := hlen
          push_cast [Nat.cast_sub (show 1 ≤ as.length from hlen)]
          rfl
        case next =>
          obtain ⟨r', h1, h2⟩ := hl
          cases h1
          refine ⟨r + 1, by rw [ispec, Option.bind_some, if_pos h2], ?_⟩
          rw [istep, hnode] at e
          simp only at e
          cases hf : (s.heap as[r]).fwd[0]? with
          | none => rw [hf] at e; cases e
          | some f =>
            rw [hf] at e
            simp only [Option.map_some, Option.some.injEq, Prod.mk.injEq] at e
            rw [← e.1]
            simp only
            omega
        case prev =>
          obtain ⟨r', h1⟩ := hl
          cases h1
          refine ⟨r', rfl, ?_⟩
          have hnd := List.nodup_cons.1 g.nodup
          have hlt' := g.len_lt
          obtain ⟨L, c, R, hsp, hLl⟩ : ∃ L c R, as = L ++ c :: R ∧ L.length = r' + 1 :=
            ⟨as.take (r' + 1), as[r' + 1], as.drop (r' + 1 + 1), by simp, by simp; omega⟩
          subst hsp
          have hn : (L ++ c :: R)[r' + 1]? = some c := by simp [← hLl]
          have hn1 : it.node = some c := by rw [hi.1]; exact hn
          have hcL : c ∉ L := by
            intro hh
            exact (List.nodup_append.1 hnd.2).2.2 c hh c (by simp) rfl
          rw [istep, g.first, hn1] at e
          simp only [Option.bind_some] at e
          rw [prevLoop_at s.free L s.header g.run0.2 hcL (by simp only [List.length_append] at hlt'; omega)] at e
          simp only [Option.map_some, if_true] at e
          have hne2 : (s.header :: L).getLast (List.cons_ne_nil _ _) ≠ s.header := by
            have : L ≠ [] := by intro hh; subst hh; simp at hLl
            rw [List.getLast_cons this]
            intro hh
            exact hnd.1 (by rw [← hh]; simp [List.getLast_mem])
          rw [if_pos hne2] at e
          simp only [Option.some.injEq, Prod.mk.injEq] at e
          rw [← e.1]
          simp only [hr]
          push_cast
          omega
        case valid => simp only [istep, Option.some.injEq, Prod.mk.injEq] at e; exact ⟨r, rfl, by rw [← e.1]; exact hr⟩
        case slice => simp only [istep, Option.some.injEq, Prod.mk.injEq] at e; exact ⟨r, rfl, by rw [← e.1]; exact hr⟩
        case index => exact absurd rfl ho)
    ios ⟨as.head?, 0⟩ (some 0) hio ⟨by simpa [hne'] using isim_head [] as 0, 0, rfl, rfl⟩
  exact ⟨_, it', by rw [iterator, g.first]; rfl, e⟩

/-- A list for the witnesses. -/
def three : SL Int Int :=
  ((run (step Compare.any) (new 16 (0, 0)) [.put 1 10 [true], .put 2 20 [], .put 3 30 []]).map (·.1)).getD (new 16 (0, 0))

/-- Seeks that lead to the entry with rank 2 but leave `Index` at something else; and `Prev` from the first
entry, which becomes invalid, and once more, which goes to the last entry with the index -1. -/
theorem C57_index_wrong :
    (run (istep Compare.any three) ⟨none, 0⟩ [.seekGE 3, .slice, .index]).map (·.2) =
      some [.bool true, .slice (some (3, 30)), .int 0] ∧
    (run (istep Compare.any three) ⟨none, 0⟩ [.seekGT 2, .slice, .index]).map (·.2) =
      some [.bool true, .slice (some (3, 30)), .int 0] ∧
    (run (istep Compare.any three) ⟨none, 0⟩ [.seekLE 3, .slice, .index]).map (·.2) =
      some [.bool true, .slice (some (3, 30)), .int 0] ∧
    (run (istep Compare.any three) ⟨none, 0⟩ [.seekToFirst, .seekLT 4, .slice, .index]).map (·.2) =
      some [.unit, .bool true, .slice (some (3, 30)), .int 0] ∧
    (run (istep Compare.any three) ⟨none, 0⟩ [.seekByIndex 2, .slice, .index]).map (·.2) =
      some [.unit, .slice (some (3, 30)), .int 0] ∧
    (run (istep Compare.any three) ⟨none, 0⟩ [.seekToFirst, .prev, .valid, .prev, .slice, .index]).map (·.2) =
      some [.unit, .unit, .bool false, .unit, .slice (some (3, 30)), .int (-1)] := by decide +kernel

example : (run (istep Compare.any three) ⟨none, 0⟩ [.seekToLast, .index, .prev, .index, .slice, .next, .next,
    .valid, .seekGE 0, .slice, .seekLT 1, .seekGT 3, .seekLE 0]).map (·.2) =
    some [.unit, .int 2, .unit, .int 1, .slice (some (2, 20)), .unit, .unit, .bool false, .bool true,
      .slice (some (1, 10)), .bool false, .bool false, .bool false] := by decide +kernel

example : LegalRun (ispec (ord Compare.any) [((1 : Int), (10 : Int)), (2, 20), (3, 30)]) (Stays 3) (some 0)
    [.next, .index, .prev, .seekToLast, .prev, .index] :=
  ⟨⟨0, rfl, by decide⟩, trivial, ⟨0, rfl⟩, trivial, ⟨1, rfl⟩, trivial, trivial⟩

/-! ### C58 -/

/-- C58: `RemoveRangeByIndex` removes the entries with a rank from `low` to `high`, whatever the bounds, and
`Trim` keeps those with a key from `low` to `high`. -/
theorem C58_ranges (hc : Lawful cmp) (maxLevel : Int) (junk : K × V) (os : List (Op K V)) (s : SL K V)
    (rs : List (Res K V)) (h : run (step cmp) (new maxLevel junk) os = some (s, rs)) (xs : List (K × V))
    (hx : step cmp s .slices = some (s, .list xs)) :
    (∀ low high : Int, (run (step cmp) s [.removeRangeByIndex low high, .slices, .size]).map (·.2) =
      some [.unit, .list (ranks (fun j => !(decide (low ≤ j) && decide (j ≤ high))) xs),
        .int (ranks (fun j => !(decide (low ≤ j) && decide (j ≤ high))) xs).length]) ∧
    (∀ low high : K, (run (step cmp) s [.trim low high, .slices, .size]).map (·.2) =
      some [.unit, .list (xs.filter fun e => decide (cmp e.1 low ≥ 0) && decide (cmp e.1 high ≤ 0)),
        .int (xs.filter fun e => decide (cmp e.1 low ≥ 0) && decide (cmp e.1 high ≤ 0)).length]) := by
  obtain ⟨as, ht, g, hs⟩ := contents hc maxLevel junk os h
  rw [hs] at hx
  simp only [Option.some.injEq, Prod.mk.injEq, Res.list.injEq, true_and] at hx
  subst hx
  have hsim : Sim cmp s (as.map s.ent) := ⟨as, ht, g, rfl⟩
  refine ⟨fun low high => ?_, fun low high => ?_⟩
  · obtain ⟨s', e, -⟩ := run_refines_on (step := step cmp) (spec := spec (ord cmp)) (Sim cmp) Op.plain
      (fun s xs op hp hs => step_ok hc hs op (plain_legal hp xs)) [.removeRangeByIndex low high, .slices, .size]
      (by simp [Op.plain]) _ _ hsim
    rw [e]
    rfl
  · obtain ⟨s', e, -⟩ := run_refines_on (step := step cmp) (spec := spec (ord cmp)) (Sim cmp) Op.plain
      (fun s xs op hp hs => step_ok hc hs op (plain_legal hp xs)) [.trim low high, .slices, .size]
      (by simp [Op.plain]) _ _ hsim
    rw [e]
    have : (fun e : K × V => ord cmp e.1 low != .lt && ord cmp e.1 high != .gt) =
        fun e => decide (cmp e.1 low ≥ 0) && decide (cmp e.1 high ≤ 0) := by
      funext e
      rw [Bool.eq_iff_iff]
      simp only [Bool.and_eq_true, bne_iff_ne, ne_eq, decide_eq_true_eq, ord_lt, ord_gt]
      omega
    simp only [runSpec, spec, Option.map_some, this]

/-- C58: `TrimByIndex` keeps the entries with a rank from `low` to `high`, if there is one. Missing from the full
statement: that it removes all if there is none (see `C58_trimByIndex_wrong`). -/
theorem C58_trimByIndex_partial (hc : Lawful cmp) (maxLevel : Int) (junk : K × V) (os : List (Op K V)) (s : SL K V)
    (rs : List (Res K V)) (h : run (step cmp) (new maxLevel junk) os = some (s, rs)) (xs : List (K × V))
    (hx : step cmp s .slices = some (s, .list xs)) (low high : Int) (hk : Keeps xs low high) :
    (run (step cmp) s [.trimByIndex low high, .slices]).map (·.2) =
      some [.unit, .list (ranks (fun j => decide (low ≤ j) && decide (j ≤ high)) xs)] := by
  obtain ⟨as, ht, g, hs⟩ := contents hc maxLevel junk os h
  rw [hs] at hx
  simp only [Option.some.injEq, Prod.mk.injEq, Res.list.injEq, true_and] at hx
  subst hx
  obtain ⟨s', e, -⟩ := run_refines_legal (step := step cmp) (spec := spec (ord cmp)) (legal := legal) (Sim cmp)
    (fun s xs op hp hs => step_ok hc hs op hp) [.trimByIndex low high, .slices] _ _ ⟨hk, trivial, trivial⟩
    (⟨as, ht, g, rfl⟩ : Sim cmp s (as.map s.ent))
  rw [e]
  rfl

/-- A `TrimByIndex` that should keep nothing keeps everything. -/
theorem C58_trimByIndex_wrong (hc : Lawful cmp) (maxLevel : Int) (junk : K × V) (os : List (Op K V)) (s : SL K V)
    (rs : List (Res K V)) (h : run (step cmp) (new maxLevel junk) os = some (s, rs)) (low high : Int)
    (hk : ∀ i : Nat, (i : Int) < s.size → ¬ (low ≤ i ∧ (i : Int) ≤ high)) :
    step cmp s (.trimByIndex low high) = some (s, .unit) := by
  obtain ⟨as, ht, g, hs⟩ := contents hc maxLevel junk os h
  have hsz := g.size
  rw [step, doTrimByIndex, if_pos]
  · rfl
  · by_contra hc'
    have := hk (max low 0).toNat
    split at hc' <;> split at hc' <;> omega

example : (run (step Compare.any) three [.trimByIndex 5 9, .slices, .trimByIndex 2 1, .slices, .trimByIndex 1 9, .slices,
    .put 1 1 [], .trim 7 8, .slices]).map (·.2) =
    some [.unit, .list [(1, 10), (2, 20), (3, 30)], .unit, .list [(1, 10), (2, 20), (3, 30)], .unit,
      .list [(2, 20), (3, 30)], .bool true, .unit, .list []] := by decide +kernel

/-- Skip lists made by calls and set operations of two different lists. -/
inductive Reached (cmp : K → K → Int) : SL K V → Prop
  | new (maxLevel : Int) (junk : K × V) : Reached cmp (new maxLevel junk)
  | call {s s' : SL K V} {op : Op K V} {r : Res K V} : Reached cmp s → step cmp s op = some (s', r) → Reached cmp s'
  | intersection {s t r : SL K V} (coins : Nat → List Bool) (junk : K × V) : Reached cmp s → Reached cmp t →
      intersection cmp s t coins junk = some r → Reached cmp r
  | union {s t r : SL K V} (coins : Nat → List Bool) (junk : K × V) : Reached cmp s → Reached cmp t →
      union cmp s t coins junk = some r → Reached cmp r
  | difference {s t r : SL K V} (coins : Nat → List Bool) (junk : K × V) : Reached cmp s → Reached cmp t →
      difference cmp s t coins junk = some r → Reached cmp r

theorem Reached.sim (hc : Lawful cmp) {s : SL K V} (h : Reached cmp s) : ∃ xs, Sim cmp s xs := by
  induction h with
  | new m junk => exact ⟨[], new_ok m junk⟩
  | call _ e ih =>
    obtain ⟨xs, hs⟩ := ih
    obtain ⟨s', r, ys, e', h'⟩ := step_any hc hs _
    rw [e] at e'
    cases e'
    exact ⟨ys, h'⟩
  | intersection coins junk _ _ e ih1 ih2 =>
    obtain ⟨xs, hs⟩ := ih1
    obtain ⟨ys, ht⟩ := ih2
    obtain ⟨r, e', h'⟩ := intersection_ok hc hs ht coins junk
    rw [e] at e'
    cases e'
    exact ⟨_, h'⟩
  | union coins junk _ _ e ih1 ih2 =>
    obtain ⟨xs, hs⟩ := ih1
    obtain ⟨ys, ht⟩ := ih2
    obtain ⟨r, zs, e', h', -⟩ := union_ok hc hs ht coins junk
    rw [e] at e'
    cases e'
    exact ⟨_, h'⟩
  | difference coins junk _ _ e ih1 ih2 =>
    obtain ⟨xs, hs⟩ := ih1
    obtain ⟨ys, ht⟩ := ih2
    obtain ⟨r, e', h'⟩ := difference_ok hc hs ht coins junk
    rw [e] at e'
    cases e'
    exact ⟨_, h'⟩

theorem slices_sim {s : SL K V} {xs : List (K × V)} (hs : Sim cmp s xs) :
    step cmp s .slices = some (s, .list xs) := by
  obtain ⟨as, ht, g, rfl⟩ := hs
  rw [step, g.nodes]
  rfl

/-- C58: the set operations of two lists, for all random numbers. With `xs` and `ys` the contents of the two:
`Intersection` holds the keys of `xs` that are in `ys`, with the value of `ys`; `DifferenceSets` the entries of `xs`
whose key is not in `ys`; `UnionSets` answers for every key the entry of the one list that has it, or the key of
`xs` with the value of `ys`. The results are sorted. -/
theorem C58_set_operations (hc : Lawful cmp) {s t : SL K V} (hs : Reached cmp s) (ht : Reached cmp t)
    (coins : Nat → List Bool) (junk : K × V) {xs ys : List (K × V)}
    (hx : step cmp s .slices = some (s, .list xs)) (hy : step cmp t .slices = some (t, .list ys)) :
    (∃ r, intersection cmp s t coins junk = some r ∧ step cmp r .slices = some (r, .list
      (xs.filterMap fun e => (entry (ord cmp) ys e.1).map fun y => (e.1, y.2)))) ∧
    (∃ r, difference cmp s t coins junk = some r ∧ step cmp r .slices = some (r, .list
      (xs.filter fun e => (entry (ord cmp) ys e.1).isNone))) ∧
    (∃ r zs, union cmp s t coins junk = some r ∧ step cmp r .slices = some (r, .list zs) ∧ Sorted (ord cmp) zs ∧
      ∀ k, entry (ord cmp) zs k = both (entry (ord cmp) xs k) (entry (ord cmp) ys k)) := by
  obtain ⟨xs', hs'⟩ := hs.sim hc
  obtain ⟨ys', ht'⟩ := ht.sim hc
  rw [slices_sim hs'] at hx
  rw [slices_sim ht'] at hy
  simp only [Option.some.injEq, Prod.mk.injEq, Res.list.injEq, true_and] at hx hy
  subst hx hy
  refine ⟨?_, ?_, ?_⟩
  · obtain ⟨r, e, h⟩ := intersection_ok hc hs' ht' coins junk
    exact ⟨r, e, slices_sim h⟩
  · obtain ⟨r, e, h⟩ := difference_ok hc hs' ht' coins junk
    exact ⟨r, e, slices_sim h⟩
  · obtain ⟨r, zs, e, h, h2⟩ := union_ok hc hs' ht' coins junk
    exact ⟨r, zs, e, slices_sim h, h.sorted, h2⟩

/-- The specification of the union fixes the result. -/
theorem entry_ext {o : K → K → Ordering} [Std.TransCmp o] : ∀ {xs ys : List (K × V)}, Sorted o xs → Sorted o ys →
    (∀ k, entry o xs k = entry o ys k) → xs = ys
  | [], [], _, _, _ => rfl
  | [], y :: ys, _, _, h => by
    have := h y.1
    simp [entry, Ord.refl (o := o)] at this
  | x :: xs, [], _, _, h => by
    have := h x.1
    simp [entry, Ord.refl (o := o)] at this
  | x :: xs, y :: ys, hx, hy, h => by
    have hx' := List.pairwise_cons.1 hx
    have hy' := List.pairwise_cons.1 hy
    have hxy : o x.1 y.1 = .eq := by
      have h1 := h x.1
      have h2 := h y.1
      have e1 : entry o (x :: xs) x.1 = some x := by simp [entry, Ord.refl (o := o)]
      have e2 : entry o (y :: ys) y.1 = some y := by simp [entry, Ord.refl (o := o)]
      rw [e1] at h1
      rw [e2] at h2
      have m1 : x ∈ y :: ys := List.mem_of_find?_eq_some h1.symm
      have m2 : y ∈ x :: xs := List.mem_of_find?_eq_some h2
      rcases List.mem_cons.1 m1 with rfl | m1
      · exact Ord.refl _
      · rcases List.mem_cons.1 m2 with rfl | m2
        · exact Ord.refl _
        · have a := hy'.1 x m1
          have b := hx'.1 y m2
          rw [Ord.lt_iff, b] at a
          cases a
    have hh := h x.1
    have e1 : entry o (x :: xs) x.1 = some x := by simp [entry, Ord.refl (o := o)]
    have e2 : entry o (y :: ys) x.1 = some y := by simp [entry, Ord.eq_symm hxy]
    rw [e1, e2] at hh
    cases hh
    congr 1
    refine entry_ext hx'.2 hy'.2 fun k => ?_
    by_cases hk : o x.1 k = .eq
    · have n1 : entry o xs k = none := entry_ne fun z hz => by
        have := hx'.1 z hz
        rw [Ord.congr_left (o := o) hk, Ord.lt_iff] at this
        rw [this]; simp
      have n2 : entry o ys k = none := entry_ne fun z hz => by
        have := hy'.1 z hz
        rw [Ord.congr_left (o := o) hk, Ord.lt_iff] at this
        rw [this]; simp
      rw [n1, n2]
    · have := h k
      simpa [entry, hk] using this

example : ∃ r, union Compare.any three three (fun n => List.replicate n true) (0, 0) = some r ∧
    (step Compare.any r .slices).map (·.2) = some (.list [(1, 10), (2, 20), (3, 30)]) := by
  have h3 : Reached Compare.any three := by
    have h : ∀ os : List (Op Int Int), ∀ s, Reached Compare.any s →
        Reached Compare.any (((run (step Compare.any) s os).map (·.1)).getD (new 16 (0, 0))) := by
      intro os
      induction os with
      | nil => intro s hs; exact hs
      | cons o os ih =>
        intro s hs
        obtain ⟨xs, hsim⟩ := hs.sim any_lawful
        obtain ⟨s1, r1, ys, e, -⟩ := step_any any_lawful hsim o
        have := ih s1 (.call hs e)
        simp only [run, e]
        cases hr : run (step Compare.any) s1 os with
        | none => rw [hr] at this; exact this
        | some q => rw [hr] at this; exact this
    exact h _ _ (.new 16 (0, 0))
  obtain ⟨xs, hsim⟩ := h3.sim any_lawful
  obtain ⟨-, -, r, zs, e, hz, -⟩ := C58_set_operations any_lawful h3 h3 (fun n => List.replicate n true) (0, 0)
    (slices_sim hsim) (slices_sim hsim)
  refine ⟨r, e, ?_⟩
  have : ((union Compare.any three three (fun n => List.replicate n true) (0, 0)).bind fun r =>
    (step Compare.any r .slices).map (·.2)) = some (.list [(1, 10), (2, 20), (3, 30)]) := by decide +kernel
  rw [e] at this
  exact this

end Verif.Skip
