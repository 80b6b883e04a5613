import Verif.Tree.ListStop
import Verif.Tree.IndexStopProps
import Verif.Tree.ListHeapRefProps

/-! C107 for tree/treelist: where a panic of the comparator leaves no trace, and where it does. -/

namespace Verif.ListHeap
open Verif.IndexHeap (Mem get_stop root_stop indexOf_stop trim_stop calm badAt)
open Verif.TreeList (limit Op Res spec legal legalSmall)
open Verif.Size (ord)
open Verif.Out
variable {K V : Type} {cmp : K → K → Int}

theorem put_stop {bad : Nat → Bool} {root : Nat} {write : V → V} {fresh : Nat} {key : K} {val : V}
    {rounds : Nat} {m : Mem K V} {d : Dir} : ∀ (n cur : Nat) (l r : Option Nat),
    Same m (∃ a, bad a = true) (putLoopB bad root cmp write fresh key val rounds m d n cur l r)
      (putLoop root cmp write fresh key val rounds m d n cur l r)
  | 0, _, _, _ => .inr rfl
  | n + 1, cur, l, r => by
    rw [putLoopB, putLoop]
    refine same_if (fun h => ⟨_, h⟩) ?_
    dsimp only
    split
    · cases (m cur).lo with
      | none => exact .of _
      | some b => exact put_stop n b _ _
    · split
      · cases (m cur).hi with
        | none => exact .of _
        | some b => exact put_stop n b _ _
      · exact same_done _

theorem cut_stop {d : Dir} {bad : Nat → Bool} {bound : K} {c : Bool} {m : Mem K V} :
    ∀ (n : Nat) (e p : Option Nat),
    Same m (∃ a, bad a = true) (cutB d bad cmp bound c n m e p) (cut d cmp bound c n m e p)
  | 0, _, _ => .inr rfl
  | _ + 1, _, none => .inr rfl
  | n + 1, e, some a => by
    rw [cutB, cut]
    refine same_if (fun h => ⟨_, h⟩) ?_
    dsimp only
    by_cases h : (if c then cmp bound (m a).key > 0 else cmp bound (m a).key < 0)
    · rw [if_pos h, if_pos h]; exact (cut_stop n _ _).map _
    · rw [if_neg h, if_neg h]
      by_cases h : (if c then cmp bound (m a).key < 0 else cmp bound (m a).key > 0)
      · rw [if_pos h, if_pos h]; exact cut_stop n _ _
      · rw [if_neg h, if_neg h]; exact same_done _

theorem cutTop_stop {d : Dir} {bad : Nat → Bool} {bound : K} {c : Bool} {m : Mem K V} {n rt : Nat} :
    Same m (∃ a, bad a = true) (cutTopB d bad cmp bound c n m rt) (cutTop d cmp bound c n m rt) := by
  unfold cutTopB cutTop
  cases (m rt).kid (!c) with
  | none => exact same_done _
  | some b => exact cut_stop _ _ _

/-- The calls that a panic of the comparator never spoils half-way: all but `RemoveRange` and `Trim` while
the upper bound is cut. -/
def Careful : Op K V × Bad → Prop
  | (.removeRange _ _, b) => ∀ a, b 4 a = false
  | (.trim _ _, b) => ∀ a, b 4 a = false
  | _ => True

variable {bad : Bad} {s : PList K V}

theorem putWith_stop (k : K) (v : V) (w : V → V) :
    Same s bad.some (s.putWithB bad cmp k v w) (s.putWith cmp k v w) := by
  unfold PList.putWithB
  cases h : s.top with
  | none => exact .of _
  | some cur =>
    have e : s.putWith cmp k v w = (putLoop s.root cmp w s.free k v s.free s.mem s.dir s.free cur none none).map
        fun p => (⟨p.1, p.2.1, if p.2.2 then s.free else s.free + 1, s.root⟩, p.2.2) := by
      rw [PList.putWith, h]
    rw [e]
    exact (((put_stop _ _ _ _).lift s.at).mono fun ⟨a, h⟩ => ⟨0, a, h⟩).map _

theorem remove_stop (i : Nat) (k : K) :
    Same s bad.some (s.removeB bad cmp i k) (s.remove cmp k) := by
  refine (((get_stop _ _).lift s.at).mono fun ⟨a, h⟩ => ⟨i, a, h⟩).bind fun o _ => ?_
  cases o with
  | none => exact same_done _
  | some cur => exact .of _

theorem removeRange_stop {low high : K} (hb : ∀ a, bad 4 a = false) :
    Same s bad.some (s.removeRangeB bad cmp low high) (s.removeRange cmp low high) := by
  unfold PList.removeRangeB PList.removeRange
  refine same_if (fun h => ⟨_, _, h⟩) ?_
  dsimp only
  split
  · exact same_done _
  · split
    · exact (remove_stop 1 low).map _
    · refine (((root_stop _ _).lift s.at).mono
        fun h => h.elim (fun ⟨a, h⟩ => ⟨1, a, h⟩) fun ⟨a, h⟩ => ⟨2, a, h⟩).bind fun o _ => ?_
      cases o with
      | none => exact same_done _
      | some rt =>
        refine Same.map (Same.lift ?_ s.at) _
        refine (cutTop_stop.mono fun ⟨a, h⟩ => ⟨3, a, h⟩).bind fun p _ => ?_
        exact (IndexHeap.Same.quiet cutTop_stop (by simp [hb])).bind fun q _ => .of _

theorem stepB_stop (op : Op K V) (hq : Careful (op, bad)) :
    Same s bad.some (stepB bad cmp s op) (step cmp s op) := by
  cases op with
  | put k v => exact (putWith_stop k v _).map _
  | set k v => exact (putWith_stop k v _).map _
  | putDup k v f => exact (putWith_stop k v _).map _
  | get k => exact (((get_stop _ _).lift s.at).mono fun ⟨a, h⟩ => ⟨0, a, h⟩).map _
  | remove k => exact (remove_stop 0 k).map _
  | indexOf k =>
    rw [stepB, step]
    cases s.top with
    | none => exact same_done _
    | some cur => exact (((indexOf_stop _ _ _).lift s.at).mono fun ⟨a, h⟩ => ⟨0, a, h⟩).map _
  | removeRange low high => exact removeRange_stop hq
  | trim low high =>
    rw [stepB, step]
    refine same_if (fun h => ⟨_, _, h⟩) ?_
    split
    · exact same_done _
    · exact ((trim_stop hq).lift s.at).bind fun m _ => .of _
  | _ => exact .inr rfl

/-- C107 for tree/treelist with any comparison: in a history of careful calls, the calls that were not
ended by a panic of the comparator leave the same nodes and links and answer the same as if the other calls
had never been made. Missing from the full statement: the calls that are not careful, for which it is false,
see `C107_removeRange_spoils`. -/
theorem C107_no_trace_partial (cmp : K → K → Int) (junk : K × V)
    (os : List (Op K V × Bad)) (hq : ∀ x ∈ os, Careful x) {s : PList K V} {rs : List (Option (Res K V))}
    (h : runStop (fun b s => stepB b cmp s) (PList.new junk) os = some (s, rs)) :
    Justified Bad.some os rs ∧
      run (step cmp) (PList.new junk) (survived os rs) = some (s, rs.filterMap id) :=
  runStop_trace (P := Bad.some) (fun _ _ o h => stepB_stop o h) os hq _ _ _ h

/-- C107 for tree/treelist: no careful call fails other than by a panic of the comparator, and the answers
are those of the ideal sorted map that is asked only the other calls. Insertions only while there are at
most 63 entries, as in `C44_small_partial`. -/
theorem C107_list_partial (hc : Lawful cmp) (junk : K × V)
    (os : List (Op K V × Bad)) (hq : ∀ x ∈ os, Careful x)
    (hl : ∀ os', os'.Sublist (os.map (·.1)) → LegalRun (spec (ord cmp)) (legalSmall cmp) [] os') :
    ∃ s rs, runStop (fun b s => stepB b cmp s) (PList.new junk) os = some (s, rs) ∧
      Justified Bad.some os rs ∧
      rs.filterMap id = (runSpec (spec (ord cmp)) [] (survived os rs)).2 := by
  have ht : ∀ os' : List (Op K V), os'.Sublist (os.map (·.1)) →
      ∃ s, run (step cmp) (PList.new junk) os' = some (s, (runSpec (spec (ord cmp)) [] os').2) := by
    intro os' hs
    obtain ⟨s, h, -⟩ := run_refines_legal (step := step cmp) (spec := spec (ord cmp))
      (legal := legalSmall cmp) (fun s xs => RRel cmp (s, []) (xs, []))
      (fun s xs op h1 h2 => by
        rcases call_ok hc h2 (op := op) h1.1 with ⟨-, h3, h4⟩ | ⟨s', h3, h4⟩
        · exact absurd (h1.2 h3) (by simpa using h4)
        · refine ⟨s', h3, ?_⟩
          have : (rspec cmp (xs, []) (.call op)).1 = ((spec (ord cmp) xs op).1, []) := by simp [rspec]
          rwa [this] at h4)
      os' (PList.new junk) [] (hl os' hs) (RRel.new junk)
    exact ⟨s, h⟩
  obtain ⟨s, rs, g1, g2, g3⟩ := runStop_ok (stepB := fun b s => stepB b cmp s)
    (step := step cmp) (fun _ _ o h => stepB_stop o h) os hq (PList.new junk)
    fun os' hs => by obtain ⟨s, h⟩ := ht os' hs; rw [h]; rfl
  obtain ⟨s', g4⟩ := ht _ (survived_sublist os rs)
  rw [g3, Option.some.injEq, Prod.mk.injEq] at g4
  exact ⟨s, rs, g1, g2, g4.2⟩

theorem spec_length {o : K → K → Ordering} (xs : List (K × V)) (op : Op K V) :
    (spec o xs op).1.length ≤ xs.length + 1 := by
  have ins : ∀ k v, Avl.has o k xs = false → (Avl.insertEntry o (k, v) xs).length ≤ xs.length + 1 := by
    intro k v h
    have := Avl.spec_length (o := o) xs (.put k v)
    simpa [Avl.spec, h] using this
  have fil : ∀ p : K × V → Bool, (xs.filter p).length ≤ xs.length + 1 := fun p =>
    Nat.le_succ_of_le (List.length_filter_le _ _)
  cases op <;> simp only [spec] <;> (repeat' split) <;> simp_all
  all_goals grind

/-- Calls that are legal in every state, few enough for the limit on the size. -/
theorem legal_sublist {os : List (Op K V)} (h : ∀ op ∈ os, ∀ xs : List (K × V), legal cmp xs op) :
    ∀ os', os'.Sublist os → ∀ xs : List (K × V), xs.length + os'.length ≤ 63 →
      LegalRun (spec (ord cmp)) (legalSmall cmp) xs os'
  | [], _, _, _ => trivial
  | op :: os', hs, xs, hx => ⟨⟨h op (hs.subset List.mem_cons_self) xs, fun _ => by omega⟩,
      legal_sublist h os' ((List.sublist_cons_self _ _).trans hs) _ (by
        have := spec_length (o := ord cmp) xs op
        simp only [List.length_cons] at hx
        omega)⟩

/-- Inserts, searches and cuts, some of them ended by a panic. -/
def stopDemo : List (Op Int Nat × Bad) :=
  [(.put 2 20, calm), (.put 1 10, calm), (.put 3 30, badAt 0 1), (.put 3 31, calm),
    (.remove 3, badAt 0 3), (.removeRange 1 2, badAt 3 2), (.trim 3 2, badAt 0 0), (.set 3 32, badAt 0 3),
    (.indexOf 3, badAt 0 2), (.get 3, badAt 0 3), (.slices, calm)]

/-- `stopDemo` meets the hypotheses of `C107_list_partial`; seven of its calls are ended by a panic. -/
example : (∀ x ∈ stopDemo, Careful x) ∧
    (∀ os', os'.Sublist (stopDemo.map (·.1)) →
      LegalRun (spec (ord Compare.any)) (legalSmall Compare.any) [] os') ∧
    (runStop (fun b s => stepB b Compare.any s) (PList.new (0, 0)) stopDemo).map (·.2) =
      some [some (.bool true), some (.bool true), none, some (.bool true), none, none, none, none,
        some (.int 2), none, some (.list [(1, 10), (2, 20), (3, 31)])] := by
  refine ⟨?_, fun os' h => legal_sublist ?_ os' h [] ?_, rfl⟩
  · simp [stopDemo, Careful, badAt]
  · simp [stopDemo, legal, IndexTree.any_uniform]
    exact fun _ h => absurd (by decide) h
  · have := h.length_le
    simp [stopDemo] at this ⊢
    omega

/-- Seven entries in a tree of three levels. -/
def seven : List (Op Int Nat × Bad) :=
  [4, 2, 6, 1, 3, 5, 7].map fun (k : Int) => (.put k k.toNat, calm)

/-- C107 fails for `RemoveRange`: the lower bound is cut, then the comparator panics while the upper bound
is. `Get` and `Slices` have lost the entry 3, `Size` and the walk along the links still have it. -/
theorem C107_removeRange_spoils :
    (runStop (fun b s => stepB b Compare.any s) (PList.new (0, 0))
      (seven ++ [(.removeRange 3 6, badAt 4 3), (.size, calm), (.get 3, calm), (.slices, calm),
        (.forward, calm)])).map
        (fun p => p.2.drop 7) =
      some [none, some (.int 7), some (.found none),
        some (.list [(1, 1), (2, 2), (4, 4), (5, 5), (6, 6), (7, 7)]),
        some (.list [(1, 1), (2, 2), (3, 3), (4, 4), (5, 5), (6, 6), (7, 7)])] := rfl

/-- C107 fails for `Trim`: the entries below the lower bound are gone from the tree, those above the upper
bound are still there, and the walk along the links has them all. -/
theorem C107_trim_spoils :
    (runStop (fun b s => stepB b Compare.any s) (PList.new (0, 0))
      (seven ++ [(.trim 2 5, badAt 4 1), (.size, calm), (.get 1, calm), (.forward, calm)])).map
        (fun p => p.2.drop 7) =
      some [none, some (.int 6), some (.found none),
        some (.list [(1, 1), (2, 2), (3, 3), (4, 4), (5, 5), (6, 6), (7, 7)])] := rfl

end Verif.ListHeap
