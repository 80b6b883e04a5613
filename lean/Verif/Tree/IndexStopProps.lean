import Verif.Tree.IndexStop
import Verif.Tree.IndexHeapProps

/-! C107 for tree/indextree: where a panic of the comparator leaves no trace, and where it does. -/

namespace Verif.IndexHeap
open Verif.IndexTree (limit goesLeft Op Res spec legal)
open Verif.Size (ord)
open Verif.Out
variable {K V W : Type} {cmp : K → K → Int}

theorem put_stop {bad : Nat → Bool} {root : Nat} {bal : Bool} {lim : Nat → Option (Int × Int)}
    {write : K × V → K × V} {fresh : Nat} {key : K} {val : V} {rounds : Nat} {m : Mem K V} :
    ∀ (n cur : Nat), Same m (∃ a, bad a = true)
      (putLoopB bad root bal lim cmp write fresh key val rounds n m cur)
      (putLoop root bal lim cmp write fresh key val rounds n m cur)
  | 0, _ => .inr rfl
  | n + 1, cur => by
    rw [putLoopB, putLoop]
    refine same_if (fun h => ⟨_, h⟩) ?_
    dsimp only
    split
    · cases (m cur).lo with
      | none => exact .of _
      | some b => exact put_stop n b
    · split
      · cases (m cur).hi with
        | none => exact .of _
        | some b => exact put_stop n b
      · exact same_done _

theorem get_stop {bad : Nat → Bool} {m : Mem K V} {key : K} : ∀ (n : Nat) (p : Option Nat),
    Same m (∃ a, bad a = true) (getNodeB bad cmp m key n p) (getNode cmp m key n p)
  | 0, _ => .inr rfl
  | _ + 1, none => .inr rfl
  | n + 1, some cur => by
    rw [getNodeB, getNode]
    refine same_if (fun h => ⟨_, h⟩) ?_
    dsimp only
    split
    · exact get_stop n _
    · split
      · exact get_stop n _
      · exact same_done _

theorem indexOf_stop {bad : Nat → Bool} {m : Mem K V} {key : K} : ∀ (n cur : Nat) (off : Int),
    Same m (∃ a, bad a = true) (indexOfLoopB bad cmp m key n cur off) (indexOfLoop cmp m key n cur off)
  | 0, _, _ => .inr rfl
  | n + 1, cur, off => by
    rw [indexOfLoopB, indexOfLoop]
    refine same_if (fun h => ⟨_, h⟩) ?_
    dsimp only
    split
    · cases (m cur).lo with
      | none => exact same_done _
      | some b => exact indexOf_stop n b _
    · split
      · cases (m cur).hi with
        | none => exact same_done _
        | some b => exact indexOf_stop n b _
      · exact same_done _

theorem root_stop {bad1 bad2 : Nat → Bool} {m : Mem K V} {low high : K} : ∀ (n : Nat) (p : Option Nat),
    Same m ((∃ a, bad1 a = true) ∨ ∃ a, bad2 a = true) (getRangeRootB bad1 bad2 cmp m low high n p)
      (getRangeRoot cmp m low high n p)
  | 0, _ => .inr rfl
  | _ + 1, none => .inr rfl
  | n + 1, some cur => by
    rw [getRangeRootB, getRangeRoot]
    refine same_if (fun h => .inl ⟨_, h⟩) (same_if (fun h => .inr ⟨_, h⟩) ?_)
    dsimp only
    split
    · exact same_done _
    · split
      · exact root_stop n _
      · split
        · exact root_stop n _
        · exact same_done _

theorem cut_stop {bad : Nat → Bool} {bound : K} {c : Bool} {m : Mem K V} : ∀ (n : Nat) (p : Option Nat),
    Same m (∃ a, bad a = true) (cutB bad cmp bound c n m p) (cut cmp bound c n m p)
  | 0, _ => .inr rfl
  | _ + 1, none => .inr rfl
  | n + 1, some a => by
    rw [cutB, cut]
    refine same_if (fun h => ⟨_, h⟩) ?_
    dsimp only
    by_cases h : (if c then cmp bound (m a).key > 0 else cmp bound (m a).key < 0)
    · rw [if_pos h, if_pos h]; exact (cut_stop n _).map _
    · rw [if_neg h, if_neg h]; exact cut_stop n _

theorem trimRec_stop {bad : Nat → Bool} {bound : K} {c : Bool} {m : Mem K V} : ∀ (n : Nat) (p : Option Nat),
    Same m (∃ a, bad a = true) (trimRecB bad cmp bound c n m p) (trimRec cmp bound c n m p)
  | 0, _ => .inr rfl
  | _ + 1, none => .inr rfl
  | n + 1, some a => by
    rw [trimRecB, trimRec]
    refine same_if (fun h => ⟨_, h⟩) ?_
    dsimp only
    by_cases h : (if c then cmp bound (m a).key < 0 else cmp bound (m a).key > 0)
    · rw [if_pos h, if_pos h]; exact trimRec_stop n _
    · rw [if_neg h, if_neg h]
      by_cases h : (if c then cmp bound (m a).key > 0 else cmp bound (m a).key < 0)
      · rw [if_pos h, if_pos h]; exact (trimRec_stop n _).map _
      · rw [if_neg h, if_neg h]; exact same_done _

theorem splitFind_stop {bad : Nat → Bool} {incl : Bool} {key : K} {m : Mem K V} :
    ∀ (n : Nat) (p l r : Option Nat),
    Same m (∃ a, bad a = true) (splitFindB cmp incl key bad m n p l r) (splitFind cmp incl key m n p l r)
  | 0, _, _, _ => .inr rfl
  | _ + 1, none, _, _ => .inr rfl
  | n + 1, some a, l, r => by
    rw [splitFindB, splitFind]
    refine same_if (fun h => ⟨_, h⟩) ?_
    split
    · split
      · exact same_done _
      · exact splitFind_stop n _ _ _
    · split
      · exact same_done _
      · exact splitFind_stop n _ _ _

theorem splitRec_quiet {bad : Nat → Bool} (hb : ∀ a, bad a = false) {incl : Bool} {key : K} :
    ∀ (n : Nat) (m : Mem K V) (p : Option Nat) (l r : Nat),
    splitRecB cmp incl key bad n m p l r = .of (splitRec cmp incl key n m p l r)
  | 0, _, _, _, _ => rfl
  | _ + 1, _, none, _, _ => rfl
  | n + 1, m, some a, l, r => by
    have hm : ∀ (f : Mem K V → Mem K V) (x : Option (Mem K V)),
        (Out.of x : Out (Mem K V) (Mem K V)).map f = Out.of (x.map f) := by
      intro f x; cases x <;> rfl
    rw [splitRecB, splitRec, hb a]
    simp only [Bool.false_eq_true, if_false]
    split
    · rw [splitRec_quiet hb n]; exact hm _ _
    · split
      · rw [splitRec_quiet hb n]; exact hm _ _
      · split <;> rfl

/-- The calls that a panic of the comparator never spoils half-way: all but `RemoveRange` and `Trim`
while the upper bound is cut, and `Split` after its first search. -/
def Careful : Op K W × Bad → Prop
  | (.removeRange _ _, b) => ∀ a, b 4 a = false
  | (.trim _ _, b) => ∀ a, b 4 a = false
  | (.split _ _ _, b) => ∀ a, b 1 a = false
  | _ => True

variable {bad : Bad} {shift : Nat} {junk : K × Option W} {s : PTree K (Option W)}

theorem Same.quiet {S α : Type} {s s' : S} {P : Prop} {x : Out S α} {y : Option α} (h : Same s' P x y)
    (hp : ¬ P) {Q : Prop} : Same s Q x y := h.elim (fun h => absurd h.2 hp) .inr

theorem putWith_stop (i : Nat) (w : K × Option W → K × Option W) (k : K) (v : Option W) :
    Same s bad.some (s.putWithB bad shift cmp i w k v) (s.putWith shift cmp w k v) := by
  unfold PTree.putWithB PTree.putWith
  cases s.top with
  | none => exact same_done _
  | some cur => exact (((put_stop _ _).lift s.at).mono fun ⟨a, h⟩ => ⟨i, a, h⟩).map _

theorem remove_stop (i : Nat) (k : K) :
    Same s bad.some (s.removeB bad cmp i k) (s.remove cmp k) := by
  refine (((get_stop _ _).lift s.at).mono fun ⟨a, h⟩ => ⟨i, a, h⟩).bind fun o _ => ?_
  cases o with
  | none => exact same_done _
  | some cur => exact .of _

theorem removeRange_stop {root n : Nat} {m : Mem K V} {low high : K} (hb : ∀ a, bad 4 a = false) :
    Same m bad.some (removeRangeB bad root cmp n m low high) (removeRange root cmp n m low high) := by
  refine ((root_stop _ _).mono fun h => h.elim (fun ⟨a, h⟩ => ⟨1, a, h⟩) fun ⟨a, h⟩ => ⟨2, a, h⟩).bind
    fun o _ => ?_
  cases o with
  | none => exact same_done _
  | some rt =>
    refine ((cut_stop _ _).mono fun ⟨a, h⟩ => ⟨3, a, h⟩).bind fun p _ => ?_
    exact (Same.quiet (cut_stop _ _) (by simp [hb])).bind fun q _ => .of _

theorem trim_stop {root n : Nat} {m : Mem K V} {low high : K} (hb : ∀ a, bad 4 a = false) :
    Same m bad.some (trimB bad cmp root n m low high) (trim cmp root n m low high) := by
  refine ((root_stop _ _).mono fun h => h.elim (fun ⟨a, h⟩ => ⟨1, a, h⟩) fun ⟨a, h⟩ => ⟨2, a, h⟩).bind
    fun o _ => ?_
  refine ((trimRec_stop _ _).mono fun ⟨a, h⟩ => ⟨3, a, h⟩).bind fun p _ => ?_
  exact (Same.quiet (trimRec_stop _ _) (by simp [hb])).map _

theorem split_stop {incl : Bool} {key : K} {junk : K × V} {root fresh n : Nat} {m : Mem K V}
    (hb : ∀ a, bad 1 a = false) :
    Same (m, fresh) bad.some (splitB cmp incl key bad junk root fresh n m)
      (split cmp incl key junk root fresh n m) := by
  unfold splitB split
  cases (m root).lo with
  | none => exact same_done _
  | some top =>
    refine (((splitFind_stop _ _ _ _).lift (·, fresh)).mono fun ⟨a, h⟩ => ⟨0, a, h⟩).bind fun q _ => ?_
    match q with
    | (_, none, _) => exact same_done _
    | (_, some _, none) => exact same_done _
    | (cur, some l, some r) =>
      dsimp only
      rw [splitRec_quiet hb]
      refine Same.bind ?_ fun m _ => .of _
      generalize splitRec cmp incl key n _ cur l r = y
      cases y <;> exact .inr rfl

theorem stepB_stop (op : Op K W) (hq : Careful (op, bad)) :
    Same s bad.some (stepB bad shift cmp junk s op) (step shift cmp junk s op) := by
  have hp : ∀ i k v, Same s bad.some (s.putB bad shift cmp i k v) (s.put shift cmp k v) :=
    fun i k v => (putWith_stop i _ k v).map _
  have hg : ∀ k, Same s bad.some ((getNodeB (bad 0) cmp s.mem k s.free s.top).lift s.at)
      (getNode cmp s.mem k s.free s.top) :=
    fun k => ((get_stop _ _).lift s.at).mono fun ⟨a, h⟩ => ⟨0, a, h⟩
  cases op with
  | put k v => exact (hp 0 k v).map _
  | insertIfAbsent k v => exact (hp 0 k v).map _
  | set k v => exact (putWith_stop 0 _ k v).map _
  | upsert k v =>
    refine (hg k).bind fun e _ => ?_
    cases e with
    | some cur => exact same_done _
    | none => exact (hp 1 k v).map _
  | get k => exact (hg k).map _
  | remove k => exact (remove_stop 0 k).map _
  | delete k => exact (remove_stop 0 k).map _
  | indexOf k =>
    rw [stepB, step]
    cases s.top with
    | none => exact same_done _
    | some cur => exact (((indexOf_stop _ _ _).lift s.at).mono fun ⟨a, h⟩ => ⟨0, a, h⟩).map _
  | removeRange low high =>
    rw [stepB, step]
    refine same_if (fun h => ⟨_, _, h⟩) ?_
    dsimp only
    split
    · exact same_done _
    · split
      · exact (remove_stop 1 low).map _
      · exact ((removeRange_stop hq).lift s.at).map _
  | trim low high =>
    rw [stepB, step]
    refine same_if (fun h => ⟨_, _, h⟩) ?_
    split
    · exact same_done _
    · exact ((trim_stop hq).lift s.at).map _
  | split key incl other =>
    exact ((split_stop hq).lift fun q => (⟨q.1, q.2, s.root⟩ : PTree K (Option W))).bind fun p _ => .of _
  | _ => exact .inr rfl

/-- C107 for tree/indextree with any comparison: in a history of careful calls, the calls that were not
ended by a panic of the comparator leave the same nodes and answer the same as if the other calls had never
been made. Missing from the full statement: the calls that are not careful, for which it is false, see
`C107_removeRange_spoils`, `C107_trim_spoils` and `C107_split_spoils`. -/
theorem C107_no_trace_partial (cmp : K → K → Int) (shift : Nat) (junk : K × Option W)
    (os : List (Op K W × Bad)) (hq : ∀ x ∈ os, Careful x) {s : PTree K (Option W)}
    {rs : List (Option (Res K W))}
    (h : runStop (fun b s => stepB b shift cmp junk s) (PTree.new junk) os = some (s, rs)) :
    Justified Bad.some os rs ∧
      run (step shift cmp junk) (PTree.new junk) (survived os rs) = some (s, rs.filterMap id) :=
  runStop_trace (P := Bad.some) (fun _ _ o h => stepB_stop o h) os hq _ _ _ h

/-- C107 for tree/indextree: no careful call fails other than by a panic of the comparator, and the answers
are those of the ideal sorted map that is asked only the other calls. -/
theorem C107_index_partial (hc : Lawful cmp) (shift : Nat) (junk : K × Option W)
    (os : List (Op K W × Bad)) (hq : ∀ x ∈ os, Careful x)
    (hl : ∀ os', os'.Sublist (os.map (·.1)) → LegalRun (spec (ord cmp)) (legal cmp) [] os') :
    ∃ s rs, runStop (fun b s => stepB b shift cmp junk s) (PTree.new junk) os = some (s, rs) ∧
      Justified Bad.some os rs ∧
      rs.filterMap id = (runSpec (spec (ord cmp)) [] (survived os rs)).2 ∧ IsTree s.mem s.root := by
  have ht : ∀ os' : List (Op K W), os'.Sublist (os.map (·.1)) →
      ∃ s, run (step shift cmp junk) (PTree.new junk) os' =
        some (s, (runSpec (spec (ord cmp)) [] os').2) ∧ IsTree s.mem s.root := by
    intro os' hs
    obtain ⟨t, h⟩ := IndexTree.C37_sorted_map_partial hc shift os' (hl os' hs)
    exact C89_same_answers cmp shift junk os' h
  obtain ⟨s, rs, g1, g2, g3⟩ := runStop_ok (stepB := fun b s => stepB b shift cmp junk s)
    (step := step shift cmp junk) (fun _ _ o h => stepB_stop o h) os hq (PTree.new junk)
    fun os' hs => by obtain ⟨s, h, -⟩ := ht os' hs; rw [h]; rfl
  obtain ⟨s', g4, g5⟩ := ht _ (survived_sublist os rs)
  rw [g3, Option.some.injEq, Prod.mk.injEq] at g4
  obtain ⟨rfl, g6⟩ := g4
  exact ⟨s, rs, g1, g2, g6, g5⟩

/-- The comparator panics in the search number `i` at the node `a`. -/
def badAt (i a : Nat) : Bad := fun j b => j == i && b == a

def calm : Bad := fun _ _ => false

def stopDemo : List (Op Int Nat × Bad) :=
  [(.put 2 (some 20), calm), (.put 1 (some 10), calm), (.put 3 (some 30), badAt 0 1),
    (.put 3 (some 31), calm), (.remove 3, badAt 0 3), (.removeRange 1 2, badAt 3 2),
    (.trim 2 3, badAt 1 1), (.split 2 false false, badAt 0 1), (.upsert 4 (some 40), badAt 1 3),
    (.indexOf 3, badAt 0 2), (.get 3, badAt 0 3), (.values, calm)]

theorem legal_sublist {os : List (Op K W)}
    (h : ∀ op ∈ os, ∀ xs : List (K × Option W), legal cmp xs op) :
    ∀ os', os'.Sublist os → ∀ xs, LegalRun (spec (ord cmp)) (legal cmp) xs os'
  | [], _, _ => trivial
  | op :: os', hs, xs => ⟨h op (hs.subset List.mem_cons_self) xs,
      legal_sublist h os' ((List.sublist_cons_self _ _).trans hs) _⟩

/-- `stopDemo` meets the hypotheses of `C107_index_partial`; seven of its calls are ended by a panic, among them
`RemoveRange`, `Trim`, `Split` and the second search of `Upsert`. -/
example : (∀ x ∈ stopDemo, Careful x) ∧
    (∀ os', os'.Sublist (stopDemo.map (·.1)) →
      LegalRun (spec (ord Compare.any)) (legal Compare.any) [] os') ∧
    (runStop (fun b s => stepB b 2 Compare.any (0, none) s) (PTree.new (0, none)) stopDemo).map (·.2) =
      some [some (.bool true), some (.bool true), none, some (.bool true), none, none, none, none, none,
        some (.int 2), none, some (.list [some 10, some 20, some 31])] := by
  refine ⟨?_, fun os' h => legal_sublist ?_ os' h [], rfl⟩
  · simp [stopDemo, Careful, badAt]
  · simp [stopDemo, legal, IndexTree.any_uniform]

/-- Seven entries in a tree of three levels. -/
def seven : List (Op Int Nat × Bad) :=
  [4, 2, 6, 1, 3, 5, 7].map fun (k : Int) => (.put k (some k.toNat), calm)

/-- C107 fails for `RemoveRange`: the lower bound is cut, then the comparator panics while the upper bound
is. The tree has lost the entry 3, and `Size` still counts it. -/
theorem C107_removeRange_spoils :
    (runStop (fun b s => stepB b 2 Compare.any (0, none) s) (PTree.new (0, none))
      (seven ++ [(.removeRange 3 6, badAt 4 3), (.size, calm), (.values, calm)])).map
        (fun p => p.2.drop 7) =
      some [none, some (.int 7), some (.list [some 1, some 2, some 4, some 5, some 6, some 7])] := rfl

/-- C107 fails for `Trim`: the entries below the lower bound are gone, those above the upper bound are
still there. -/
theorem C107_trim_spoils :
    (runStop (fun b s => stepB b 2 Compare.any (0, none) s) (PTree.new (0, none))
      (seven ++ [(.trim 2 5, badAt 4 1), (.size, calm), (.values, calm)])).map
        (fun p => p.2.drop 7) =
      some [none, some (.int 6), some (.list [some 2, some 3, some 4, some 5, some 6, some 7])] := rfl

/-- C107 fails for `Split`: five of the seven entries are lost, the tree with the greater keys is never
returned, and `Size` is wrong. -/
theorem C107_split_spoils :
    (runStop (fun b s => stepB b 2 Compare.any (0, none) s) (PTree.new (0, none))
      (seven ++ [(.split 3 false false, badAt 1 5), (.size, calm), (.values, calm)])).map
        (fun p => p.2.drop 7) =
      some [none, some (.int 3), some (.list [some 1, some 2])] := rfl

end Verif.IndexHeap
