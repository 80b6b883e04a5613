import Verif.Tree.ListHeapForest
import Verif.Tree.IndexHeapProps

/-! The pointer program of tree/treelist: properties C92. -/

namespace Verif.ListHeap
open Verif.IndexHeap (Mem Cell IsTree Sizes Reaches follow cells Has)
open Verif.DLL Verif.Tree Verif.Size
open Verif.AvlHeap (P ptr addrs erase)
open Verif.TreeList (TL Op Res SetOp Rel spec strip legal legalSmall)
open Verif.IndexTree (any_lawful any_uniform)
variable {K V : Type} {cmp : K → K → Int}

/-! ### The specification -/

/-- The links `Direct` run through the nodes below `root`, in the order of the entries `xs`: those of the
node `root` lead to the first and the last node, those of every other node to its neighbours. -/
def Linked (m : Mem K V) (d : Dir) (root : Nat) (xs : List (K × V)) : Prop :=
  ∃ ns : List Nat, (∀ a, a ∈ ns ↔ Reaches m root a) ∧ (ns.map fun a => ((m a).key, (m a).val)) = xs ∧
    d root = (ns.head?, ns.getLast?) ∧ ∀ as a bs, ns = as ++ a :: bs → d a = (as.getLast?, bs.head?)

/-! ### Lemmas -/

theorem gh_follow {m : Mem K V} : ∀ (π : List Bool) (p : Option Nat), follow (gh m) p π = follow m p π
  | [], p => by cases p <;> rfl
  | c :: cs, p => by
    cases p with
    | none => rfl
    | some a => exact gh_follow cs _

theorem gh_reaches {m : Mem K V} {root a : Nat} : Reaches (gh m) root a ↔ Reaches m root a := by
  simp only [Reaches, gh_follow, gh_lo]

theorem gh_isTree {m : Mem K V} {root : Nat} (h : IsTree (gh m) root) : IsTree m root := by
  obtain ⟨h1, h2, h3, h4, h5, h6⟩ := h
  simp only [gh_follow, gh_reaches, gh_lo, gh_hi, gh_parent] at h1 h2 h3 h4 h5 h6
  exact ⟨h1, h2, h3, h4, h5, h6⟩

theorem gh_sizes {m : Mem K V} {root : Nat} (h : Sizes (gh m) root) : Sizes m root := by
  simp only [Sizes, gh_follow, gh_reaches, gh_size] at h
  exact h

theorem gh_checkRec {m : Mem K V} : ∀ (n : Nat) (p : Option Nat),
    IndexHeap.checkRec (gh m) n p = IndexHeap.checkRec m n p
  | 0, _ => rfl
  | _ + 1, none => rfl
  | n + 1, some a => by
    simp only [IndexHeap.checkRec, gh_lo, gh_hi, gh_size, gh_getSize, gh_parent, gh_checkRec n]
    rfl

theorem gh_check {m : Mem K V} {root n : Nat} : IndexHeap.check (gh m) root n = IndexHeap.check m root n := by
  simp only [IndexHeap.check, gh_lo, gh_parent, gh_checkRec]

theorem Holds.linked {s : PList K V} {t : P K (Nat × V)} {zs : List (TreeList.Ent K V)} (h : Holds cmp s t zs) :
    Linked s.mem s.dir s.root (zs.map strip) := by
  have ht := h.good.thread
  refine ⟨TreeList.addrs zs, fun a => ?_, ?_, Prod.ext ht.head ht.tail, ?_⟩
  · rw [h.mem, ← gh_reaches, h.one.reaches]
  · simp only [TreeList.addrs, List.map_map]
    exact List.map_congr_left fun e he => h.good.vals e he
  · intro as a bs e
    have hs := ht.seg
    rw [e, TreeList.seg_append] at hs
    obtain ⟨-, h1, h2, -⟩ := hs
    rw [Option.or_none] at h1 h2
    exact Prod.ext h1 h2

theorem fstep_partial (hc : Lawful cmp) {junk : K × V} {s s' : Forest K V} {xss : List (List (K × V))}
    {c : Call K V} {r : CallRes K V} (hl : flegal (legal cmp) xss c) (h : FRel cmp s xss)
    (hs : fstep cmp junk s c = some (s', r)) :
    r = (fspec (ord cmp) xss c).2 ∧ FRel cmp s' (fspec (ord cmp) xss c).1 := by
  rcases fstep_ok hc hl h with ⟨h1, -⟩ | ⟨s1, h1, h2⟩
  · rw [h1] at hs; cases hs
  · rw [h1] at hs
    cases hs
    exact ⟨rfl, h2⟩

theorem fstep_small (hc : Lawful cmp) {junk : K × V} {s : Forest K V} {xss : List (List (K × V))}
    {c : Call K V} (hl : flegal (legalSmall cmp) xss c) (h : FRel cmp s xss) :
    ∃ s', fstep cmp junk s c = some (s', (fspec (ord cmp) xss c).2) ∧ FRel cmp s' (fspec (ord cmp) xss c).1 := by
  have hl' : flegal (legal cmp) xss c := by
    cases c with
    | new => trivial
    | on i op => obtain ⟨xs, h1, h2⟩ := hl; exact ⟨xs, h1, h2.1⟩
    | merge => exact hl
  rcases fstep_ok (junk := junk) hc hl' h with ⟨-, i, op, xs, rfl, h2, h3, h4⟩ | h1
  · obtain ⟨xs', h5, h6⟩ := hl
    rw [h3] at h5
    cases h5
    have := h6.2 h2
    omega
  · exact h1

/-! ### C92 -/

/-- C92: a program with several lists, all methods, and set operations whose results are used as further
lists: whatever it answers, the program on pointers answers as independent ideal sorted maps. Missing from
the full statement: the calls of C46 and C47 for which the code is wrong, and that no program panics. -/
theorem C92_answers_partial (hc : Lawful cmp) (junk : K × V) (cs : List (Call K V))
    (hl : LegalRun (fspec (ord cmp)) (flegal (legal cmp)) [] cs) (s : Forest K V) (rs : List (CallRes K V))
    (h : run (fstep cmp junk) (Forest.empty junk) cs = some (s, rs)) :
    rs = (runSpec (fspec (ord cmp)) [] cs).2 :=
  (run_partial_legal (step := fstep cmp junk) (spec := fspec (ord cmp)) (FRel cmp)
    (fun _ _ _ _ _ h1 h2 h3 => fstep_partial hc h1 h2 h3) cs _ _ _ _ hl FRel.empty h).1

/-- C92: no such program panics or follows a nil pointer that inserts only into lists with at most 63
entries (results of set operations may have any number of them). -/
theorem C92_small_partial (hc : Lawful cmp) (junk : K × V) (cs : List (Call K V))
    (hl : LegalRun (fspec (ord cmp)) (flegal (legalSmall cmp)) [] cs) :
    ∃ s, run (fstep cmp junk) (Forest.empty junk) cs = some (s, (runSpec (fspec (ord cmp)) [] cs).2) := by
  obtain ⟨s, h, -⟩ := run_refines_legal (step := fstep cmp junk) (spec := fspec (ord cmp)) (FRel cmp)
    (fun _ _ _ h1 h2 => fstep_small hc h1 h2) cs _ _ hl FRel.empty
  exact ⟨s, h⟩

/-- C92: after any such program every list is a tree with right parents and sizes, the method `check`
accepts it, the links run through its nodes in the order of the entries of its ideal map, walks along the
links and through the tree see them, and no node belongs to two lists. -/
theorem C92_shape_partial (hc : Lawful cmp) (junk : K × V) (cs : List (Call K V))
    (hl : LegalRun (fspec (ord cmp)) (flegal (legal cmp)) [] cs) (s : Forest K V) (rs : List (CallRes K V))
    (h : run (fstep cmp junk) (Forest.empty junk) cs = some (s, rs)) :
    s.roots.length = (runSpec (fspec (ord cmp)) [] cs).1.length ∧
    (∀ (i root : Nat) xs, s.roots[i]? = some root → (runSpec (fspec (ord cmp)) [] cs).1[i]? = some xs →
      Sorted (ord cmp) xs ∧ IsTree s.mem root ∧ Sizes s.mem root ∧ IndexHeap.check s.mem root s.free = some true ∧
      Linked s.mem s.dir root xs ∧
      (∃ s', fstep cmp junk s (.on i .forward) = some (s', .of (.list xs))) ∧
      (∃ s', fstep cmp junk s (.on i .backward) = some (s', .of (.list xs.reverse))) ∧
      ∃ s', fstep cmp junk s (.on i .slices) = some (s', .of (.list xs))) ∧
    ∀ i j root root' a : Nat, i ≠ j → s.roots[i]? = some root → s.roots[j]? = some root' →
      root ≠ root' ∧ (Reaches s.mem root a → a ≠ root' ∧ ¬ Reaches s.mem root' a) := by
  have hF := (run_partial_legal (step := fstep cmp junk) (spec := fspec (ord cmp)) (FRel cmp)
    (fun _ _ _ _ _ h1 h2 h3 => fstep_partial hc h1 h2 h3) cs _ _ _ _ hl FRel.empty h).2
  generalize (runSpec (fspec (ord cmp)) [] cs).1 = xss at hF
  obtain ⟨ps, h2, h3, h4⟩ := id hF
  have get : ∀ i root : Nat, s.roots[i]? = some root → ∃ q, ps[i]? = some q ∧ q.1 = root := fun i root h => by
    rw [h2.eq, List.getElem?_map, Option.map_eq_some_iff] at h
    exact h
  refine ⟨by rw [h2.eq, List.length_map, h3], fun i root xs hi hx => ?_, fun i j root root' a hij hi hj => ?_⟩
  · have ask : ∀ op : Op K V, legalSmall cmp xs op →
        ∃ s', fstep cmp junk s (.on i op) = some (s', .of (spec (ord cmp) xs op).2) := fun op ho => by
      obtain ⟨s', g1, -⟩ := fstep_small hc (junk := junk) (c := .on i op) ⟨xs, hx, ho⟩ hF
      refine ⟨s', g1.trans ?_⟩
      simp only [fspec, hx, Option.getD_some]
    obtain ⟨q, hq, rfl⟩ := get i root hi
    obtain ⟨one, below⟩ := h2.one i q hq
    obtain ⟨zs, hG, rfl⟩ := h4 i q xs hq hx
    have holds : Holds cmp (s.at q.1) q.2 zs := ⟨one, below, hG⟩
    exact ⟨TreeList.sorted_strip_iff.2 hG.sorted, gh_isTree one.isTree, gh_sizes (one.sizes hG.exact),
      gh_check.symm.trans (IndexHeap.check_ok one hG.exact (one.fuel below).2), holds.linked,
      ask .forward ⟨trivial, fun h => by cases h⟩, ask .backward ⟨trivial, fun h => by cases h⟩,
      ask .slices ⟨trivial, fun h => by cases h⟩⟩
  · obtain ⟨q, hq, rfl⟩ := get i root hi
    obtain ⟨q', hq', rfl⟩ := get j root' hj
    have ha := h2.apart i j q q' hij hq hq'
    rw [← gh_reaches (root := q.1), ← gh_reaches (root := q'.1), (h2.one i q hq).1.reaches,
      (h2.one j q' hq').1.reaches]
    simp only [cells, List.mem_cons, not_or] at ha
    exact ⟨(ha q.1 (.inl rfl)).1, fun h => ha a (.inr h)⟩

/-- The example: two lists, a range taken out of one of them, three set operations, one of them with itself,
and changes to the lists afterwards. -/
def demo : List (Call Int String) :=
  [.new, .new, .on 0 (.put 3 "c"), .on 0 (.put 1 "a"), .on 0 (.put 2 "b"), .on 0 (.put 5 "e"), .on 0 (.put 4 "d"),
    .on 1 (.put 4 "D"), .on 1 (.put 6 "F"), .on 1 (.put 2 "B"), .on 0 (.removeRange 3 4), .merge .union 0 1,
    .merge .inter 0 1, .merge .diff 2 2, .on 0 (.remove 2), .on 2 (.put 3 "x"), .on 2 .removeHead, .on 2 .backward,
    .on 1 .forward, .on 3 .slices, .on 4 .size, .on 4 (.put 9 "z"), .on 4 .tail, .on 0 .forward]

theorem demo_legal : LegalRun (fspec (ord Compare.any)) (flegal (legalSmall Compare.any)) [] demo :=
  ⟨trivial, trivial, ⟨_, rfl, trivial, by decide⟩, ⟨_, rfl, trivial, by decide⟩, ⟨_, rfl, trivial, by decide⟩,
    ⟨_, rfl, trivial, by decide⟩, ⟨_, rfl, trivial, by decide⟩, ⟨_, rfl, trivial, by decide⟩,
    ⟨_, rfl, trivial, by decide⟩, ⟨_, rfl, trivial, by decide⟩, ⟨_, rfl, any_uniform, by decide⟩,
    (show 0 < 2 ∧ 1 < 2 by decide), (show 0 < 3 ∧ 1 < 3 by decide), (show 2 < 4 ∧ 2 < 4 by decide),
    ⟨_, rfl, trivial, by decide⟩, ⟨_, rfl, trivial, by decide⟩, ⟨_, rfl, trivial, by decide⟩,
    ⟨_, rfl, trivial, by decide⟩, ⟨_, rfl, trivial, by decide⟩, ⟨_, rfl, trivial, by decide⟩,
    ⟨_, rfl, trivial, by decide⟩, ⟨_, rfl, trivial, by decide⟩, ⟨_, rfl, trivial, by decide⟩,
    ⟨_, rfl, trivial, by decide⟩, trivial⟩

/-- What the calls of `demo` answer. -/
def demoResults : List (CallRes Int String) :=
  [.made, .made, .of (.bool true), .of (.bool true), .of (.bool true), .of (.bool true), .of (.bool true),
    .of (.bool true), .of (.bool true), .of (.bool true), .of (.bool true), .made, .made, .made,
    .of (.slice (some (2, "b"))), .of (.bool true), .of (.slice (some (1, "a"))),
    .of (.list [(6, "F"), (5, "e"), (4, "D"), (3, "x"), (2, "b")]), .of (.list [(2, "B"), (4, "D"), (6, "F")]),
    .of (.list [(2, "b")]), .of (.int 0), .of (.bool true), .of (.slice (some (9, "z"))),
    .of (.list [(1, "a"), (5, "e")])]

example : ∃ s, run (fstep Compare.any (0, "")) (Forest.empty (0, "")) demo = some (s, demoResults) := by
  obtain ⟨s, h⟩ := C92_small_partial any_lawful (0, "") demo demo_legal
  exact ⟨s, h.trans rfl⟩

theorem legalRun_mono {xss : List (List (K × V))} {cs : List (Call K V)}
    (h : LegalRun (fspec (ord cmp)) (flegal (legalSmall cmp)) xss cs) :
    LegalRun (fspec (ord cmp)) (flegal (legal cmp)) xss cs := by
  induction cs generalizing xss with
  | nil => trivial
  | cons c cs ih =>
    refine ⟨?_, ih h.2⟩
    cases c with
    | new => trivial
    | on i op => obtain ⟨xs, h1, h2⟩ := h.1; exact ⟨xs, h1, h2.1⟩
    | merge => exact h.1

example : ∃ s rs, run (fstep Compare.any (0, "")) (Forest.empty (0, "")) demo = some (s, rs) ∧ rs = demoResults ∧
    s.roots.length = 5 ∧ ∀ root, s.roots[2]? = some root →
      Linked s.mem s.dir root [(2, "b"), (3, "x"), (4, "D"), (5, "e"), (6, "F")] ∧ Sizes s.mem root := by
  obtain ⟨s, h⟩ := C92_small_partial any_lawful (0, "") demo demo_legal
  obtain ⟨h1, h2, -⟩ := C92_shape_partial any_lawful (0, "") demo (legalRun_mono demo_legal) s _ h
  refine ⟨s, _, h, (C92_answers_partial any_lawful (0, "") demo (legalRun_mono demo_legal) s _ h).trans rfl,
    h1.trans rfl, fun root hr => ?_⟩
  obtain ⟨-, -, g1, -, g2, -⟩ := h2 2 root _ hr rfl
  exact ⟨g2, g1⟩

end Verif.ListHeap
