import Verif.Tree.AvlShallow
import Verif.Tree.StopProps
import Verif.Tree.ExperIterProps
import Verif.Tree.ThresholdProps

/-! C101 and C107 without a limit on the number of calls or entries. -/

namespace Verif.AvlHeap

open Avl (Op Res spec ord)
variable {K V : Type} {cmp : K → K → Int}

/-- C107 for tree/avl and set/treeset, any threshold and any number of calls in which the comparator may panic: the calls not
ended by such a panic answer as the ideal sorted map that is asked only these, and the nodes form a tree, as long as no call
fails by itself. Missing: that none does, see `C107_avl` and `C25_map_panics`. -/
theorem C107_answers_partial (hc : LawfulEx cmp) (one : Bool) (d : Int) (zero : V) (junk : K × V)
    (os : List (Op K V × Bad)) (ha : ∀ o ∈ os, o.1.abstract = true) {s : PMap K V} {rs : List (Option (Res K V))}
    (h : runStop (fun b s => stepB b cmp one d zero s) (PMap.new junk) os = some (s, rs)) :
    Justified Bad.some os rs ∧ rs.filterMap id = (runSpec (spec (ord cmp)) [] (survived os rs)).2 ∧ IsTree s := by
  obtain ⟨h1, h2⟩ := C107_no_trace cmp one d zero junk os h
  refine ⟨h1, ?_, C87_nodes_form_tree cmp one d zero junk _ h2⟩
  have h3 := C87_same_answers cmp one d zero junk (survived os rs)
  rw [h2] at h3
  cases h4 : run (Avl.step cmp one d) Avl.Map.new (survived os rs) with
  | none => rw [h4] at h3; cases h3
  | some p =>
    rw [h4] at h3
    simp only [Option.map_some, Option.some.injEq] at h3
    rw [h3]
    refine Avl.C108_map_answers hc one d _ (fun o ho => ?_) (m := p.1) h4
    obtain ⟨q, hq, rfl⟩ := List.mem_map.1 ((survived_sublist os rs).subset ho)
    exact ha q hq

example : ∃ s rs, runStop (fun b s => stepB b Compare.anyEx false 1 0 s) (PMap.new (0, 0)) stopDemo = some (s, rs) ∧
    rs.filterMap id = (runSpec (spec (ord Compare.anyEx)) [] (survived stopDemo rs)).2 ∧ IsTree s := by
  obtain ⟨s, rs, h, -⟩ := C107_avl Avl.anyEx_lawful (d := 1) (by decide) (by decide) 0 (0, 0) stopDemo (by decide) (by decide)
  exact ⟨s, rs, h, (C107_answers_partial Avl.anyEx_lawful false 1 0 (0, 0) stopDemo (by decide) h).2⟩

end Verif.AvlHeap

namespace Verif.AvlsHeap

open AvlHeap
open Avl (Res ord)
open Avls (Op spec)
variable {K V : Type} {cmp : K → K → Int}

/-- C107 for tree/avls, any threshold and any number of calls, as long as no call fails by itself. Missing: that none does, see
`C107_avls` for the default threshold. -/
theorem C107_answers_partial (hc : LawfulEx cmp) (d : Int) (zero : V) (junk : K × V)
    (os : List (Op K V × Bad)) (ha : ∀ o ∈ os, o.1.abstract = true) {s : PMap K V} {rs : List (Option (Res K V))}
    (h : runStop (fun b s => stepB b cmp d zero s) (PMap.new junk) os = some (s, rs)) :
    Justified Bad.some os rs ∧ rs.filterMap id = (runSpec (spec (ord cmp)) [] (survived os rs)).2 ∧ IsTree s := by
  obtain ⟨h1, h2⟩ := C107_no_trace cmp d zero junk os h
  refine ⟨h1, C95_answers_right hc d zero junk _ (fun o ho => ?_) h2, C95_nodes_form_tree cmp d zero junk _ h2⟩
  obtain ⟨q, hq, rfl⟩ := List.mem_map.1 ((survived_sublist os rs).subset ho)
  exact ha q hq

/-- With threshold 4, which `C107_avls` does not cover. -/
example : (∀ o ∈ stopDemo, o.1.abstract = true) ∧
    (runStop (fun b s => stepB b Compare.anyEx 4 0 s) (PMap.new (0, 0)) stopDemo).isSome = true :=
  ⟨by decide, rfl⟩

end Verif.AvlsHeap

namespace Verif.Exper.AvlLike

open Tree
open Avl (Map T IOp IRes Iter istep ispec ilegal)

variable {K V : Type} {cmp : K → K → Int}

/-- C101, walks, for trees of any size, as long as `Height()` is at most 126 before each call (the calls that do not search are
those of tree/avl with the arguments of the comparator exchanged). Missing: trees after a call at height 127, and the seeks
for a key. -/
theorem C101_walk_shallow_partial (hc : Lawful cmp) {d : Int} (h1 : 1 ≤ d) (h2 : d ≤ 127) (os : List (Avl.Op K V))
    (hs : ∀ op ∈ os, noSearch op = true) (hn : Avl.Shallow (flip cmp) d os) {m : Map K V} {rs : List (Avl.Res K V)}
    (h : run (step cmp d) Map.new os = some (m, rs)) (ops : List (IOp K)) (hw : ∀ op ∈ ops, walks op = true)
    (hl : LegalRun (ispec (rord cmp) false (runSpec (Avl.spec (rord cmp)) [] os).1)
      (ilegal (runSpec (Avl.spec (rord cmp)) [] os).1) none ops) :
    ∃ it it', m.iterator = some it ∧ run (istep cmp false m.root) it ops =
      some (it', (runSpec (ispec (rord cmp) false (runSpec (Avl.spec (rord cmp)) [] os).1) none ops).2) := by
  rw [run_eq d os _ hs] at h
  rw [← ord_flip hc] at hl ⊢
  obtain ⟨it, it', e1, e2, -⟩ := Avl.C28_iterator_partial (flip_lawful hc) h1 h2 hn h rfl ops hl
  exact ⟨it, it', e1, by rw [run_walks (c' := flip cmp) ops it hw, e2]⟩

/-- 130 entries are more than `C101_walk_partial` allows. -/
example : Avl.Shallow (flip (Compare.any : Int → Int → Int)) 1 Avl.many ∧ (∀ op ∈ Avl.many, noSearch op = true) :=
  ⟨Avl.shallow_of_test (m₀ := Map.new) (by decide +kernel), by decide +kernel⟩

end Verif.Exper.AvlLike
