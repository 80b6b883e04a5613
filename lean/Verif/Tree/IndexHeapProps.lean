import Verif.Tree.IndexHeapForest

/-! The pointer program of tree/indextree: properties C89. -/

namespace Verif.IndexHeap
open Verif.AvlHeap (P ptr addrs erase ptr_nil ptr_node ptr_mem ptr_ne)
open Verif.Tree Verif.Size Verif.IndexTree
variable {K V W : Type} {cmp : K → K → Int}

/-! ### The specification: what can be reached from the root -/

/-- Follow child pointers from `p`: `false` is `Children[0]`, `true` is `Children[1]`. -/
def follow (m : Mem K V) : Option Nat → List Bool → Option Nat
  | none, _ => none
  | some a, [] => some a
  | some a, c :: cs => follow m (if c then (m a).hi else (m a).lo) cs

/-- The nodes of the tree whose field `root` points to the node `root`. -/
def Reaches (m : Mem K V) (root a : Nat) : Prop := ∃ π, follow m (m root).lo π = some a

/-- What can be reached from the node `root` is a tree: no node is reached on two ways (so none is
shared and there is no cycle), the node `root` itself is not reached and has only one child, and the
`Parent` of every node is the node it was reached from. -/
structure IsTree (m : Mem K V) (root : Nat) : Prop where
  once : ∀ π π' a, follow m (m root).lo π = some a → follow m (m root).lo π' = some a → π = π'
  above : ¬ Reaches m root root
  right : (m root).hi = none
  top : ∀ a, (m root).lo = some a → (m a).parent = some root
  left_parent : ∀ a b, Reaches m root a → (m a).lo = some b → (m b).parent = some a
  right_parent : ∀ a b, Reaches m root a → (m a).hi = some b → (m b).parent = some a

/-- The field `Size` of every node is the number of nodes that can be reached from it. -/
def Sizes (m : Mem K V) (root : Nat) : Prop :=
  ∀ a, Reaches m root a → ∃ ns : List Nat, ns.Nodup ∧ (m a).size = ns.length ∧
    ∀ b, b ∈ ns ↔ ∃ π, follow m (some a) π = some b

/-! ### Lemmas -/

theorem follow_none {m : Mem K V} {π : List Bool} : follow m none π = none := by
  cases π <;> rfl

theorem follow_mem {m : Mem K V} : ∀ {q : Nat} {t : P K V}, Rep m q t → ∀ {π a},
    follow m (ptr t) π = some a → a ∈ addrs t
  | _, nil, _, π, a, h => by rw [ptr_nil, follow_none] at h; exact absurd h (by simp)
  | _, .node b k v l r, hR, [], a, h => by
      simp only [ptr_node, follow, Option.some.injEq] at h
      simp [addrs, h]
  | _, .node b k v l r, hR, c :: cs, a, h => by
      obtain ⟨⟨g, hc⟩, hl, hr⟩ := hR
      simp only [ptr_node, follow, hc] at h
      cases c with
      | false => have := follow_mem hl h; simp [addrs, this]
      | true => have := follow_mem hr h; simp [addrs, this]

theorem mem_follow {m : Mem K V} : ∀ {q : Nat} {t : P K V}, Rep m q t → ∀ {a}, a ∈ addrs t →
    ∃ π, follow m (ptr t) π = some a
  | _, nil, _, a, h => by simp [addrs] at h
  | _, .node b k v l r, hR, a, h => by
      obtain ⟨⟨g, hc⟩, hl, hr⟩ := hR
      simp only [addrs, List.mem_append, List.mem_cons] at h
      have hroot : a = b.1 → ∃ π, follow m (ptr (Tree.node b k v l r)) π = some a :=
        fun e => ⟨[], by rw [ptr_node, e]; rfl⟩
      have hleft : a ∈ addrs l → ∃ π, follow m (ptr (Tree.node b k v l r)) π = some a := fun h => by
        obtain ⟨π, hπ⟩ := mem_follow hl h
        exact ⟨false :: π, by simpa [ptr_node, follow, hc] using hπ⟩
      have hright : a ∈ addrs r → ∃ π, follow m (ptr (Tree.node b k v l r)) π = some a := fun h => by
        obtain ⟨π, hπ⟩ := mem_follow hr h
        exact ⟨true :: π, by simpa [ptr_node, follow, hc] using hπ⟩
      grind

theorem follow_inj {m : Mem K V} : ∀ {q : Nat} {t : P K V}, Rep m q t → (addrs t).Nodup → ∀ {π π' a},
    follow m (ptr t) π = some a → follow m (ptr t) π' = some a → π = π'
  | _, nil, _, _, π, π', a, h, _ => by rw [ptr_nil, follow_none] at h; exact absurd h (by simp)
  | _, .node b k v l r, hR, hn, π, π', a, h, h' => by
      obtain ⟨⟨g, hc⟩, hl, hr⟩ := hR
      have e1 : ∀ cs, follow m (m b.1).lo cs = some a → a ∈ addrs l := fun cs h => by
        rw [hc] at h; exact follow_mem hl h
      have e2 : ∀ cs, follow m (m b.1).hi cs = some a → a ∈ addrs r := fun cs h => by
        rw [hc] at h; exact follow_mem hr h
      have i1 : ∀ cs cs', follow m (m b.1).lo cs = some a → follow m (m b.1).lo cs' = some a →
          cs = cs' := fun cs cs' h h' => by
        rw [hc] at h h'; exact follow_inj hl (by simp [addrs] at hn; grind) h h'
      have i2 : ∀ cs cs', follow m (m b.1).hi cs = some a → follow m (m b.1).hi cs' = some a →
          cs = cs' := fun cs cs' h h' => by
        rw [hc] at h h'; exact follow_inj hr (by simp [addrs] at hn; grind) h h'
      simp only [addrs] at hn
      rw [ptr_node] at h h'
      match π, π' with
      | [], [] => rfl
      | [], c :: cs => cases c <;> simp [follow] at h h' <;> grind
      | c :: cs, [] => cases c <;> simp [follow] at h h' <;> grind
      | c :: cs, c' :: cs' => cases c <;> cases c' <;> simp [follow] at h h' <;> grind

theorem ptr_parent {m : Mem K V} {q b : Nat} {t : P K V} (hR : Rep m q t) (h : ptr t = some b) :
    (m b).parent = some q := by
  cases t with
  | nil => cases h
  | node a k v l r =>
    obtain ⟨⟨g, hg⟩, -⟩ := hR
    cases h
    show (m a.1).parent = some q
    rw [hg]

theorem kid_parent {m : Mem K V} : ∀ {q : Nat} {t : P K V}, Rep m q t → ∀ a ∈ addrs t, ∀ b,
    ((m a).lo = some b → (m b).parent = some a) ∧ ((m a).hi = some b → (m b).parent = some a)
  | _, nil, _, a, h, _ => by simp [addrs] at h
  | _, .node x k v l r, hR, a, h, b => by
      obtain ⟨⟨g, hc⟩, hl, hr⟩ := hR
      simp only [addrs, List.mem_append, List.mem_cons] at h
      rcases h with rfl | h | h
      · rw [hc]; exact ⟨ptr_parent hl, ptr_parent hr⟩
      · exact kid_parent hl a h b
      · exact kid_parent hr a h b

theorem length_addrs : ∀ (t : P K V), (addrs t).length = (erase t).toList.length
  | nil => rfl
  | .node x k v l r => by
    simp only [addrs, erase, Tree.toList_node, List.length_append, List.length_cons, length_addrs l, length_addrs r]
    omega

theorem size_ok {m : Mem K V} : ∀ {q : Nat} {t : P K V}, Rep m q t → Exact (erase t) → (addrs t).Nodup →
    ∀ a ∈ addrs t, ∃ ns : List Nat, ns.Nodup ∧ (m a).size = ns.length ∧
      ∀ b, b ∈ ns ↔ ∃ π, follow m (some a) π = some b
  | _, nil, _, _, _, a, h => by simp [addrs] at h
  | q, .node x k v l r, hR, hx, hn, a, h => by
      obtain ⟨⟨g, hc⟩, hl, hr⟩ := id hR
      obtain ⟨e1, e2, e3⟩ := exact_node.1 hx
      have hn' := hn
      simp only [addrs, List.nodup_cons, List.nodup_append] at hn'
      simp only [addrs, List.mem_append, List.mem_cons] at h
      rcases h with rfl | h | h
      · refine ⟨addrs (.node x k v l r), hn, ?_, fun b => ⟨mem_follow hR, fun ⟨π, h⟩ => follow_mem hR h⟩⟩
        rw [hc]
        simp only [addrs, List.length_cons, List.length_append, length_addrs]
        omega
      · exact size_ok hl e2 hn'.2.1 a h
      · exact size_ok hr e3 hn'.2.2.1 a h

theorem One.reaches {m : Mem K V} {root : Nat} {t : P K V} (h : One m root t) {a : Nat} :
    Reaches m root a ↔ a ∈ addrs t := by
  rw [Reaches, h.lo]
  exact ⟨fun ⟨_, h1⟩ => follow_mem h.rep h1, fun h1 => mem_follow h.rep h1⟩

theorem One.isTree {m : Mem K V} {root : Nat} {t : P K V} (h : One m root t) : IsTree m root := by
  have hn := List.nodup_cons.1 h.nodup
  refine ⟨?_, ?_, h.hi, ?_, ?_, ?_⟩
  · rw [h.lo]; intro π π' a; exact follow_inj h.rep hn.2
  · rw [h.reaches]; exact hn.1
  · rw [h.lo]; exact fun a => ptr_parent h.rep
  · intro a b ha; rw [h.reaches] at ha; exact (kid_parent h.rep a ha b).1
  · intro a b ha; rw [h.reaches] at ha; exact (kid_parent h.rep a ha b).2

theorem One.sizes {m : Mem K V} {root : Nat} {t : P K V} (h : One m root t) (hx : Exact (erase t)) :
    Sizes m root := by
  intro a ha
  rw [h.reaches] at ha
  exact size_ok h.rep hx (List.nodup_cons.1 h.nodup).2 a ha

/-- `New`, tree.go:26-38. -/
def PTree.new (junk : K × Option W) : PTree K (Option W) :=
  ⟨fun _ => ⟨junk.1, junk.2, 0, 0, none, none, none⟩, 1, 0⟩

theorem run_sim {shift : Nat} {junk : K × Option W} (os : List (Op K W)) :
    ∀ (s : PTree K (Option W)) (t : P K (Option W)) u rs, One s.mem s.root t → Below s.free s.root t →
      run (IndexTree.step shift cmp) (erase t) os = some (u, rs) →
      ∃ s' t', run (step shift cmp junk) s os = some (s', rs) ∧ erase t' = u ∧ One s'.mem s'.root t' ∧
        Below s'.free s'.root t' := by
  induction os with
  | nil => intro s t u rs h hb h1; cases h1; exact ⟨s, t, rfl, rfl, h, hb⟩
  | cons op os ih =>
    intro s t u rs h hb h1
    rw [run] at h1
    split at h1
    · cases h1
    · rename_i u1 r1 e1
      split at h1
      · cases h1
      · rename_i u2 rs2 e2
        obtain ⟨s1, t1, g1, rfl, g3⟩ := step_sim (junk := junk) h hb e1
        obtain ⟨s2, t2, f1, f2, f3, f4⟩ := ih s1 t1 u2 rs2 g3.one (fun x hx => (g3.bound x hx).1) e2
        cases h1
        refine ⟨s2, t2, ?_, f2, f3, f4⟩
        simp only [run]
        rw [show s = ⟨s.mem, s.free, s.root⟩ from rfl, g1]
        simp [f1]

/-! ### C89 -/

/-- C89: for any comparison, also an unlawful one, the program on pointers answers whatever the model
with subtrees answers, and its nodes form a tree with right parents. -/
theorem C89_same_answers (cmp : K → K → Int) (shift : Nat) (junk : K × Option W) (os : List (Op K W))
    {t : T K (Option W)} {rs : List (Res K W)} (h : run (IndexTree.step shift cmp) nil os = some (t, rs)) :
    ∃ s, run (step shift cmp junk) (PTree.new junk) os = some (s, rs) ∧ IsTree s.mem s.root := by
  obtain ⟨s, t', h1, -, h2, -⟩ := run_sim (shift := shift) (junk := junk) os (PTree.new junk) nil t rs
    ⟨trivial, rfl, rfl, by simp [addrs]⟩ (by intro x hx; simp [addrs, PTree.new] at hx ⊢; exact hx) h
  exact ⟨s, h1, h2.isTree⟩

/-- C89: a program with several trees, calls to `New` and `Split` and all other methods: the program on
pointers follows no nil pointer and its answers are those of independent ideal sorted maps. The calls
left out are those of C37 to C42 where the code is wrong. -/
theorem C89_answers_partial (hc : Lawful cmp) (shift : Nat) (junk : K × Option W) (cs : List (Call K W))
    (hl : LegalRun (fspec (ord cmp)) (flegal (legal cmp)) [] cs) :
    ∃ s, run (fstep shift cmp junk) (Forest.empty junk) cs =
      some (s, (runSpec (fspec (ord cmp)) [] cs).2) := by
  obtain ⟨s, h, -⟩ := run_refines_legal (FRel cmp) (fun s xss c hl h => by
    obtain ⟨s', r, h1, h2, h3⟩ := fstep_of (shift := shift) (junk := junk) hc h (flegal_of hl)
    rw [h3 hl] at h1
    exact ⟨s', h1, h2⟩) cs _ _ hl (FRel.empty (junk := junk))
  exact ⟨s, h⟩

/-- C89: after any such program (here also with the calls that only answer wrongly) every tree is a
tree with right parents and sizes, the method `check` accepts it, it holds the entries of its ideal
map, and no node belongs to two trees. -/
theorem C89_shape_partial (hc : Lawful cmp) (shift : Nat) (junk : K × Option W) (cs : List (Call K W))
    (hl : LegalRun (fspec (ord cmp)) (flegal (legalState cmp)) [] cs) :
    ∃ s rs, run (fstep shift cmp junk) (Forest.empty junk) cs = some (s, rs) ∧
      s.roots.length = (runSpec (fspec (ord cmp)) [] cs).1.length ∧
      (∀ (i root : Nat) xs, s.roots[i]? = some root → (runSpec (fspec (ord cmp)) [] cs).1[i]? = some xs →
        IsTree s.mem root ∧ Sizes s.mem root ∧ check s.mem root s.free = some true ∧
        fstep shift cmp junk s (.on i (.traverse fun _ _ => true)) = some (s, .of (.entries xs))) ∧
      ∀ i j root root' a : Nat, i ≠ j → s.roots[i]? = some root → s.roots[j]? = some root' →
        root ≠ root' ∧ (Reaches s.mem root a → a ≠ root' ∧ ¬ Reaches s.mem root' a) := by
  obtain ⟨s, rs, h1, ps, h2, h3, h4⟩ := frun_of (shift := shift) (junk := junk) hc cs _ _ FRel.empty hl
  have get : ∀ i root : Nat, s.roots[i]? = some root → ∃ q, ps[i]? = some q ∧ q.1 = root := fun i root h => by
    rw [h2.eq, List.getElem?_map, Option.map_eq_some_iff] at h
    exact h
  refine ⟨s, rs, h1, by rw [h2.eq, List.length_map, h3], fun i root xs hi hx => ?_,
    fun i j root root' a hij hi hj => ?_⟩
  · obtain ⟨q, hq, rfl⟩ := get i root hi
    obtain ⟨one, below⟩ := h2.one i q hq
    have hR := h4 i q xs hq hx
    refine ⟨one.isTree, one.sizes hR.exact, check_ok one hR.exact (one.fuel below).2, ?_⟩
    have hroots : s.roots.set i q.1 = s.roots := by
      apply List.ext_getElem?
      intro j
      by_cases hj : i = j
      · subst hj
        rw [List.getElem?_set_self (List.getElem?_eq_some_iff.1 hi).1, hi]
      · rw [List.getElem?_set_ne hj]
    simp only [fstep, hi, Option.bind_some, step, PTree.top, one.lo,
      traverse_ok q.2 q.1 s.free one.rep (one.fuel below).2, Option.map_some, hroots]
    rw [traverse_eq, seen_true, hR.list]
  · obtain ⟨q, hq, rfl⟩ := get i root hi
    obtain ⟨q', hq', rfl⟩ := get j root' hj
    have ha := h2.apart i j q q' hij hq hq'
    rw [(h2.one i q hq).1.reaches, (h2.one j q' hq').1.reaches]
    simp only [cells, List.mem_cons, not_or] at ha
    exact ⟨(ha q.1 (.inl rfl)).1, fun h => ha a (.inr h)⟩

/-- What `check` looks at, at the node `a`. -/
structure Agrees (m : Mem K V) (a : Nat) : Prop where
  size : (m a).size = ((m a).lo.map fun b => (m b).size).getD 0 + ((m a).hi.map fun b => (m b).size).getD 0 + 1
  left : ∀ b, (m a).lo = some b → (m b).parent = some a
  right : ∀ b, (m a).hi = some b → (m b).parent = some a

theorem checkRec_true {m : Mem K V} : ∀ {n : Nat} {p : Option Nat}, checkRec m n p = some true →
    ∀ π a, follow m p π = some a → Agrees m a
  | 0, _, h, _, _, _ => by cases h
  | _ + 1, none, _, π, a, h => by rw [follow_none] at h; cases h
  | n + 1, some b, h, π, a, hf => by
    simp only [checkRec] at h
    split at h
    · cases h
    · next hs => split at h
                 · cases h
                 · next hl => split at h
                              · cases h
                              · next hr =>
      simp only [Option.bind_eq_some_iff] at h
      obtain ⟨x, h1, h2⟩ := h
      cases x with
      | false => simp at h2
      | true =>
        simp only [if_true] at h2
        cases π with
        | nil =>
          cases hf
          refine ⟨?_, fun c hc => ?_, fun c hc => ?_⟩
          · have hs := Decidable.not_not.1 hs
            simp only [getSize] at hs
            cases hlo : (m b).lo <;> cases hhi : (m b).hi <;> simp only [hlo, hhi] at hs ⊢ <;> exact hs
          · simpa [hc] using hl
          · simpa [hc] using hr
        | cons c cs =>
          simp only [follow] at hf
          cases c with
          | false => exact checkRec_true h1 cs a hf
          | true => exact checkRec_true h2 cs a hf

theorem checkRec_false {m : Mem K V} : ∀ {n : Nat} {p : Option Nat}, checkRec m n p = some false →
    ∃ π a, follow m p π = some a ∧ ¬ Agrees m a
  | 0, _, h => by cases h
  | _ + 1, none, h => by cases h
  | n + 1, some b, h => by
    by_cases hg : Agrees m b
    · have hs := hg.size
      have e1 : (m b).size = getSize m (m b).lo + getSize m (m b).hi + 1 := by
        rw [hs]
        cases (m b).lo <;> cases (m b).hi <;> rfl
      have e2 : ((m b).lo.all fun c => decide ((m c).parent = some b)) = true := by
        cases hlo : (m b).lo with
        | none => rfl
        | some c => simpa using hg.left c hlo
      have e3 : ((m b).hi.all fun c => decide ((m c).parent = some b)) = true := by
        cases hhi : (m b).hi with
        | none => rfl
        | some c => simpa using hg.right c hhi
      simp only [checkRec, ← e1, e2, e3, ne_eq, not_true_eq_false, if_false, Bool.not_true,
        Bool.false_eq_true, Option.bind_eq_some_iff] at h
      obtain ⟨x, h1, h2⟩ := h
      cases x with
      | false => obtain ⟨π, a, h3, h4⟩ := checkRec_false h1; exact ⟨false :: π, a, h3, h4⟩
      | true => obtain ⟨π, a, h3, h4⟩ := checkRec_false h2; exact ⟨true :: π, a, h3, h4⟩
    · exact ⟨[], b, rfl, hg⟩

/-- C89, the method `check` itself, for every memory (also one that holds no tree): it accepts only if
the parents and sizes of all nodes agree with those of their children, and it panics only if they do
not. -/
theorem C89_check_sound (m : Mem K V) (root n : Nat) (r : Bool) (h : check m root n = some r) :
    r = true ↔ (∀ a, (m root).lo = some a → (m a).parent = some root) ∧ ∀ a, Reaches m root a → Agrees m a := by
  unfold check at h
  cases hlo : (m root).lo with
  | none =>
    rw [hlo] at h
    cases h
    refine ⟨fun _ => ⟨fun a h => (by cases h), fun a h => ?_⟩, fun _ => rfl⟩
    obtain ⟨π, hπ⟩ := h
    rw [hlo, follow_none] at hπ
    cases hπ
  | some top =>
    rw [hlo] at h
    simp only at h
    split at h
    · next hp =>
      cases h
      exact ⟨fun h => by simp at h, fun h => absurd (h.1 top rfl) hp⟩
    · next hp =>
      cases r with
      | true =>
        refine ⟨fun _ => ⟨fun a ha => by cases ha; exact Decidable.not_not.1 hp, fun a ⟨π, hπ⟩ => ?_⟩, fun _ => rfl⟩
        rw [hlo] at hπ
        exact checkRec_true h π a hπ
      | false =>
        obtain ⟨π, a, h1, h2⟩ := checkRec_false h
        exact ⟨fun h => by simp at h, fun h => absurd (h.2 a ⟨π, by rw [hlo]; exact h1⟩) h2⟩

/-- A memory in which the right child of the top node 1 has another parent. -/
def torn : Mem Int (Option Unit) := fun a =>
  if a = 0 then ⟨0, none, 0, 0, none, some 1, none⟩
  else if a = 1 then ⟨1, none, 2, 0, some 0, none, some 2⟩
  else ⟨2, none, 1, 0, some 0, none, none⟩

example : check torn 0 9 = some false ∧ ∃ a, Reaches torn 0 a ∧ ¬ Agrees torn a :=
  ⟨rfl, 1, ⟨[], rfl⟩, fun h => absurd (h.right 2 rfl) (by decide)⟩

/-- The zero values. -/
def blank : Int × Option String := (0, none)

/-- The example: two trees, one of them split, a range taken out of one part. -/
def demo : List (Call Int String) :=
  [.new, .new, .on 0 (.put 3 (some "c")), .on 0 (.put 1 (some "a")), .on 1 (.put 7 none),
    .on 0 (.put 2 (some "b")), .on 0 (.put 5 (some "e")), .on 0 (.put 4 (some "d")), .split 0 3 true,
    .on 2 (.put 6 (some "f")), .on 2 (.removeRange 4 5), .on 0 .values, .on 2 .values, .on 0 (.remove 2),
    .on 1 .clear, .split 1 3 false, .on 0 (.index 1), .on 1 .size]

theorem demo_legal : LegalRun (fspec (ord Compare.any)) (flegal (legal Compare.any)) [] demo :=
  ⟨trivial, trivial, ⟨_, rfl, trivial⟩, ⟨_, rfl, trivial⟩, ⟨_, rfl, trivial⟩, ⟨_, rfl, trivial⟩,
    ⟨_, rfl, trivial⟩, ⟨_, rfl, trivial⟩, Nat.zero_lt_succ _, ⟨_, rfl, trivial⟩, ⟨_, rfl, any_uniform⟩,
    ⟨_, rfl, trivial⟩, ⟨_, rfl, trivial⟩, ⟨_, rfl, trivial⟩, ⟨_, rfl, trivial⟩,
    (by show 1 < 3; decide),
    ⟨_, rfl, trivial⟩, ⟨_, rfl, trivial⟩, trivial⟩

example : ∃ s, run (fstep 2 Compare.any blank) (Forest.empty blank) demo =
    some (s, [.made, .made, .of (.bool true), .of (.bool true), .of (.bool true), .of (.bool true),
      .of (.bool true), .of (.bool true), .split false, .of (.bool true), .of .unit,
      .of (.list [some "a", some "b", some "c"]), .of (.list [some "f"]), .of (.val (some "b")), .of .unit,
      .split true, .of (.entry (3, some "c")), .of (.int 0)]) := by
  obtain ⟨s, h⟩ := C89_answers_partial any_lawful 2 blank demo demo_legal
  exact ⟨s, h.trans rfl⟩

/-- The same with `Set` on an empty tree: the first tree is 1, 3, the second 8, the third 6. -/
example : ∃ s rs, run (fstep 2 Compare.any blank) (Forest.empty blank) (demo ++ [.on 1 (.set 8 none)]) =
      some (s, rs) ∧ s.roots.length = 3 ∧
    fstep 2 Compare.any blank s (.on 1 (.traverse fun _ _ => true)) = some (s, .of (.entries [(8, none)])) ∧
    ∀ root, s.roots[2]? = some root → IsTree s.mem root ∧ Sizes s.mem root := by
  have hl : LegalRun (fspec (ord Compare.any)) (flegal (legalState Compare.any)) []
      (demo ++ [.on 1 (.set 8 none)]) :=
    ⟨trivial, trivial, ⟨_, rfl, trivial⟩, ⟨_, rfl, trivial⟩, ⟨_, rfl, trivial⟩, ⟨_, rfl, trivial⟩,
      ⟨_, rfl, trivial⟩, ⟨_, rfl, trivial⟩, Nat.zero_lt_succ _, ⟨_, rfl, trivial⟩, ⟨_, rfl, any_uniform⟩,
      ⟨_, rfl, trivial⟩, ⟨_, rfl, trivial⟩, ⟨_, rfl, trivial⟩, ⟨_, rfl, trivial⟩,
      (by show 1 < 3; decide), ⟨_, rfl, trivial⟩, ⟨_, rfl, trivial⟩, ⟨_, rfl, trivial⟩, trivial⟩
  obtain ⟨s, rs, h1, h2, h3, -⟩ := C89_shape_partial any_lawful 2 blank _ hl
  have h2' : s.roots.length = 3 := h2.trans rfl
  obtain ⟨x, hx⟩ : ∃ x, s.roots[1]? = some x := ⟨s.roots[1], List.getElem?_eq_getElem (by omega)⟩
  refine ⟨s, rs, h1, h2', (h3 1 x [(8, none)] hx rfl).2.2.2, fun root hr => ?_⟩
  have := h3 2 root [(6, some "f")] hr rfl
  exact ⟨this.1, this.2.1⟩

/-- A comparison that orders nothing: every key is below every other. -/
example : ∃ s, run (step 2 (fun _ _ => -1) blank) (PTree.new blank)
    [.put 1 (some "a"), .put 1 (some "b"), .put 1 (some "c"), .values] =
      some (s, [.bool true, .bool true, .bool true, .list [some "c", some "b", some "a"]]) ∧
    IsTree s.mem s.root := by
  obtain ⟨t, h⟩ : ∃ t, run (IndexTree.step 2 (fun _ _ => -1)) nil
    [.put (1 : Int) (some "a"), .put 1 (some "b"), .put 1 (some "c"), .values] =
      some (t, [.bool true, .bool true, .bool true, .list [some "c", some "b", some "a"]]) := ⟨_, rfl⟩
  exact C89_same_answers _ 2 blank _ h


end Verif.IndexHeap
