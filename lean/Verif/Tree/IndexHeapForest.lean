import Verif.Tree.IndexHeapRun
import Verif.Tree.IndexProps

/-! The pointer program of `Verif.Tree.IndexHeap`: several trees in one memory. -/

namespace Verif.IndexHeap
open Verif.AvlHeap (P ptr addrs erase ptr_nil ptr_node ptr_mem ptr_ne)
open Verif.Tree Verif.Size Verif.IndexTree
variable {K V W : Type} {cmp : K → K → Int}

/-! ### Specification -/

/-- The ideal maps of a program with several trees. Each call concerns one of them; `Split` moves
entries to a further one and returns nil for an empty map. -/
def fspec (o : K → K → Ordering) (xss : List (List (K × Option W))) :
    Call K W → List (List (K × Option W)) × CallRes K W
  | .new => (xss ++ [[]], .made)
  | .on i op =>
    let p := spec o (xss[i]?.getD []) op
    (xss.set i p.1, .of p.2)
  | .split i key incl =>
    let xs := xss[i]?.getD []
    if xs.isEmpty then (xss, .split true)
    else (xss.set i (lefts o incl key xs) ++ [rights o incl key xs], .split false)

/-- Calls on trees that are there, allowed by `l`. -/
def flegal (l : List (K × Option W) → Op K W → Prop) (xss : List (List (K × Option W))) : Call K W → Prop
  | .new => True
  | .on i op => ∃ xs, xss[i]? = some xs ∧ l xs op
  | .split i _ _ => i < xss.length

/-! ### Relation -/

/-- The nodes of a tree. -/
def cells (q : Nat × P K V) : List Nat := q.1 :: addrs q.2

/-- The trees `ps` are in the memory, without common nodes. -/
structure Has (m : Mem K V) (free : Nat) (roots : List Nat) (ps : List (Nat × P K V)) : Prop where
  eq : roots = ps.map (·.1)
  one : ∀ (i : Nat) (q : Nat × P K V), ps[i]? = some q → One m q.1 q.2 ∧ Below free q.1 q.2
  apart : ∀ (i j : Nat) (q q' : Nat × P K V), i ≠ j → ps[i]? = some q → ps[j]? = some q' → ∀ x ∈ cells q, x ∉ cells q'

theorem Has.root {m : Mem K V} {free i : Nat} {roots : List Nat} {ps : List (Nat × P K V)} {q : Nat × P K V}
    (h : Has m free roots ps) (hi : ps[i]? = some q) : roots[i]? = some q.1 := by
  rw [h.eq, List.getElem?_map, hi]; rfl

/-- One tree changes. -/
theorem Has.set {m m' : Mem K V} {free free' i : Nat} {roots : List Nat} {ps : List (Nat × P K V)}
    {q q' : Nat × P K V} (h : Has m free roots ps) (hi : ps[i]? = some q)
    (hn : Next m free q.1 q.2 m' free' q'.1 q'.2) : Has m' free' (roots.set i q'.1) (ps.set i q') := by
  have hlen : i < ps.length := (List.getElem?_eq_some_iff.1 hi).1
  have other : ∀ j p, j ≠ i → ps[j]? = some p → (∀ x ∈ cells p, x < free ∧ x ∉ cells q) := fun j p hj hp x hx =>
    ⟨(h.one j p hp).2 x hx, h.apart j i p q hj hp hi x hx⟩
  have newd : ∀ j p, j ≠ i → ps[j]? = some p → ∀ x ∈ cells p, x ∉ cells q' := fun j p hj hp x hx hx' => by
    have h1 := other j p hj hp x hx
    rcases (hn.bound x hx').2 with h2 | h2
    · exact h1.2 h2
    · omega
  refine ⟨by rw [h.eq, List.map_set], fun j p hp => ?_, fun j k p p' hjk hp hp' x hx => ?_⟩
  · by_cases hj : i = j
    · subst hj
      rw [List.getElem?_set_self hlen] at hp
      cases hp
      exact ⟨hn.one, fun x hx => (hn.bound x hx).1⟩
    · rw [List.getElem?_set_ne hj] at hp
      have h1 := h.one j p hp
      refine ⟨h1.1.congr fun x hx => hn.frame x ?_ ?_, fun x hx => Nat.lt_of_lt_of_le (h1.2 x hx) hn.le⟩
      · exact h1.2 x hx
      · exact (other j p (Ne.symm hj) hp x hx).2
  · by_cases hj : i = j
    · subst hj
      rw [List.getElem?_set_self hlen] at hp
      cases hp
      rw [List.getElem?_set_ne hjk] at hp'
      exact fun hx' => newd k p' (Ne.symm hjk) hp' x hx' hx
    · rw [List.getElem?_set_ne hj] at hp
      by_cases hk : i = k
      · subst hk
        rw [List.getElem?_set_self hlen] at hp'
        cases hp'
        exact newd j p (Ne.symm hj) hp x hx
      · rw [List.getElem?_set_ne hk] at hp'
        exact h.apart j k p p' hjk hp hp' x hx

/-- A further tree. -/
theorem Has.push {m : Mem K V} {free : Nat} {roots : List Nat} {ps : List (Nat × P K V)} {q : Nat × P K V}
    (h : Has m free roots ps) (h1 : One m q.1 q.2) (h2 : Below free q.1 q.2)
    (h3 : ∀ (i : Nat) (p : Nat × P K V), ps[i]? = some p → ∀ x ∈ cells p, x ∉ cells q) : Has m free (roots ++ [q.1]) (ps ++ [q]) := by
  have get : ∀ (i : Nat) p, (ps ++ [q])[i]? = some p → ps[i]? = some p ∨ (i = ps.length ∧ p = q) := by
    intro i p hp
    rcases Nat.lt_or_ge i ps.length with hi | hi
    · rw [List.getElem?_append_left hi] at hp; exact .inl hp
    · rw [List.getElem?_append_right hi] at hp
      rcases Nat.eq_or_lt_of_le hi with hi | hi
      · rw [← hi] at hp
        simp only [Nat.sub_self, List.getElem?_cons_zero, Option.some.injEq] at hp
        exact .inr ⟨hi.symm, hp.symm⟩
      · rw [List.getElem?_eq_none (by simp; omega)] at hp; cases hp
  refine ⟨by rw [h.eq]; simp, fun i p hp => ?_, fun i j p p' hij hp hp' x hx => ?_⟩
  · rcases get i p hp with hp | ⟨-, rfl⟩
    · exact h.one i p hp
    · exact ⟨h1, h2⟩
  · rcases get i p hp with h4 | ⟨rfl, rfl⟩
    · rcases get j p' hp' with h5 | ⟨-, rfl⟩
      · exact h.apart i j p p' hij h4 h5 x hx
      · exact h3 i p h4 x hx
    · rcases get j p' hp' with h5 | ⟨rfl, -⟩
      · exact fun hx' => h3 j p' h5 x hx' hx
      · exact absurd rfl hij

/-- A larger bound, and other cells beyond the old one. -/
theorem Has.mono {m m' : Mem K V} {free free' : Nat} {roots : List Nat} {ps : List (Nat × P K V)}
    (h : Has m free roots ps) (hf : free ≤ free') (hm : ∀ x, x < free → m' x = m x) :
    Has m' free' roots ps :=
  ⟨h.eq, fun i q hq => ⟨(h.one i q hq).1.congr fun x hx => hm x ((h.one i q hq).2 x hx),
    fun x hx => Nat.lt_of_lt_of_le ((h.one i q hq).2 x hx) hf⟩, h.apart⟩

/-- The trees hold the entries `xss`. -/
def FRel (cmp : K → K → Int) (s : Forest K (Option W)) (xss : List (List (K × Option W))) : Prop :=
  ∃ ps : List (Nat × P K (Option W)), Has s.mem s.free s.roots ps ∧ ps.length = xss.length ∧
    ∀ (i : Nat) (q : Nat × P K (Option W)) xs, ps[i]? = some q → xss[i]? = some xs → Rel cmp (erase q.2) xs

theorem FRel.empty {junk : K × Option W} : FRel cmp (Forest.empty junk) [] :=
  ⟨[], ⟨rfl, by simp, by simp⟩, rfl, by simp⟩

theorem fstep_of {shift : Nat} {junk : K × Option W} (hc : Lawful cmp) {s : Forest K (Option W)}
    {xss : List (List (K × Option W))} {c : Call K W} (h : FRel cmp s xss)
    (hl : flegal (legalState cmp) xss c) :
    ∃ s' r, fstep shift cmp junk s c = some (s', r) ∧ FRel cmp s' (fspec (ord cmp) xss c).1 ∧
      (flegal (legal cmp) xss c → r = (fspec (ord cmp) xss c).2) := by
  obtain ⟨ps, h1, h2, h3⟩ := h
  have get : ∀ i, i < xss.length → ∃ q xs, ps[i]? = some q ∧ xss[i]? = some xs ∧ s.roots[i]? = some q.1 :=
    fun i hi => ⟨ps[i], xss[i], List.getElem?_eq_getElem (by omega), List.getElem?_eq_getElem hi,
      h1.root (List.getElem?_eq_getElem (by omega))⟩
  cases c with
  | new =>
    refine ⟨_, _, rfl, ?_, fun _ => rfl⟩
    have one : One (sentinel junk s.mem s.free) s.free nil := by
      refine ⟨trivial, ?_, ?_, by simp [addrs]⟩
      · rw [sentinel_self]; rfl
      · rw [sentinel_self]
    refine ⟨ps ++ [(s.free, nil)], (h1.mono (Nat.le_succ s.free) fun x hx => sentinel_ne (by omega)).push
      (q := (s.free, nil)) one (by intro x hx; simp [addrs] at hx; omega) ?_, by simp [fspec, h2], ?_⟩
    · intro i p hp x hx hx'
      have := (h1.one i p hp).2 x hx
      simp [cells, addrs] at hx'
      omega
    · intro i q xs hq hx
      rcases Nat.lt_or_ge i ps.length with hi | hi
      · rw [List.getElem?_append_left hi] at hq
        rw [fspec, List.getElem?_append_left (by omega)] at hx
        exact h3 i q xs hq hx
      · rw [List.getElem?_append_right hi] at hq
        rw [fspec, List.getElem?_append_right (by omega), ← h2] at hx
        rcases Nat.eq_or_lt_of_le hi with hi | hi
        · rw [← hi] at hq hx
          simp only [Nat.sub_self, List.getElem?_cons_zero, Option.some.injEq] at hq hx
          subst hq hx
          exact Rel.new
        · rw [List.getElem?_eq_none (by simp; omega)] at hq; cases hq
  | on i op =>
    obtain ⟨xs, hxs, hop⟩ := hl
    have hi : i < xss.length := (List.getElem?_eq_some_iff.1 hxs).1
    obtain ⟨q, xs', hq, hxs', hr⟩ := get i hi
    rw [hxs] at hxs'
    cases hxs'
    have hR := h3 i q xs hq hxs
    obtain ⟨⟨u, res⟩, e1, e2⟩ := step_contents hc (shift := shift) hop hR
    obtain ⟨one, below⟩ := h1.one i q hq
    obtain ⟨s', t', f1, f2, f3⟩ := step_sim (junk := junk) one below e1
    refine ⟨⟨s'.mem, s'.free, s.roots.set i s'.root⟩, .of res, ?_, ⟨ps.set i (s'.root, t'), ?_, ?_, ?_⟩, ?_⟩
    · simp only [fstep, hr, Option.bind_some, f1, Option.map_some]
    · exact h1.set (q' := (s'.root, t')) hq f3
    · simp [fspec, h2]
    · intro j p ys hp hy
      simp only [fspec, hxs, Option.getD_some] at hy
      by_cases hj : i = j
      · subst hj
        rw [List.getElem?_set_self (by omega)] at hp hy
        cases hp
        cases hy
        rw [f2]
        exact e2
      · rw [List.getElem?_set_ne hj] at hp hy
        exact h3 j p ys hp hy
    · rintro ⟨xs', hx', hop'⟩
      rw [hxs] at hx'
      cases hx'
      obtain ⟨t2, g1, -⟩ := step_ok hc (shift := shift) hop' hR
      rw [g1] at e1
      cases e1
      simp only [fspec, hxs, Option.getD_some]
  | split i key incl =>
    have hi : i < xss.length := hl
    obtain ⟨q, xs, hq, hxs, hr⟩ := get i hl
    have hR := h3 i q xs hq hxs
    obtain ⟨one, below⟩ := h1.one i q hq
    cases hp : ptr q.2 with
    | none =>
      have hn := ptr_none hp
      have hxe : xs = [] := by have := hR.list; rw [hn] at this; exact this.symm
      subst hxe
      have hlo : (s.mem q.1).lo = none := by rw [one.lo, hp]
      refine ⟨⟨s.mem, s.free + 1, s.roots⟩, .split true, ?_, ?_, ?_⟩
      · simp only [fstep, hr, Option.bind_some, IndexHeap.split, hlo, Option.map_some]
        rfl
      · simp only [fspec, hxs, Option.getD_some, List.isEmpty_nil, if_true]
        exact ⟨ps, h1.mono (Nat.le_succ _) fun _ _ => rfl, h2, h3⟩
      · intro _
        simp only [fspec, hxs, Option.getD_some, List.isEmpty_nil, if_true]
    | some b =>
      have hne : erase q.2 ≠ nil := by
        cases h : q.2 with
        | nil => rw [h] at hp; cases hp
        | node => simp [erase]
      have hxe : xs.isEmpty = false := by
        have := hR.list
        cases xs with
        | nil => exact absurd (toList_eq_nil.1 this) hne
        | cons => rfl
      obtain ⟨⟨xv, yv⟩, e1, e2, e3, e4, e5⟩ := IndexTree.split_ok hc (incl := incl) (key := key) hR.exact
        (by rw [hR.list]; exact hR.sorted) hne
      obtain ⟨m', x, y, f1, f2, f3, f4, f5, f6⟩ := split_pair (junk := junk) one below e1
      have g1 := h1.set (q' := (q.1, x)) hq f4
      have hroots : s.roots.set i q.1 = s.roots := by
        apply List.ext_getElem?
        intro j
        by_cases hj : i = j
        · subst hj
          have hj' : i < s.roots.length := (List.getElem?_eq_some_iff.1 hr).1
          rw [List.getElem?_set_self hj', hr]
        · rw [List.getElem?_set_ne hj]
      simp only at g1
      rw [hroots] at g1
      have g2 : Has m' (s.free + 1) (s.roots ++ [s.free]) (ps.set i (q.1, x) ++ [(s.free, y)]) := by
        refine g1.push (q := (s.free, y)) f5.one (fun z hz => (f5.bound z hz).1) fun j p hj z hz hz' => ?_
        by_cases hij : i = j
        · subst hij
          rw [List.getElem?_set_self (by omega)] at hj
          cases hj
          exact f6 z hz hz'
        · rw [List.getElem?_set_ne hij] at hj
          rcases (f5.bound z hz').2 with hc' | hc'
          · exact h1.apart j i p q (Ne.symm hij) hj hq z hz hc'
          · have := (h1.one j p hj).2 z hz; omega
      refine ⟨⟨m', s.free + 1, s.roots ++ [s.free]⟩, .split false, ?_, ?_, ?_⟩
      · simp only [fstep, hr, Option.bind_some, f3, Option.map_some]
        rfl
      · simp only [fspec, hxs, Option.getD_some, hxe, Bool.false_eq_true, if_false]
        refine ⟨_, g2, by simp [h2], ?_⟩
        intro j p ys hp hy
        have hxl : (xss.set i (lefts (ord cmp) incl key xs)).length = (ps.set i (q.1, x)).length := by simp [h2]
        rcases Nat.lt_or_ge j (ps.set i (q.1, x)).length with hj | hj
        · rw [List.getElem?_append_left hj] at hp
          rw [List.getElem?_append_left (by omega)] at hy
          by_cases hij : i = j
          · subst hij
            rw [List.getElem?_set_self (by simp at hj; omega)] at hp hy
            cases hp
            cases hy
            rw [f1]
            refine ⟨by rw [e4, hR.list], ?_, e2⟩
            exact hR.sorted.sublist List.filter_sublist
          · rw [List.getElem?_set_ne hij] at hp hy
            exact h3 j p ys hp hy
        · rw [List.getElem?_append_right hj] at hp
          rw [List.getElem?_append_right (by omega), hxl] at hy
          rcases Nat.eq_or_lt_of_le hj with hj | hj
          · rw [← hj] at hp hy
            simp only [Nat.sub_self, List.getElem?_cons_zero, Option.some.injEq] at hp hy
            subst hp hy
            rw [f2]
            refine ⟨by rw [e5, hR.list], ?_, e3⟩
            exact hR.sorted.sublist List.filter_sublist
          · rw [List.getElem?_eq_none (by simp at hj ⊢; omega)] at hp; cases hp
      · intro _
        simp only [fspec, hxs, Option.getD_some, hxe, Bool.false_eq_true, if_false]

theorem frun_of {shift : Nat} {junk : K × Option W} (hc : Lawful cmp) (cs : List (Call K W)) :
    ∀ (s : Forest K (Option W)) xss, FRel cmp s xss →
      LegalRun (fspec (ord cmp)) (flegal (legalState cmp)) xss cs →
      ∃ s' rs, run (fstep shift cmp junk) s cs = some (s', rs) ∧
        FRel cmp s' (runSpec (fspec (ord cmp)) xss cs).1 := by
  induction cs with
  | nil => intro s xss h _; exact ⟨s, [], rfl, h⟩
  | cons c cs ih =>
    intro s xss h hl
    obtain ⟨s1, r, h1, h2, -⟩ := fstep_of (shift := shift) (junk := junk) hc h hl.1
    obtain ⟨s2, rs, h3, h4⟩ := ih s1 _ h2 hl.2
    exact ⟨s2, r :: rs, by simp [run, h1, h3], h4⟩

theorem legalState_of {xs : List (K × Option W)} {op : Op K W} (h : legal cmp xs op) : legalState cmp xs op := by
  cases op <;> first | exact trivial | exact h

theorem flegal_of {xss : List (List (K × Option W))} {c : Call K W} (h : flegal (legal cmp) xss c) :
    flegal (legalState cmp) xss c := by
  cases c with
  | new => trivial
  | on i op => obtain ⟨xs, h1, h2⟩ := h; exact ⟨xs, h1, legalState_of h2⟩
  | split => exact h

end Verif.IndexHeap
