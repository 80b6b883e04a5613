import Verif.Tree.IndexProps

/-! What `SeekGT` and `SeekLT` of the index tree's iterator do (property C42). -/

namespace Verif.IndexTree

open Tree Size
open Avl (Path At Place befores afters child isNil_of_ne height_pos isNil_node)

variable {K W : Type} {cmp : K → K → Int}

/-- The ways the loop of `seekThan` can end. -/
inductive Than (cmp : K → K → Int) (root : T K W) (key : K) (c : Bool) (o : Option (It K W × Bool)) : Prop
  /-- It met a greater key and stepped to a neighbour. -/
  | stop {L R : List (K × W)} {e : K × W} {s' : It K W} {j : Int} (list : root.toList = L ++ e :: R)
      (gt : cmp e.1 key > 0) (hj : j = L.length + if c then 1 else -1)
      (in_range : 0 ≤ j ∧ j < root.toList.length) (res : o = some (s', true))
      (place : Place root s'.it (some j)) (pos : s'.pos = j)
  /-- The same, but there is no neighbour. -/
  | panic {L R : List (K × W)} {e : K × W} (list : root.toList = L ++ e :: R)
      (gt : cmp e.1 key > 0) (edge : if c then R = [] else L = []) (res : o = none)
  /-- It came to the end of the path. -/
  | done {L R : List (K × W)} {s' : It K W} {j : Int} (list : root.toList = L ++ R)
      (lt : ∀ e ∈ L, cmp e.1 key < 0) (rest : R = [] ∨ ∃ e R', R = e :: R' ∧ cmp e.1 key = 0)
      (hj : j = L.length + if c then 0 else -1) (res : o = some (s', false))
      (place : Place root s'.it (some j)) (pos : 0 ≤ j → j < root.toList.length → s'.pos = j)

/-- The rank that `IndexOf` finds for the entry the iterator is on. -/
theorem indexOf_place (hc : Lawful cmp) {root : T K W} (hx : Exact root)
    (hs : Sorted (ord cmp) root.toList) {it : Avl.Iter Int K W} {j : Int} (hp : Place root it (some j))
    {a : Int} {k : K} {v : W} {l r : T K W} (hcur : it.cur = node a k v l r) :
    Size.indexOf cmp k root (leftSz root) = j := by
  have : Std.TransCmp (ord cmp) := hc
  cases hp with
  | after h => rw [h] at hcur; cases hcur
  | before h => rw [h] at hcur; cases hcur
  | @on L e R hat =>
    obtain ⟨-, -, hh, l', r', h1, -, -⟩ := id hat
    rw [hcur] at h1
    injection h1 with _ h1 h2 _ _
    have hl := hat.list
    rw [indexOf_eq hc hx hs (here_root root), hl]
    rw [hl] at hs
    obtain ⟨-, -, s3, s4, -⟩ := Sorted.split.1 hs
    have hr : ord cmp e.1 k = .eq := by rw [h1]; exact Ord.refl _
    have hin : e ∈ Verif.same (ord cmp) k (L ++ e :: R) := mem_same.2 ⟨by simp, hr⟩
    have hb : (below (ord cmp) k (L ++ e :: R)).length = L.length := by
      refine Avl.counts (fun x hx => ?_) (fun x hx => ?_)
      · rw [h1, s3 x hx]; rfl
      · rcases List.mem_cons.1 hx with rfl | hx
        · rw [hr]; rfl
        · rw [h1, Ord.gt_iff.2 (s4 x hx)]; rfl
    rw [hb]
    cases hz : Verif.same (ord cmp) k (L ++ e :: R) with
    | nil => rw [hz] at hin; cases hin
    | cons => simp

theorem place_cur {root : T K W} {it : Avl.Iter Int K W} {j : Int} (h : Place root it (some j)) :
    (it.cur = nil ∧ (j < 0 ∨ (root.toList.length : Int) ≤ j)) ∨
      ((∃ a k v l r, it.cur = node a k v l r) ∧ 0 ≤ j ∧ j < root.toList.length) := by
  cases h with
  | after h => exact .inl ⟨h, .inr (by omega)⟩
  | before h => exact .inl ⟨h, .inl (by omega)⟩
  | on hat =>
    have := hat.before
    obtain ⟨-, -, hh, l', r', h1, -, -⟩ := hat
    exact .inr ⟨⟨_, _, _, _, _, h1⟩, by omega, by omega⟩

theorem seekThanLoop_ok (hc : Lawful cmp) {root : T K W} (hx : Exact root)
    (hs : Sorted (ord cmp) root.toList) {key : K} {c : Bool} (p0 : Int) {it : Avl.Iter Int K W}
    (hcap : root.height ≤ it.cap) (hp : Path root it.stk it.cur) (hn : it.cur ≠ nil) (n : Nat)
    (hf : it.cur.height ≤ n) (hb : ∀ e ∈ befores it.stk, cmp e.1 key < 0)
    (ha : afters it.stk = [] ∨ ∃ e R', afters it.stk = e :: R' ∧ cmp e.1 key = 0) :
    Than cmp root key c (seekThanLoop cmp root key c n ⟨it, p0⟩) := by
  have : Std.TransCmp (ord cmp) := hc
  induction n generalizing it with
  | zero =>
    cases hcur : it.cur with
    | nil => exact absurd hcur hn
    | node h k v l r => rw [hcur] at hf; simp [height] at hf
  | succ n ih =>
    cases hcur : it.cur with
    | nil => exact absurd hcur hn
    | node h k v l r =>
      rw [hcur] at hp hf
      simp only [height] at hf
      have hlen := hp.height
      simp only [height] at hlen
      have hat : At root it (befores it.stk ++ l.toList) (k, v) (r.toList ++ afters it.stk) :=
        ⟨hcap, by rw [hcur]; exact hp, h, l, r, hcur, rfl, rfl⟩
      have hlist := hat.list
      have hs' := hs
      rw [hlist] at hs'
      obtain ⟨-, -, s3, s4, -⟩ := Sorted.split.1 hs'
      simp only [seekThanLoop, hcur]
      by_cases hgt : cmp k key > 0
      · rw [if_pos hgt]
        cases c with
        | true =>
          obtain ⟨it', h1, h2, h3⟩ := Avl.move_true_on hat
          rw [h1]
          rcases place_cur h3 with ⟨hnil, hj⟩ | ⟨⟨a, k', v', l', r', hnode⟩, hj⟩
          · refine .panic hlist hgt ?_ (by simp [hnil])
            have := hat.before
            exact List.length_eq_zero_iff.1 (by omega)
          · refine .stop (j := _) hlist hgt rfl hj (by simp only [Option.bind_some, hnode]; rfl) h3 ?_
            exact indexOf_place hc hx hs h3 hnode
        | false =>
          obtain ⟨it', h1, h2, h3⟩ := Avl.move_false_on hat
          rw [h1]
          rcases place_cur h3 with ⟨hnil, hj⟩ | ⟨⟨a, k', v', l', r', hnode⟩, hj⟩
          · refine .panic hlist hgt ?_ (by simp [hnil])
            have := hat.before
            exact List.length_eq_zero_iff.1 (by omega)
          · refine .stop (j := _) hlist hgt rfl hj (by simp only [Option.bind_some, hnode]; rfl) h3 ?_
            exact indexOf_place hc hx hs h3 hnode
      · rw [if_neg hgt]
        by_cases hlt : cmp k key < 0
        · have hL : ∀ e ∈ befores it.stk ++ l.toList ++ [(k, v)], cmp e.1 key < 0 := by
            intro e he
            rcases List.mem_append.1 he with he | he
            · exact ord_lt.1 (Ord.lt_trans (s3 e he) (ord_lt.2 hlt))
            · rw [List.mem_singleton] at he; subst he; exact hlt
          simp only [hlt, decide_true]
          by_cases hr : r = nil
          · subst hr
            have hdown : it.down true = some (it, false) := by
              simp [Avl.Iter.down, hcur, isNil, child]
            simp only [hdown, Option.bind_some, Bool.false_eq_true, if_false]
            have hlist2 : root.toList = (befores it.stk ++ l.toList ++ [(k, v)]) ++ afters it.stk := by
              rw [hlist]; simp
            cases c with
            | true =>
              obtain ⟨it', b, h1, h2, h3⟩ := Avl.up_true hat (by rw [hcur]; rfl)
              simp only [if_true, h1, Option.map_some]
              rcases place_cur h3 with ⟨hnil, hj⟩ | ⟨⟨a, k', v', l', r', hnode⟩, hj⟩
              · refine .done (j := _) hlist2 hL ha ?_ (by simp only [hnil]; rfl) h3 ?_
                · simp; omega
                · intro j1 j2
                  omega
              · refine .done (j := _) hlist2 hL ha ?_ (by simp only [hnode]; rfl) h3 ?_
                · simp; omega
                · intro _ _
                  exact indexOf_place hc hx hs h3 hnode
            | false =>
              simp only [Bool.true_eq_false, if_false, Option.map_some, hcur]
              have h3 : Place root it (some ((befores it.stk ++ l.toList).length : Int)) := .on hat
              refine .done (j := _) hlist2 hL ha ?_ rfl h3 fun _ _ => indexOf_place hc hx hs h3 hcur
              simp; omega
          · have hr' : r.isNil = false := isNil_of_ne hr
            have h1 : 1 ≤ r.height := height_pos hr
            have hdown : it.down true =
                some ({ it with cur := r, stk := (node h k v l r, true) :: it.stk }, true) := by
              simp only [Avl.Iter.down, hcur, isNil_node, child, hr', Avl.Iter.push, Bool.false_eq_true,
                if_false, if_true]
              rw [if_pos (show it.stk.length < it.cap by omega)]
              rfl
            simp only [hdown, Option.bind_some, if_true]
            refine ih (it := { it with cur := r, stk := (node h k v l r, true) :: it.stk }) hcap hp.right hr
              (by show r.height ≤ n; omega) ?_ (by simpa [afters] using ha)
            intro e he
            exact hL e (by simpa [befores] using he)
        · have heq : cmp k key = 0 := by omega
          have hL : ∀ e ∈ befores it.stk ++ l.toList, cmp e.1 key < 0 := fun e he =>
            ord_lt.1 (Ord.lt_of_lt_of_eq (s3 e he) (ord_eq.2 heq))
          simp only [hlt, decide_false]
          by_cases hl : l = nil
          · subst hl
            have hdown : it.down false = some (it, false) := by
              simp [Avl.Iter.down, hcur, isNil, child]
            simp only [hdown, Option.bind_some, Bool.false_eq_true, if_false]
            cases c with
            | true =>
              simp only [Bool.false_eq_true, if_false, Option.map_some, hcur]
              have h3 : Place root it (some ((befores it.stk ++ (nil : T K W).toList).length : Int)) := .on hat
              refine .done (j := _) hlist hL (.inr ⟨_, _, rfl, heq⟩) ?_ rfl h3 fun _ _ => indexOf_place hc hx hs h3 hcur
              simp
            | false =>
              obtain ⟨it', b, h1, h2, h3⟩ := Avl.up_false hat (by rw [hcur]; rfl)
              simp only [if_true, h1, Option.map_some]
              rcases place_cur h3 with ⟨hnil, hj⟩ | ⟨⟨a, k', v', l', r', hnode⟩, hj⟩
              · refine .done (j := _) hlist hL (.inr ⟨_, _, rfl, heq⟩) ?_ (by simp only [hnil]; rfl) h3 ?_
                · simp; omega
                · intro j1 j2
                  omega
              · refine .done (j := _) hlist hL (.inr ⟨_, _, rfl, heq⟩) ?_ (by simp only [hnode]; rfl) h3 ?_
                · simp; omega
                · intro _ _
                  exact indexOf_place hc hx hs h3 hnode
          · have hl' : l.isNil = false := isNil_of_ne hl
            have h1 : 1 ≤ l.height := height_pos hl
            have hdown : it.down false =
                some ({ it with cur := l, stk := (node h k v l r, false) :: it.stk }, true) := by
              simp only [Avl.Iter.down, hcur, isNil_node, child, hl', Avl.Iter.push, Bool.false_eq_true,
                if_false]
              rw [if_pos (show it.stk.length < it.cap by omega)]
              rfl
            simp only [hdown, Option.bind_some, if_true]
            refine ih (it := { it with cur := l, stk := (node h k v l r, false) :: it.stk }) hcap hp.left hl
              (by show l.height ≤ n; omega) ?_ (.inr ⟨(k, v), r.toList ++ afters it.stk, by simp [afters], heq⟩)
            intro e he
            exact hb e (by simpa [befores] using he)

/-- The loop from the root, after any legal history. -/
theorem seekThan_ok (hc : Lawful cmp) {root : T K W} (hx : Exact root)
    (hs : Sorted (ord cmp) root.toList) {s : It K W} {c : Cur} (hR : IRel root s c) (key : K) (d : Bool)
    (hn : root.isNil = false) :
    ∃ o, istep.seekThan cmp root s key d = o.map (fun p => (p.1, IRes.bool p.2)) ∧ Than cmp root key d o := by
  refine ⟨_, by unfold istep.seekThan; rw [hn, if_neg (by simp)], ?_⟩
  refine seekThanLoop_ok hc hx hs s.pos (it := { s.it with cur := root, stk := [] }) hR.cap .root ?_
    (Avl.Iter.fuel { s.it with cur := root, stk := [] }) (by simp [Avl.Iter.fuel]) (by simp [befores])
    (.inl (by simp [afters]))
  rintro h
  simp only at h
  rw [h] at hn
  cases hn

theorem head_filter {xs L R : List (K × W)} {q : K × W → Bool} (h : xs = L ++ R) (hl : ∀ e ∈ L, q e = false)
    (hr : ∀ e ∈ R, q e = true) : (xs.filter q).head? = R.head? := by
  rw [h, List.filter_append, List.filter_eq_nil_iff.2 (by intro e he; simp [hl e he]),
    List.filter_eq_self.2 hr]
  rfl

theorem last_filter {xs L R : List (K × W)} {q : K × W → Bool} (h : xs = L ++ R) (hl : ∀ e ∈ L, q e = true)
    (hr : ∀ e ∈ R, q e = false) : (xs.filter q).getLast? = L.getLast? := by
  rw [h, List.filter_append, (List.filter_eq_nil_iff (l := R)).2 (by intro e he; simp [hr e he]),
    List.filter_eq_self.2 hl, List.append_nil]

/-- C42, `SeekGT`: after every history of calls it is right only if every key is below the given one. In all
other cases it panics, or the iterator is on an entry that is not the first one with a greater key. -/
theorem C42_seekGT_never (hc : Lawful cmp) {shift : Nat} {t : T K (Option W)}
    {xs : List (K × Option W)} (h : Reached shift cmp t xs) (hh : t.height ≤ 128) (ops : List (IOp K))
    (hl : LegalRun (ispec (ord cmp) xs) (ilegal xs) ⟨none, false, true⟩ ops) (key : K) :
    ∃ s rs, run (istep cmp t) (It.new t) ops = some (s, rs) ∧
      ((∀ e ∈ xs, cmp e.1 key < 0) →
        ∃ i, istep cmp t s (.seekGT key) = some (i, .bool false) ∧ i.it.current = none) ∧
      ((∃ e ∈ xs, 0 ≤ cmp e.1 key) →
        (istep cmp t s (.seekGT key) = none ∧ ∃ e ∈ xs, 0 < cmp e.1 key) ∨
        ∃ i b e, istep cmp t s (.seekGT key) = some (i, .bool b) ∧ i.it.current = some e ∧
          xs[i.pos.toNat]? = some e ∧ 0 ≤ i.pos ∧
          some e ≠ (xs.filter fun e => decide (0 < cmp e.1 key)).head?) := by
  have : Std.TransCmp (ord cmp) := hc
  have hR := h.rel hc
  have hx := hR.list
  subst hx
  obtain ⟨s, h1, h2⟩ := irun_ok hc hR.exact hR.sorted hh ops hl
  refine ⟨s, _, h1, ?_⟩
  cases hn : t.isNil with
  | true =>
    have : t = nil := by cases t with | nil => rfl | node => cases hn
    subst this
    exact ⟨fun _ => ⟨_, rfl, rfl⟩, fun ⟨e, he, _⟩ => by cases he⟩
  | false =>
    obtain ⟨o, g1, g2⟩ := seekThan_ok hc hR.exact hR.sorted h2 key true hn
    have g1 : istep cmp t s (.seekGT key) = o.map (fun p => (p.1, IRes.bool p.2)) := g1
    rw [g1]
    cases g2 with
    | @stop L R e s' j list gt hj in_range res place pos =>
      refine ⟨fun ha => ?_, fun _ => .inr ?_⟩
      · have := ha e (by rw [list]; simp)
        omega
      · have hcur := place.current
        simp only [if_true] at hj
        have hlen : (t.toList.length : Int) = L.length + R.length + 1 := by rw [list]; simp; omega
        cases R with
        | nil => simp at hlen; omega
        | cons e' R =>
          have hj' : j.toNat = L.length + 1 := by omega
          have he' : t.toList[L.length + 1]? = some e' := by rw [list]; simp
          have hcur' : s'.it.current = some e' := by
            rw [hcur]
            simp only [Avl.entryAt]
            rw [if_neg (by omega), hj', he']
          refine ⟨s', true, e', by rw [res]; rfl, hcur', by rw [pos, hj', he'], by omega, ?_⟩
          intro hbad
          have hs := hR.sorted
          rw [list] at hs
          obtain ⟨-, -, s3, s4, -⟩ := Sorted.split.1 hs
          have hlt := s4 e' (by simp)
          -- the first greater entry is not behind `e`
          have : ∀ M : List (K × Option W), ∀ d, (∀ x ∈ M, ord cmp x.1 e.1 = .lt) → ∀ N,
              ((M ++ e :: N).filter fun e => decide (0 < cmp e.1 key)).head? = some d →
              ord cmp d.1 e.1 ≠ .gt := by
            intro M
            induction M with
            | nil =>
              intro d _ N hd
              rw [List.nil_append, List.filter_cons_of_pos (by simpa using gt)] at hd
              cases hd
              rw [Ord.refl (o := ord cmp)]; simp
            | cons x M ih =>
              intro d hM N hd
              rw [List.cons_append] at hd
              by_cases hq : 0 < cmp x.1 key
              · rw [List.filter_cons_of_pos (by simpa using hq)] at hd
                cases hd
                rw [hM x (by simp)]; simp
              · rw [List.filter_cons_of_neg (by simpa using hq)] at hd
                exact ih d (fun y hy => hM y (by simp [hy])) N hd
          have := this L e' s3 (e' :: R) (by rw [← list]; exact hbad.symm)
          exact this (Ord.gt_iff.2 hlt)
    | @panic L R e list gt edge res =>
      refine ⟨fun ha => ?_, fun _ => .inl ⟨by rw [res]; rfl, e, by rw [list]; simp, gt⟩⟩
      have := ha e (by rw [list]; simp)
      omega
    | @done L R s' j list lt rest hj res place pos =>
      simp only [if_true, Int.add_zero] at hj
      have hcur := place.current
      rcases rest with rfl | ⟨e, R', rfl, he⟩
      · rw [List.append_nil] at list
        refine ⟨fun _ => ⟨s', by rw [res]; rfl, ?_⟩, fun ⟨e, he, hge⟩ => ?_⟩
        · rw [hcur, hj]
          simp [Avl.entryAt, list]
        · have := lt e (by rw [← list]; exact he)
          omega
      · refine ⟨fun ha => ?_, fun _ => .inr ?_⟩
        · have := ha e (by rw [list]; simp)
          omega
        · have hat : t.toList[j.toNat]? = some e := by rw [list, hj]; simp
          have hlen : j < t.toList.length := by rw [list, hj]; simp
          have hp := pos (by omega) hlen
          refine ⟨s', false, e, by rw [res]; rfl, ?_, by rw [hp]; exact hat, by omega, ?_⟩
          · rw [hcur]
            simp only [Avl.entryAt]
            rw [if_neg (by omega), hat]
          · intro hbad
            have := List.mem_of_mem_head? (Option.mem_def.2 hbad.symm)
            simp only [List.mem_filter, decide_eq_true_eq] at this
            omega

/-- C42, `SeekLT`: after every history of calls, it is right if no key is greater than the given one. In all
other cases it may also panic, if every key is greater, or go to an entry whose key is not less. -/
theorem C42_seekLT_partial (hc : Lawful cmp) {shift : Nat} {t : T K (Option W)}
    {xs : List (K × Option W)} (h : Reached shift cmp t xs) (hh : t.height ≤ 128) (ops : List (IOp K))
    (hl : LegalRun (ispec (ord cmp) xs) (ilegal xs) ⟨none, false, true⟩ ops) (key : K) :
    ∃ s rs, run (istep cmp t) (It.new t) ops = some (s, rs) ∧
      ((∀ e ∈ xs, cmp e.1 key ≤ 0) →
        ∃ i, istep cmp t s (.seekLT key) = some (i, .bool false) ∧
          i.it.current = (xs.filter fun e => decide (cmp e.1 key < 0)).getLast?) ∧
      ((istep cmp t s (.seekLT key) = none ∧ ∀ e ∈ xs, 0 < cmp e.1 key) ∨
        ∃ i b, istep cmp t s (.seekLT key) = some (i, .bool b) ∧
          (∀ e, i.it.current = some e → 0 ≤ i.pos ∧ xs[i.pos.toNat]? = some e) ∧
          (i.it.current = (xs.filter fun e => decide (cmp e.1 key < 0)).getLast? ∨
            ∃ e ∈ xs, i.it.current = some e ∧ 0 ≤ cmp e.1 key)) := by
  have : Std.TransCmp (ord cmp) := hc
  have hR := h.rel hc
  have hx := hR.list
  subst hx
  obtain ⟨s, h1, h2⟩ := irun_ok hc hR.exact hR.sorted hh ops hl
  refine ⟨s, _, h1, ?_⟩
  cases hn : t.isNil with
  | true =>
    have : t = nil := by cases t with | nil => rfl | node => cases hn
    subst this
    exact ⟨fun _ => ⟨_, rfl, rfl⟩, .inr ⟨_, false, rfl, ⟨fun e he => (by cases he), .inl rfl⟩⟩⟩
  | false =>
    obtain ⟨o, g1, g2⟩ := seekThan_ok hc hR.exact hR.sorted h2 key false hn
    have g1 : istep cmp t s (.seekLT key) = o.map (fun p => (p.1, IRes.bool p.2)) := g1
    rw [g1]
    cases g2 with
    | @stop L R e s' j list gt hj in_range res place pos =>
      refine ⟨fun ha => ?_, .inr ?_⟩
      · have := ha e (by rw [list]; simp)
        omega
      · have hcur := place.current
        simp only [Bool.false_eq_true, if_false] at hj
        rcases List.eq_nil_or_concat L with rfl | ⟨L', e', rfl⟩
        · simp at hj; omega
        · have hj' : j = L'.length := by rw [hj]; simp
          have hs := hR.sorted
          rw [list] at hs
          obtain ⟨s1, -, s3, s4, -⟩ := Sorted.split.1 hs
          have he' : t.toList[L'.length]? = some e' := by rw [list]; simp
          have hcur' : s'.it.current = some e' := by
            rw [hcur, hj']
            simp only [Avl.entryAt]
            rw [if_neg (by omega), Int.toNat_natCast, he']
          refine ⟨s', true, by rw [res]; rfl, ?_, ?_⟩
          · intro d hd
            rw [hcur'] at hd
            cases hd
            exact ⟨by omega, by rw [pos, hj', Int.toNat_natCast, he']⟩
          · by_cases hlt : cmp e'.1 key < 0
            · left
              rw [hcur', last_filter list]
              · simp
              · intro x hx
                rw [decide_eq_true_eq]
                rw [List.concat_eq_append] at s1 hx
                obtain ⟨-, -, s5, -, -⟩ := Sorted.split.1 s1
                rcases List.mem_append.1 hx with hx | hx
                · exact ord_lt.1 (Ord.lt_trans (s5 x hx) (ord_lt.2 hlt))
                · rw [List.mem_singleton] at hx; subst hx; exact hlt
              · intro x hx
                rw [decide_eq_false_iff_not]
                intro hxl
                rcases List.mem_cons.1 hx with rfl | hx
                · omega
                · have := ord_lt.1 (Ord.lt_trans (s4 x hx) (ord_lt.2 hxl))
                  omega
            · exact .inr ⟨e', by rw [list]; simp, hcur', by omega⟩
    | @panic L R e list gt edge res =>
      simp only [Bool.false_eq_true, if_false] at edge
      subst edge
      refine ⟨fun ha => ?_, .inl ⟨by rw [res]; rfl, ?_⟩⟩
      · have := ha e (by rw [list]; simp)
        omega
      · intro x hx
        have hs := hR.sorted
        rw [list] at hs hx
        obtain ⟨-, -, -, s4, -⟩ := Sorted.split.1 hs
        rcases List.mem_cons.1 hx with rfl | hx
        · exact gt
        · have h3 := Ord.lt_trans (Ord.gt_iff.1 (ord_gt.2 gt)) (s4 x hx)
          exact ord_gt.1 (Ord.gt_iff.2 h3)
    | @done L R s' j list lt rest hj res place pos =>
      simp only [Bool.false_eq_true, if_false] at hj
      have hcur := place.current
      have hright : s'.it.current = (t.toList.filter fun e => decide (cmp e.1 key < 0)).getLast? := by
        rw [last_filter list (fun x hx => by simpa using lt x hx), hcur, hj]
        · rcases List.eq_nil_or_concat L with rfl | ⟨L', e', rfl⟩
          · simp [Avl.entryAt]
          · have he' : t.toList[L'.length]? = some e' := by rw [list]; simp
            simp only [Avl.entryAt]
            rw [if_neg (by simp), show ((L'.concat e').length + (-1 : Int)).toNat = L'.length by simp, he']
            simp
        · intro x hx
          rw [decide_eq_false_iff_not]
          intro hxl
          rcases rest with rfl | ⟨e, R', rfl, he⟩
          · cases hx
          · have hs := hR.sorted
            rw [list] at hs
            obtain ⟨-, -, -, s4, -⟩ := Sorted.split.1 hs
            rcases List.mem_cons.1 hx with rfl | hx
            · omega
            · have := ord_lt.1 (Ord.lt_trans (s4 x hx) (ord_lt.2 hxl))
              omega
      refine ⟨fun _ => ⟨s', by rw [res]; rfl, hright⟩, .inr ⟨s', false, by rw [res]; rfl, ?_, .inl hright⟩⟩
      intro e he
      rw [hcur] at he
      simp only [Avl.entryAt] at he
      split at he
      · cases he
      · rename_i hj0
        have hlen : j < t.toList.length := by
          have := (List.getElem?_eq_some_iff.1 he).1
          omega
        rw [pos (by omega) hlen]
        exact ⟨by omega, he⟩

example : ∃ s rs, run (istep Compare.any three) (It.new three) [.seekToLast, .next] = some (s, rs) ∧
    ∃ i b e, istep Compare.any three s (.seekGT 1) = some (i, .bool b) ∧ i.it.current = some e ∧
      some e ≠ some (2, none) := by
  obtain ⟨s, rs, h1, -, h2⟩ := C42_seekGT_never any_lawful three_reached (by decide)
    [.seekToLast, .next] ⟨trivial, rfl, trivial⟩ 1
  refine ⟨s, rs, h1, ?_⟩
  rcases h2 ⟨(2, none), by simp, by decide⟩ with ⟨h3, -⟩ | ⟨i, b, e, h3, h4, -, -, h5⟩
  · cases h1
    exact absurd h3 (by decide +kernel)
  · exact ⟨i, b, e, h3, h4, h5⟩

example : ∃ s rs i, run (istep Compare.any three) (It.new three) [.seekToLast, .next] = some (s, rs) ∧
    istep Compare.any three s (.seekLT 3) = some (i, .bool false) ∧ i.it.current = some (2, none) := by
  obtain ⟨s, rs, h1, h2, -⟩ := C42_seekLT_partial any_lawful three_reached (by decide)
    [.seekToLast, .next] ⟨trivial, rfl, trivial⟩ 3
  obtain ⟨i, h3, h4⟩ := h2 (by decide)
  exact ⟨s, rs, i, h1, h3, h4⟩

end Verif.IndexTree
