import Verif.Tree.AvlsModel
import Verif.Common.Tac

/-! Lemmas about the model of tree/avls. -/

namespace Verif.Avls

open Verif.Tree Verif.Avl

variable {K V : Type} {cmp : K → K → Int}

/-! ### Lists -/

section
variable {o : K → K → Ordering} [ht : Std.TransCmp o] {L R : List (K × V)} {e : K × V} {k : K}

theorem no_right (h : SortedLE o (L ++ e :: R)) (he : o e.1 k = .gt) :
    ∀ x ∈ e :: R, o x.1 k = .gt := by
  obtain ⟨-, -, -, h4, -⟩ := SortedLE.split.1 h
  intro x hx
  rcases List.mem_cons.1 hx with rfl | hx
  · exact he
  · have := h4 x hx
    rw [Ord.gt_iff] at he ⊢
    exact Ord.lt_of_lt_of_ngt he this

theorem no_left (h : SortedLE o (L ++ e :: R)) (he : o e.1 k = .lt) :
    ∀ x ∈ L, o x.1 k = .lt := by
  obtain ⟨-, -, h3, -, -⟩ := SortedLE.split.1 h
  exact fun x hx => Ord.lt_of_ngt_of_lt (h3 x hx) he

theorem left_ngt (h : SortedLE o (L ++ e :: R)) (he : o e.1 k ≠ .gt) :
    ∀ x ∈ L, o x.1 k ≠ .gt := by
  obtain ⟨-, -, h3, -, -⟩ := SortedLE.split.1 h
  exact fun x hx => Ord.ngt_trans (h3 x hx) he

omit ht in
theorem find_left (h : ∀ x ∈ R, o x.1 k ≠ .eq) :
    (L ++ R).find? (fun e => o e.1 k == .eq) = L.find? fun e => o e.1 k == .eq := by
  have : R.find? (fun e => o e.1 k == .eq) = none :=
    List.find?_eq_none.2 (by intro x hx; simp [h x hx])
  rw [List.find?_append, this, Option.or_none]

omit ht in
theorem find_right (h : ∀ x ∈ L, o x.1 k ≠ .eq) :
    (L ++ R).find? (fun e => o e.1 k == .eq) = R.find? fun e => o e.1 k == .eq := by
  rw [List.find?_append, List.find?_eq_none.2 (by intro x hx; simp [h x hx])]
  simp

omit ht in
theorem erase_right (h : ∀ x ∈ L, o x.1 k ≠ .eq) :
    (L ++ R).eraseP (fun e => o e.1 k == .eq) = L ++ R.eraseP fun e => o e.1 k == .eq :=
  List.eraseP_append_right _ fun b hb => by simp [h b hb]

omit ht in
theorem erase_left (h : ∀ x ∈ R, o x.1 k ≠ .eq) :
    (L ++ R).eraseP (fun e => o e.1 k == .eq) = (L.eraseP fun e => o e.1 k == .eq) ++ R := by
  rw [List.eraseP_append]
  split
  · rfl
  · rename_i h'
    rw [List.eraseP_of_forall_not (l := L), List.eraseP_of_forall_not (l := R)]
    · intro x hx; simp [h x hx]
    · intro x hx; simp at h'; simpa using h' x.1 x.2 hx

omit ht in
theorem setFirst_right (v : V) (h : ∀ x ∈ L, o x.1 k ≠ .eq) :
    setFirst o k v (L ++ R) = L ++ setFirst o k v R := by
  induction L with
  | nil => rfl
  | cons x L ih =>
    simp only [List.cons_append, setFirst]
    rw [if_neg (by simpa using h x (by simp)), ih fun y hy => h y (by simp [hy])]

omit ht in
theorem setFirst_left (v : V) (h : L.any fun x => o x.1 k == .eq) :
    setFirst o k v (L ++ R) = setFirst o k v L ++ R := by
  induction L with
  | nil => simp at h
  | cons x L ih =>
    simp only [List.cons_append, setFirst]
    split
    · rfl
    · rename_i h'
      rw [List.any_cons, Bool.or_eq_true] at h
      rw [ih (h.resolve_left h'), List.cons_append]

omit ht in
theorem setFirst_none (v : V) (h : ∀ x ∈ L, o x.1 k ≠ .eq) : setFirst o k v L = L := by
  have := setFirst_right (R := []) v h
  simpa [setFirst] using this

omit ht in
theorem setFirst_keys (v : V) : (setFirst o k v L).map (·.1) = L.map (·.1) := by
  induction L with
  | nil => rfl
  | cons x L ih => simp only [setFirst]; split <;> simp [ih]

omit ht in
theorem sorted_of_keys {L' : List (K × V)} (h : L'.map (·.1) = L.map (·.1)) (hs : SortedLE o L) :
    SortedLE o L' := by
  unfold SortedLE at *
  have e : ∀ M : List (K × V), M.Pairwise (fun a b => o a.1 b.1 ≠ .gt) ↔
      (M.map (·.1)).Pairwise fun a b => o a b ≠ .gt := fun M => by rw [List.pairwise_map]
  rw [e] at hs ⊢
  rwa [h]

theorem insertAfter_left (h : SortedLE o (L ++ e :: R)) {v : V} (he : o e.1 k = .gt) :
    insertAfter o (k, v) (L ++ e :: R) = insertAfter o (k, v) L ++ e :: R := by
  have h1 := no_right h he
  unfold insertAfter
  rw [List.filter_append, List.filter_append, (List.filter_eq_nil_iff (l := e :: R)).2,
    (List.filter_eq_self (l := e :: R)).2]
  · simp
  · intro x hx; simp [h1 x hx]
  · intro x hx; simp [h1 x hx]

theorem insertAfter_right (h : SortedLE o (L ++ e :: R)) {v : V} (he : o e.1 k ≠ .gt) :
    insertAfter o (k, v) (L ++ e :: R) = L ++ e :: insertAfter o (k, v) R := by
  have h1 := left_ngt h he
  have h2 : o e.1 k ≠ .gt := he
  unfold insertAfter
  rw [List.filter_append, List.filter_append, (List.filter_eq_self (l := L)).2,
    (List.filter_eq_nil_iff (l := L)).2]
  · simp [h2]
  · intro x hx; simp [h1 x hx]
  · intro x hx; simp [h1 x hx]

theorem sorted_insertAfter {xs : List (K × V)} (h : SortedLE o xs) (v : V) :
    SortedLE o (insertAfter o (k, v) xs) := by
  unfold insertAfter
  rw [SortedLE.split]
  refine ⟨List.Pairwise.filter _ h, List.Pairwise.filter _ h, ?_, ?_, ?_⟩
  · intro x hx
    have := (List.mem_filter.1 hx).2
    simpa using this
  · intro x hx
    have := (List.mem_filter.1 hx).2
    simp only [beq_iff_eq] at this
    rw [Ord.gt_iff] at this
    rw [this]; simp
  · intro x hx y hy
    have h1 := (List.mem_filter.1 hx).2
    have h2 := (List.mem_filter.1 hy).2
    simp only [bne_iff_ne, ne_eq, beq_iff_eq] at h1 h2
    rw [Ord.gt_iff] at h2
    have : o x.1 y.1 = .lt := Ord.lt_of_ngt_of_lt h1 h2
    rw [this]; simp

omit ht in
theorem length_insertAfter {xs : List (K × V)} (x : K × V) :
    (insertAfter o x xs).length = xs.length + 1 := by
  unfold insertAfter
  have : ∀ ys : List (K × V), (ys.filter fun y => o y.1 x.1 != .gt).length +
      (ys.filter fun y => o y.1 x.1 == .gt).length = ys.length := by
    intro ys
    induction ys with
    | nil => rfl
    | cons y ys ih =>
      rw [List.filter_cons, List.filter_cons]
      cases o y.1 x.1 <;> simp <;> omega
  simp only [List.length_append, List.length_cons]
  have := this xs
  omega

end

/-! ### `put` -/

/-- `put` is the `put` of the map for a comparator that never answers "equal". -/
theorem put_eq (d : Int) (key : K) (val : V) (t : T K V) (sib : Bool) :
    Avl.put (fun a b => if cmp a b < 0 then 1 else cmp a b) true d key val id t sib =
      (put cmp d key val t sib).map fun p => (p.1, false, p.2) := by
  induction t generalizing sib with
  | nil => rfl
  | node h k v l r ihl ihr =>
    simp only [Avl.put, put, ihl, ihr]
    generalize hc : (if cmp k key < 0 then 1 else cmp k key) = c
    have : ¬ c < 0 := by split at hc <;> omega
    rw [if_neg this]
    have aux : ∀ (p : T K V × Bool) (f : T K V → T K V),
        (if (false || !p.2) = true then some (f p.1, false, p.2)
          else Option.map (fun q => (q.1, false, q.2)) (rebalance true d (f p.1))) =
        (rebIf true d p.2 (f p.1)).map fun q => (q.1, false, q.2) := by
      intro p f
      unfold rebIf
      cases p.2 <;> simp
    split
    · cases put cmp d key val l r.isNil with
      | none => rfl
      | some p => exact aux p fun x => node h k v x r
    · split
      · cases put cmp d key val r l.isNil with
        | none => rfl
        | some p => exact aux p fun x => node h k v l x
      · rfl

theorem put_ok (hc : LawfulEx cmp) {d : Int} (cfg : Cfg true d) {key : K} {val : V}
    {t : T K V} {sib : Bool} (ht : Good d t) (hb : t.height ≤ 126) :
    ∃ t' rb, put cmp d key val t sib = some (t', rb) ∧ Good d t' ∧ t'.height ≤ t.height + 1 := by
  obtain ⟨t', ex, rb, h1, h2, -, h3, -⟩ := put_ok_range
    (cmp := fun a b => if cmp a b < 0 then 1 else cmp a b)
    (fun a b => by
      rcases hc.range a b with h | h | h <;> simp [h]) cfg (key := key) (val := val) (upd := id) (sib := sib) ht hb
  rw [put_eq] at h1
  obtain ⟨p, h4, h5⟩ := Option.map_eq_some_iff.1 h1
  cases h5
  exact ⟨_, _, h4, h2, h3⟩

theorem put_list (hc : LawfulEx cmp) {d : Int} {key : K} {val : V} {t : T K V}
    {sib : Bool} {p : T K V × Bool} (hs : SortedLE (ord cmp) t.toList)
    (h : put cmp d key val t sib = some p) :
    p.1.toList = insertAfter (ord cmp) (key, val) t.toList := by
  have := hc.trans
  induction t generalizing sib p with
  | nil => cases h; simp [insertAfter]
  | node hh k v l r ihl ihr =>
    rw [toList_node] at hs ⊢
    obtain ⟨s1, s2, -⟩ := SortedLE.split.1 hs
    simp only [put] at h
    by_cases hg : ord cmp k key = .gt
    · have c : cmp k key = 0 := by
        rcases cmp_cases hc k key with ⟨c, oc⟩ | ⟨c, oc⟩ | ⟨c, oc⟩
        · rw [oc] at hg; cases hg
        · exact c
        · rw [oc] at hg; cases hg
      rw [c] at h
      simp only [Int.lt_irrefl, if_false, if_true] at h
      obtain ⟨q, h1, h2⟩ := Option.bind_eq_some_iff.1 h
      rw [rebIf_list h2, toList_node, ihl s1 h1, insertAfter_left hs hg]
    · have c : (if cmp k key < 0 then 1 else cmp k key) = 1 := by
        rcases cmp_cases hc k key with ⟨c, oc⟩ | ⟨c, oc⟩ | ⟨c, oc⟩
        · simp [c]
        · exact absurd oc hg
        · simp [c]
      rw [c, if_neg (by decide), if_pos rfl] at h
      obtain ⟨q, h1, h2⟩ := Option.bind_eq_some_iff.1 h
      rw [rebIf_list h2, toList_node, ihr s2 h1, insertAfter_right hs hg]

/-! ### `get`, `setVal` -/

theorem get_eq (hc : LawfulEx cmp) {key : K} {t : T K V} (hs : SortedLE (ord cmp) t.toList) :
    get cmp key t = some (t.toList.find? fun e => ord cmp e.1 key == .eq) := by
  have := hc.trans
  induction t with
  | nil => rfl
  | node hh k v l r ihl ihr =>
    rw [toList_node] at hs ⊢
    obtain ⟨s1, s2, -⟩ := SortedLE.split.1 hs
    simp only [get, ihl s1, ihr s2]
    rcases cmp_cases hc k key with ⟨c, oc⟩ | ⟨c, oc⟩ | ⟨c, oc⟩
    · rw [if_pos c, Option.map_some, List.find?_append]
      have : ((k, v) :: r.toList).find? (fun e => ord cmp e.1 key == .eq) = some (k, v) := by
        rw [List.find?_cons_of_pos (by simp [oc])]
      rw [this]
      cases l.toList.find? (fun e => ord cmp e.1 key == .eq) <;> rfl
    · have := no_right hs oc
      rw [if_neg (by omega), if_pos c, find_left fun x hx => by rw [this x hx]; simp]
    · have := no_left hs oc
      rw [if_neg (by omega), if_neg (by omega), if_pos c,
        find_right fun x hx => by rw [this x hx]; simp, List.find?_cons_of_neg (by simp [oc])]

theorem setVal_ok (hc : LawfulEx cmp) {key : K} {val : V} {t : T K V}
    (hs : SortedLE (ord cmp) t.toList) :
    ∃ t', setVal cmp key val t = some (t', t.toList.any fun e => ord cmp e.1 key == .eq) ∧
      t'.toList = setFirst (ord cmp) key val t.toList ∧
      t'.height = t.height ∧ (Exact t → Exact t') ∧ ∀ d, Bal d t → Bal d t' := by
  have := hc.trans
  induction t with
  | nil => exact ⟨_, rfl, rfl, rfl, id, fun _ => id⟩
  | node hh k v l r ihl ihr =>
    rw [toList_node] at hs ⊢
    obtain ⟨s1, s2, -⟩ := SortedLE.split.1 hs
    obtain ⟨tl, l1, l2, l3, l4, l5⟩ := ihl s1
    obtain ⟨tr, r1, r2, r3, r4, r5⟩ := ihr s2
    have hleft : (node hh k v tl r : T K V).height = (node hh k v l r : T K V).height ∧
        (Exact (node hh k v l r) → Exact (node hh k v tl r)) ∧
        ∀ d, Bal d (node hh k v l r) → Bal d (node hh k v tl r) := by
      refine ⟨?_, ?_, ?_⟩
      · simp only [height, l3]
      · rintro ⟨a, b, c⟩; exact ⟨by rw [a, l3], l4 b, c⟩
      · rintro d ⟨a, a', b, c⟩; exact ⟨by rw [l3]; exact a, by rw [l3]; exact a', l5 d b, c⟩
    simp only [setVal, l1, r1, Option.map_some]
    rcases cmp_cases hc k key with ⟨c, oc⟩ | ⟨c, oc⟩ | ⟨c, oc⟩
    · rw [if_pos c]
      have hany : ((l.toList ++ (k, v) :: r.toList).any fun e => ord cmp e.1 key == .eq) = true := by
        rw [List.any_append, List.any_cons]
        simp [oc]
      rw [hany]
      by_cases hl : (l.toList.any fun e => ord cmp e.1 key == .eq) = true
      · rw [if_pos hl]
        exact ⟨_, rfl, by rw [toList_node, l2, setFirst_left _ hl], hleft⟩
      · rw [if_neg hl]
        refine ⟨_, rfl, ?_, rfl, id, fun _ => id⟩
        rw [toList_node, setFirst_right]
        · simp [setFirst, oc]
        · intro x hx hx'
          exact hl (List.any_eq_true.2 ⟨x, hx, by simp [hx']⟩)
    · have hn := no_right hs oc
      rw [if_neg (by omega), if_pos c]
      have hany : ((l.toList ++ (k, v) :: r.toList).any fun e => ord cmp e.1 key == .eq) =
          l.toList.any fun e => ord cmp e.1 key == .eq := by
        rw [List.any_append]
        have : (((k, v) :: r.toList).any fun e => ord cmp e.1 key == .eq) = false := by
          rw [List.any_eq_false]; intro x hx; simp [hn x hx]
        rw [this, Bool.or_false]
      rw [hany]
      refine ⟨_, rfl, ?_, hleft⟩
      rw [toList_node, l2]
      by_cases hl : (l.toList.any fun e => ord cmp e.1 key == .eq) = true
      · rw [setFirst_left _ hl]
      · have h1 : ∀ x ∈ l.toList, ord cmp x.1 key ≠ .eq := fun x hx hx' =>
          hl (List.any_eq_true.2 ⟨x, hx, by simp [hx']⟩)
        rw [setFirst_none _ h1, setFirst_none]
        intro x hx
        rcases List.mem_append.1 hx with hx | hx
        · exact h1 x hx
        · rw [hn x hx]; simp
    · have hn := no_left hs oc
      rw [if_neg (by omega), if_neg (by omega), if_pos c]
      have hany : ((l.toList ++ (k, v) :: r.toList).any fun e => ord cmp e.1 key == .eq) =
          r.toList.any fun e => ord cmp e.1 key == .eq := by
        rw [List.any_append, List.any_cons]
        have : (l.toList.any fun e => ord cmp e.1 key == .eq) = false := by
          rw [List.any_eq_false]; intro x hx; simp [hn x hx]
        rw [this]
        simp [oc]
      rw [hany]
      refine ⟨_, rfl, ?_, ?_, ?_, ?_⟩
      · rw [toList_node, r2, setFirst_right _ fun x hx => by rw [hn x hx]; simp]
        simp [setFirst, oc]
      · simp only [height, r3]
      · rintro ⟨a, b, c⟩; exact ⟨by rw [a, r3], b, r4 c⟩
      · rintro d ⟨a, a', b, c⟩; exact ⟨by rw [r3]; exact a, by rw [r3]; exact a', b, r5 d c⟩

/-! ### `remove` -/

theorem remove_none {d : Int} {key : K} {t : T K V} {right : Bool} {p : T K V × Option V × Bool}
    (h : remove cmp d key t right = some p) (hn : p.2.1 = none) : p.1 = t ∧ p.2.2 = false := by
  induction t generalizing right p with
  | nil => cases h; exact ⟨rfl, rfl⟩
  | node hh k v l r ihl ihr =>
    simp only [remove] at h
    split at h
    · obtain ⟨q, h1, h2⟩ := Option.bind_eq_some_iff.1 h
      split at h2
      · rename_i hq
        obtain ⟨x, h3, rfl⟩ := Option.map_eq_some_iff.1 h2
        simp only at hn
        rw [hn] at hq; simp at hq
      · have := (removeHere_list h2).2
        rw [this] at hn; cases hn
    · split at h
      · obtain ⟨q, h1, h2⟩ := Option.bind_eq_some_iff.1 h
        obtain ⟨x, h3, rfl⟩ := Option.map_eq_some_iff.1 h2
        obtain ⟨e1, e2⟩ := ihl h1 hn
        rw [e1, e2] at h3
        cases h3
        exact ⟨rfl, rfl⟩
      · split at h
        · obtain ⟨q, h1, h2⟩ := Option.bind_eq_some_iff.1 h
          obtain ⟨x, h3, rfl⟩ := Option.map_eq_some_iff.1 h2
          obtain ⟨e1, e2⟩ := ihr h1 hn
          rw [e1, e2] at h3
          cases h3
          exact ⟨rfl, rfl⟩
        · cases h

theorem remove_list (hc : LawfulEx cmp) {d : Int} {key : K} {t : T K V} {right : Bool}
    {p : T K V × Option V × Bool} (hs : SortedLE (ord cmp) t.toList)
    (h : remove cmp d key t right = some p) :
    p.1.toList = t.toList.eraseP (fun e => ord cmp e.1 key == .eq) ∧
    p.2.1 = (t.toList.find? fun e => ord cmp e.1 key == .eq).map (·.2) := by
  have := hc.trans
  induction t generalizing right p with
  | nil => cases h; exact ⟨rfl, rfl⟩
  | node hh k v l r ihl ihr =>
    rw [toList_node] at hs ⊢
    obtain ⟨s1, s2, -⟩ := SortedLE.split.1 hs
    simp only [remove] at h
    rcases cmp_cases hc k key with ⟨c, oc⟩ | ⟨c, oc⟩ | ⟨c, oc⟩
    · rw [if_pos c] at h
      obtain ⟨q, h1, h2⟩ := Option.bind_eq_some_iff.1 h
      obtain ⟨i1, i2⟩ := ihl s1 h1
      split at h2
      · rename_i hq
        obtain ⟨x, h3, rfl⟩ := Option.map_eq_some_iff.1 h2
        rw [rebIf_list h3, toList_node]
        rw [i2, Option.isSome_map] at hq
        obtain ⟨e, he⟩ := Option.isSome_iff_exists.1 hq
        rw [List.find?_append, he]
        refine ⟨?_, by rw [i2, he]; rfl⟩
        rw [List.eraseP_append, if_pos, i1]
        exact List.any_eq_true.2 ⟨e, List.mem_of_find?_eq_some he,
          List.find?_some (p := fun e : K × V => ord cmp e.1 key == .eq) he⟩
      · rename_i hq
        have hq' : q.2.1 = none := by simpa using hq
        obtain ⟨e1, -⟩ := remove_none h1 hq'
        obtain ⟨g1, g2⟩ := removeHere_list h2
        have hl : ∀ x ∈ l.toList, ord cmp x.1 key ≠ .eq := by
          rw [hq'] at i2
          have := i2.symm
          rw [Option.map_eq_none_iff, List.find?_eq_none] at this
          intro x hx; simpa using this x hx
        rw [erase_right hl, find_right hl, g1, g2, e1, List.eraseP_cons_of_pos (by simp [oc]),
          List.find?_cons_of_pos (by simp [oc])]
        exact ⟨rfl, rfl⟩
    · have hn := no_right hs oc
      rw [if_neg (by omega), if_pos c] at h
      obtain ⟨q, h1, h2⟩ := Option.bind_eq_some_iff.1 h
      obtain ⟨x, h3, rfl⟩ := Option.map_eq_some_iff.1 h2
      obtain ⟨i1, i2⟩ := ihl s1 h1
      rw [rebIf_list h3, toList_node, i1, erase_left fun x hx => by rw [hn x hx]; simp,
        find_left fun x hx => by rw [hn x hx]; simp]
      exact ⟨rfl, i2⟩
    · have hn := no_left hs oc
      rw [if_neg (by omega), if_neg (by omega), if_pos c] at h
      obtain ⟨q, h1, h2⟩ := Option.bind_eq_some_iff.1 h
      obtain ⟨x, h3, rfl⟩ := Option.map_eq_some_iff.1 h2
      obtain ⟨i1, i2⟩ := ihr s2 h1
      rw [rebIf_list h3, toList_node, i1, erase_right fun x hx => by rw [hn x hx]; simp,
        find_right fun x hx => by rw [hn x hx]; simp, List.eraseP_cons_of_neg (by simp [oc]),
        List.find?_cons_of_neg (by simp [oc])]
      exact ⟨rfl, i2⟩

/-- `removeLeft` succeeds and keeps the heights exact. -/
theorem remove_ok (hc : LawfulEx cmp) {d : Int} (cfg : Cfg true d) {key : K} {t : T K V}
    {right : Bool} (ht : Good d t) (hb : t.height ≤ 127) :
    ∃ t' o b, remove cmp d key t right = some (t', o, b) ∧ Good d t' ∧
      t'.height ≤ t.height ∧ (2 ≤ d → t.height ≤ t'.height + 1) ∧
      (b = false → t'.height = t.height) := by
  induction t generalizing right with
  | nil => exact ⟨_, _, _, rfl, ht, Nat.le_refl _, fun _ => by omega, fun _ => rfl⟩
  | node h k v l r ihl ihr =>
    have ht' := ht
    have hb'' := hb
    obtain ⟨⟨e0, e1, e2⟩, e3⟩ := ht
    have gl : Good d l := ⟨e1, fun h => (e3 h).2.2.1⟩
    have gr : Good d r := ⟨e2, fun h => (e3 h).2.2.2⟩
    simp only [height] at hb
    simp only [remove]
    have left : ∃ t' o b, remove cmp d key l false = some (t', o, b) ∧ (o = none → t' = l) ∧
        ∃ t'' b'', rebIf true d b (node h k v t' r) = some (t'', b'') ∧ Good d t'' ∧
        t''.height ≤ (node h k v l r : T K V).height ∧
        (2 ≤ d → (node h k v l r : T K V).height ≤ t''.height + 1) ∧
        (b'' = false → t''.height = (node h k v l r : T K V).height) := by
      obtain ⟨t', o, rb, h1, h2, h3, h4, h5⟩ := ihl (right := false) gl (by omega)
      obtain ⟨t'', b'', g1, g2, g3, g4, g5, g6⟩ := rebIf_ok cfg (h := h) (k := k) (v := v) rb
          h2 gr (by omega) (by omega)
          (fun hd => by have := h4 hd; have := (e3 hd).1; have := (e3 hd).2.1; omega)
          (fun hb' => ⟨.node h2.1 e2 (by rw [e0, h5 hb']), fun hd => by
            simp only [Bal]; rw [h5 hb']; exact ⟨(e3 hd).1, (e3 hd).2.1, h2.2 hd, gr.2 hd⟩⟩)
      refine ⟨t', o, rb, h1, fun ho => (remove_none h1 ho).1, t'', b'', g1, g2, ?_, ?_, ?_⟩
      · rw [Tree.height]; omega
      · intro hd
        have := h4 hd; have := (e3 hd).1; have := (e3 hd).2.1
        rw [Tree.height]; omega
      · intro hb'
        have := g5 hb'
        rw [e0] at this
        rw [Tree.height]; omega
    rcases cmp_cases hc k key with ⟨c, oc⟩ | ⟨c, oc⟩ | ⟨c, oc⟩
    · rw [if_pos c]
      obtain ⟨t', o, b, h1, h2, t'', b'', g1, g2⟩ := left
      simp only [h1, Option.bind_some]
      cases o with
      | some x =>
        simp only [Option.isSome_some, if_true, g1, Option.map_some]
        exact ⟨_, _, _, rfl, g2⟩
      | none =>
        simp only [Option.isSome_none, Bool.false_eq_true, if_false, h2 rfl]
        exact removeHere_ok cfg right ht' hb'' (by simp)
    · rw [if_neg (by omega), if_pos c]
      obtain ⟨t', o, b, h1, h2, t'', b'', g1, g2⟩ := left
      simp only [h1, Option.bind_some, g1, Option.map_some]
      exact ⟨_, _, _, rfl, g2⟩
    · rw [if_neg (by omega), if_neg (by omega), if_pos c]
      obtain ⟨t', o, rb, h1, h2, h3, h4, h5⟩ := ihr (right := true) gr (by omega)
      simp only [h1, Option.bind_some]
      obtain ⟨t'', b'', g1, g2, g3, g4, g5, g6⟩ := rebIf_ok cfg (h := h) (k := k) (v := v) rb
          gl h2 (by omega) (by omega)
          (fun hd => by have := h4 hd; have := (e3 hd).1; have := (e3 hd).2.1; omega)
          (fun hb' => ⟨.node e1 h2.1 (by rw [e0, h5 hb']), fun hd => by
            simp only [Bal]; rw [h5 hb']; exact ⟨(e3 hd).1, (e3 hd).2.1, gl.2 hd, h2.2 hd⟩⟩)
      refine ⟨t'', o, b'', by rw [g1]; rfl, g2, ?_, ?_, ?_⟩
      · rw [Tree.height]; omega
      · intro hd
        have := h4 hd; have := (e3 hd).1; have := (e3 hd).2.1
        rw [Tree.height]; omega
      · intro hb'
        have := g5 hb'
        rw [e0] at this
        rw [Tree.height]; omega

/-! ### The multimap -/

structure Rel (cmp : K → K → Int) (m : Map K V) (xs : List (K × V)) : Prop where
  list : m.root.toList = xs
  sorted : SortedLE (ord cmp) xs
  size : m.size = xs.length

theorem Rel.new : Rel cmp (Map.new : Map K V) [] := ⟨rfl, List.Pairwise.nil, rfl⟩

theorem height_eq {m : Map K V} (h : m.size = m.root.toList.length) :
    m.height = some (hgt m.root) := by
  unfold Map.height
  cases hm : m.root with
  | nil => rw [hm] at h; rw [if_pos (by rw [h]; rfl)]; rfl
  | node h' k v l r => rw [hm] at h; rw [if_neg (by rw [h]; simp)]; rfl

theorem put_rel (hc : LawfulEx cmp) {d : Int} {m m' : Map K V} {xs : List (K × V)}
    (hR : Rel cmp m xs) {k : K} {v : V} (h : Map.put cmp d m k v = some m') :
    Rel cmp m' (insertAfter (ord cmp) (k, v) xs) := by
  have := hc.trans
  obtain ⟨p, h1, rfl⟩ := Option.map_eq_some_iff.1 h
  refine ⟨?_, sorted_insertAfter hR.sorted v, ?_⟩
  · rw [put_list hc (by rw [hR.list]; exact hR.sorted) h1, hR.list]
  · rw [length_insertAfter, hR.size]

/-- Every call that succeeds answers as the ideal multimap. -/
theorem step_partial (hc : LawfulEx cmp) {d : Int} {m m' : Map K V} {xs : List (K × V)}
    {op : Op K V} {r : Res K V} (hR : Rel cmp m xs) (h : step cmp d m op = some (m', r)) :
    (op.abstract = true → r = (spec (ord cmp) xs op).2) ∧ Rel cmp m' (spec (ord cmp) xs op).1 := by
  have := hc.trans
  have hs : SortedLE (ord cmp) m.root.toList := by rw [hR.list]; exact hR.sorted
  have hget : ∀ k, Avls.get cmp k m.root = some (xs.find? fun e => ord cmp e.1 k == .eq) := by
    intro k; rw [get_eq hc hs, hR.list]
  have hhas : ∀ k, (xs.find? fun e => ord cmp e.1 k == .eq).isSome =
      xs.any fun e => ord cmp e.1 k == .eq := by
    intro k; rw [Bool.eq_iff_iff, List.find?_isSome, List.any_eq_true]
  have hset : ∀ k v p, Map.set cmp d m k v = some p →
      p.2 = (!xs.any fun e => ord cmp e.1 k == .eq) ∧
      Rel cmp p.1 (if xs.any fun e => ord cmp e.1 k == .eq then setFirst (ord cmp) k v xs
        else insertAfter (ord cmp) (k, v) xs) := by
    intro k v p hp
    simp only [Map.set, hget, Option.bind_some, hhas] at hp
    by_cases hh : (xs.any fun e => ord cmp e.1 k == .eq) = true
    · rw [if_pos hh] at hp ⊢
      obtain ⟨t, h1, rfl⟩ := Option.map_eq_some_iff.1 hp
      obtain ⟨t', h2, h3, -⟩ := setVal_ok hc (key := k) (val := v) hs
      rw [h2] at h1
      cases h1
      rw [hR.list] at h3
      refine ⟨by rw [hh]; rfl, h3, sorted_of_keys (setFirst_keys v) hR.sorted, ?_⟩
      show m.size = _
      have := congrArg List.length (setFirst_keys (o := ord cmp) (k := k) (L := xs) v)
      simp only [List.length_map] at this
      rw [this, hR.size]
    · rw [if_neg hh] at hp ⊢
      obtain ⟨m1, h1, rfl⟩ := Option.map_eq_some_iff.1 hp
      exact ⟨by rw [Bool.not_eq_true] at hh; rw [hh]; rfl, put_rel hc hR h1⟩
  have hrem : ∀ k p, Map.remove cmp d m k = some p →
      p.2 = (xs.find? fun e => ord cmp e.1 k == .eq).map (·.2) ∧
      Rel cmp p.1 (xs.eraseP fun e => ord cmp e.1 k == .eq) := by
    intro k p hp
    obtain ⟨q, h1, rfl⟩ := Option.map_eq_some_iff.1 hp
    obtain ⟨e1, e2⟩ := remove_list hc hs h1
    rw [hR.list] at e1 e2
    refine ⟨e2, e1, List.Pairwise.sublist List.eraseP_sublist hR.sorted, ?_⟩
    show (if q.2.1.isSome then _ else _) = _
    rw [e2, Option.isSome_map, hhas]
    by_cases hh : (xs.any fun e => ord cmp e.1 k == .eq) = true
    · rw [if_pos hh]
      obtain ⟨a, ha1, ha2⟩ := List.any_eq_true.1 hh
      rw [List.length_eraseP_of_mem ha1 ha2, hR.size]
    · rw [if_neg hh, List.eraseP_of_forall_not, hR.size]
      intro a ha ha'
      exact hh (List.any_eq_true.2 ⟨a, ha, ha'⟩)
  cases op with
  | put k v =>
    obtain ⟨p, hp, h⟩ := Option.map_eq_some_iff.1 h
    cases h
    exact ⟨fun _ => rfl, put_rel hc hR hp⟩
  | insertIfAbsent k v =>
    simp only [step, Map.insertIfAbsent, hget, Option.bind_some, hhas, Option.map_eq_some_iff] at h
    obtain ⟨p, hp, h⟩ := h
    cases h
    simp only [spec]
    by_cases hh : (xs.any fun e => ord cmp e.1 k == .eq) = true
    · rw [if_pos hh] at hp ⊢
      cases hp
      exact ⟨fun _ => rfl, hR⟩
    · rw [if_neg hh] at hp ⊢
      obtain ⟨m1, h1, rfl⟩ := Option.map_eq_some_iff.1 hp
      exact ⟨fun _ => rfl, put_rel hc hR h1⟩
  | set k v =>
    obtain ⟨p, hp, h⟩ := Option.map_eq_some_iff.1 h
    cases h
    obtain ⟨h1, h2⟩ := hset k v p hp
    simp only [spec, h1]
    by_cases hh : (xs.any fun e => ord cmp e.1 k == .eq) = true
    · rw [if_pos hh] at h2 ⊢; exact ⟨fun _ => by rw [hh]; rfl, h2⟩
    · rw [if_neg hh] at h2 ⊢; exact ⟨fun _ => by rw [Bool.not_eq_true] at hh; rw [hh]; rfl, h2⟩
  | upsert k v =>
    obtain ⟨p, hp, h⟩ := Option.map_eq_some_iff.1 h
    cases h
    obtain ⟨h1, h2⟩ := hset k v p hp
    simp only [spec, h1, Bool.not_not]
    by_cases hh : (xs.any fun e => ord cmp e.1 k == .eq) = true
    · rw [if_pos hh] at h2 ⊢; exact ⟨fun _ => by rw [hh], h2⟩
    · rw [if_neg hh] at h2 ⊢; exact ⟨fun _ => by rw [Bool.not_eq_true] at hh; rw [hh], h2⟩
  | get k =>
    simp only [step, hget, Option.map_some] at h
    cases h
    exact ⟨fun _ => rfl, hR⟩
  | remove k =>
    obtain ⟨p, hp, h⟩ := Option.map_eq_some_iff.1 h
    cases h
    obtain ⟨h1, h2⟩ := hrem k p hp
    exact ⟨fun _ => by rw [spec, h1], h2⟩
  | delete k =>
    obtain ⟨p, hp, h⟩ := Option.map_eq_some_iff.1 h
    cases h
    obtain ⟨h1, h2⟩ := hrem k p hp
    exact ⟨fun _ => by rw [spec, h1], h2⟩
  | clear => cases h; exact ⟨fun _ => rfl, rfl, List.Pairwise.nil, rfl⟩
  | size => cases h; exact ⟨fun _ => by rw [spec, hR.size], hR⟩
  | len => cases h; exact ⟨fun _ => by rw [spec, hR.size], hR⟩
  | height =>
    obtain ⟨p, hp, h⟩ := Option.map_eq_some_iff.1 h
    cases h
    exact ⟨fun h => (by cases h), hR⟩
  | values =>
    cases h
    refine ⟨fun _ => ?_, hR⟩
    rw [spec, Tree.traverse_eq, hR.list, hR.size]
    simp only [seen_true]
    cases xs <;> simp
  | traverse every =>
    cases h
    exact ⟨fun _ => by rw [spec, Tree.traverse_eq, hR.list], hR⟩

/-- The invariant of the default tree. -/
structure Inv (cmp : K → K → Int) (d : Int) (m : Map K V) : Prop where
  rel : Rel cmp m m.root.toList
  good : Good d m.root

theorem Inv.new {d : Int} : Inv cmp d (Map.new : Map K V) :=
  ⟨Rel.new, trivial, fun _ => trivial⟩

theorem step_ok (hc : LawfulEx cmp) {d : Int} (cfg : Cfg true d) {m : Map K V}
    (hI : Inv cmp d m) (hb : m.root.height ≤ 126) (op : Op K V) :
    ∃ m' r, step cmp d m op = some (m', r) ∧ Inv cmp d m' := by
  have key : (∃ m' r, step cmp d m op = some (m', r) ∧ Good d m'.root) →
      ∃ m' r, step cmp d m op = some (m', r) ∧ Inv cmp d m' := by
    rintro ⟨m', r, h1, h2⟩
    have := (step_partial hc hI.rel h1).2
    exact ⟨m', r, h1, this.list ▸ this, h2⟩
  refine key ?_
  have hs := hI.rel.sorted
  have hget : ∀ k, Avls.get cmp k m.root =
      some (m.root.toList.find? fun e => ord cmp e.1 k == .eq) := fun k => get_eq hc hs
  have hput : ∀ k v, ∃ m', Map.put cmp d m k v = some m' ∧ Good d m'.root := by
    intro k v
    obtain ⟨t', rb, h1, h2, -⟩ := put_ok hc cfg (key := k) (val := v) (sib := false) hI.good hb
    simp only [Map.put, h1, Option.map_some]
    exact ⟨_, rfl, h2⟩
  have hset : ∀ k v, ∃ p, Map.set cmp d m k v = some p ∧ Good d p.1.root := by
    intro k v
    simp only [Map.set, hget, Option.bind_some]
    split
    · obtain ⟨t', h2, h3, h4, h5, h6⟩ := setVal_ok hc (key := k) (val := v) hs
      rw [h2]
      exact ⟨_, rfl, ⟨h5 hI.good.1, fun hd => h6 d (hI.good.2 hd)⟩⟩
    · obtain ⟨m', h1, h2⟩ := hput k v
      rw [h1]
      exact ⟨_, rfl, h2⟩
  have hrem : ∀ k, ∃ p, Map.remove cmp d m k = some p ∧ Good d p.1.root := by
    intro k
    obtain ⟨t', x, b, h1, h2, -⟩ := remove_ok hc cfg (key := k) (right := true) hI.good
      (Nat.le_trans hb (by omega))
    simp only [Map.remove, h1, Option.map_some]
    exact ⟨_, rfl, h2⟩
  cases op with
  | put k v =>
    obtain ⟨m', h1, h2⟩ := hput k v
    simp only [step, h1, Option.map_some]
    exact ⟨_, _, rfl, h2⟩
  | insertIfAbsent k v =>
    obtain ⟨m', h1, h2⟩ := hput k v
    simp only [step, Map.insertIfAbsent, hget, Option.bind_some]
    split
    · exact ⟨_, _, rfl, hI.good⟩
    · rw [h1]; exact ⟨_, _, rfl, h2⟩
  | set k v =>
    obtain ⟨m', h1, h2⟩ := hset k v
    simp only [step, h1, Option.map_some]
    exact ⟨_, _, rfl, h2⟩
  | upsert k v =>
    obtain ⟨m', h1, h2⟩ := hset k v
    simp only [step, h1, Option.map_some]
    exact ⟨_, _, rfl, h2⟩
  | get k =>
    simp only [step, hget, Option.map_some]
    exact ⟨_, _, rfl, hI.good⟩
  | remove k =>
    obtain ⟨p, h1, h2⟩ := hrem k
    simp only [step, h1, Option.map_some]
    exact ⟨_, _, rfl, h2⟩
  | delete k =>
    obtain ⟨p, h1, h2⟩ := hrem k
    simp only [step, h1, Option.map_some]
    exact ⟨_, _, rfl, h2⟩
  | clear => exact ⟨_, _, rfl, trivial, fun _ => trivial⟩
  | size => exact ⟨m, _, rfl, hI.good⟩
  | len => exact ⟨m, _, rfl, hI.good⟩
  | height =>
    simp only [step, height_eq hI.rel.size, Option.map_some]
    exact ⟨_, _, rfl, hI.good⟩
  | values => exact ⟨m, _, rfl, hI.good⟩
  | traverse every => exact ⟨m, _, rfl, hI.good⟩

/-- `m` is reached by a history whose multimaps had fewer than 2^63 entries, `xs` its entries. -/
def Reached (cmp : K → K → Int) (m : Map K V) (xs : List (K × V)) : Prop :=
  ∃ os rs, (∀ os₁, os₁ <+: os → (runSpec (spec (ord cmp)) [] os₁).1.length < 2 ^ 63) ∧
    run (step cmp 2) Map.new os = some (m, rs) ∧ xs = (runSpec (spec (ord cmp)) [] os).1

theorem cfg : Cfg true 2 := ⟨by decide, by decide, fun _ => rfl⟩

theorem height_small {m : Map K V} {xs : List (K × V)} (hR : Rel cmp m xs) (hg : Good 2 m.root)
    (hx : xs.length < 2 ^ 63) : m.root.height ≤ 126 := by
  have h1 : m.root.count = xs.length := by rw [count_eq, hR.list]
  have h3 := minNodes_le_count (by omega) (hg.2 (by omega))
  by_contra h4
  have h5 := minNodes_mono 1 (show 127 ≤ m.root.height by omega)
  have h6 := minNodes_odd 63
  have h7 : (2 - 1 : Int).toNat = 1 := rfl
  rw [h7, h1] at h3
  have h8 := Nat.le_trans (Nat.le_trans h6 h5) h3
  exact absurd hx (Nat.not_lt.2 h8)

theorem run_ok (hc : LawfulEx cmp) {os : List (Op K V)}
    (hf : ∀ os₁, os₁ <+: os → (runSpec (spec (ord cmp)) [] os₁).1.length < 2 ^ 63) :
    ∃ m rs, run (step cmp 2) Map.new os = some (m, rs) ∧
      Inv cmp 2 m ∧ Rel cmp m (runSpec (spec (ord cmp)) [] os).1 := by
  have hst : ∀ os (m : Map K V) rs, run (step cmp 2) Map.new os = some (m, rs) →
      Rel cmp m (runSpec (spec (ord cmp)) [] os).1 := fun os m rs h =>
    run_state (step := step cmp 2) (spec := spec (ord cmp)) (Rel cmp)
      (fun s t o s' r hR h => (step_partial hc hR h).2) os _ _ _ _ Rel.new h
  suffices h : ∃ m rs, run (step cmp 2) Map.new os = some (m, rs) ∧ Inv cmp 2 m by
    obtain ⟨m, rs, h1, h2⟩ := h
    exact ⟨m, rs, h1, h2, hst _ _ _ h1⟩
  refine run_guard (Inv cmp 2) (fun m => m.root.height ≤ 126) (fun m op hI hG => ?_) os Map.new
    Inv.new (fun os₁ os₂ m rs he _ hr hI => ?_)
  · exact step_ok hc cfg hI hG op
  · exact height_small (hst _ _ _ hr) hI.good (hf os₁ ⟨os₂, he.symm⟩)

theorem Reached.inv (hc : LawfulEx cmp) {m : Map K V} {xs : List (K × V)} (h : Reached cmp m xs) :
    Inv cmp 2 m ∧ Rel cmp m xs ∧ xs.length < 2 ^ 63 := by
  obtain ⟨os, rs, h1, h2, rfl⟩ := h
  obtain ⟨m', rs', h3, h4, h5⟩ := run_ok hc h1
  rw [h3] at h2
  cases h2
  exact ⟨h4, h5, h1 os (List.prefix_refl _)⟩

theorem iterator_ok {d : Int} {m : Map K V} (h : Inv cmp d m) :
    ∃ it, m.iterator = some it ∧ Place m.root it none := by
  have h4 := h.good.1.hgt
  refine ⟨⟨(hgt m.root).toNat, nil, []⟩, ?_, .unset ?_ rfl rfl⟩
  · simp only [Map.iterator, height_eq h.rel.size, Option.bind_some]
    rw [if_neg (by omega)]
  · show m.root.height ≤ (hgt m.root).toNat
    omega

end Verif.Avls
