import Verif.Tree.SizeLemmas

/-! Access and removal by rank, removal of ranges. -/

namespace Verif.Size

open Tree

variable {K V : Type}

/-- The entry of rank `j`. -/
def at? {α : Type} (xs : List α) (j : Int) : Option α := if j < 0 then none else xs[j.toNat]?

theorem at?_nil {α : Type} (j : Int) : at? ([] : List α) j = none := by simp [at?]

theorem at?_lt {α : Type} {L R : List α} {e : α} {j : Int} (h : j < L.length) :
    at? (L ++ e :: R) j = at? L j := by
  unfold at?
  split
  · rfl
  · rw [List.getElem?_append_left (by omega)]

theorem at?_eq {α : Type} {L R : List α} {e : α} {j : Int} (h : j = L.length) :
    at? (L ++ e :: R) j = some e := by
  unfold at?
  rw [if_neg (by omega), h]
  simp

theorem at?_gt {α : Type} {L R : List α} {e : α} {j : Int} (h : j > L.length) :
    at? (L ++ e :: R) j = at? R (j - L.length - 1) := by
  unfold at?
  rw [if_neg (by omega), if_neg (by omega), List.getElem?_append_right (by omega),
    show j.toNat - L.length = (j - L.length - 1).toNat + 1 by omega, List.getElem?_cons_succ]

theorem at?_some {α : Type} {xs : List α} {j : Int} {e : α} (h : at? xs j = some e) :
    0 ≤ j ∧ j < xs.length := by
  unfold at? at h
  split at h
  · cases h
  · obtain ⟨h1, -⟩ := List.getElem?_eq_some_iff.1 h
    omega

theorem at?_none {α : Type} {xs : List α} {j : Int} : at? xs j = none ↔ j < 0 ∨ xs.length ≤ j := by
  unfold at?
  split
  · simp [*]
  · rw [List.getElem?_eq_none_iff]; omega

/-- `idx` is the rank of the root of a subtree whose first entry has the rank `off`. -/
def Here (off : Int) (t : T K V) (idx : Int) : Prop := t = nil ∨ idx = off + leftSz t

theorem here_left {off idx a : Int} {k : K} {v : V} {l r : T K V} (hx : Exact (node a k v l r))
    (h : Here off (node a k v l r) idx) : idx = off + l.toList.length ∧
      Here off l (idx - (rightSz l + 1)) := by
  obtain ⟨-, hl, -⟩ := exact_node.1 hx
  have h0 := hl.sz
  rcases h with h | h
  · cases h
  · simp only [leftSz] at h
    refine ⟨by omega, ?_⟩
    cases l with
    | nil => exact .inl rfl
    | node b k' v' l' r' =>
      obtain ⟨h1, h2, h3⟩ := exact_node.1 hl
      have e1 := h2.sz
      have e2 := h3.sz
      right
      simp only [leftSz, rightSz, sz] at *
      omega

theorem here_right {off idx a : Int} {k : K} {v : V} {l r : T K V} (_ : Exact (node a k v l r))
    (_ : Here off (node a k v l r) idx) : Here (idx + 1) r (idx + (leftSz r + 1)) := by
  right; omega

theorem here_root (t : T K V) : Here 0 t (leftSz t) := .inr (by omega)

theorem nodeAt_eq {i off idx : Int} {t : T K V} (hx : Exact t) (h : Here off t idx) :
    nodeAt i t idx = at? t.toList (i - off) := by
  induction t generalizing off idx with
  | nil => simp [nodeAt, at?]
  | node a k v l r ihl ihr =>
    obtain ⟨h1, h2⟩ := here_left hx h
    have h3 := here_right hx h
    obtain ⟨-, xl, xr⟩ := exact_node.1 hx
    simp only [nodeAt, toList_node]
    split
    · rw [ihl xl h2, at?_lt (by omega)]
    · split
      · rw [ihr xr h3, at?_gt (by omega)]; congr 1; omega
      · rw [at?_eq (by omega)]

theorem take_mid {α : Type} (L R : List α) (e : α) (n : Nat) :
    (L ++ e :: R).take n = if n ≤ L.length then L.take n else L ++ e :: R.take (n - L.length - 1) := by
  rw [List.take_append]
  split
  · rw [show n - L.length = 0 by omega]; simp
  · rw [List.take_of_length_le (by omega), show n - L.length = (n - L.length - 1) + 1 by omega]
    simp

theorem drop_mid {α : Type} (L R : List α) (e : α) (n : Nat) :
    (L ++ e :: R).drop n = if n ≤ L.length then L.drop n ++ e :: R else R.drop (n - L.length - 1) := by
  rw [List.drop_append]
  split
  · rw [show n - L.length = 0 by omega]; simp
  · rw [List.drop_of_length_le (by omega), show n - L.length = (n - L.length - 1) + 1 by omega]
    simp

theorem removeAt_none {mv : V → V → V} {i off idx : Int} {t : T K V} (hx : Exact t)
    (h : Here off t idx) (hr : at? t.toList (i - off) = none) : removeAt mv i t idx = none := by
  induction t generalizing off idx with
  | nil => rfl
  | node a k v l r ihl ihr =>
    obtain ⟨h1, h2⟩ := here_left hx h
    have h3 := here_right hx h
    obtain ⟨-, xl, xr⟩ := exact_node.1 hx
    rw [toList_node] at hr
    simp only [removeAt]
    split
    · rw [at?_lt (by omega)] at hr
      rw [ihl xl h2 hr]; rfl
    · split
      · rw [at?_gt (by omega)] at hr
        rw [ihr xr h3 (by rw [← hr]; congr 1; omega)]; rfl
      · rw [at?_eq (by omega)] at hr
        cases hr

theorem removeAt_some {i off idx : Int} {t : T K V} (hx : Exact t)
    (h : Here off t idx) {e : K × V} (hr : at? t.toList (i - off) = some e) :
    ∃ t', removeAt (fun _ w => w) i t idx = some (some (t', e)) ∧ Exact t' ∧
      t'.toList = t.toList.eraseIdx (i - off).toNat := by
  induction t generalizing off idx with
  | nil => rw [toList_nil, at?_nil] at hr; cases hr
  | node a k v l r ihl ihr =>
    obtain ⟨h1, h2⟩ := here_left hx h
    have h3 := here_right hx h
    obtain ⟨ha, xl, xr⟩ := exact_node.1 hx
    rw [toList_node] at hr ⊢
    simp only [removeAt]
    have hb := at?_some hr
    split
    · rw [at?_lt (by omega)] at hr
      obtain ⟨t', g1, g2, g3⟩ := ihl xl h2 hr
      rw [g1]
      have hlen : t'.toList.length = l.toList.length - 1 := by
        rw [g3, List.length_eraseIdx_of_lt (by omega)]
      refine ⟨_, rfl, exact_node.2 ⟨by show a - 1 = (t'.toList.length : Int) + _ + 1; omega, g2, xr⟩, ?_⟩
      rw [List.eraseIdx_append_of_lt_length (by omega), ← g3]
      rfl
    · split
      · rw [at?_gt (by omega)] at hr
        have e0 : i - (idx + 1) = i - off - l.toList.length - 1 := by omega
        obtain ⟨t', g1, g2, g3⟩ := ihr xr h3 (by rw [← hr, e0])
        rw [g1]
        have hb' := at?_some hr
        have hlen : t'.toList.length = r.toList.length - 1 := by
          rw [g3, List.length_eraseIdx_of_lt (by omega)]
        refine ⟨_, rfl, exact_node.2 ⟨by show a - 1 = _ + (t'.toList.length : Int) + 1; omega, xl, g2⟩, ?_⟩
        rw [List.eraseIdx_append_of_length_le (by omega),
          show (i - off).toNat - l.toList.length = (i - (idx + 1)).toNat + 1 by omega,
          List.eraseIdx_cons_succ, ← g3]
        rfl
      · rw [at?_eq (by omega)] at hr
        cases hr
        obtain ⟨t', g1, g2, g3⟩ := removeNode_list hx
        rw [g1]
        refine ⟨t', rfl, g2, ?_⟩
        rw [g3, List.eraseIdx_append_of_length_le (by omega),
          show (i - off).toNat - l.toList.length = 0 by omega, List.eraseIdx_cons_zero]

section
variable {cmp : K → K → Int}

/-- The rank of a key: the number of smaller keys, or -1. -/
theorem indexOf_eq (hc : Lawful cmp) {key : K} {off idx : Int} {t : T K V} (hx : Exact t)
    (hs : Sorted (ord cmp) t.toList) (h : Here off t idx) :
    indexOf cmp key t idx = if (same (ord cmp) key t.toList).isEmpty then -1
      else off + (below (ord cmp) key t.toList).length := by
  have : Std.TransCmp (ord cmp) := hc
  induction t generalizing off idx with
  | nil => rfl
  | node a k v l r ihl ihr =>
    obtain ⟨h1, h2⟩ := here_left hx h
    have h3 := here_right hx h
    obtain ⟨-, xl, xr⟩ := exact_node.1 hx
    rw [toList_node] at hs ⊢
    obtain ⟨s1, s2, -, -, -⟩ := Sorted.split.1 hs
    simp only [indexOf]
    rcases ways hc key k with ⟨c1, c2⟩ | ⟨c1, c2, c3⟩ | ⟨c1, c2, c3⟩
    · obtain ⟨g1, g2, g3⟩ := split_gt (Sorted.le hs) (show ord cmp (k, v).1 key = .gt from c2)
      rw [if_pos c1, g1, g2, ihl xl s1 h2]
    · obtain ⟨g1, g2, g3⟩ := split_lt (Sorted.le hs) (show ord cmp (k, v).1 key = .lt from c3)
      rw [if_neg c1, if_pos c2, g1, g2, ihr xr s2 h3]
      split
      · rfl
      · simp; omega
    · obtain ⟨g1, g2, g3⟩ := split_eq' hs (show ord cmp (k, v).1 key = .eq from c3)
      rw [if_neg c1, if_neg c2, g1, g2, if_neg (by simp)]
      exact h1

end

/-! ### Removal of ranges -/

/-- The walk to the root is right when the subtree `old` became `new`. -/
def Anc.OK : Anc → List (K × V) → List (K × V) → Prop
  | .keep, old, new => old.length = new.length
  | .sub n, old, new => (old.length : Int) = new.length + n
  | .sum, _, _ => True

theorem Anc.fix_left {anc : Anc} {a : Int} {k : K} {v : V} {l l' r : T K V}
    (hx : Exact (node a k v l r)) (hl : Exact l') (h : anc.OK l.toList l'.toList) :
    Exact (anc.fix a k v l' r) ∧ (anc.fix a k v l' r).toList = l'.toList ++ (k, v) :: r.toList ∧
      anc.OK (node a k v l r).toList (anc.fix a k v l' r).toList := by
  obtain ⟨ha, xl, xr⟩ := exact_node.1 hx
  cases anc with
  | keep =>
    simp only [Anc.OK] at h
    exact ⟨exact_node.2 ⟨by omega, hl, xr⟩, rfl, by simp [Anc.OK, Anc.fix, h]⟩
  | sub n =>
    simp only [Anc.OK] at h
    exact ⟨exact_node.2 ⟨by omega, hl, xr⟩, rfl, by simp [Anc.OK, Anc.fix, h]; omega⟩
  | sum => exact ⟨hl.mk k v xr, rfl, trivial⟩

theorem Anc.fix_right {anc : Anc} {a : Int} {k : K} {v : V} {l r r' : T K V}
    (hx : Exact (node a k v l r)) (hr : Exact r') (h : anc.OK r.toList r'.toList) :
    Exact (anc.fix a k v l r') ∧ (anc.fix a k v l r').toList = l.toList ++ (k, v) :: r'.toList ∧
      anc.OK (node a k v l r).toList (anc.fix a k v l r').toList := by
  obtain ⟨ha, xl, xr⟩ := exact_node.1 hx
  cases anc with
  | keep =>
    simp only [Anc.OK] at h
    exact ⟨exact_node.2 ⟨by omega, xl, hr⟩, rfl, by simp [Anc.OK, Anc.fix, h]⟩
  | sub n =>
    simp only [Anc.OK] at h
    exact ⟨exact_node.2 ⟨by omega, xl, hr⟩, rfl, by simp [Anc.OK, Anc.fix, h]; omega⟩
  | sum => exact ⟨xl.mk k v hr, rfl, trivial⟩

theorem fixRange_ok {a : Int} {k : K} {v : V} {l r : T K V} (hx : Exact (node a k v l r)) :
    ∃ t, fixRange (node a k v l r) = some t ∧ Exact t ∧
      t.toList = l.toList ++ (k, v) :: r.toList := by
  obtain ⟨ha, xl, xr⟩ := exact_node.1 hx
  have hl0 := xl.sz_nonneg
  have hr0 := xr.sz_nonneg
  simp only [fixRange]
  split
  · exact ⟨_, rfl, hx, rfl⟩
  · split
    · rename_i h1
      have hn : l ≠ nil := by rintro rfl; rw [sz_nil] at h1; omega
      obtain ⟨t, g1, g2, g3, -⟩ := sizeLRotate_ok (a := a) (k := k) (v := v) xl xr hn
      simp only [sizeLRotate] at g1
      exact ⟨t, g1, g2, g3⟩
    · split
      · rename_i h1
        have hn : r ≠ nil := by rintro rfl; rw [sz_nil] at h1; omega
        obtain ⟨t, g1, g2, g3, -⟩ := sizeRRotate_ok (a := a) (k := k) (v := v) xl xr hn
        simp only [sizeRRotate] at g1
        exact ⟨t, g1, g2, g3⟩
      · exact ⟨_, rfl, hx, rfl⟩

theorem hangR_ok {child t : T K V} (hc : Exact child) (hx : Exact t) (hn : t ≠ nil) :
    ∃ t', hangR child (sz child) t = some t' ∧ Exact t' ∧ t'.toList = t.toList ++ child.toList := by
  induction t with
  | nil => exact absurd rfl hn
  | node a k v l r ihl ihr =>
    obtain ⟨ha, xl, xr⟩ := exact_node.1 hx
    have hsz := hc.sz
    have key : ∀ r' : T K V, Exact r' → r'.toList = r.toList ++ child.toList →
        ∃ t', (if child.isNil = true then some (node a k v l r')
          else fixRange (node (a + sz child) k v l r')) = some t' ∧ Exact t' ∧
          t'.toList = (node a k v l r).toList ++ child.toList := by
      intro r' x' e'
      have hlen : r'.toList.length = r.toList.length + child.toList.length := by rw [e']; simp
      split
      · rename_i hh
        have : child.toList = [] := by cases child <;> simp_all [isNil]
        refine ⟨_, rfl, exact_node.2 ⟨by rw [this] at hlen; simp at hlen; omega, xl, x'⟩, ?_⟩
        rw [toList_node, e']; simp
      · obtain ⟨t', g1, g2, g3⟩ := fixRange_ok (k := k) (v := v) (l := l) (r := r')
          (exact_node.2 ⟨show a + sz child = _ by omega, xl, x'⟩)
        exact ⟨t', g1, g2, by rw [g3, e']; simp⟩
    cases r with
    | nil => exact key child hc (by simp)
    | node b k' v' l' r' =>
      obtain ⟨s, g1, g2, g3⟩ := ihr xr (by simp)
      obtain ⟨t', f1, f2, f3⟩ := key s g2 g3
      refine ⟨t', ?_, f2, f3⟩
      rw [← f1]
      show (hangR child (sz child) (node b k' v' l' r')).bind _ = _
      rw [g1]
      rfl

theorem hangL_ok {child t : T K V} (hc : Exact child) (hx : Exact t) (hn : t ≠ nil) :
    ∃ t', hangL child (sz child) t = some t' ∧ Exact t' ∧ t'.toList = child.toList ++ t.toList := by
  induction t with
  | nil => exact absurd rfl hn
  | node a k v l r ihl ihr =>
    obtain ⟨ha, xl, xr⟩ := exact_node.1 hx
    have hsz := hc.sz
    have key : ∀ l' : T K V, Exact l' → l'.toList = child.toList ++ l.toList →
        ∃ t', (if child.isNil = true then some (node a k v l' r)
          else fixRange (node (a + sz child) k v l' r)) = some t' ∧ Exact t' ∧
          t'.toList = child.toList ++ (node a k v l r).toList := by
      intro l' x' e'
      have hlen : l'.toList.length = child.toList.length + l.toList.length := by rw [e']; simp
      split
      · rename_i hh
        have : child.toList = [] := by cases child <;> simp_all [isNil]
        refine ⟨_, rfl, exact_node.2 ⟨by rw [this] at hlen; simp at hlen; omega, x', xr⟩, ?_⟩
        rw [toList_node, e']; simp
      · obtain ⟨t', g1, g2, g3⟩ := fixRange_ok (k := k) (v := v) (l := l') (r := r)
          (exact_node.2 ⟨show a + sz child = _ by omega, x', xr⟩)
        exact ⟨t', g1, g2, by rw [g3, e']; simp⟩
    cases l with
    | nil => exact key child hc (by simp)
    | node b k' v' l' r' =>
      obtain ⟨s, g1, g2, g3⟩ := ihl xl (by simp)
      obtain ⟨t', f1, f2, f3⟩ := key s g2 g3
      refine ⟨t', ?_, f2, f3⟩
      rw [← f1]
      show (hangL child (sz child) (node b k' v' l' r')).bind _ = _
      rw [g1]
      rfl

theorem join_ok {size : Int} {lg rg : T K V} (hl : Exact lg) (hr : Exact rg)
    {old : List (K × V)} (ho : (old.length : Int) = size) :
    ∃ p, join size lg rg = some p ∧ Exact p.1 ∧ p.1.toList = lg.toList ++ rg.toList ∧
      p.2.OK old p.1.toList := by
  have h1 := hl.sz
  have h2 := hr.sz
  simp only [join]
  split
  · rename_i h
    simp only [Bool.and_eq_true] at h
    have e1 : lg = nil := by cases lg <;> simp_all [isNil]
    have e2 : rg = nil := by cases rg <;> simp_all [isNil]
    subst e1 e2
    exact ⟨_, rfl, trivial, rfl, by simp [Anc.OK, ho]⟩
  · rename_i h
    split
    · obtain ⟨t, g1, g2, g3⟩ := hangR_ok hr hl (by rintro rfl; rw [sz_nil] at *; omega)
      rw [g1]
      exact ⟨_, rfl, g2, g3, trivial⟩
    · have hne : rg ≠ nil := by
        rintro rfl
        rw [sz_nil] at *
        have : lg = nil := by
          rw [← toList_eq_nil, ← List.length_eq_zero_iff]; omega
        subst this
        simp [isNil] at h
      obtain ⟨t, g1, g2, g3⟩ := hangL_ok hl hr hne
      rw [g1]
      exact ⟨_, rfl, g2, g3, trivial⟩

section
variable {cmp : K → K → Int}

theorem cutL_ok (hc : Lawful cmp) {low : K} {t : T K V} (hx : Exact t)
    (hs : Sorted (ord cmp) t.toList) :
    Exact (cutL cmp low t) ∧ (cutL cmp low t).toList = below (ord cmp) low t.toList := by
  have : Std.TransCmp (ord cmp) := hc
  induction t with
  | nil => exact ⟨trivial, rfl⟩
  | node a k v l r ihl ihr =>
    obtain ⟨ha, xl, xr⟩ := exact_node.1 hx
    rw [toList_node] at hs ⊢
    obtain ⟨s1, s2, -, -, -⟩ := Sorted.split.1 hs
    obtain ⟨l1, l2⟩ := ihl xl s1
    obtain ⟨r1, r2⟩ := ihr xr s2
    simp only [cutL]
    rcases ways hc low k with ⟨c1, c2⟩ | ⟨c1, c2, c3⟩ | ⟨c1, c2, c3⟩
    · rw [if_neg (by omega), (split_gt (Sorted.le hs) (show ord cmp (k, v).1 low = .gt from c2)).1]
      exact ⟨l1, l2⟩
    · rw [if_pos c2, (split_lt (Sorted.le hs) (show ord cmp (k, v).1 low = .lt from c3)).1]
      exact ⟨xl.mk k v r1, by rw [toList_mk, r2]⟩
    · rw [if_neg c2, (split_eq (Sorted.le hs) (show ord cmp (k, v).1 low = .eq from c3)).1]
      exact ⟨l1, l2⟩

theorem cutR_ok (hc : Lawful cmp) {high : K} {t : T K V} (hx : Exact t)
    (hs : Sorted (ord cmp) t.toList) :
    Exact (cutR cmp high t) ∧ (cutR cmp high t).toList = above (ord cmp) high t.toList := by
  have : Std.TransCmp (ord cmp) := hc
  induction t with
  | nil => exact ⟨trivial, rfl⟩
  | node a k v l r ihl ihr =>
    obtain ⟨ha, xl, xr⟩ := exact_node.1 hx
    rw [toList_node] at hs ⊢
    obtain ⟨s1, s2, -, -, -⟩ := Sorted.split.1 hs
    obtain ⟨l1, l2⟩ := ihl xl s1
    obtain ⟨r1, r2⟩ := ihr xr s2
    simp only [cutR]
    rcases ways hc high k with ⟨c1, c2⟩ | ⟨c1, c2, c3⟩ | ⟨c1, c2, c3⟩
    · rw [if_pos c1, (split_gt (Sorted.le hs) (show ord cmp (k, v).1 high = .gt from c2)).2.2]
      exact ⟨l1.mk k v xr, by rw [toList_mk, l2]⟩
    · rw [if_neg c1, (split_lt (Sorted.le hs) (show ord cmp (k, v).1 high = .lt from c3)).2.2]
      exact ⟨r1, r2⟩
    · rw [if_neg c1, (split_eq (Sorted.le hs) (show ord cmp (k, v).1 high = .eq from c3)).2.2.1]
      exact ⟨r1, r2⟩

/-- The comparator answers with one number for each of the three cases (such as -1, 0, 1). -/
def Uniform (cmp : K → K → Int) : Prop :=
  ∀ a b c d, ord cmp a b = ord cmp c d → cmp a b = cmp c d

/-- Is a key in the closed range? -/
def inside (o : K → K → Ordering) (low high k : K) : Bool := o low k != .gt && o k high != .gt

/-- How a key stands to a range. -/
theorem range_cases (hc : Lawful cmp) (hu : Uniform cmp) {low high : K}
    (hlh : ord cmp low high ≠ .gt) (k : K) :
    (cmp low k = cmp high k ∧ cmp low k < 0 ∧ ord cmp high k = .lt) ∨
    (cmp low k = cmp high k ∧ ¬cmp low k < 0 ∧ cmp low k > 0 ∧ ord cmp k low = .lt) ∨
    (ord cmp low k ≠ .gt ∧ ord cmp k high ≠ .gt ∧ (cmp low k = cmp high k → cmp low k = 0)) := by
  have : Std.TransCmp (ord cmp) := hc
  cases h1 : ord cmp low k with
  | gt =>
    right; left
    have h2 : ord cmp high k = .gt := by
      rw [Ord.gt_iff] at h1 ⊢
      exact Ord.lt_of_lt_of_ngt h1 hlh
    have := ord_gt.1 h1
    exact ⟨hu _ _ _ _ (h1.trans h2.symm), by omega, this, Ord.lt_iff.2 h1⟩
  | lt =>
    cases h2 : ord cmp high k with
    | lt => left; exact ⟨hu _ _ _ _ (h1.trans h2.symm), ord_lt.1 h1, rfl⟩
    | eq =>
      right; right
      refine ⟨by simp, by rw [Ord.eq_symm h2]; simp, fun he => ?_⟩
      rw [ord_eq] at h2; omega
    | gt =>
      right; right
      refine ⟨by simp, by rw [Ord.lt_iff.2 h2]; simp, fun he => ?_⟩
      rw [ord_gt] at h2; rw [ord_lt] at h1; omega
  | eq =>
    right; right
    refine ⟨by simp, ?_, fun _ => ord_eq.1 h1⟩
    rw [← Ord.congr_left h1]; exact hlh

theorem removeRange_ok (hc : Lawful cmp) (hu : Uniform cmp) {low high : K}
    (hlh : ord cmp low high ≠ .gt) {t : T K V} (hx : Exact t) (hs : Sorted (ord cmp) t.toList) :
    ∃ p, removeRange cmp low high t = some p ∧ Exact p.1 ∧
      p.1.toList = t.toList.filter (fun e => !inside (ord cmp) low high e.1) ∧
      p.2.OK t.toList p.1.toList := by
  have : Std.TransCmp (ord cmp) := hc
  induction t with
  | nil => exact ⟨_, rfl, trivial, rfl, rfl⟩
  | node a k v l r ihl ihr =>
    obtain ⟨ha, xl, xr⟩ := exact_node.1 hx
    rw [toList_node] at hs
    obtain ⟨s1, s2, s3, s4, -⟩ := Sorted.split.1 hs
    simp only [removeRange]
    rcases range_cases hc hu hlh k with ⟨e1, e2, e3⟩ | ⟨e1, e2, e3, e4⟩ | ⟨e1, e2, e3⟩
    · obtain ⟨p, g1, g2, g3, g4⟩ := ihl xl s1
      rw [if_neg (by omega), if_pos e2, g1]
      obtain ⟨f1, f2, f3⟩ := Anc.fix_left hx g2 g4
      refine ⟨_, rfl, f1, ?_, f3⟩
      show (p.2.fix a k v p.1 r).toList = _
      have hk : inside (ord cmp) low high k = false := by
        simp [inside, Ord.gt_iff.2 e3]
      have hr : r.toList.filter (fun e => !inside (ord cmp) low high e.1) = r.toList :=
        List.filter_eq_self.2 fun x hx => by
          have := Ord.lt_trans e3 (s4 x hx)
          simp [inside, Ord.gt_iff.2 this]
      rw [f2, g3, toList_node, List.filter_append, List.filter_cons, hr]
      simp [hk]
    · obtain ⟨p, g1, g2, g3, g4⟩ := ihr xr s2
      rw [if_neg (by omega), if_neg e2, if_pos e3, g1]
      obtain ⟨f1, f2, f3⟩ := Anc.fix_right hx g2 g4
      refine ⟨_, rfl, f1, ?_, f3⟩
      show (p.2.fix a k v l p.1).toList = _
      have hk : inside (ord cmp) low high k = false := by
        simp [inside, Ord.gt_iff.2 e4]
      have hl : l.toList.filter (fun e => !inside (ord cmp) low high e.1) = l.toList :=
        List.filter_eq_self.2 fun x hx => by
          have := Ord.lt_trans (s3 x hx) e4
          simp [inside, Ord.gt_iff.2 this]
      rw [f2, g3, toList_node, List.filter_append, List.filter_cons, hl]
      simp [hk]
    · obtain ⟨c1, c2⟩ := cutL_ok hc (low := low) xl s1
      obtain ⟨d1, d2⟩ := cutR_ok hc (high := high) xr s2
      obtain ⟨p, g1, g2, g3, g4⟩ := join_ok (size := a) c1 d1
        (old := (node a k v l r).toList) (by rw [ha]; simp; omega)
      refine ⟨p, ?_, g2, ?_, g4⟩
      · split
        · exact g1
        · rename_i hh
          have := e3 (by simpa using hh)
          rw [if_neg (by omega), if_neg (by omega)]
          exact g1
      · have hk : inside (ord cmp) low high k = true := by simp [inside, e1, e2]
        rw [g3, c2, d2, toList_node, List.filter_append, List.filter_cons]
        simp only [hk, Bool.not_true, Bool.false_eq_true, if_false]
        congr 1
        · refine List.filter_congr fun x hx => ?_
          have h1 : ord cmp x.1 high ≠ .gt := Ord.ngt_trans (by rw [s3 x hx]; simp) e2
          rw [Bool.eq_iff_iff]
          simp [inside, h1, Ord.gt_iff (a := low)]
        · refine List.filter_congr fun x hx => ?_
          have h1 : ord cmp low x.1 ≠ .gt := Ord.ngt_trans e1 (by rw [s4 x hx]; simp)
          rw [Bool.eq_iff_iff]
          simp [inside, h1]

end

/-! By rank -/

theorem cutIdxL_ok {low off idx : Int} {t : T K V} (hx : Exact t) (h : Here off t idx) :
    Exact (cutIdxL low t idx) ∧ (cutIdxL low t idx).toList = t.toList.take (low - off).toNat := by
  induction t generalizing off idx with
  | nil => exact ⟨trivial, by simp [cutIdxL]⟩
  | node a k v l r ihl ihr =>
    obtain ⟨h1, h2⟩ := here_left hx h
    have h3 := here_right hx h
    obtain ⟨-, xl, xr⟩ := exact_node.1 hx
    obtain ⟨l1, l2⟩ := ihl xl h2
    obtain ⟨r1, r2⟩ := ihr xr h3
    simp only [cutIdxL, toList_node]
    rw [take_mid]
    split
    · rw [if_neg (by omega)]
      exact ⟨xl.mk k v r1, by rw [toList_mk, r2]; congr 3; omega⟩
    · split
      · rw [if_pos (by omega)]
        exact ⟨l1, l2⟩
      · rw [if_pos (by omega), List.take_of_length_le (by omega)]
        exact ⟨xl, rfl⟩

theorem cutIdxR_ok {high off idx : Int} {t : T K V} (hx : Exact t) (h : Here off t idx) :
    Exact (cutIdxR high t idx) ∧
      (cutIdxR high t idx).toList = t.toList.drop (high + 1 - off).toNat := by
  induction t generalizing off idx with
  | nil => exact ⟨trivial, by simp [cutIdxR]⟩
  | node a k v l r ihl ihr =>
    obtain ⟨h1, h2⟩ := here_left hx h
    have h3 := here_right hx h
    obtain ⟨-, xl, xr⟩ := exact_node.1 hx
    obtain ⟨l1, l2⟩ := ihl xl h2
    obtain ⟨r1, r2⟩ := ihr xr h3
    simp only [cutIdxR, toList_node]
    rw [drop_mid]
    split
    · rw [if_pos (by omega)]
      exact ⟨l1.mk k v xr, by rw [toList_mk, l2]⟩
    · split
      · rw [if_neg (by omega)]
        exact ⟨r1, by rw [r2]; congr 1; omega⟩
      · rw [if_neg (by omega), show (high + 1 - off).toNat - l.toList.length - 1 = 0 by omega]
        exact ⟨xr, by simp⟩

theorem removeRangeIdx_ok {low high off idx : Int} (hlh : low ≤ high) {t : T K V} (hx : Exact t)
    (h : Here off t idx) (h0 : 0 < t.toList.length) (h1 : off ≤ high)
    (h2 : low < off + t.toList.length) :
    ∃ p, removeRangeIdx low high t idx = some (some p) ∧ Exact p.1 ∧
      p.1.toList = t.toList.take (low - off).toNat ++ t.toList.drop (high + 1 - off).toNat ∧
      p.2.OK t.toList p.1.toList := by
  induction t generalizing off idx with
  | nil => simp at h0
  | node a k v l r ihl ihr =>
    obtain ⟨g1, g2⟩ := here_left hx h
    have g3 := here_right hx h
    obtain ⟨ha, xl, xr⟩ := exact_node.1 hx
    simp only [removeRangeIdx]
    split
    · obtain ⟨p, i1, i2, i3, i4⟩ := ihl xl g2 (by omega) h1 (by omega)
      rw [i1]
      obtain ⟨f1, f2, f3⟩ := Anc.fix_left hx i2 i4
      refine ⟨_, rfl, f1, ?_, f3⟩
      show (p.2.fix a k v p.1 r).toList = _
      rw [f2, i3, toList_node, take_mid, drop_mid, if_pos (by omega), if_pos (by omega)]
      simp
    · split
      · rw [toList_node, List.length_append, List.length_cons] at h2
        obtain ⟨p, i1, i2, i3, i4⟩ := ihr xr g3 (by omega) (by omega) (by omega)
        rw [i1]
        obtain ⟨f1, f2, f3⟩ := Anc.fix_right hx i2 i4
        refine ⟨_, rfl, f1, ?_, f3⟩
        show (p.2.fix a k v l p.1).toList = _
        rw [f2, i3, toList_node, take_mid, drop_mid, if_neg (by omega), if_neg (by omega),
          show (low - off).toNat - l.toList.length - 1 = (low - (idx + 1)).toNat by omega,
          show (high + 1 - off).toNat - l.toList.length - 1 = (high + 1 - (idx + 1)).toNat by omega]
        simp
      · obtain ⟨c1, c2⟩ := cutIdxL_ok (low := low) xl g2
        obtain ⟨d1, d2⟩ := cutIdxR_ok (high := high) xr g3
        obtain ⟨p, i1, i2, i3, i4⟩ := join_ok (size := a) c1 d1
          (old := (node a k v l r).toList) (by rw [ha]; simp; omega)
        refine ⟨p, by rw [i1], i2, ?_, i4⟩
        rw [i3, c2, d2, toList_node, take_mid, drop_mid, if_pos (by omega), if_neg (by omega),
          show (high + 1 - off).toNat - l.toList.length - 1 = (high + 1 - (idx + 1)).toNat by omega]

theorem removeRangeIdx_none {low high off idx : Int} (hlh : low ≤ high) {t : T K V} (hx : Exact t)
    (h : Here off t idx) (hr : high < off ∨ off + t.toList.length ≤ low) :
    removeRangeIdx low high t idx = none := by
  induction t generalizing off idx with
  | nil => rfl
  | node a k v l r ihl ihr =>
    obtain ⟨g1, g2⟩ := here_left hx h
    have g3 := here_right hx h
    obtain ⟨ha, xl, xr⟩ := exact_node.1 hx
    rw [toList_node, List.length_append, List.length_cons] at hr
    simp only [removeRangeIdx]
    split
    · rw [ihl xl g2 (by omega)]; rfl
    · rw [if_pos (by omega), ihr xr g3 (by omega)]; rfl

end Verif.Size
