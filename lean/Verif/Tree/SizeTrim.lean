import Verif.Tree.SizeRank

/-! Trimming. -/

namespace Verif.Size

open Tree

variable {K V : Type}

section
variable {cmp : K → K → Int}

theorem trimL_ok (hc : Lawful cmp) {low : K} {t : T K V} (hx : Exact t)
    (hs : Sorted (ord cmp) t.toList) : Exact (trimL cmp low t) ∧
      (trimL cmp low t).toList = t.toList.filter (fun e => ord cmp e.1 low != .lt) := by
  have : Std.TransCmp (ord cmp) := hc
  induction t with
  | nil => exact ⟨trivial, rfl⟩
  | node a k v l r ihl ihr =>
    obtain ⟨ha, xl, xr⟩ := exact_node.1 hx
    rw [toList_node] at hs ⊢
    obtain ⟨s1, s2, s3, s4, -⟩ := Sorted.split.1 hs
    obtain ⟨l1, l2⟩ := ihl xl s1
    obtain ⟨r1, r2⟩ := ihr xr s2
    simp only [trimL]
    have hr : ord cmp k low ≠ .lt →
        r.toList.filter (fun e => ord cmp e.1 low != .lt) = r.toList := fun hk =>
      List.filter_eq_self.2 fun x hx => by
        have h1 := s4 x hx
        have : ord cmp x.1 low ≠ .lt := fun h => hk (Ord.lt_trans h1 h)
        simp [this]
    have hl : ord cmp k low ≠ .gt →
        l.toList.filter (fun e => ord cmp e.1 low != .lt) = [] := fun hk =>
      (List.filter_eq_nil_iff (l := l.toList)).2 fun x hx => by
        simp [Ord.lt_of_lt_of_ngt (s3 x hx) hk]
    rw [List.filter_append, List.filter_cons]
    rcases ways hc low k with ⟨c1, c2⟩ | ⟨c1, c2, c3⟩ | ⟨c1, c2, c3⟩
    · rw [if_neg (by omega), if_pos c1, hr (by simp [c2])]
      exact ⟨l1.mk k v xr, by simp [l2, c2]⟩
    · rw [if_pos c2, hl (by simp [c3])]
      exact ⟨r1, by simp [r2, c3]⟩
    · rw [if_neg c2, if_neg c1, hl (by simp [c3]), hr (by simp [c3])]
      refine ⟨exact_node.2 ⟨by rw [xr.sz]; simp, trivial, xr⟩, by simp [c3]⟩

theorem trimR_ok (hc : Lawful cmp) {high : K} {t : T K V} (hx : Exact t)
    (hs : Sorted (ord cmp) t.toList) : Exact (trimR cmp high t) ∧
      (trimR cmp high t).toList = t.toList.filter (fun e => ord cmp e.1 high != .gt) := by
  have : Std.TransCmp (ord cmp) := hc
  induction t with
  | nil => exact ⟨trivial, rfl⟩
  | node a k v l r ihl ihr =>
    obtain ⟨ha, xl, xr⟩ := exact_node.1 hx
    rw [toList_node] at hs ⊢
    obtain ⟨s1, s2, s3, s4, -⟩ := Sorted.split.1 hs
    obtain ⟨l1, l2⟩ := ihl xl s1
    obtain ⟨r1, r2⟩ := ihr xr s2
    simp only [trimR]
    have hl : ord cmp k high ≠ .gt →
        l.toList.filter (fun e => ord cmp e.1 high != .gt) = l.toList := fun hk =>
      List.filter_eq_self.2 fun x hx => by
        have : ord cmp x.1 high = .lt := Ord.lt_of_lt_of_ngt (s3 x hx) hk
        simp [this]
    have hr : ord cmp k high ≠ .lt →
        r.toList.filter (fun e => ord cmp e.1 high != .gt) = [] := fun hk =>
      (List.filter_eq_nil_iff (l := r.toList)).2 fun x hx => by
        have h1 : ord cmp high x.1 = .lt := Ord.lt_of_ngt_of_lt
          (fun h => hk (Ord.gt_iff.1 h)) (s4 x hx)
        simp [Ord.gt_iff.2 h1]
    rw [List.filter_append, List.filter_cons]
    rcases ways hc high k with ⟨c1, c2⟩ | ⟨c1, c2, c3⟩ | ⟨c1, c2, c3⟩
    · rw [if_pos c1, hr (by simp [c2])]
      exact ⟨l1, by simp [l2, c2]⟩
    · rw [if_neg c1, if_pos c2, hl (by simp [c3])]
      exact ⟨xl.mk k v r1, by simp [r2, c3]⟩
    · rw [if_neg c1, if_neg c2, hl (by simp [c3]), hr (by simp [c3])]
      refine ⟨exact_node.2 ⟨by rw [xl.sz]; simp, xl, trivial⟩, by simp [c3]⟩

theorem rangeRoot_ok (hc : Lawful cmp) (hu : Uniform cmp) {low high : K}
    (hlh : ord cmp low high ≠ .gt) {t : T K V} (hx : Exact t) (hs : Sorted (ord cmp) t.toList) :
    Exact (rangeRoot cmp low high t) ∧ Sorted (ord cmp) (rangeRoot cmp low high t).toList ∧
    (rangeRoot cmp low high t).toList.filter (fun e => inside (ord cmp) low high e.1) =
      t.toList.filter (fun e => inside (ord cmp) low high e.1) ∧
    (rangeRoot cmp low high t = nil ∨ ∃ a k v l r, rangeRoot cmp low high t = node a k v l r ∧
      ord cmp low k ≠ .gt ∧ ord cmp k high ≠ .gt) := by
  have : Std.TransCmp (ord cmp) := hc
  induction t with
  | nil => exact ⟨trivial, List.Pairwise.nil, rfl, .inl rfl⟩
  | node a k v l r ihl ihr =>
    obtain ⟨ha, xl, xr⟩ := exact_node.1 hx
    have hs' := hs
    rw [toList_node] at hs
    obtain ⟨s1, s2, s3, s4, -⟩ := Sorted.split.1 hs
    simp only [rangeRoot]
    rcases range_cases hc hu hlh k with ⟨e1, e2, e3⟩ | ⟨e1, e2, e3, e4⟩ | ⟨e1, e2, e3⟩
    · obtain ⟨g1, g2, g3, g4⟩ := ihl xl s1
      rw [if_neg (by omega), if_pos e2]
      refine ⟨g1, g2, ?_, g4⟩
      have hk : inside (ord cmp) low high k = false := by
        simp [inside, Ord.gt_iff.2 e3]
      have hr : r.toList.filter (fun e => inside (ord cmp) low high e.1) = [] :=
        (List.filter_eq_nil_iff (l := r.toList)).2 fun x hx => by
          have := Ord.lt_trans e3 (s4 x hx)
          simp [inside, Ord.gt_iff.2 this]
      rw [g3, toList_node, List.filter_append, List.filter_cons, hr]
      simp [hk]
    · obtain ⟨g1, g2, g3, g4⟩ := ihr xr s2
      rw [if_neg (by omega), if_neg e2, if_pos e3]
      refine ⟨g1, g2, ?_, g4⟩
      have hk : inside (ord cmp) low high k = false := by
        simp [inside, Ord.gt_iff.2 e4]
      have hl : l.toList.filter (fun e => inside (ord cmp) low high e.1) = [] :=
        (List.filter_eq_nil_iff (l := l.toList)).2 fun x hx => by
          have := Ord.lt_trans (s3 x hx) e4
          simp [inside, Ord.gt_iff.2 this]
      rw [g3, toList_node, List.filter_append, List.filter_cons, hl]
      simp [hk]
    · have hval : (if cmp low k ≠ cmp high k then node a k v l r
          else if cmp low k < 0 then rangeRoot cmp low high l
          else if cmp low k > 0 then rangeRoot cmp low high r else node a k v l r) =
          node a k v l r := by
        split
        · rfl
        · rename_i hh
          have := e3 (by simpa using hh)
          rw [if_neg (by omega), if_neg (by omega)]
      rw [hval]
      exact ⟨hx, hs', rfl, .inr ⟨_, _, _, _, _, rfl, e1, e2⟩⟩

theorem trim_ok (hc : Lawful cmp) (hu : Uniform cmp) {low high : K}
    (hlh : ord cmp low high ≠ .gt) {t : T K V} (hx : Exact t) (hs : Sorted (ord cmp) t.toList) :
    Exact (trim cmp low high t) ∧ (trim cmp low high t).toList =
      t.toList.filter (fun e => inside (ord cmp) low high e.1) := by
  have : Std.TransCmp (ord cmp) := hc
  obtain ⟨g1, g2, g3, g4⟩ := rangeRoot_ok hc hu hlh hx hs
  unfold trim
  rcases g4 with g4 | ⟨a, k, v, l, r, g4, g5, g6⟩
  · rw [g4] at g3 ⊢
    exact ⟨trivial, g3⟩
  · rw [g4] at g1 g2 g3 ⊢
    have e1 : trimLAt cmp low (node a k v l r) = trimL cmp low (node a k v l r) := by
      rw [trimLAt, if_neg]
      intro h; exact g5 (ord_gt.2 h)
    obtain ⟨h1, h2⟩ := trimL_ok hc (low := low) g1 g2
    have hs2 : Sorted (ord cmp) (trimL cmp low (node a k v l r)).toList := by
      rw [h2]; exact g2.sublist List.filter_sublist
    have e2 : trimRAt cmp high (trimL cmp low (node a k v l r)) =
        trimR cmp high (trimL cmp low (node a k v l r)) := by
      have hh : ¬cmp high k < 0 := fun h => by
        have := ord_lt.2 h
        rw [← Ord.gt_iff] at this
        exact g6 this
      simp only [trimL]
      split
      · rename_i h; exact absurd (ord_gt.2 h) g5
      · split
        · simp only [mk, trimRAt, if_neg hh]
        · simp only [trimRAt, if_neg hh]
    obtain ⟨h3, h4⟩ := trimR_ok hc (high := high) h1 hs2
    rw [e1, e2]
    refine ⟨h3, ?_⟩
    rw [h4, h2, ← g3, List.filter_filter]
    refine List.filter_congr fun x _ => ?_
    rw [Bool.eq_iff_iff]
    simp only [inside, Bool.and_eq_true, bne_iff_ne, ne_eq, Ord.gt_iff (a := low)]
    tauto

end

section
variable {low high : Int}

theorem trimIdxL_ok {off idx : Int} {t : T K V} (hx : Exact t) (h : Here off t idx)
    (h1 : off ≤ low) (h2 : low < off + t.toList.length) :
    ∃ t', trimIdxL low t idx = some t' ∧ Exact t' ∧
      t'.toList = t.toList.drop (low - off).toNat ∧
      (low ≤ idx → Here low t' idx ∧ t' ≠ nil) := by
  induction t generalizing off idx with
  | nil => simp at h2; omega
  | node a k v l r ihl ihr =>
    obtain ⟨g1, g2⟩ := here_left hx h
    have g3 := here_right hx h
    obtain ⟨ha, xl, xr⟩ := exact_node.1 hx
    rw [toList_node] at h2 ⊢
    rw [List.length_append, List.length_cons] at h2
    simp only [trimIdxL]
    rw [drop_mid]
    split
    · have hn : r.isNil = false := by
        cases r with
        | nil => simp at h2; omega
        | node => rfl
      obtain ⟨t', i1, i2, i3, -⟩ := ihr xr g3 (by omega) (by omega)
      rw [hn, if_neg (by simp), show idx + leftSz r + 1 = idx + (leftSz r + 1) by omega, i1,
        if_neg (by omega)]
      exact ⟨t', rfl, i2, by rw [i3]; congr 1; omega, fun _ => by omega⟩
    · split
      · have hn : l.isNil = false := by
          cases l with
          | nil => simp at g1; omega
          | node => rfl
        obtain ⟨t', i1, i2, i3, -⟩ := ihl xl g2 h1 (by omega)
        rw [hn, if_neg (by simp), show idx - rightSz l - 1 = idx - (rightSz l + 1) by omega, i1,
          if_pos (by omega)]
        refine ⟨_, rfl, i2.mk k v xr, by rw [toList_mk, i3], fun _ => ⟨.inr ?_, by simp [mk]⟩⟩
        have e1 := i2.sz
        have e2 : t'.toList.length = l.toList.length - (low - off).toNat := by rw [i3]; simp
        simp only [mk, leftSz]
        omega
      · rw [if_pos (by omega)]
        refine ⟨_, rfl, exact_node.2 ⟨by rw [xr.sz]; simp, trivial, xr⟩, ?_, fun _ => ⟨.inr ?_, by simp⟩⟩
        · rw [List.drop_of_length_le (by omega)]; simp
        · simp only [leftSz, sz_nil]; omega

theorem trimIdxL_none {off idx : Int} {t : T K V} (hx : Exact t) (h : Here off t idx)
    (hn : t ≠ nil) (hr : low < off) : trimIdxL low t idx = none := by
  induction t generalizing off idx with
  | nil => exact absurd rfl hn
  | node a k v l r ihl ihr =>
    obtain ⟨g1, g2⟩ := here_left hx h
    obtain ⟨ha, xl, xr⟩ := exact_node.1 hx
    simp only [trimIdxL]
    rw [if_neg (by omega), if_pos (by omega)]
    cases l with
    | nil => rfl
    | node b k' v' l' r' =>
      have := ihl xl g2 (by simp) hr
      rw [show ∀ x : Int, idx - x - 1 = idx - (x + 1) by intro x; omega, this]
      rfl

theorem trimIdxR_ok {off idx : Int} {t : T K V} (hx : Exact t) (h : Here off t idx)
    (h1 : off ≤ high) (h2 : high < off + t.toList.length) :
    ∃ t', trimIdxR high t idx = some t' ∧ Exact t' ∧
      t'.toList = t.toList.take (high + 1 - off).toNat := by
  induction t generalizing off idx with
  | nil => simp at h2; omega
  | node a k v l r ihl ihr =>
    obtain ⟨g1, g2⟩ := here_left hx h
    have g3 := here_right hx h
    obtain ⟨ha, xl, xr⟩ := exact_node.1 hx
    rw [toList_node] at h2 ⊢
    rw [List.length_append, List.length_cons] at h2
    simp only [trimIdxR]
    rw [take_mid]
    split
    · have hn : l.isNil = false := by
        cases l with
        | nil => simp at g1; omega
        | node => rfl
      obtain ⟨t', i1, i2, i3⟩ := ihl xl g2 h1 (by omega)
      rw [hn, if_neg (by simp), show idx - rightSz l - 1 = idx - (rightSz l + 1) by omega, i1,
        if_pos (by omega)]
      exact ⟨t', rfl, i2, i3⟩
    · split
      · have hn : r.isNil = false := by
          cases r with
          | nil => simp at h2; omega
          | node => rfl
        obtain ⟨t', i1, i2, i3⟩ := ihr xr g3 (by omega) (by omega)
        rw [hn, if_neg (by simp), show idx + leftSz r + 1 = idx + (leftSz r + 1) by omega, i1,
          if_neg (by omega)]
        refine ⟨_, rfl, xl.mk k v i2, ?_⟩
        rw [toList_mk, i3]; congr 3; omega
      · rw [if_neg (by omega)]
        refine ⟨_, rfl, exact_node.2 ⟨by rw [xl.sz]; simp, xl, trivial⟩, ?_⟩
        rw [show (high + 1 - off).toNat - l.toList.length - 1 = 0 by omega]; simp

theorem trimIdxR_none {off idx : Int} {t : T K V} (hx : Exact t) (h : Here off t idx)
    (hn : t ≠ nil) (hr : off + t.toList.length ≤ high) : trimIdxR high t idx = none := by
  induction t generalizing off idx with
  | nil => exact absurd rfl hn
  | node a k v l r ihl ihr =>
    obtain ⟨g1, g2⟩ := here_left hx h
    have g3 := here_right hx h
    obtain ⟨ha, xl, xr⟩ := exact_node.1 hx
    rw [toList_node, List.length_append, List.length_cons] at hr
    simp only [trimIdxR]
    rw [if_neg (by omega), if_pos (by omega)]
    cases r with
    | nil => rfl
    | node b k' v' l' r' =>
      have := ihr xr g3 (by simp) (by omega)
      rw [show ∀ x : Int, idx + x + 1 = idx + (x + 1) by intro x; omega, this]
      rfl

theorem trimIdx_ok {off idx : Int} (hlh : low ≤ high) {t : T K V} (hx : Exact t) (h : Here off t idx)
    (h1 : off ≤ low) (h2 : high < off + t.toList.length) :
    ∃ t', trimIdx low high t idx = .ok t' ∧ Exact t' ∧
      t'.toList = (t.toList.drop (low - off).toNat).take (high + 1 - low).toNat := by
  induction t generalizing off idx with
  | nil => simp at h2; omega
  | node a k v l r ihl ihr =>
    obtain ⟨g1, g2⟩ := here_left hx h
    have g3 := here_right hx h
    obtain ⟨ha, xl, xr⟩ := exact_node.1 hx
    have h2' := h2
    rw [toList_node, List.length_append, List.length_cons] at h2
    simp only [trimIdx]
    split
    · obtain ⟨t', i1, i2, i3⟩ := ihl xl g2 h1 (by omega)
      rw [i1]
      refine ⟨t', rfl, i2, ?_⟩
      rw [i3, toList_node, drop_mid, if_pos (by omega), take_mid, if_pos]
      rw [List.length_drop]; omega
    · split
      · obtain ⟨t', i1, i2, i3⟩ := ihr xr g3 (by omega) (by omega)
        rw [i1]
        refine ⟨t', rfl, i2, ?_⟩
        rw [i3, toList_node, drop_mid, if_neg (by omega)]
        congr 2; omega
      · obtain ⟨t1, i1, i2, i3, i4⟩ := trimIdxL_ok (low := low) hx h h1 (by omega)
        rw [i1]
        obtain ⟨i5, -⟩ := i4 (by omega)
        obtain ⟨t2, j1, j2, j3⟩ := trimIdxR_ok (high := high) i2 i5 (by omega) (by
          rw [i3, List.length_drop]; omega)
        simp only [j1]
        exact ⟨t2, rfl, j2, by rw [j3, i3]⟩

/-- Ranks that begin before the first entry, or after the last one: a panic that changes nothing. -/
theorem trimIdx_untouched {off idx : Int} (hlh : low ≤ high) {t : T K V} (hx : Exact t)
    (h : Here off t idx) (hr : low < off ∨ off + t.toList.length ≤ low) :
    trimIdx low high t idx = .untouched := by
  induction t generalizing off idx with
  | nil => rfl
  | node a k v l r ihl ihr =>
    obtain ⟨g1, g2⟩ := here_left hx h
    have g3 := here_right hx h
    obtain ⟨ha, xl, xr⟩ := exact_node.1 hx
    rw [toList_node, List.length_append, List.length_cons] at hr
    simp only [trimIdx]
    split
    · rw [ihl xl g2 (by omega)]; rfl
    · split
      · rw [ihr xr g3 (by omega)]; rfl
      · rw [trimIdxL_none hx h (by simp) (by omega)]

/-- A first rank that is there and a last one that is not: a panic after `ltrim` has changed the
tree. -/
theorem trimIdx_broken {off idx : Int} {t : T K V} (hx : Exact t)
    (h : Here off t idx) (h1 : off ≤ low) (h2 : low < off + t.toList.length)
    (h3 : off + t.toList.length ≤ high) : ∃ t', trimIdx low high t idx = .broken t' := by
  induction t generalizing off idx with
  | nil => simp at h2; omega
  | node a k v l r ihl ihr =>
    obtain ⟨g1, g2⟩ := here_left hx h
    have g3 := here_right hx h
    obtain ⟨ha, xl, xr⟩ := exact_node.1 hx
    have h2' := h2
    rw [toList_node, List.length_append, List.length_cons] at h2 h3
    simp only [trimIdx]
    rw [if_neg (by omega)]
    split
    · obtain ⟨t', i1⟩ := ihr xr g3 (by omega) (by omega) (by omega)
      rw [i1]
      exact ⟨_, rfl⟩
    · obtain ⟨t1, i1, i2, i3, i4⟩ := trimIdxL_ok (low := low) hx h h1 h2'
      rw [i1]
      obtain ⟨i5, i6⟩ := i4 (by omega)
      have hl : t1.toList.length = (node a k v l r).toList.length - (low - off).toNat := by
        rw [i3, List.length_drop]
      rw [toList_node, List.length_append, List.length_cons] at hl
      have hn : t1 ≠ nil := by
        rintro rfl
        rw [toList_nil, List.length_nil] at hl
        omega
      simp only [trimIdxR_none (high := high) i2 i5 hn (by omega)]
      exact ⟨_, rfl⟩

end

end Verif.Size
