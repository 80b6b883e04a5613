import Verif.Tree.TreeListPut
import Verif.Tree.SizeTrim
import Verif.Common.Tac

/-! The tree list: removal of ranges, and trimming. -/

namespace Verif.TreeList

open Tree Size DLL

variable {K V : Type} {cmp : K → K → Int}

theorem seg_node {h : Store (K × V)} {p q : Option Nat} {n : Int} {k : K} {v : Nat × V}
    {l r : T K (Nat × V)} (hs : Seg h p (addrs (node n k v l r).toList) q) :
    Seg h p (addrs l.toList) (some v.1) ∧ Seg h (some v.1) (addrs r.toList) q ∧
      (h v.1).prev = (addrs l.toList).getLast?.or p ∧ (h v.1).next = (addrs r.toList).head?.or q := by
  rw [toList_node, addrs_append, addrs_cons, seg_append] at hs
  obtain ⟨h1, h2, h3, h4⟩ := hs
  exact ⟨by simpa using h1, h4, h2, h3⟩

theorem isNil_iff {t : T K V} : t.isNil = true ↔ t.toList = [] := by
  cases t with
  | nil => simp [isNil]
  | node => simp [isNil]

theorem addrs_last (L R : List (Ent K V)) (e : Ent K V) (p : Option Nat) :
    (addrs (L ++ e :: R)).getLast?.or p = (addrs R).getLast?.or (some e.2.1) := by
  rw [addrs_append, addrs_cons, getLast?_or]
  cases hb : addrs R with
  | nil => simp
  | cons b bs =>
    rw [List.getLast?_cons_cons]
    cases hh : (b :: bs).getLast? with
    | none => simp at hh
    | some c => simp

theorem addrs_head (L R : List (Ent K V)) (e : Ent K V) (q : Option Nat) :
    (addrs (L ++ e :: R)).head?.or q = (addrs L).head?.or (some e.2.1) := by
  rw [addrs_append, addrs_cons, head?_or]
  cases addrs L <;> simp

theorem cutL_ok (hc : Lawful cmp) {low : K} {h : Store (K × V)} {p q : Option Nat}
    {t : T K (Nat × V)} (hx : Exact t) (hs : Sorted (ord cmp) t.toList)
    (hg : Seg h p (addrs t.toList) q) :
    Exact (cutL cmp low h t).1 ∧ (cutL cmp low h t).1.toList = below (ord cmp) low t.toList ∧
      (t ≠ nil → (cutL cmp low h t).2 = (addrs (below (ord cmp) low t.toList)).getLast?.or p) := by
  have : Std.TransCmp (ord cmp) := hc
  induction t generalizing p q with
  | nil => exact ⟨trivial, rfl, fun h => absurd rfl h⟩
  | node a k v l r ihl ihr =>
    obtain ⟨ha, xl, xr⟩ := exact_node.1 hx
    obtain ⟨gl, gr, gp, -⟩ := seg_node hg
    rw [toList_node] at hs ⊢
    obtain ⟨s1, s2, -, -, -⟩ := Sorted.split.1 hs
    obtain ⟨l1, l2, l3⟩ := ihl xl s1 gl
    obtain ⟨r1, r2, r3⟩ := ihr xr s2 gr
    simp only [cutL]
    rcases ways hc low k with ⟨c1, c2⟩ | ⟨c1, c2, c3⟩ | ⟨c1, c2, c3⟩
    · obtain ⟨w1, -, -⟩ := split_gt (Sorted.le hs) (show ord cmp (k, v).1 low = .gt from c2)
      rw [if_neg (by omega), if_pos c1, w1]
      by_cases hl : l.isNil = true
      · rw [if_pos hl, isNil_iff.1 hl]
        refine ⟨trivial, rfl, fun _ => ?_⟩
        rw [gp, isNil_iff.1 hl]; rfl
      · rw [if_neg hl]
        exact ⟨l1, l2, fun _ => l3 (by rintro rfl; exact hl rfl)⟩
    · obtain ⟨w1, -, -⟩ := split_lt (Sorted.le hs) (show ord cmp (k, v).1 low = .lt from c3)
      rw [if_pos c2, w1]
      refine ⟨xl.mk k v r1, by rw [toList_mk, r2], fun _ => ?_⟩
      simp only
      rw [addrs_last]
      by_cases hn : (cutL cmp low h r).1.isNil = true
      · rw [if_pos hn, ← r2, isNil_iff.1 hn]; rfl
      · rw [if_neg hn, r3 (by rintro rfl; exact hn rfl)]
    · obtain ⟨w1, -, -⟩ := split_eq' hs (show ord cmp (k, v).1 low = .eq from c3)
      rw [if_neg c2, if_neg c1, w1]
      exact ⟨xl, rfl, fun _ => gp⟩

theorem cutR_ok (hc : Lawful cmp) {high : K} {h : Store (K × V)} {p q : Option Nat}
    {t : T K (Nat × V)} (hx : Exact t) (hs : Sorted (ord cmp) t.toList)
    (hg : Seg h p (addrs t.toList) q) :
    Exact (cutR cmp high h t).1 ∧ (cutR cmp high h t).1.toList = above (ord cmp) high t.toList ∧
      (t ≠ nil → (cutR cmp high h t).2 = (addrs (above (ord cmp) high t.toList)).head?.or q) := by
  have : Std.TransCmp (ord cmp) := hc
  induction t generalizing p q with
  | nil => exact ⟨trivial, rfl, fun h => absurd rfl h⟩
  | node a k v l r ihl ihr =>
    obtain ⟨ha, xl, xr⟩ := exact_node.1 hx
    obtain ⟨gl, gr, -, gq⟩ := seg_node hg
    rw [toList_node] at hs ⊢
    obtain ⟨s1, s2, -, -, -⟩ := Sorted.split.1 hs
    obtain ⟨l1, l2, l3⟩ := ihl xl s1 gl
    obtain ⟨r1, r2, r3⟩ := ihr xr s2 gr
    simp only [cutR]
    rcases ways hc high k with ⟨c1, c2⟩ | ⟨c1, c2, c3⟩ | ⟨c1, c2, c3⟩
    · obtain ⟨-, -, w1⟩ := split_gt (Sorted.le hs) (show ord cmp (k, v).1 high = .gt from c2)
      rw [if_pos c1, w1]
      refine ⟨l1.mk k v xr, by rw [toList_mk, l2], fun _ => ?_⟩
      simp only
      rw [addrs_head]
      by_cases hn : (cutR cmp high h l).1.isNil = true
      · rw [if_pos hn, ← l2, isNil_iff.1 hn]; rfl
      · rw [if_neg hn, l3 (by rintro rfl; exact hn rfl)]
    · obtain ⟨-, -, w1⟩ := split_lt (Sorted.le hs) (show ord cmp (k, v).1 high = .lt from c3)
      rw [if_neg (by omega), if_pos c2, w1]
      by_cases hl : r.isNil = true
      · rw [if_pos hl, isNil_iff.1 hl]
        refine ⟨trivial, rfl, fun _ => ?_⟩
        rw [gq, isNil_iff.1 hl]; rfl
      · rw [if_neg hl]
        exact ⟨r1, r2, fun _ => r3 (by rintro rfl; exact hl rfl)⟩
    · obtain ⟨-, -, w1⟩ := split_eq' hs (show ord cmp (k, v).1 high = .eq from c3)
      rw [if_neg c1, if_neg c2, w1]
      exact ⟨xr, rfl, fun _ => gq⟩

/-- A run of entries cut out of the middle, and the neighbours that are left. -/
structure Gone (p q : Option Nat) (zs : List (Ent K V)) (P : Ent K V → Prop) (zs' : List (Ent K V))
    (o : Option Nat × Option Nat) : Prop where
  out : ∃ L M R, zs = L ++ (M ++ R) ∧ zs' = L ++ R ∧ M ≠ [] ∧ (∀ e ∈ M, P e) ∧
    (∀ e ∈ L ++ R, ¬P e) ∧ o = ((addrs L).getLast?.or p, (addrs R).head?.or q)

theorem Gone.left {p q : Option Nat} {zs zs' ys : List (Ent K V)} {P : Ent K V → Prop}
    {o : Option Nat × Option Nat} {e : Ent K V} (h : Gone p (some e.2.1) zs P zs' o)
    (hy : ∀ x ∈ e :: ys, ¬P x) : Gone p q (zs ++ e :: ys) P (zs' ++ e :: ys) o := by
  obtain ⟨L, M, R, rfl, rfl, h1, h2, h3, rfl⟩ := h.out
  refine ⟨L, M, R ++ e :: ys, by simp, by simp, h1, h2, ?_, ?_⟩
  · intro x hx
    rw [← List.append_assoc, List.mem_append] at hx
    rcases hx with hx | hx
    · exact h3 x hx
    · exact hy x hx
  · rw [addrs_head]

theorem Gone.right {p q : Option Nat} {zs zs' ys : List (Ent K V)} {P : Ent K V → Prop}
    {o : Option Nat × Option Nat} {e : Ent K V} (h : Gone (some e.2.1) q zs P zs' o)
    (hy : ∀ x ∈ ys, ¬P x) (he : ¬P e) : Gone p q (ys ++ e :: zs) P (ys ++ e :: zs') o := by
  obtain ⟨L, M, R, rfl, rfl, h1, h2, h3, rfl⟩ := h.out
  refine ⟨ys ++ e :: L, M, R, by simp, by simp, h1, h2, ?_, ?_⟩
  · intro x hx
    rw [List.append_assoc, List.cons_append, List.mem_append, List.mem_cons] at hx
    rcases hx with hx | rfl | hx
    · exact hy x hx
    · exact he
    · exact h3 x hx
  · rw [addrs_last]

theorem rangeHere_ok (hc : Lawful cmp) {low high : K}
    {h : Store (K × V)} {p q : Option Nat} {n : Int} {k : K} {v : Nat × V} {l r : T K (Nat × V)}
    (hx : Exact (node n k v l r)) (hs : Sorted (ord cmp) (node n k v l r).toList)
    (hg : Seg h p (addrs (node n k v l r).toList) q) (h1 : ord cmp low k ≠ .gt)
    (h2 : ord cmp k high ≠ .gt) :
    ∃ t' anc o, rangeHere cmp low high h n v l r = some (t', anc, some o) ∧ Exact t' ∧
      anc.OK (node n k v l r).toList t'.toList ∧
      Gone p q (node n k v l r).toList (fun e => inside (ord cmp) low high e.1 = true) t'.toList o := by
  have : Std.TransCmp (ord cmp) := hc
  obtain ⟨ha, xl, xr⟩ := exact_node.1 hx
  obtain ⟨gl, gr, gp, gq⟩ := seg_node hg
  rw [toList_node] at hs
  obtain ⟨s1, s2, s3, s4, -⟩ := Sorted.split.1 hs
  obtain ⟨a1, a2, a3⟩ := cutL_ok hc (low := low) xl s1 gl
  obtain ⟨b1, b2, b3⟩ := cutR_ok hc (high := high) xr s2 gr
  have e1 : ∃ w, (if l.isNil then (nil, (h v.1).prev) else cutL cmp low h l) = w ∧ Exact w.1 ∧
      w.1.toList = below (ord cmp) low l.toList ∧
      w.2 = (addrs (below (ord cmp) low l.toList)).getLast?.or p := by
    refine ⟨_, rfl, ?_⟩
    by_cases hn : l.isNil = true
    · rw [if_pos hn, isNil_iff.1 hn, gp, isNil_iff.1 hn]
      exact ⟨trivial, rfl, rfl⟩
    · rw [if_neg hn]
      exact ⟨a1, a2, a3 (by rintro rfl; exact hn rfl)⟩
  have e2 : ∃ w, (if r.isNil then (nil, (h v.1).next) else cutR cmp high h r) = w ∧ Exact w.1 ∧
      w.1.toList = above (ord cmp) high r.toList ∧
      w.2 = (addrs (above (ord cmp) high r.toList)).head?.or q := by
    refine ⟨_, rfl, ?_⟩
    by_cases hn : r.isNil = true
    · rw [if_pos hn, isNil_iff.1 hn, gq, isNil_iff.1 hn]
      exact ⟨trivial, rfl, rfl⟩
    · rw [if_neg hn]
      exact ⟨b1, b2, b3 (by rintro rfl; exact hn rfl)⟩
  obtain ⟨w, hw, c1, c2, c3⟩ := e1
  obtain ⟨w', hw', d1, d2, d3⟩ := e2
  simp only [rangeHere, hw, hw']
  obtain ⟨j, i1, i2, i3, i4⟩ := join_ok (size := n) c1 d1
    (old := (node n k v l r).toList) (by rw [ha]; simp; omega)
  rw [i1]
  refine ⟨_, _, _, rfl, i2, i4, ?_⟩
  have p1 := parts low (Sorted.le s1)
  have p2 := parts high (Sorted.le s2)
  rw [i3, c2, d2, c3, d3]
  refine ⟨below (ord cmp) low l.toList,
    (same (ord cmp) low l.toList ++ above (ord cmp) low l.toList) ++ (k, v) ::
      (below (ord cmp) high r.toList ++ same (ord cmp) high r.toList),
    above (ord cmp) high r.toList, ?_, rfl, by simp, ?_, ?_, rfl⟩
  · rw [toList_node]
    conv_lhs => rw [p1, p2]
    simp
  · intro x hx
    simp only [List.mem_append, List.mem_cons] at hx
    simp only [inside, Bool.and_eq_true, bne_iff_ne]
    rcases hx with (hx | hx) | rfl | hx | hx
    · obtain ⟨m1, m2⟩ := mem_same.1 hx
      exact ⟨by rw [Ord.eq_symm m2]; simp, Ord.ngt_trans (by rw [s3 x m1]; simp) h2⟩
    · obtain ⟨m1, m2⟩ := mem_above.1 hx
      exact ⟨by rw [Ord.gt_iff.1 m2]; simp, Ord.ngt_trans (by rw [s3 x m1]; simp) h2⟩
    · exact ⟨h1, h2⟩
    · obtain ⟨m1, m2⟩ := mem_below.1 hx
      exact ⟨Ord.ngt_trans h1 (by rw [s4 x m1]; simp), by rw [m2]; simp⟩
    · obtain ⟨m1, m2⟩ := mem_same.1 hx
      exact ⟨Ord.ngt_trans h1 (by rw [s4 x m1]; simp), by rw [m2]; simp⟩
  · intro x hx
    rw [List.mem_append] at hx
    rcases hx with hx | hx
    · have := (mem_below.1 hx).2
      simp [inside, Ord.gt_iff.2 this]
    · have := (mem_above.1 hx).2
      simp [inside, this]

/-- What `RemoveRange` does to the tree, and the neighbours it links. -/
theorem rangeOut_ok (hc : Lawful cmp) (hu : Uniform cmp) {low high : K} (hlh : ord cmp low high ≠ .gt)
    {h : Store (K × V)} {p q : Option Nat} {t : T K (Nat × V)} (hx : Exact t)
    (hs : Sorted (ord cmp) t.toList) (hg : Seg h p (addrs t.toList) q) :
    ∃ t' anc o, rangeOut cmp low high h t = some (t', anc, o) ∧ Exact t' ∧
      anc.OK t.toList t'.toList ∧
      match o with
      | none => t'.toList = t.toList ∧ ∀ e ∈ t.toList, inside (ord cmp) low high e.1 = false
      | some o => Gone p q t.toList (fun e => inside (ord cmp) low high e.1 = true) t'.toList o := by
  have : Std.TransCmp (ord cmp) := hc
  induction t generalizing p q with
  | nil => exact ⟨nil, .keep, none, rfl, trivial, rfl, rfl, by simp⟩
  | node n k v l r ihl ihr =>
    obtain ⟨ha, xl, xr⟩ := exact_node.1 hx
    obtain ⟨gl, gr, -, -⟩ := seg_node hg
    have hs' := hs
    rw [toList_node] at hs'
    obtain ⟨s1, s2, s3, s4, -⟩ := Sorted.split.1 hs'
    simp only [rangeOut]
    rcases range_cases hc hu hlh k with ⟨e1, e2, e3⟩ | ⟨e1, e2, e3, e4⟩ | ⟨e1, e2, e3⟩
    · obtain ⟨t', anc, o, g1, g2, g3, g4⟩ := ihl xl s1 gl
      rw [if_neg (by omega), if_pos e2, g1]
      obtain ⟨f1, f2, f3⟩ := Anc.fix_left hx g2 g3
      have hk : inside (ord cmp) low high k = false := by simp [inside, Ord.gt_iff.2 e3]
      have hr : ∀ x ∈ r.toList, inside (ord cmp) low high x.1 = false := fun x hx => by
        have := Ord.lt_trans e3 (s4 x hx)
        simp [inside, Ord.gt_iff.2 this]
      refine ⟨anc.fix n k v t' r, anc, o, rfl, f1, f3, ?_⟩
      rw [f2, toList_node]
      cases o with
      | none =>
        obtain ⟨i1, i2⟩ := g4
        refine ⟨by rw [i1], fun x hx => ?_⟩
        rw [List.mem_append, List.mem_cons] at hx
        rcases hx with hx | rfl | hx
        · exact i2 x hx
        · exact hk
        · exact hr x hx
      | some o =>
        refine Gone.left (e := (k, v)) g4 fun x hx => ?_
        rcases List.mem_cons.1 hx with rfl | hx
        · simp [hk]
        · simp [hr x hx]
    · obtain ⟨t', anc, o, g1, g2, g3, g4⟩ := ihr xr s2 gr
      rw [if_neg (by omega), if_neg e2, if_pos e3, g1]
      obtain ⟨f1, f2, f3⟩ := Anc.fix_right hx g2 g3
      have hk : inside (ord cmp) low high k = false := by simp [inside, Ord.gt_iff.2 e4]
      have hl : ∀ x ∈ l.toList, inside (ord cmp) low high x.1 = false := fun x hx => by
        have := Ord.lt_trans (s3 x hx) e4
        simp [inside, Ord.gt_iff.2 this]
      refine ⟨anc.fix n k v l t', anc, o, rfl, f1, f3, ?_⟩
      rw [f2, toList_node]
      cases o with
      | none =>
        obtain ⟨i1, i2⟩ := g4
        refine ⟨by rw [i1], fun x hx => ?_⟩
        rw [List.mem_append, List.mem_cons] at hx
        rcases hx with hx | rfl | hx
        · exact hl x hx
        · exact hk
        · exact i2 x hx
      | some o =>
        exact Gone.right (e := (k, v)) g4 (fun x hx => by simp [hl x hx]) (by simp [hk])
    · obtain ⟨t', anc, o, g1, g2, g3, g4⟩ := rangeHere_ok hc (low := low) (high := high) hx hs hg e1 e2
      refine ⟨t', anc, some o, ?_, g2, g3, g4⟩
      split
      · exact g1
      · rename_i hh
        have := e3 (by simpa using hh)
        rw [if_neg (by omega), if_neg (by omega)]
        exact g1

/-! ### By rank -/

theorem cutIdxL_ok {low off idx : Int} {h : Store (K × V)} {p q : Option Nat}
    {t : T K (Nat × V)} (hx : Exact t) (hh : Here off t idx) (hg : Seg h p (addrs t.toList) q) :
    Exact (cutIdxL low h t idx).1 ∧
      (cutIdxL low h t idx).1.toList = t.toList.take (low - off).toNat ∧
      (t ≠ nil → (cutIdxL low h t idx).2 = (addrs (t.toList.take (low - off).toNat)).getLast?.or p) := by
  induction t generalizing p q off idx with
  | nil => exact ⟨trivial, by simp [cutIdxL], fun h => absurd rfl h⟩
  | node a k v l r ihl ihr =>
    obtain ⟨h1, h2⟩ := here_left hx hh
    have h3 := here_right hx hh
    obtain ⟨-, xl, xr⟩ := exact_node.1 hx
    obtain ⟨gl, gr, gp, -⟩ := seg_node hg
    obtain ⟨l1, l2, l3⟩ := ihl xl h2 gl
    obtain ⟨r1, r2, r3⟩ := ihr xr h3 gr
    simp only [cutIdxL, toList_node]
    rw [take_mid]
    split
    · rw [if_neg (show ¬((low - off).toNat ≤ l.toList.length) by omega), show (low - off).toNat - l.toList.length - 1 = (low - (idx + 1)).toNat by omega]
      refine ⟨xl.mk k v r1, by rw [toList_mk, r2], fun _ => ?_⟩
      simp only
      rw [addrs_last]
      by_cases hn : (cutIdxL low h r (idx + (leftSz r + 1))).1.isNil = true
      · rw [if_pos hn, ← r2, isNil_iff.1 hn]; rfl
      · rw [if_neg hn, r3 (by rintro rfl; exact hn rfl)]
    · split
      · rw [if_pos (show ((low - off).toNat ≤ l.toList.length) by omega)]
        by_cases hl : l.isNil = true
        · rw [if_pos hl, isNil_iff.1 hl]
          refine ⟨trivial, by simp, fun _ => ?_⟩
          rw [gp, isNil_iff.1 hl]; simp
        · rw [if_neg hl]
          exact ⟨l1, l2, fun _ => l3 (by rintro rfl; exact hl rfl)⟩
      · rw [if_pos (show ((low - off).toNat ≤ l.toList.length) by omega), List.take_of_length_le (by omega)]
        exact ⟨xl, rfl, fun _ => gp⟩

theorem cutIdxR_ok {high off idx : Int} {h : Store (K × V)} {p q : Option Nat}
    {t : T K (Nat × V)} (hx : Exact t) (hh : Here off t idx) (hg : Seg h p (addrs t.toList) q) :
    Exact (cutIdxR high h t idx).1 ∧
      (cutIdxR high h t idx).1.toList = t.toList.drop (high + 1 - off).toNat ∧
      (t ≠ nil → (cutIdxR high h t idx).2 =
        (addrs (t.toList.drop (high + 1 - off).toNat)).head?.or q) := by
  induction t generalizing p q off idx with
  | nil => exact ⟨trivial, by simp [cutIdxR], fun h => absurd rfl h⟩
  | node a k v l r ihl ihr =>
    obtain ⟨h1, h2⟩ := here_left hx hh
    have h3 := here_right hx hh
    obtain ⟨-, xl, xr⟩ := exact_node.1 hx
    obtain ⟨gl, gr, -, gq⟩ := seg_node hg
    obtain ⟨l1, l2, l3⟩ := ihl xl h2 gl
    obtain ⟨r1, r2, r3⟩ := ihr xr h3 gr
    simp only [cutIdxR, toList_node]
    rw [drop_mid]
    split
    · rw [if_pos (show ((high + 1 - off).toNat ≤ l.toList.length) by omega)]
      refine ⟨l1.mk k v xr, by rw [toList_mk, l2], fun _ => ?_⟩
      simp only
      rw [addrs_head]
      by_cases hn : (cutIdxR high h l (idx - (rightSz l + 1))).1.isNil = true
      · rw [if_pos hn, ← l2, isNil_iff.1 hn]; rfl
      · rw [if_neg hn, l3 (by rintro rfl; exact hn rfl)]
    · split
      · rw [if_neg (show ¬((high + 1 - off).toNat ≤ l.toList.length) by omega),
          show (high + 1 - off).toNat - l.toList.length - 1 = (high + 1 - (idx + 1)).toNat by omega]
        by_cases hl : r.isNil = true
        · rw [if_pos hl, isNil_iff.1 hl]
          refine ⟨trivial, by simp, fun _ => ?_⟩
          rw [gq, isNil_iff.1 hl]; simp
        · rw [if_neg hl]
          exact ⟨r1, r2, fun _ => r3 (by rintro rfl; exact hl rfl)⟩
      · rw [if_neg (show ¬((high + 1 - off).toNat ≤ l.toList.length) by omega),
          show (high + 1 - off).toNat - l.toList.length - 1 = 0 by omega, List.drop_zero]
        exact ⟨xr, rfl, fun _ => gq⟩

/-- What `RemoveRangeByIndex` does to the tree, and the neighbours it links. -/
theorem rangeIdxOut_ok {low high off idx : Int} (hlh : low ≤ high) {h : Store (K × V)}
    {p q : Option Nat} {t : T K (Nat × V)} (hx : Exact t) (hh : Here off t idx)
    (hg : Seg h p (addrs t.toList) q) (h0 : 0 < t.toList.length) (h1 : off ≤ high)
    (h2 : low < off + t.toList.length) :
    ∃ t' anc, rangeIdxOut low high h t idx = some (some (t', anc,
        (addrs (t.toList.take (low - off).toNat)).getLast?.or p,
        (addrs (t.toList.drop (high + 1 - off).toNat)).head?.or q)) ∧ Exact t' ∧
      anc.OK t.toList t'.toList ∧
      t'.toList = t.toList.take (low - off).toNat ++ t.toList.drop (high + 1 - off).toNat := by
  induction t generalizing p q off idx with
  | nil => simp at h0
  | node n k v l r ihl ihr =>
    obtain ⟨g1, g2⟩ := here_left hx hh
    have g3 := here_right hx hh
    obtain ⟨ha, xl, xr⟩ := exact_node.1 hx
    obtain ⟨gl, gr, gp, gq⟩ := seg_node hg
    simp only [rangeIdxOut]
    split
    · obtain ⟨t', anc, i1, i2, i3, i4⟩ := ihl xl g2 gl (by omega) h1 (by omega)
      rw [i1]
      obtain ⟨f1, f2, f3⟩ := Anc.fix_left hx i2 i3
      rw [toList_node] at f3 ⊢
      rw [take_mid, drop_mid, if_pos (by omega), if_pos (by omega), addrs_head]
      exact ⟨anc.fix n k v t' r, anc, rfl, f1, f3, by rw [f2, i4]; simp⟩
    · split
      · rw [toList_node, List.length_append, List.length_cons] at h2
        obtain ⟨t', anc, i1, i2, i3, i4⟩ := ihr xr g3 gr (by omega) (by omega) (by omega)
        rw [i1]
        obtain ⟨f1, f2, f3⟩ := Anc.fix_right hx i2 i3
        rw [toList_node] at f3 ⊢
        rw [take_mid, drop_mid, if_neg (by omega), if_neg (by omega), addrs_last,
          show (low - off).toNat - l.toList.length - 1 = (low - (idx + 1)).toNat by omega,
          show (high + 1 - off).toNat - l.toList.length - 1 = (high + 1 - (idx + 1)).toNat by omega]
        exact ⟨anc.fix n k v l t', anc, rfl, f1, f3, by rw [f2, i4]; simp⟩
      · obtain ⟨a1, a2, a3⟩ := cutIdxL_ok (low := low) xl g2 gl
        obtain ⟨b1, b2, b3⟩ := cutIdxR_ok (high := high) xr g3 gr
        rw [toList_node, take_mid, drop_mid, if_pos (show (low - off).toNat ≤ l.toList.length by omega),
          if_neg (show ¬(high + 1 - off).toNat ≤ l.toList.length by omega),
          show (high + 1 - off).toNat - l.toList.length - 1 = (high + 1 - (idx + 1)).toNat by omega]
        have e1 : ∃ w, (if l.isNil then (nil, (h v.1).prev)
              else cutIdxL low h l (idx - (rightSz l + 1))) = w ∧ Exact w.1 ∧
            w.1.toList = l.toList.take (low - off).toNat ∧
            w.2 = (addrs (l.toList.take (low - off).toNat)).getLast?.or p := by
          refine ⟨_, rfl, ?_⟩
          by_cases hn : l.isNil = true
          · rw [if_pos hn, isNil_iff.1 hn, gp, isNil_iff.1 hn]
            exact ⟨trivial, by simp, by simp⟩
          · rw [if_neg hn]
            exact ⟨a1, a2, a3 (by rintro rfl; exact hn rfl)⟩
        have e2 : ∃ w, (if r.isNil then (nil, (h v.1).next)
              else cutIdxR high h r (idx + (leftSz r + 1))) = w ∧ Exact w.1 ∧
            w.1.toList = r.toList.drop (high + 1 - (idx + 1)).toNat ∧
            w.2 = (addrs (r.toList.drop (high + 1 - (idx + 1)).toNat)).head?.or q := by
          refine ⟨_, rfl, ?_⟩
          by_cases hn : r.isNil = true
          · rw [if_pos hn, isNil_iff.1 hn, gq, isNil_iff.1 hn]
            exact ⟨trivial, by simp, by simp⟩
          · rw [if_neg hn]
            exact ⟨b1, b2, b3 (by rintro rfl; exact hn rfl)⟩
        obtain ⟨w, hw, c1, c2, c3⟩ := e1
        obtain ⟨w', hw', d1, d2, d3⟩ := e2
        obtain ⟨j, i1, i2, i3, i4⟩ := join_ok (size := n) c1 d1
          (old := (node n k v l r).toList) (by rw [ha]; simp; omega)
        rw [hw, hw', i1, ← c3, ← d3]
        rw [toList_node] at i4
        exact ⟨_, _, rfl, i2, i4, by rw [i3, c2, d2]⟩

theorem rangeIdxOut_none {low high off idx : Int} (hlh : low ≤ high) {h : Store (K × V)}
    {t : T K (Nat × V)} (hx : Exact t) (hh : Here off t idx)
    (hr : high < off ∨ off + t.toList.length ≤ low) : rangeIdxOut low high h t idx = none := by
  induction t generalizing off idx with
  | nil => rfl
  | node a k v l r ihl ihr =>
    obtain ⟨g1, g2⟩ := here_left hx hh
    have g3 := here_right hx hh
    obtain ⟨ha, xl, xr⟩ := exact_node.1 hx
    rw [toList_node, List.length_append, List.length_cons] at hr
    simp only [rangeIdxOut]
    split
    · rw [ihl xl g2 (by omega)]; rfl
    · rw [if_pos (by omega), ihr xr g3 (by omega)]; rfl

/-! ### The whole state -/

theorem first_eq (t : T K (Nat × V)) : first t = (addrs t.toList).head? := by
  induction t with
  | nil => rfl
  | node a k v l r ihl _ =>
    simp only [first, toList_node]
    have := addrs_head l.toList r.toList (k, v) none
    rw [Option.or_none] at this
    rw [this]
    by_cases hl : l.isNil = true
    · rw [if_pos hl, isNil_iff.1 hl]; rfl
    · rw [if_neg hl, ihl]
      cases h : l.toList with
      | nil => exact absurd (isNil_iff.2 h) hl
      | cons => rfl

theorem last_eq (t : T K (Nat × V)) : last t = (addrs t.toList).getLast? := by
  induction t with
  | nil => rfl
  | node a k v l r _ ihr =>
    simp only [last, toList_node]
    have := addrs_last l.toList r.toList (k, v) none
    rw [Option.or_none] at this
    rw [this]
    by_cases hl : r.isNil = true
    · rw [if_pos hl, isNil_iff.1 hl]; rfl
    · rw [if_neg hl, ihr]
      cases h : (addrs r.toList).getLast? with
      | none =>
        have : r.toList = [] := by simpa using h
        exact absurd (isNil_iff.2 this) hl
      | some => rfl

/-- Cutting a run of entries out of the tree and out of the thread. -/
theorem Good.cut {s : TL K V} {L M R : List (Ent K V)} (hG : Good cmp s (L ++ (M ++ R)))
    {t : T K (Nat × V)} (ht : t.toList = L ++ R) (hx : Exact t) :
    Good cmp ({ s with tree := t }.unlink (addrs L).getLast? (addrs R).head?) (L ++ R) := by
  obtain ⟨h1, h2, h3, h4, h5, h6, h7⟩ := hG
  have hsub : (L ++ R).Sublist (L ++ (M ++ R)) :=
    List.Sublist.append (List.Sublist.refl _) (List.sublist_append_right ..)
  refine ⟨?_, h2.sublist hsub, ?_, h4.sublist (hsub.map _), ?_, ?_, ?_⟩
  · simp only [TL.unlink, setL_tree, setR_tree]; exact ht
  · simp only [TL.unlink, setL_tree, setR_tree]; exact hx
  · intro e he
    simp only [TL.unlink, setL_free, setR_free]
    exact h5 e (hsub.subset he)
  · intro e he
    simp only [TL.unlink, setL_val, setR_val]
    exact h6 e (hsub.subset he)
  · rw [addrs_append, addrs_append] at h4 h7
    rw [addrs_append]
    exact Thread.unlink (s := { s with tree := t }) (M := addrs M) ⟨h7.head, h7.tail, h7.seg⟩ h4

/-- Keeping only a run of entries, if it is not empty. -/
theorem Good.keep {s : TL K V} {L M R : List (Ent K V)} (hG : Good cmp s (L ++ (M ++ R)))
    {t : T K (Nat × V)} (ht : t.toList = M) (hx : Exact t) (hM : M ≠ []) :
    Good cmp { s with tree := t }.fence M := by
  obtain ⟨h1, h2, h3, h4, h5, h6, h7⟩ := hG
  have hsub : M.Sublist (L ++ (M ++ R)) :=
    (List.sublist_append_left ..).trans (List.sublist_append_right ..)
  have e1 : first t = (addrs M).head? := by rw [first_eq, ht]
  have e2 : last t = (addrs M).getLast? := by rw [last_eq, ht]
  obtain ⟨a, ha⟩ : ∃ a, (addrs M).head? = some a := by
    cases M with
    | nil => exact absurd rfl hM
    | cons => exact ⟨_, rfl⟩
  obtain ⟨b, hb⟩ : ∃ b, (addrs M).getLast? = some b := by
    cases h : (addrs M).getLast? with
    | none =>
      have : M = [] := by simpa using h
      exact absurd this hM
    | some b => exact ⟨b, rfl⟩
  simp only [TL.fence, e1, e2, ha, hb]
  refine ⟨ht, h2.sublist hsub, hx, h4.sublist (hsub.map _), fun e he => h5 e (hsub.subset he), ?_, ?_⟩
  · intro e he
    simp only [val_setNext, val_setPrev]
    exact h6 e (hsub.subset he)
  · rw [addrs_append, addrs_append] at h4 h7
    exact Thread.fence h7 h4 ha hb rfl rfl rfl

/-- What is inside a range is one run of entries. -/
theorem inside_run {o : K → K → Ordering} [Std.TransCmp o] {low high : K} {W : Type}
    (hlh : o low high ≠ .gt) {zs : List (K × W)} (hs : Sorted o zs) :
    zs = below o low zs ++ (zs.filter (fun e => inside o low high e.1) ++ above o high zs) := by
  induction zs with
  | nil => rfl
  | cons e zs ih =>
    obtain ⟨h1, h2⟩ := List.pairwise_cons.1 hs
    have ih := ih h2
    simp only [below, above] at ih ⊢
    rw [List.filter_cons, List.filter_cons, List.filter_cons]
    cases c1 : o e.1 low with
    | lt =>
      have c2 : o e.1 high = .lt := Ord.lt_of_lt_of_ngt c1 hlh
      have c3 : inside o low high e.1 = false := by simp [inside, Ord.gt_iff.2 c1]
      simp only [c2, c3, beq_self_eq_true, if_true, Bool.false_eq_true, if_false]
      rw [if_neg (by simp)]
      rw [List.cons_append, ← ih]
    | eq | gt =>
      have c1' : o low e.1 ≠ .gt := by
        intro h; rw [Ord.gt_iff] at h; simp [h] at c1
      have hb : zs.filter (fun e => o e.1 low == .lt) = [] :=
        List.filter_eq_nil_iff.2 fun x hx => by
          have h3 : o e.1 x.1 = .lt := h1 x hx
          have h4 : o low x.1 ≠ .gt := Ord.ngt_trans c1' (by rw [h3]; simp)
          rw [Ne, Ord.gt_iff] at h4
          simpa using h4
      rw [hb] at ih ⊢
      rw [if_neg (by simp)]
      cases c2 : o e.1 high with
      | gt =>
        have c3 : inside o low high e.1 = false := by simp [inside, c2]
        have hi : zs.filter (fun e => inside o low high e.1) = [] :=
          List.filter_eq_nil_iff.2 fun x hx => by
            have h3 : o e.1 x.1 = .lt := h1 x hx
            have h4 : o x.1 high = .gt := Ord.gt_iff.2 (Ord.lt_trans (Ord.gt_iff.1 c2) h3)
            simp [inside, h4]
        rw [hi] at ih ⊢
        simp only [c3, Bool.false_eq_true, if_false, beq_self_eq_true, if_true]
        rw [List.nil_append, List.nil_append] at ih ⊢
        rw [← ih]
      | eq | lt =>
        have c3 : inside o low high e.1 = true := by simp [inside, c2, c1']
        rw [if_pos c3, if_neg (by simp)]
        rw [List.nil_append] at ih ⊢
        rw [List.cons_append, ← ih]

end Verif.TreeList
