import Verif.Tree.IndexModel
import Verif.Tree.SizeTrim
import Verif.Tree.AvlSpec

/-! The ideal sorted map with ranks, and the relation of tree/indextree to it. -/

namespace Verif.IndexTree

open Tree Size

variable {K W : Type}

theorem limOK (shift : Nat) : LimOK (limit shift) := by
  intro h s hs hp
  cases hs
  have : (0 : Int) ≤ shl64 h >>> shift := by
    rw [Int.shiftRight_eq_div_pow]; exact Int.ediv_nonneg (Int.le_of_lt hp) (Int.natCast_nonneg _)
  show 0 < shl64 h >>> shift + 1
  omega

/-! ### Splitting -/

section
variable {cmp : K → K → Int}

/-- The entries that stay in the left tree. -/
def lefts (o : K → K → Ordering) (incl : Bool) (key : K) {V : Type} (xs : List (K × V)) :
    List (K × V) := xs.filter fun e => if incl then o e.1 key != .gt else o e.1 key == .lt

/-- The entries that go to the tree returned. -/
def rights (o : K → K → Ordering) (incl : Bool) (key : K) {V : Type} (xs : List (K × V)) :
    List (K × V) := xs.filter fun e => if incl then o e.1 key == .gt else o e.1 key != .lt

theorem goesLeft_iff {incl : Bool} {key k : K} : goesLeft incl (cmp k key) =
    if incl then ord cmp k key != .gt else ord cmp k key == .lt := by
  cases incl
  · simp only [goesLeft, Bool.false_eq_true, if_false]
    rw [Bool.eq_iff_iff]; simp [ord_lt]
  · simp only [goesLeft, if_true]
    rw [Bool.eq_iff_iff]
    simp [ord_gt]

/-- A node on the left side: everything before it is, too. -/
theorem split_left (hc : Lawful cmp) {incl : Bool} {key k : K} {v : W} {L R : List (K × W)}
    (hs : Sorted (ord cmp) (L ++ (k, v) :: R)) (h : goesLeft incl (cmp k key) = true) :
    lefts (ord cmp) incl key (L ++ (k, v) :: R) = L ++ (k, v) :: lefts (ord cmp) incl key R ∧
    rights (ord cmp) incl key (L ++ (k, v) :: R) = rights (ord cmp) incl key R := by
  have : Std.TransCmp (ord cmp) := hc
  obtain ⟨-, -, s3, -, -⟩ := Sorted.split.1 hs
  rw [goesLeft_iff] at h
  have h' : ord cmp k key ≠ .gt := by
    cases incl
    · simp at h; rw [h]; simp
    · simpa using h
  have hl : ∀ x ∈ L, ord cmp x.1 key = .lt := fun x hx => Ord.lt_of_lt_of_ngt (s3 x hx) h'
  unfold lefts rights
  rw [List.filter_append, List.filter_append, List.filter_cons, List.filter_cons,
    List.filter_eq_self.2, (List.filter_eq_nil_iff (l := L)).2]
  · cases incl <;> simp_all
  · intro x hx; cases incl <;> simp [hl x hx]
  · intro x hx; cases incl <;> simp [hl x hx]

/-- A node on the right side. -/
theorem split_right (hc : Lawful cmp) {incl : Bool} {key k : K} {v : W} {L R : List (K × W)}
    (hs : Sorted (ord cmp) (L ++ (k, v) :: R)) (h : ¬goesLeft incl (cmp k key) = true) :
    lefts (ord cmp) incl key (L ++ (k, v) :: R) = lefts (ord cmp) incl key L ∧
    rights (ord cmp) incl key (L ++ (k, v) :: R) = rights (ord cmp) incl key L ++ (k, v) :: R := by
  have : Std.TransCmp (ord cmp) := hc
  obtain ⟨-, -, -, s4, -⟩ := Sorted.split.1 hs
  rw [goesLeft_iff] at h
  have h' : ord cmp k key ≠ .lt := by
    cases incl
    · simpa using h
    · simp at h; rw [h]; simp
  have hr : ∀ x ∈ R, ord cmp x.1 key = .gt := fun x hx => by
    rw [Ord.gt_iff]
    refine Ord.lt_of_ngt_of_lt (b := k) ?_ (s4 x hx)
    rw [Ne, Ord.gt_iff]; exact h'
  unfold lefts rights
  rw [List.filter_append, List.filter_append, List.filter_cons, List.filter_cons,
    (List.filter_eq_nil_iff (l := R)).2, List.filter_eq_self (l := R) |>.2]
  · cases incl <;> simp_all
  · intro x hx; cases incl <;> simp [hr x hx]
  · intro x hx; cases incl <;> simp [hr x hx]

theorem splitMid_ok (hc : Lawful cmp) {incl : Bool} {key : K} {t : T K W} (hx : Exact t)
    (hs : Sorted (ord cmp) t.toList) :
    Exact (splitMid cmp incl key t).1 ∧ Exact (splitMid cmp incl key t).2 ∧
    (splitMid cmp incl key t).1.toList = lefts (ord cmp) incl key t.toList ∧
    (splitMid cmp incl key t).2.toList = rights (ord cmp) incl key t.toList := by
  have : Std.TransCmp (ord cmp) := hc
  induction t with
  | nil => exact ⟨trivial, trivial, rfl, rfl⟩
  | node a k v l r ihl ihr =>
    obtain ⟨ha, xl, xr⟩ := exact_node.1 hx
    rw [toList_node] at hs ⊢
    obtain ⟨s1, s2, s3, s4, -⟩ := Sorted.split.1 hs
    obtain ⟨l1, l2, l3, l4⟩ := ihl xl s1
    obtain ⟨r1, r2, r3, r4⟩ := ihr xr s2
    simp only [splitMid]
    rcases Int.lt_trichotomy (cmp k key) 0 with h | h | h
    · have hg : goesLeft incl (cmp k key) = true := by cases incl <;> simp [goesLeft] <;> omega
      rw [if_neg (by omega), if_pos h, (split_left hc hs hg).1, (split_left hc hs hg).2]
      exact ⟨xl.mk k v r1, r2, by rw [toList_mk, r3], r4⟩
    · rw [if_neg (by omega), if_neg (by omega)]
      obtain ⟨e1, e2, e3⟩ := split_eq' hs (show ord cmp (k, v).1 key = .eq from ord_eq.2 h)
      have hle : lefts (ord cmp) true key (l.toList ++ (k, v) :: r.toList) = l.toList ++ [(k, v)] := by
        have : lefts (ord cmp) true key (l.toList ++ (k, v) :: r.toList) =
            below (ord cmp) key (l.toList ++ (k, v) :: r.toList) ++
            same (ord cmp) key (l.toList ++ (k, v) :: r.toList) := by
          unfold lefts
          conv_lhs => arg 2; rw [parts key (Sorted.le hs)]
         
          rw [List.filter_append, List.filter_eq_self.2, (List.filter_eq_nil_iff).2,
            List.append_nil]
          · intro x hx; simp [(mem_above.1 hx).2]
          · intro x hx
            rcases List.mem_append.1 hx with hx | hx
            · simp [(mem_below.1 hx).2]
            · simp [(mem_same.1 hx).2]
        rw [this, e1, e2]
      have hri : rights (ord cmp) false key (l.toList ++ (k, v) :: r.toList) = (k, v) :: r.toList := by
        have : rights (ord cmp) false key (l.toList ++ (k, v) :: r.toList) =
            same (ord cmp) key (l.toList ++ (k, v) :: r.toList) ++
            above (ord cmp) key (l.toList ++ (k, v) :: r.toList) := by
          unfold rights
          conv_lhs => arg 2; rw [parts key (Sorted.le hs), List.append_assoc]
         
          rw [List.filter_append, (List.filter_eq_nil_iff).2, List.filter_eq_self.2,
            List.nil_append]
          · intro x hx
            rcases List.mem_append.1 hx with hx | hx
            · simp [(mem_same.1 hx).2]
            · simp [(mem_above.1 hx).2]
          · intro x hx; simp [(mem_below.1 hx).2]
        rw [this, e2, e3]; rfl
      cases incl
      · simp only [Bool.false_eq_true, if_false]
        exact ⟨xl, exact_node.2 ⟨by rw [xr.sz]; simp, trivial, xr⟩, e1.symm, by rw [hri]; simp⟩
      · simp only [if_true]
        exact ⟨exact_node.2 ⟨by rw [xl.sz]; simp, xl, trivial⟩, xr, by rw [hle]; simp, e3.symm⟩
    · have hg : ¬goesLeft incl (cmp k key) = true := by cases incl <;> simp [goesLeft] <;> omega
      rw [if_pos h, (split_right hc hs hg).1, (split_right hc hs hg).2]
      exact ⟨l1, l2.mk k v xr, l3, by rw [toList_mk, l4]⟩

theorem spineL_ok (hc : Lawful cmp) {incl : Bool} {key : K} {t : T K W} (hx : Exact t)
    (hs : Sorted (ord cmp) t.toList) :
    let p := (spineL cmp incl key t).getD (t, nil)
    Exact p.1 ∧ Exact p.2 ∧ p.1.toList = lefts (ord cmp) incl key t.toList ∧
      p.2.toList = rights (ord cmp) incl key t.toList := by
  induction t with
  | nil => exact ⟨trivial, trivial, rfl, rfl⟩
  | node a k v l r ihl ihr =>
    obtain ⟨ha, xl, xr⟩ := exact_node.1 hx
    rw [toList_node] at hs ⊢
    obtain ⟨s1, s2, s3, s4, -⟩ := Sorted.split.1 hs
    obtain ⟨r1, r2, r3, r4⟩ := ihr xr s2
    simp only [spineL]
    split
    · rename_i h
      rw [(split_left hc hs h).1, (split_left hc hs h).2]
      cases hp : spineL cmp incl key r with
      | none =>
        simp only [hp, Option.getD_none] at r1 r2 r3 r4
        simp only [Option.map_none, Option.getD_none]
        exact ⟨hx, trivial, by rw [← r3]; rfl, r4⟩
      | some p =>
        simp only [hp, Option.getD_some] at r1 r2 r3 r4
        simp only [Option.map_some, Option.getD_some]
        exact ⟨xl.mk k v r1, r2, by rw [toList_mk, r3], r4⟩
    · rename_i h
      rw [(split_right hc hs h).1, (split_right hc hs h).2]
      obtain ⟨m1, m2, m3, m4⟩ := splitMid_ok hc (incl := incl) (key := key) xl s1
      exact ⟨m1, m2.mk k v xr, m3, by rw [Option.getD_some, toList_mk, m4]⟩

theorem spineR_ok (hc : Lawful cmp) {incl : Bool} {key : K} {t : T K W} (hx : Exact t)
    (hs : Sorted (ord cmp) t.toList) :
    let p := (spineR cmp incl key t).getD (nil, t)
    Exact p.1 ∧ Exact p.2 ∧ p.1.toList = lefts (ord cmp) incl key t.toList ∧
      p.2.toList = rights (ord cmp) incl key t.toList := by
  induction t with
  | nil => exact ⟨trivial, trivial, rfl, rfl⟩
  | node a k v l r ihl ihr =>
    obtain ⟨ha, xl, xr⟩ := exact_node.1 hx
    rw [toList_node] at hs ⊢
    obtain ⟨s1, s2, s3, s4, -⟩ := Sorted.split.1 hs
    obtain ⟨r1, r2, r3, r4⟩ := ihl xl s1
    simp only [spineR]
    split
    · rename_i h
      rw [(split_left hc hs h).1, (split_left hc hs h).2]
      obtain ⟨m1, m2, m3, m4⟩ := splitMid_ok hc (incl := incl) (key := key) xr s2
      exact ⟨xl.mk k v m1, m2, by rw [Option.getD_some, toList_mk, m3], m4⟩
    · rename_i h
      rw [(split_right hc hs h).1, (split_right hc hs h).2]
      cases hp : spineR cmp incl key l with
      | none =>
        simp only [hp, Option.getD_none] at r1 r2 r3 r4
        simp only [Option.map_none, Option.getD_none]
        exact ⟨trivial, hx, r3, by rw [← r4]; rfl⟩
      | some p =>
        simp only [hp, Option.getD_some] at r1 r2 r3 r4
        simp only [Option.map_some, Option.getD_some]
        exact ⟨r1, r2.mk k v xr, r3, by rw [toList_mk, r4]⟩

theorem split_ok (hc : Lawful cmp) {incl : Bool} {key : K} {t : T K W} (hx : Exact t)
    (hs : Sorted (ord cmp) t.toList) (hn : t ≠ nil) :
    ∃ p, split cmp incl key t = some p ∧ Exact p.1 ∧ Exact p.2 ∧
      p.1.toList = lefts (ord cmp) incl key t.toList ∧
      p.2.toList = rights (ord cmp) incl key t.toList := by
  cases t with
  | nil => exact absurd rfl hn
  | node a k v l r =>
    simp only [split]
    split
    · exact ⟨_, rfl, spineL_ok hc hx hs⟩
    · exact ⟨_, rfl, spineR_ok hc hx hs⟩

end

/-! ### The ideal map -/

section
variable (o : K → K → Ordering)

/-- The ideal map: the sorted list of entries. -/
def spec (xs : List (K × Option W)) : Op K W → List (K × Option W) × Res K W
  | .put k v =>
    if Avl.has o k xs then (xs, .bool false) else (Avl.insertEntry o (k, v) xs, .bool true)
  | .insertIfAbsent k v =>
    if Avl.has o k xs then (xs, .bool false) else (Avl.insertEntry o (k, v) xs, .bool true)
  | .set k v =>
    if Avl.has o k xs then (xs.map fun e => if o e.1 k == .eq then (k, v) else e, .bool true)
    else (Avl.insertEntry o (k, v) xs, .bool false)
  | .upsert k v =>
    if Avl.has o k xs then (xs.map fun e => if o e.1 k == .eq then (e.1, v) else e, .bool true)
    else (Avl.insertEntry o (k, v) xs, .bool false)
  | .get k => (xs, .found ((xs.find? fun e => o e.1 k == .eq).map (·.2)))
  | .remove k => (xs.filter fun e => o e.1 k != .eq,
      .val ((xs.find? fun e => o e.1 k == .eq).bind (·.2)))
  | .delete k => (xs.filter fun e => o e.1 k != .eq,
      .found ((xs.find? fun e => o e.1 k == .eq).map (·.2)))
  | .index i => (xs, match at? xs i with | none => .panic | some e => .entry e)
  | .indexOf k => (xs, .int (match xs.findIdx? fun e => o e.1 k == .eq with
      | none => -1 | some n => n))
  | .removeIndex i => match at? xs i with
    | none => (xs, .panic)
    | some e => (xs.eraseIdx i.toNat, .val e.2)
  | .removeRange low high =>
    if o low high == .gt then (xs, .panic)
    else (xs.filter fun e => !inside o low high e.1, .unit)
  | .removeRangeByIndex low high =>
    if low > high then (xs, .unit)
    else if max low 0 > min high (xs.length - 1) then (xs, .panic)
    else (xs.take low.toNat ++ xs.drop (high + 1).toNat, .unit)
  | .trim low high =>
    if o low high == .gt then (xs, .panic)
    else (xs.filter fun e => inside o low high e.1, .unit)
  | .trimByIndex low high =>
    if low > high ∨ low < 0 ∨ high ≥ xs.length then (xs, .panic)
    else ((xs.drop low.toNat).take (high + 1 - low).toNat, .unit)
  | .split key incl other => (if other then rights o incl key xs else lefts o incl key xs, .unit)
  | .clear => ([], .unit)
  | .size => (xs, .int xs.length)
  | .len => (xs, .int xs.length)
  | .values => (xs, .list (xs.map (·.2)))
  | .traverse every => (xs, .entries (seen (fun e => every e.1 e.2) xs))

end

/-- The calls that behave as those of the ideal map: `Set` not on an empty tree, `Delete` not of an
entry with the value nil, ranges of keys only with a comparator that answers with one number for each
case, `TrimByIndex` not with a last rank that is too great while the first one is there, and the tree
returned by `Split` only used if the tree was not empty. -/
def legal (cmp : K → K → Int) (xs : List (K × Option W)) : Op K W → Prop
  | .set _ _ => xs ≠ []
  | .delete k => ∀ e ∈ xs, ord cmp e.1 k = .eq → e.2 ≠ none
  | .removeRange _ _ => Uniform cmp
  | .trim _ _ => Uniform cmp
  | .trimByIndex low high => low ≤ high → 0 ≤ low → low < xs.length → high < xs.length
  | .split _ _ other => other = true → xs ≠ []
  | _ => True

/-- The tree holds the entries `xs`. -/
structure Rel (cmp : K → K → Int) {V : Type} (t : T K V) (xs : List (K × V)) : Prop where
  list : t.toList = xs
  sorted : Sorted (ord cmp) xs
  exact : Exact t

section
variable {cmp : K → K → Int}

theorem lim_total (shift : Nat) (n : Nat) : ∀ h, 2 ≤ h → h ≤ n → (limit shift h).isSome := fun _ _ _ => rfl

theorem put_rel (hc : Lawful cmp) {shift : Nat} {t : T K (Option W)} {xs : List (K × Option W)}
    (hR : Rel cmp t xs) {k : K} {v : Option W} {upd : K × Option W → K × Option W}
    (hu : ∀ e, ord cmp e.1 k = .eq → ord cmp (upd e).1 k = .eq) :
    ∃ p, Size.put (limit shift) cmp k v upd t = some p ∧ p.2.isSome = !Avl.has (ord cmp) k xs ∧
    Rel cmp p.1
      (if Avl.has (ord cmp) k xs then xs.map fun e => if ord cmp e.1 k == .eq then upd e else e
        else Avl.insertEntry (ord cmp) (k, v) xs) := by
  have : Std.TransCmp (ord cmp) := hc
  obtain ⟨h1, h2, h3⟩ := hR
  obtain ⟨p, g1, g2, -, -⟩ := put_ok (limOK shift) (cmp := cmp) (key := k) (val := v) (upd := upd) h3
    (lim_total shift _)
  obtain ⟨e1, e2⟩ := put_list hc (by rw [h1]; exact h2) g1
  rw [h1] at e1 e2
  refine ⟨p, g1, by rw [e2, Avl.has_iff]; simp, ?_⟩
  by_cases hh : Avl.has (ord cmp) k xs = true
  · rw [if_pos hh]
    rw [Avl.has_iff, Bool.not_eq_true'] at hh
    simp only [hh, Bool.false_eq_true, if_false] at e1
    refine ⟨?_, ?_, g2⟩
    · rw [e1, Avl.map_same h2.le]
    · rw [Avl.map_same h2.le]; exact Avl.sorted_mapSame h2 hu
  · rw [if_neg hh]
    rw [Avl.has_iff, Bool.not_eq_true', Bool.not_eq_false] at hh
    simp only [hh, if_true] at e1
    refine ⟨?_, ?_, g2⟩
    · rw [e1]; simp [Avl.insertEntry, below, above]
    · exact h2.put (Ord.refl _)

theorem remove_rel (hc : Lawful cmp) {t : T K W} {xs : List (K × W)}
    (hR : Rel cmp t xs) (k : K) :
    ∃ p, Size.remove (fun _ w => w) cmp k t = some p ∧
      p.2 = (xs.find? fun e => ord cmp e.1 k == .eq) ∧
      Rel cmp p.1 (xs.filter fun e => ord cmp e.1 k != .eq) := by
  have : Std.TransCmp (ord cmp) := hc
  obtain ⟨h1, h2, h3⟩ := hR
  obtain ⟨p, g1, g2, g3, g4, -⟩ := remove_ok hc (key := k) h3 (by rw [h1]; exact h2)
  rw [h1] at g3 g4
  refine ⟨p, g1, by rw [Avl.find_same, g4], ?_, ?_, g2⟩
  · rw [g3, Avl.filter_ne h2.le]
  · rw [Avl.filter_ne h2.le]; exact h2.erase k

theorem map_kept {o : K → K → Ordering} {k : K} (xs : List (K × Option W)) :
    (xs.map fun e => if o e.1 k == .eq then kept e else e) = xs := by
  simp [kept]

theorem findIdx_rank {o : K → K → Ordering} [Std.TransCmp o] {k : K} {xs : List (K × W)}
    (hs : Sorted o xs) : (match xs.findIdx? fun e => o e.1 k == .eq with
      | none => (-1 : Int) | some n => n) =
      if (same o k xs).isEmpty then -1 else ((below o k xs).length : Int) := by
  have hp := parts k hs.le
  have hno : (below o k xs).findIdx? (fun e => o e.1 k == .eq) = none :=
    List.findIdx?_eq_none_iff.2 fun x hx => by simp [(mem_below.1 hx).2]
  cases h : same o k xs with
  | nil =>
    have : xs.findIdx? (fun e => o e.1 k == .eq) = none :=
      List.findIdx?_eq_none_iff.2 fun x hx => by
        have h' : x ∉ same o k xs := by rw [h]; simp
        rw [mem_same] at h'
        simpa using fun he => h' ⟨hx, he⟩
    rw [this]; rfl
  | cons e ys =>
    have he : o e.1 k = .eq := (mem_same (o := o) (xs := xs)).1 (by rw [h]; simp) |>.2
    rw [h] at hp
    have : xs.findIdx? (fun e => o e.1 k == .eq) = some (below o k xs).length := by
      conv_lhs => rw [hp]
      rw [List.append_assoc, List.findIdx?_append, hno]
      simp [List.findIdx?_cons, he]
    rw [this]
    simp

theorem inside_eq {o : K → K → Ordering} [Std.TransCmp o] {low high : K} (h : o low high = .eq)
    (k : K) : (!inside o low high k) = (o k low != .eq) := by
  unfold inside
  rw [← Ord.congr_right (c := k) h]
  cases hk : o k low with
  | lt => simp [Ord.lt_iff.1 hk]
  | eq => simp [Ord.eq_symm hk]
  | gt => simp

/-- One legal call. -/
theorem step_ok (hc : Lawful cmp) {shift : Nat} {t : T K (Option W)} {xs : List (K × Option W)}
    {op : Op K W} (hl : legal cmp xs op) (hR : Rel cmp t xs) :
    ∃ t', step shift cmp t op = some (t', (spec (ord cmp) xs op).2) ∧
      Rel cmp t' (spec (ord cmp) xs op).1 := by
  have : Std.TransCmp (ord cmp) := hc
  have hput : ∀ (k : K) (v : Option W), ∃ p, Size.put (limit shift) cmp k v kept t = some p ∧
      p.2.isSome = !Avl.has (ord cmp) k xs ∧ Rel cmp p.1 (if Avl.has (ord cmp) k xs then xs
        else Avl.insertEntry (ord cmp) (k, v) xs) := by
    intro k v
    obtain ⟨p, h1, h2, h3⟩ := put_rel hc (shift := shift) (k := k) (v := v) (upd := kept) hR
      (fun _ => id)
    rw [map_kept] at h3
    exact ⟨p, h1, h2, h3⟩
  have hget : ∀ k : K, Size.get cmp k t = xs.find? fun e => ord cmp e.1 k == .eq := by
    intro k
    rw [Size.get_eq hc (by rw [hR.list]; exact hR.sorted), hR.list, Avl.find_same]
  have hhas : ∀ k : K, Avl.has (ord cmp) k xs = (xs.find? fun e => ord cmp e.1 k == .eq).isSome := by
    intro k
    rw [Avl.has_iff, Avl.find_same]
    cases same (ord cmp) k xs <;> rfl
  have hnode : ∀ i, nodeAt i t (leftSz t) = at? xs i := by
    intro i
    rw [nodeAt_eq hR.exact (here_root t), hR.list]; simp
  have hst : Sorted (ord cmp) t.toList := by rw [hR.list]; exact hR.sorted
  have hlen : (t.toList.length : Int) = xs.length := by rw [hR.list]
  cases op with
  | put k v =>
    obtain ⟨p, h1, h2, h3⟩ := hput k v
    simp only [step, h1, spec, Option.map_some, h2]
    by_cases hh : Avl.has (ord cmp) k xs = true
    · rw [if_pos hh] at h3 ⊢; exact ⟨_, by rw [hh]; rfl, h3⟩
    · rw [if_neg hh] at h3 ⊢; exact ⟨_, by rw [Bool.not_eq_true] at hh; rw [hh]; rfl, h3⟩
  | insertIfAbsent k v =>
    obtain ⟨p, h1, h2, h3⟩ := hput k v
    simp only [step, h1, spec, Option.map_some, h2]
    by_cases hh : Avl.has (ord cmp) k xs = true
    · rw [if_pos hh] at h3 ⊢; exact ⟨_, by rw [hh]; rfl, h3⟩
    · rw [if_neg hh] at h3 ⊢; exact ⟨_, by rw [Bool.not_eq_true] at hh; rw [hh]; rfl, h3⟩
  | set k v =>
    have hn : t.isNil = false := by
      cases t with
      | nil => exact absurd hR.list.symm hl
      | node => rfl
    obtain ⟨p, h1, h2, h3⟩ := put_rel hc (shift := shift) (k := k) (v := v) (upd := fun _ => (k, v)) hR
      (fun _ _ => Ord.refl _)
    have h4 : p.2.isNone = Avl.has (ord cmp) k xs := by
      rw [← Option.not_isSome, h2, Bool.not_not]
    simp only [step, hn, Bool.false_eq_true, if_false, h1, spec, Option.map_some, h4]
    by_cases hh : Avl.has (ord cmp) k xs = true
    · rw [if_pos hh] at h3 ⊢; exact ⟨_, by rw [hh], h3⟩
    · rw [if_neg hh] at h3 ⊢; exact ⟨_, by rw [Bool.not_eq_true] at hh; rw [hh], h3⟩
  | upsert k v =>
    simp only [step, spec, hget]
    rw [← hhas]
    by_cases hh : Avl.has (ord cmp) k xs = true
    · rw [if_pos hh, if_pos hh]
      refine ⟨_, rfl, ?_, ?_, (setVal_exact hR.exact).1⟩
      · rw [setVal_list hc hst, hR.list, ← Avl.map_same hR.sorted.le]
      · rw [Avl.map_same hR.sorted.le]; exact Avl.sorted_mapSame hR.sorted fun _ => id
    · obtain ⟨p, h1, h2, h3⟩ := hput k v
      rw [if_neg hh] at h3
      rw [if_neg hh, if_neg hh, h1]
      exact ⟨_, rfl, h3⟩
  | get k => exact ⟨t, by rw [step, spec, hget], hR⟩
  | remove k =>
    obtain ⟨p, h1, h2, h3⟩ := remove_rel hc hR k
    exact ⟨p.1, by rw [step, spec, h1, Option.map_some, h2], h3⟩
  | delete k =>
    obtain ⟨p, h1, h2, h3⟩ := remove_rel hc hR k
    refine ⟨p.1, ?_, h3⟩
    rw [step, spec, h1, Option.map_some, h2]
    cases hf : xs.find? (fun e => ord cmp e.1 k == .eq) with
    | none => rfl
    | some e =>
      have h4 := List.find?_some hf
      have h5 := List.mem_of_find?_eq_some hf
      have h6 := hl e h5 (by simpa using h4)
      obtain ⟨w, hw⟩ := Option.ne_none_iff_exists'.1 h6
      simp [hw]
  | index i =>
    refine ⟨t, ?_, hR⟩
    rw [step, spec, hnode]
    cases at? xs i <;> rfl
  | indexOf k =>
    refine ⟨t, ?_, hR⟩
    rw [step, spec, indexOf_eq hc hR.exact hst (here_root t), hR.list, findIdx_rank hR.sorted]
    simp
  | removeIndex i =>
    have h0 : at? t.toList (i - 0) = at? xs i := by rw [hR.list, Int.sub_zero]
    simp only [step, spec]
    cases h : at? xs i with
    | none =>
      rw [removeAt_none hR.exact (here_root t) (by rw [h0, h])]
      exact ⟨t, rfl, hR⟩
    | some e =>
      obtain ⟨t', g1, g2, g3⟩ := removeAt_some hR.exact (here_root t) (by rw [h0, h])
      rw [g1]
      rw [hR.list, Int.sub_zero] at g3
      exact ⟨t', rfl, g3, hR.sorted.sublist (List.eraseIdx_sublist ..), g2⟩
  | removeRange low high =>
    simp only [step, spec]
    rcases Int.lt_trichotomy (cmp low high) 0 with h | h | h
    · have ho := ord_lt.2 h
      rw [if_neg (by omega), if_neg (by omega), if_neg (by simp [ho])]
      obtain ⟨p, g1, g2, g3, -⟩ := removeRange_ok hc hl (low := low) (high := high)
        (by rw [ho]; simp) hR.exact hst
      rw [g1]
      rw [hR.list] at g3
      exact ⟨p.1, rfl, g3, hR.sorted.sublist List.filter_sublist, g2⟩
    · have ho := ord_eq.2 h
      rw [if_neg (by omega), if_pos h, if_neg (by simp [ho])]
      obtain ⟨p, h1, -, h3⟩ := remove_rel hc hR low
      rw [h1]
      refine ⟨p.1, rfl, ?_⟩
      simpa only [inside_eq ho] using h3
    · rw [if_pos h, if_pos (by simp [ord_gt.2 h])]
      exact ⟨t, rfl, hR⟩
  | removeRangeByIndex low high =>
    simp only [step, spec]
    by_cases h : low > high
    · rw [if_pos h, if_pos h]; exact ⟨t, rfl, hR⟩
    · rw [if_neg h, if_neg h]
      by_cases h' : max low 0 > min high (xs.length - 1)
      · rw [if_pos h']
        have : removeRangeIdx low high t (leftSz t) = none := by
          cases t with
          | nil => rfl
          | node a k v l r =>
            have : 0 < (node a k v l r).toList.length := by simp; omega
            exact removeRangeIdx_none (by omega) hR.exact (here_root _) (by omega)
        rw [this]
        exact ⟨t, rfl, hR⟩
      · rw [if_neg h']
        obtain ⟨p, g1, g2, g3, -⟩ := removeRangeIdx_ok (low := low) (high := high) (by omega) hR.exact
          (here_root t) (by omega) (by omega) (by omega)
        rw [g1]
        rw [hR.list, Int.sub_zero, Int.sub_zero] at g3
        refine ⟨p.1, rfl, g3, ?_, g2⟩
        have hsub : (xs.take low.toNat ++ xs.drop (high + 1).toNat).Sublist xs := by
          have e := List.take_append_drop low.toNat xs
          conv_rhs => rw [← e]
          refine List.Sublist.append (List.Sublist.refl _) ?_
          rw [show (high + 1).toNat = low.toNat + ((high + 1).toNat - low.toNat) by omega, ← List.drop_drop]
          exact List.drop_sublist ..
        exact hR.sorted.sublist hsub
  | trim low high =>
    simp only [step, spec]
    by_cases h : cmp low high > 0
    · rw [if_pos h, if_pos (by simp [ord_gt.2 h])]
      exact ⟨t, rfl, hR⟩
    · have ho : ord cmp low high ≠ .gt := fun h' => h (ord_gt.1 h')
      rw [if_neg h, if_neg (by simpa using ho)]
      obtain ⟨g1, g2⟩ := trim_ok hc hl (low := low) (high := high) ho hR.exact hst
      rw [hR.list] at g2
      exact ⟨_, rfl, g2, hR.sorted.sublist List.filter_sublist, g1⟩
  | trimByIndex low high =>
    simp only [step, spec]
    simp only [legal] at hl
    by_cases h : low > high
    · rw [if_pos h, if_pos (.inl h)]
      exact ⟨t, rfl, hR⟩
    · rw [if_neg h]
      by_cases h' : low > high ∨ low < 0 ∨ high ≥ xs.length
      · rw [if_pos h', trimIdx_untouched (by omega) hR.exact (here_root t) (by omega)]
        exact ⟨t, rfl, hR⟩
      · obtain ⟨t', g1, g2, g3⟩ := trimIdx_ok (low := low) (high := high) (by omega) hR.exact
          (here_root t) (by omega) (by omega)
        rw [if_neg h', g1]
        rw [hR.list, Int.sub_zero] at g3
        refine ⟨t', rfl, g3, ?_, g2⟩
        exact hR.sorted.sublist ((List.take_sublist ..).trans (List.drop_sublist ..))
  | split key incl other =>
    simp only [step, spec]
    by_cases hn : t = nil
    · subst hn
      have hx : xs = [] := hR.list.symm
      subst hx
      cases other with
      | true => exact absurd rfl (hl rfl)
      | false => exact ⟨nil, rfl, hR⟩
    · obtain ⟨p, g1, g2, g3, g4, g5⟩ := split_ok hc (incl := incl) (key := key) hR.exact hst hn
      rw [g1]
      rw [hR.list] at g4 g5
      cases other with
      | true => exact ⟨p.2, rfl, g5, hR.sorted.sublist List.filter_sublist, g3⟩
      | false => exact ⟨p.1, rfl, g4, hR.sorted.sublist List.filter_sublist, g2⟩
  | clear => exact ⟨nil, rfl, rfl, List.Pairwise.nil, trivial⟩
  | size => exact ⟨t, by rw [step, spec, hR.exact.sz, hR.list], hR⟩
  | len => exact ⟨t, by rw [step, spec, hR.exact.sz, hR.list], hR⟩
  | values =>
    refine ⟨t, ?_, hR⟩
    rw [step, spec, Tree.traverse_eq, hR.list]
    simp only [seen_true]
  | traverse every => exact ⟨t, by rw [step, spec, Tree.traverse_eq, hR.list], hR⟩

theorem Rel.new {V : Type} : Rel cmp (nil : T K V) [] := ⟨rfl, List.Pairwise.nil, trivial⟩

/-- Every history of legal calls. -/
theorem run_ok (hc : Lawful cmp) (shift : Nat) (os : List (Op K W))
    (hl : LegalRun (spec (ord cmp)) (legal cmp) [] os) :
    ∃ t, run (step shift cmp) nil os = some (t, (runSpec (spec (ord cmp)) [] os).2) ∧
      Rel cmp t (runSpec (spec (ord cmp)) [] os).1 :=
  run_refines_legal (step := step shift cmp) (spec := spec (ord cmp)) (legal := legal cmp) (Rel cmp)
    (fun _ _ _ h1 h2 => step_ok hc h1 h2) os nil [] hl Rel.new

end

end Verif.IndexTree
