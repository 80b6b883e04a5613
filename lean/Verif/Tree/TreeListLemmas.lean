import Verif.Tree.TreeListRange
import Verif.Tree.IndexLemmas

/-! The tree list against the ideal sorted map. -/

namespace Verif.TreeList

open Tree Size DLL

variable {K V : Type}

section
variable (o : K → K → Ordering)

/-- The ideal map: the sorted list of its entries. -/
def spec (xs : List (K × V)) : Op K V → List (K × V) × Res K V
  | .put k v =>
    if Avl.has o k xs then (xs, .bool false) else (Avl.insertEntry o (k, v) xs, .bool true)
  | .set k v =>
    if Avl.has o k xs then (xs.map fun e => if o e.1 k == .eq then (e.1, v) else e, .bool true)
    else (Avl.insertEntry o (k, v) xs, .bool false)
  | .putDup k v f =>
    if Avl.has o k xs then (xs.map fun e => if o e.1 k == .eq then (e.1, f e.2) else e, .bool true)
    else (Avl.insertEntry o (k, v) xs, .bool false)
  | .get k => (xs, .found ((xs.find? fun e => o e.1 k == .eq).map (·.2)))
  | .remove k => (xs.filter fun e => o e.1 k != .eq, .slice (xs.find? fun e => o e.1 k == .eq))
  | .removeIndex i => match at? xs i with
    | none => (xs, .panic)
    | some e => (xs.eraseIdx i.toNat, .slice (some e))
  | .removeHead => (xs.tail, .slice xs.head?)
  | .removeTail => (xs.dropLast, .slice xs.getLast?)
  | .head => (xs, .slice xs.head?)
  | .tail => (xs, .slice xs.getLast?)
  | .size => (xs, .int xs.length)
  | .index i => (xs, match at? xs i with | none => .panic | some e => .slice (some e))
  | .indexOf k => (xs, .int (match xs.findIdx? fun e => o e.1 k == .eq with
      | none => -1 | some n => n))
  | .slices => (xs, .list xs)
  | .traverse every => (xs, .list (seen (fun e => every e.1 e.2) xs))
  | .clear => ([], .unit)
  | .removeRange low high =>
    if o low high == .gt then (xs, .panic)
    else (xs.filter fun e => !inside o low high e.1, .bool (xs.any fun e => inside o low high e.1))
  | .removeRangeByIndex low high =>
    if low > high then (xs, .unit)
    else if max low 0 > min high (xs.length - 1) then (xs, .panic)
    else (xs.take low.toNat ++ xs.drop (high + 1).toNat, .unit)
  | .trim low high =>
    if o low high == .gt then (xs, .panic)
    else (xs.filter fun e => inside o low high e.1, .unit)
  | .trimByIndex low high =>
    if low > high ∨ low < 0 ∨ high ≥ xs.length then (xs, .panic)
    else ((xs.drop low.toNat).take (high + 1 - low).toNat, .unit)
  | .forward => (xs, .list xs)
  | .backward => (xs, .list xs.reverse)

end

/-- The calls that behave as those of the ideal map: ranges of keys only with a comparator that answers
with one number for each case, `Trim` only to a range that holds an entry, and `TrimByIndex` not with a
last rank that is too great while the first one is there. -/
def legal (cmp : K → K → Int) (xs : List (K × V)) : Op K V → Prop
  | .removeRange _ _ => Uniform cmp
  | .trim low high => Uniform cmp ∧ (ord cmp low high ≠ .gt → xs = [] ∨
      ∃ e ∈ xs, inside (ord cmp) low high e.1 = true)
  | .trimByIndex low high => low ≤ high → 0 ≤ low → low < xs.length → high < xs.length
  | _ => True

/-- Does the call insert? -/
def Op.inserts : Op K V → Bool
  | .put _ _ => true
  | .set _ _ => true
  | .putDup _ _ _ => true
  | _ => false

/-- The tree list holds the entries `xs`. -/
def Rel (cmp : K → K → Int) (s : TL K V) (xs : List (K × V)) : Prop :=
  ∃ zs, Good cmp s zs ∧ zs.map strip = xs

variable {cmp : K → K → Int}

section
variable {o : K → K → Ordering}

theorem strip_filter (p : K → Bool) (zs : List (Ent K V)) :
    (zs.filter fun e => p e.1).map strip = (zs.map strip).filter fun e => p e.1 := by
  rw [List.filter_map]; rfl

theorem strip_find (p : K → Bool) (zs : List (Ent K V)) :
    (zs.find? fun e => p e.1).map strip = (zs.map strip).find? fun e => p e.1 := by
  rw [List.find?_map]; rfl

theorem strip_has (k : K) (zs : List (Ent K V)) :
    Avl.has o k (zs.map strip) = Avl.has o k zs := by
  rw [Avl.has, Avl.has, List.any_map]; rfl

theorem strip_any (p : K → Bool) (zs : List (Ent K V)) :
    ((zs.map strip).any fun e => p e.1) = zs.any fun e => p e.1 := by
  rw [List.any_map]; rfl

theorem strip_insert (k : K) (a : Nat) (v : V) (zs : List (Ent K V)) :
    (Avl.insertEntry o (k, (a, v)) zs).map strip = Avl.insertEntry o (k, v) (zs.map strip) := by
  simp only [Avl.insertEntry, List.map_append, List.map_cons]
  rw [strip_filter fun x => o x k == .lt, strip_filter fun x => o x k == .gt]
  rfl

theorem strip_update (k : K) (f : V → V) (zs : List (Ent K V)) :
    (zs.map fun e => if o e.1 k == .eq then (e.1, (e.2.1, f e.2.2)) else e).map strip =
      (zs.map strip).map fun e => if o e.1 k == .eq then (e.1, f e.2) else e := by
  rw [List.map_map, List.map_map]
  refine List.map_congr_left fun e _ => ?_
  show strip (if o e.1 k == .eq then (e.1, (e.2.1, f e.2.2)) else e) =
    if o e.1 k == .eq then (e.1, f e.2.2) else strip e
  by_cases h : (o e.1 k == .eq) = true
  · rw [if_pos h, if_pos h]; rfl
  · rw [if_neg h, if_neg h]

theorem strip_findIdx (p : K → Bool) (zs : List (Ent K V)) :
    ((zs.map strip).findIdx? fun e => p e.1) = zs.findIdx? fun e => p e.1 := by
  rw [List.findIdx?_map]; rfl

theorem strip_at (zs : List (Ent K V)) (i : Int) : at? (zs.map strip) i = (at? zs i).map strip := by
  unfold at?
  split
  · rfl
  · rw [List.getElem?_map]

theorem strip_seen (every : K → V → Bool) (zs : List (Ent K V)) :
    (seen (fun e => every e.1 e.2.2) zs).map strip = seen (fun e => every e.1 e.2) (zs.map strip) := by
  induction zs with
  | nil => rfl
  | cons e zs ih =>
    simp only [seen, List.map_cons, strip]
    split
    · rw [List.map_cons, ih]; rfl
    · rfl

end

theorem at?_split {α : Type} {zs : List α} {i : Int} {e : α} (h : at? zs i = some e) :
    zs = zs.take i.toNat ++ e :: zs.drop (i.toNat + 1) := by
  unfold at? at h
  split at h
  · cases h
  · obtain ⟨h1, h2⟩ := List.getElem?_eq_some_iff.1 h
    rw [← h2, List.getElem_cons_drop h1, List.take_append_drop]

theorem length_le_height (t : T K V) : t.height ≤ t.toList.length := by
  rw [← count_eq]; exact height_le_count t

/-- Removing the entry in the middle. -/
theorem removeNode_rel {s : TL K V} {L R : List (Ent K V)} {e : Ent K V}
    (hG : Good cmp s (L ++ e :: R)) : ∃ s', removeNode s e.2.1 = some (s', strip e) ∧
      Rel cmp s' ((L ++ R).map strip) := by
  obtain ⟨s', zs', h1, h2, h3⟩ := removeNode_ok hG
  exact ⟨s', h1, zs', h2, h3⟩

theorem doRemove_rel (hc : Lawful cmp) {s : TL K V} {zs : List (Ent K V)} (hG : Good cmp s zs) (k : K) :
    ∃ s', doRemove cmp s k = some (s', (zs.map strip).find? fun e => ord cmp e.1 k == .eq) ∧
      Rel cmp s' ((zs.map strip).filter fun e => ord cmp e.1 k != .eq) := by
  have : Std.TransCmp (ord cmp) := hc
  have hg : get cmp k s.tree = zs.find? fun e => ord cmp e.1 k == .eq := by
    rw [Size.get_eq hc (by rw [hG.list]; exact hG.sorted), hG.list, Avl.find_same]
  have hfind := strip_find (fun x => ord cmp x k == .eq) zs
  have hfil := strip_filter (fun x => ord cmp x k != .eq) zs
  rw [← hfind, ← hfil]
  simp only [doRemove, hg]
  rcases hG.sorted.same_le k with hsm | ⟨e, hsm, he⟩
  · have h0 : (zs.find? fun e => ord cmp e.1 k == .eq) = none := by rw [Avl.find_same, hsm]; rfl
    rw [h0]
    refine ⟨s, rfl, zs, hG, ?_⟩
    have hp := parts k hG.sorted.le
    rw [hsm] at hp
    rw [Avl.filter_ne hG.sorted.le]
    conv_lhs => rw [hp]
    simp
  · have h0 : (zs.find? fun e => ord cmp e.1 k == .eq) = some e := by rw [Avl.find_same, hsm]; rfl
    rw [h0]
    have hp := parts k hG.sorted.le
    rw [hsm] at hp
    have hG' : Good cmp s (below (ord cmp) k zs ++ e :: above (ord cmp) k zs) := by
      have : zs = below (ord cmp) k zs ++ e :: above (ord cmp) k zs := by
        conv_lhs => rw [hp]
        simp
      rw [← this]; exact hG
    obtain ⟨s', h1, h2⟩ := removeNode_rel hG'
    simp only [h1]
    rw [Avl.filter_ne hG.sorted.le]
    exact ⟨s', rfl, h2⟩

theorem any_inside {L M R : List (Ent K V)} {p : K → Bool} (hM : M ≠ [])
    (h1 : ∀ e ∈ M, p e.1 = true) (h2 : ∀ e ∈ L ++ R, ¬p e.1 = true) :
    (L ++ (M ++ R)).filter (fun e => !p e.1) = L ++ R ∧ (L ++ (M ++ R)).any (fun e => p e.1) = true := by
  constructor
  · rw [List.filter_append, List.filter_append]
    have e1 : M.filter (fun e => !p e.1) = [] := List.filter_eq_nil_iff.2 fun x hx => by simp [h1 x hx]
    have e2 : L.filter (fun e => !p e.1) = L := List.filter_eq_self.2 fun x hx => by
      simpa using h2 x (by simp [hx])
    have e3 : R.filter (fun e => !p e.1) = R := List.filter_eq_self.2 fun x hx => by
      simpa using h2 x (by simp [hx])
    rw [e1, e2, e3]; rfl
  · obtain ⟨e, M', rfl⟩ : ∃ e M', M = e :: M' := by
      cases M with
      | nil => exact absurd rfl hM
      | cons e M' => exact ⟨e, M', rfl⟩
    have := h1 e (by simp)
    simp [this]

/-- One legal call: it answers as the ideal map, or it is an insertion into a tree more than 63 nodes
deep. -/
theorem step_ok (hc : Lawful cmp) {s : TL K V} {xs : List (K × V)} {op : Op K V}
    (hl : legal cmp xs op) (hR : Rel cmp s xs) :
    (step cmp s op = none ∧ op.inserts = true ∧ 63 < s.tree.height) ∨
    ∃ s', step cmp s op = some (s', (spec (ord cmp) xs op).2) ∧ Rel cmp s' (spec (ord cmp) xs op).1 := by
  have : Std.TransCmp (ord cmp) := hc
  obtain ⟨zs, hG, rfl⟩ := hR
  have hself : Rel cmp s (zs.map strip) := ⟨zs, hG, rfl⟩
  have hst : Sorted (ord cmp) s.tree.toList := by rw [hG.list]; exact hG.sorted
  have hlen : (s.tree.toList.length : Int) = zs.length := by rw [hG.list]
  have hput : ∀ (k : K) (v : V) (f : V → V), (putWith cmp s k v f = none ∧ 63 < s.tree.height) ∨
      ∃ s', putWith cmp s k v f = some (s', Avl.has (ord cmp) k (zs.map strip)) ∧
        Rel cmp s' (if Avl.has (ord cmp) k (zs.map strip) then
          (zs.map strip).map fun e => if ord cmp e.1 k == .eq then (e.1, f e.2) else e
          else Avl.insertEntry (ord cmp) (k, v) (zs.map strip)) := by
    intro k v f
    cases hp : putWith cmp s k v f with
    | none =>
      left
      refine ⟨rfl, ?_⟩
      by_contra hh
      obtain ⟨p, hp'⟩ := putWith_total hG (by omega) k v f
      rw [hp] at hp'
      cases hp'
    | some p =>
      right
      obtain ⟨s', b⟩ := p
      obtain ⟨h1, h2⟩ := putWith_ok hc hG hp
      rw [strip_has]
      refine ⟨s', by rw [h1], _, h2, ?_⟩
      split
      · rw [strip_update]
      · rw [strip_insert]
  have hnode : ∀ i, nodeAt i s.tree (leftSz s.tree) = at? zs i := by
    intro i
    rw [nodeAt_eq hG.exact (here_root _), hG.list]; simp
  have hnil : s.tree.isNil = true ↔ zs = [] := by rw [isNil_iff, hG.list]
  cases op with
  | put k v =>
    rcases hput k v id with ⟨h1, h2⟩ | ⟨s', h1, h2⟩
    · left; exact ⟨by rw [step, h1]; rfl, rfl, h2⟩
    · right
      simp only [step, h1, spec, Option.map_some]
      by_cases hh : Avl.has (ord cmp) k (zs.map strip) = true
      · rw [if_pos hh] at h2 ⊢
        refine ⟨s', by rw [hh]; rfl, ?_⟩
        have : ((zs.map strip).map fun e => if ord cmp e.1 k == .eq then (e.1, id e.2) else e) =
            zs.map strip := by
          conv_rhs => rw [← List.map_id (zs.map strip)]
          refine List.map_congr_left fun e _ => ?_
          split <;> rfl
        rw [← this]
        exact h2
      · rw [if_neg hh] at h2 ⊢
        exact ⟨s', by rw [Bool.not_eq_true] at hh; rw [hh]; rfl, h2⟩
  | set k v =>
    rcases hput k v (fun _ => v) with ⟨h1, h2⟩ | ⟨s', h1, h2⟩
    · left; exact ⟨by rw [step, h1]; rfl, rfl, h2⟩
    · right
      simp only [step, h1, spec, Option.map_some]
      by_cases hh : Avl.has (ord cmp) k (zs.map strip) = true
      · rw [if_pos hh] at h2 ⊢; exact ⟨s', by rw [hh], h2⟩
      · rw [if_neg hh] at h2 ⊢; exact ⟨s', by rw [Bool.not_eq_true] at hh; rw [hh], h2⟩
  | putDup k v f =>
    rcases hput k v f with ⟨h1, h2⟩ | ⟨s', h1, h2⟩
    · left; exact ⟨by rw [step, h1]; rfl, rfl, h2⟩
    · right
      simp only [step, h1, spec, Option.map_some]
      by_cases hh : Avl.has (ord cmp) k (zs.map strip) = true
      · rw [if_pos hh] at h2 ⊢; exact ⟨s', by rw [hh], h2⟩
      · rw [if_neg hh] at h2 ⊢; exact ⟨s', by rw [Bool.not_eq_true] at hh; rw [hh], h2⟩
  | get k =>
    right
    refine ⟨s, ?_, hself⟩
    rw [step, spec, Size.get_eq hc hst, hG.list, ← Avl.find_same,
      ← strip_find fun x => ord cmp x k == .eq, Option.map_map]
    rfl
  | remove k =>
    right
    obtain ⟨s', h1, h2⟩ := doRemove_rel hc hG k
    exact ⟨s', by rw [step, h1]; rfl, h2⟩
  | removeIndex i =>
    right
    simp only [step, spec, hnode, strip_at]
    cases h : at? zs i with
    | none => exact ⟨s, rfl, hself⟩
    | some e =>
      have hsp := at?_split h
      obtain ⟨s', h1, h2⟩ := removeNode_rel (by rw [← hsp]; exact hG)
      refine ⟨s', by simp only [h1]; rfl, ?_⟩
      simp only [Option.map_some]
      rw [List.eraseIdx_eq_take_drop_succ, ← List.map_take, ← List.map_drop, ← List.map_append]
      exact h2
  | removeHead =>
    right
    simp only [step, spec]
    cases zs with
    | nil => rw [if_pos (hnil.2 rfl)]; exact ⟨s, rfl, hself⟩
    | cons e zs =>
      rw [if_neg (fun h => by cases hnil.1 h), hG.thread.head]
      obtain ⟨s', h1, h2⟩ := removeNode_rel (L := []) hG
      exact ⟨s', by simp [h1], h2⟩
  | removeTail =>
    right
    simp only [step, spec]
    rcases List.eq_nil_or_concat zs with rfl | ⟨L, e, rfl⟩
    · rw [if_pos (hnil.2 rfl)]; exact ⟨s, rfl, hself⟩
    · rw [List.concat_eq_append] at *
      rw [if_neg (fun h => by have := hnil.1 h; simp at this), hG.thread.tail]
      obtain ⟨s', h1, h2⟩ := removeNode_rel (R := []) hG
      refine ⟨s', by simp [h1], ?_⟩
      simpa using h2
  | head =>
    right
    refine ⟨s, ?_, hself⟩
    rw [step, spec, hG.thread.head]
    cases zs with
    | nil => rfl
    | cons e zs => simp [hG.vals e (by simp)]
  | tail =>
    right
    refine ⟨s, ?_, hself⟩
    rw [step, spec, hG.thread.tail]
    rcases List.eq_nil_or_concat zs with rfl | ⟨L, e, rfl⟩
    · rfl
    · rw [List.concat_eq_append] at *
      simp [hG.vals e (by simp)]
  | size =>
    right
    refine ⟨s, ?_, hself⟩
    rw [step, spec, hG.exact.sz, hlen, List.length_map]
  | index i =>
    right
    refine ⟨s, ?_, hself⟩
    rw [step, spec, hnode, strip_at]
    cases at? zs i <;> rfl
  | indexOf k =>
    right
    refine ⟨s, ?_, hself⟩
    rw [step, spec, indexOf_eq hc hG.exact hst (here_root _), hG.list,
      strip_findIdx fun x => ord cmp x k == .eq]
    have := IndexTree.findIdx_rank (k := k) hG.sorted
    refine congrArg (fun i => some (s, Res.int i)) ?_
    rw [Int.zero_add]
    exact this.symm
  | slices =>
    right
    refine ⟨s, ?_, hself⟩
    rw [step, spec, Tree.traverse_eq, seen_true, hG.list]
  | traverse every =>
    right
    refine ⟨s, ?_, hself⟩
    rw [step, spec, Tree.traverse_eq, hG.list, ← strip_seen]
  | clear =>
    right
    exact ⟨_, rfl, [], Good.empty rfl rfl rfl, rfl⟩
  | removeRange low high =>
    right
    simp only [step, spec, doRemoveRange]
    rcases Int.lt_trichotomy (cmp low high) 0 with h | h | h
    · have ho := ord_lt.2 h
      rw [if_neg (by omega), if_neg (by omega), if_neg (by simp [ho])]
      obtain ⟨t', anc, o, g1, g2, -, g4⟩ := rangeOut_ok hc hl (low := low) (high := high)
        (by rw [ho]; simp) hG.exact hst (p := none) (q := none) (h := s.heap)
        (by rw [hG.list]; exact hG.thread.seg)
      rw [hG.list] at g4
      rw [g1]
      rw [strip_any fun x => inside (ord cmp) low high x,
        ← strip_filter fun x => !inside (ord cmp) low high x]
      cases o with
      | none =>
        refine ⟨s, ?_, zs, hG, ?_⟩
        · have : (zs.any fun e => inside (ord cmp) low high e.1) = false :=
            List.any_eq_false.2 fun x hx => by simp [g4.2 x hx]
          rw [this]
        · rw [List.filter_eq_self.2 fun x hx => by simp [g4.2 x hx]]
      | some o =>
        obtain ⟨L, M, R, h1, h2, h3, h4, h5, rfl⟩ := g4.out
        subst h1
        obtain ⟨i1, i2⟩ := any_inside (p := fun x => inside (ord cmp) low high x) h3 h4 h5
        refine ⟨_, by rw [i2], L ++ R, ?_, by rw [i1]⟩
        simp only [Option.or_none]
        exact hG.cut h2 g2
    · have ho := ord_eq.2 h
      rw [if_neg (by omega), if_pos h, if_neg (by simp [ho])]
      obtain ⟨s', h1, h2⟩ := doRemove_rel hc hG low
      refine ⟨s', ?_, ?_⟩
      · rw [h1, Option.map_some]
        congr 3
        have e1 : ∀ e : K × V, inside (ord cmp) low high e.1 = (ord cmp e.1 low == .eq) := by
          intro e
          have := IndexTree.inside_eq ho e.1
          rw [Bool.eq_iff_iff] at this ⊢
          cases hi : inside (ord cmp) low high e.1 <;> cases hj : ord cmp e.1 low <;> simp_all
        simp only [e1]
        rw [Bool.eq_iff_iff, List.find?_isSome, List.any_eq_true]
      · simpa only [IndexTree.inside_eq ho] using h2
    · rw [if_pos h, if_pos (by simp [ord_gt.2 h])]
      exact ⟨s, rfl, hself⟩
  | removeRangeByIndex low high =>
    right
    simp only [step, spec, doRemoveRangeByIndex, List.length_map]
    by_cases h : low > high
    · rw [if_pos h, if_pos h]; exact ⟨s, rfl, hself⟩
    · rw [if_neg h, if_neg h]
      by_cases h' : max low 0 > min high (zs.length - 1)
      · rw [if_pos h']
        have : rangeIdxOut low high s.heap s.tree (leftSz s.tree) = none := by
          cases ht : s.tree with
          | nil => rfl
          | node a k v l r =>
            have hx := hG.exact
            rw [ht] at hx hlen
            have : 0 < (node a k v l r).toList.length := by simp; omega
            exact rangeIdxOut_none (by omega) hx (here_root _) (by omega)
        rw [this]
        exact ⟨s, rfl, hself⟩
      · rw [if_neg h']
        obtain ⟨t', anc, g1, g2, -, g4⟩ := rangeIdxOut_ok (low := low) (high := high) (by omega)
          hG.exact (here_root _) (p := none) (q := none) (h := s.heap)
          (by rw [hG.list]; exact hG.thread.seg) (by omega) (by omega) (by omega)
        rw [hG.list, Int.sub_zero, Int.sub_zero] at g1 g4
        rw [Option.or_none, Option.or_none] at g1
        rw [g1, ← List.map_take, ← List.map_drop, ← List.map_append]
        refine ⟨_, rfl, _, ?_, rfl⟩
        have hsp : zs = zs.take low.toNat ++ ((zs.drop low.toNat).take ((high + 1).toNat - low.toNat) ++
            zs.drop (high + 1).toNat) := by
          have e1 : zs.drop (high + 1).toNat = (zs.drop low.toNat).drop ((high + 1).toNat - low.toNat) := by
            rw [List.drop_drop]; congr 1; omega
          rw [e1, List.take_append_drop, List.take_append_drop]
        rw [hsp] at hG
        exact hG.cut g4 g2
  | trim low high =>
    right
    simp only [step, spec, doTrim]
    by_cases h : cmp low high > 0
    · rw [if_pos h, if_pos (by simp [ord_gt.2 h])]
      exact ⟨s, rfl, hself⟩
    · have ho : ord cmp low high ≠ .gt := fun h' => h (ord_gt.1 h')
      rw [if_neg h, if_neg (by simpa using ho)]
      obtain ⟨g1, g2⟩ := trim_ok hc hl.1 (low := low) (high := high) ho hG.exact hst
      rw [hG.list] at g2
      refine ⟨_, rfl, zs.filter (fun e => inside (ord cmp) low high e.1), ?_,
        strip_filter (fun x => inside (ord cmp) low high x) zs⟩
      rcases hl.2 ho with he | ⟨e, he, hi⟩
      · have hz : zs = [] := by simpa using he
        subst hz
        have ht : s.tree = nil := by
          have := hnil.2 rfl
          cases hh : s.tree <;> simp_all [isNil]
        have hx := hG.thread.head
        have hy := hG.thread.tail
        refine Good.empty ?_ ?_ ?_
        · simp only [TL.fence, ht]; rfl
        · simp only [TL.fence, ht]; exact hx
        · simp only [TL.fence, ht]; exact hy
      · have hrun := inside_run (o := ord cmp) (low := low) (high := high) ho hG.sorted
        have hG' := hG
        rw [hrun] at hG'
        refine hG'.keep g2 g1 ?_
        obtain ⟨x, hx, rfl⟩ := List.mem_map.1 he
        intro hn
        have := List.filter_eq_nil_iff.1 hn x hx
        exact this hi
  | trimByIndex low high =>
    right
    simp only [step, spec, doTrimByIndex, List.length_map]
    simp only [legal, List.length_map] at hl
    by_cases h : low > high
    · rw [if_pos h, if_pos (.inl h)]
      exact ⟨s, rfl, hself⟩
    · rw [if_neg h]
      by_cases h' : low > high ∨ low < 0 ∨ high ≥ zs.length
      · rw [if_pos h', trimIdx_untouched (by omega) hG.exact (here_root _) (by omega)]
        exact ⟨s, rfl, hself⟩
      · obtain ⟨t', g1, g2, g3⟩ := trimIdx_ok (low := low) (high := high) (by omega) hG.exact
          (here_root _) (by omega) (by omega)
        rw [if_neg h', g1, ← List.map_drop, ← List.map_take]
        rw [hG.list, Int.sub_zero] at g3
        refine ⟨_, rfl, _, ?_, rfl⟩
        have hsp : zs = zs.take low.toNat ++ ((zs.drop low.toNat).take (high + 1 - low).toNat ++
            (zs.drop low.toNat).drop (high + 1 - low).toNat) := by
          rw [List.take_append_drop, List.take_append_drop]
        have hG' := hG
        rw [hsp] at hG'
        refine hG'.keep g3 g2 ?_
        intro hn
        have := congrArg List.length hn
        simp at this
        omega
  | forward =>
    right
    refine ⟨s, ?_, hself⟩
    have hn := hG.length
    rw [step, spec, hG.thread.head, walk_next s.free hG.thread.seg (by simpa [addrs] using hn)]
    simp only [Option.map_some, addrs, List.map_map]
    congr 3
    refine List.map_congr_left fun e he => ?_
    exact hG.vals e he
  | backward =>
    right
    refine ⟨s, ?_, hself⟩
    have hn := hG.length
    rw [step, spec, hG.thread.tail, walk_prev s.free hG.thread.seg (by simpa [addrs] using hn)]
    simp only [Option.map_some, addrs, List.map_reverse, List.map_map]
    congr 4
    refine List.map_congr_left fun e he => ?_
    exact hG.vals e he

end Verif.TreeList
