import Verif.Tree.ListHeapBuild
import Verif.Tree.IndexHeapForest
import Verif.Tree.TreeListProps

/-! The pointer program of `Verif.Tree.ListHeap`: several lists in one memory. -/

namespace Verif.ListHeap
open Verif.IndexHeap Verif.DLL Verif.Tree Verif.Size
open Verif.AvlHeap (P ptr addrs erase ptr_nil ptr_node ptr_mem ptr_ne)
open Verif.TreeList (TL limit Op Res SetOp Rel Merged merge spec strip)
variable {K V : Type} {cmp : K → K → Int}

/-! ### Specification -/

/-- The entries of a set operation: those of the first list whose key is (is not) in the second one, or
those of both lists, the ones of the first list if a key is in both. -/
def both (o : K → K → Ordering) (xs ys : List (K × V)) : SetOp → List (K × V)
  | .inter => xs.filter fun e => Avl.has o e.1 ys
  | .diff => xs.filter fun e => !Avl.has o e.1 ys
  | .union => ys.foldl (fun acc e => if Avl.has o e.1 acc then acc else Avl.insertEntry o e acc) xs

/-- The ideal maps of a program with several lists. -/
def fspec (o : K → K → Ordering) (xss : List (List (K × V))) : Call K V → List (List (K × V)) × CallRes K V
  | .new => (xss ++ [[]], .made)
  | .on i op =>
    let p := spec o (xss[i]?.getD []) op
    (xss.set i p.1, .of p.2)
  | .merge op i j => (xss ++ [both o (xss[i]?.getD []) (xss[j]?.getD []) op], .made)

/-- Calls on lists that are there, allowed by `l`. -/
def flegal (l : List (K × V) → Op K V → Prop) (xss : List (List (K × V))) : Call K V → Prop
  | .new => True
  | .on i op => ∃ xs, xss[i]? = some xs ∧ l xs op
  | .merge _ i j => i < xss.length ∧ j < xss.length

/-! ### The set operations -/

section
variable {o : K → K → Ordering} [Std.TransCmp o]

theorem has_meets {e : K × V} {xs : List (K × V)} : Avl.has o e.1 xs = true ↔ TreeList.Meets o e xs := by
  simp only [Avl.has, List.any_eq_true, beq_iff_eq, TreeList.Meets]
  constructor
  · rintro ⟨f, h1, h2⟩; exact ⟨f, h1, by rw [Std.OrientedCmp.eq_comm]; exact h2⟩
  · rintro ⟨f, h1, h2⟩; exact ⟨f, h1, by rw [Std.OrientedCmp.eq_comm]; exact h2⟩

theorem insert_sorted {e : K × V} {xs : List (K × V)} (hs : Sorted o xs) : Sorted o (Avl.insertEntry o e xs) := by
  simp only [Avl.insertEntry, Sorted]
  rw [List.pairwise_append]
  refine ⟨hs.sublist List.filter_sublist, ?_, ?_⟩
  · rw [List.pairwise_cons]
    refine ⟨fun f hf => ?_, hs.sublist List.filter_sublist⟩
    simp only [List.mem_filter, beq_iff_eq] at hf
    exact Std.OrientedCmp.lt_of_gt hf.2
  · intro a ha b hb
    simp only [List.mem_filter, beq_iff_eq] at ha
    rcases List.mem_cons.1 hb with rfl | hb
    · exact ha.2
    · simp only [List.mem_filter, beq_iff_eq] at hb
      exact Ord.lt_trans ha.2 (Std.OrientedCmp.lt_of_gt hb.2)

theorem mem_insert {e x : K × V} {xs : List (K × V)} (hh : Avl.has o e.1 xs = false) :
    x ∈ Avl.insertEntry o e xs ↔ x ∈ xs ∨ x = e := by
  simp only [Avl.has, List.any_eq_false, beq_iff_eq] at hh
  simp only [Avl.insertEntry, List.mem_append, List.mem_cons, List.mem_filter, beq_iff_eq]
  constructor
  · rintro (⟨h, -⟩ | h | ⟨h, -⟩)
    · exact .inl h
    · exact .inr h
    · exact .inl h
  · rintro (h | h)
    · cases e1 : o x.1 e.1 with
      | lt => exact .inl ⟨h, rfl⟩
      | eq => exact absurd e1 (hh x h)
      | gt => exact .inr (.inr ⟨h, rfl⟩)
    · exact .inr (.inl h)

theorem fold_merged : ∀ {ys xs : List (K × V)}, Sorted o xs → Sorted o ys →
    Sorted o (ys.foldl (fun acc e => if Avl.has o e.1 acc then acc else Avl.insertEntry o e acc) xs) ∧
    ∀ e, e ∈ ys.foldl (fun acc e => if Avl.has o e.1 acc then acc else Avl.insertEntry o e acc) xs ↔
      e ∈ xs ∨ e ∈ ys ∧ ¬TreeList.Meets o e xs
  | [], xs, hx, _ => ⟨hx, fun e => by simp⟩
  | y :: ys, xs, hx, hy => by
    obtain ⟨g, hy'⟩ := List.pairwise_cons.1 hy
    simp only [List.foldl_cons]
    by_cases c : Avl.has o y.1 xs = true
    · rw [if_pos c]
      obtain ⟨h1, h2⟩ := fold_merged hx hy'
      refine ⟨h1, fun e => (h2 e).trans ?_⟩
      rw [has_meets] at c
      constructor
      · rintro (h | ⟨h, h'⟩)
        · exact .inl h
        · exact .inr ⟨List.mem_cons_of_mem _ h, h'⟩
      · rintro (h | ⟨h, h'⟩)
        · exact .inl h
        · rcases List.mem_cons.1 h with rfl | h
          · exact absurd c h'
          · exact .inr ⟨h, h'⟩
    · rw [if_neg c]
      have c' : Avl.has o y.1 xs = false := by simpa using c
      obtain ⟨h1, h2⟩ := fold_merged (insert_sorted (e := y) hx) hy'
      refine ⟨h1, fun e => (h2 e).trans ?_⟩
      rw [mem_insert c']
      have key : e ∈ ys → (TreeList.Meets o e (Avl.insertEntry o y xs) ↔ TreeList.Meets o e xs) := fun he => by
        have ne : o e.1 y.1 ≠ .eq := by
          intro h
          have := g e he
          rw [Std.OrientedCmp.eq_comm, this] at h
          cases h
        constructor
        · rintro ⟨f, hf, hf'⟩
          rcases (mem_insert c').1 hf with hf | rfl
          · exact ⟨f, hf, hf'⟩
          · exact absurd hf' ne
        · rintro ⟨f, hf, hf'⟩
          exact ⟨f, (mem_insert c').2 (.inl hf), hf'⟩
      constructor
      · rintro ((h | rfl) | ⟨h, h'⟩)
        · exact .inl h
        · exact .inr ⟨by simp, fun h => c (has_meets.2 h)⟩
        · exact .inr ⟨List.mem_cons_of_mem _ h, fun h2 => h' ((key h).2 h2)⟩
      · rintro (h | ⟨h, h'⟩)
        · exact .inl (.inl h)
        · rcases List.mem_cons.1 h with rfl | h
          · exact .inl (.inr rfl)
          · exact .inr ⟨h, fun h2 => h' ((key h).1 h2)⟩

theorem both_merged {op : SetOp} {xs ys : List (K × V)} (hx : Sorted o xs) (hy : Sorted o ys) :
    Merged o op xs ys (both o xs ys op) := by
  cases op with
  | inter =>
    refine ⟨hx.sublist List.filter_sublist, fun e => ?_⟩
    simp only [both, List.mem_filter, has_meets]
  | diff =>
    refine ⟨hx.sublist List.filter_sublist, fun e => ?_⟩
    simp only [both, List.mem_filter, Bool.not_eq_true', ← has_meets, Bool.not_eq_true]
  | union => exact fold_merged hx hy

end

theorem merge_both (hc : Lawful cmp) {op : SetOp} {xs ys : List (K × V)} (hx : Sorted (ord cmp) xs)
    (hy : Sorted (ord cmp) ys) : merge cmp op xs ys = both (ord cmp) xs ys op := by
  have : Std.TransCmp (ord cmp) := hc
  have h1 := TreeList.merge_ok hc (op := op) hx hy
  have h2 := both_merged (o := ord cmp) (op := op) hx hy
  exact TreeList.sorted_unique h1.1 h2.1 fun e => (h1.2 e).trans (h2.2 e).symm

/-! ### What a list means in a memory -/

theorem rep_vals {m : Mem K V} : ∀ {p : Nat} {t : P K (Nat × V)}, Rep (gh m) p t → ∀ e ∈ (erase t).toList,
    ((m e.2.1).key, (m e.2.1).val) = strip e
  | _, nil, _, e, he => by simp [erase] at he
  | p, node a k v l r, h, e, he => by
    have ht := (tagged h).1
    obtain ⟨⟨b, hb⟩, h1, h2⟩ := h
    simp only [erase, toList_node, List.mem_append, List.mem_cons] at he
    rcases he with he | rfl | he
    · exact rep_vals h1 e he
    · have e1 := congrArg Cell.key hb
      have e2 := congrArg Cell.val hb
      rw [gh_key] at e1
      rw [gh_val] at e2
      simp only at e1 e2
      simp only [ht, strip, e1]
      rw [← e2]
    · exact rep_vals h2 e he

/-- A call of the model with subtrees that is sound gives a sound list. -/
theorem Sim.rel {s s' : PList K V} {t : P K (Nat × V)} {x' : TL K V} {xs : List (K × V)} (hs : Sim s t s' x')
    (hR : Rel cmp x' xs) : s'.root = s.root ∧ ∃ t', Next (gh s.mem) s.free s.root t (gh s'.mem) s'.free s'.root t' ∧
      Rel cmp (abs s' t') xs ∧ ∀ a, a ≠ s.root → a ∉ s.free :: addrs t → s'.dir a = s.dir a := by
  obtain ⟨h1, h2, t', h3, h4, h5⟩ := hs
  obtain ⟨zs, hG, rfl⟩ := hR
  have hlist : (erase t').toList = zs := by rw [h3]; exact hG.list
  have hne : ∀ a ∈ TreeList.addrs zs, a ≠ s.root := by
    rintro a ha rfl
    rw [← hlist, mem_tagged (tagged h4.one.rep)] at ha
    rw [← h1] at ha
    exact h4.one.notMem ha
  refine ⟨h1, t', h4, ⟨zs, ⟨hlist, hG.sorted, by show Exact (erase t'); rw [h3]; exact hG.exact, hG.nodup, ?_, ?_,
    ⟨?_, ?_, ?_⟩⟩, rfl⟩, h5.frame⟩
  · show ∀ e ∈ zs, e.2.1 < s'.free
    rw [h2]; exact hG.fresh
  · rw [← hlist]; exact rep_vals h4.one.rep
  · show (s'.dir s'.root).1 = _
    rw [h1, ← h5.head]; exact hG.thread.head
  · show (s'.dir s'.root).2 = _
    rw [h1, ← h5.tail]; exact hG.thread.tail
  · exact TreeList.seg_congr hG.thread.seg fun a ha => ⟨(h5.prev a (hne a ha)).symm, (h5.next a (hne a ha)).symm⟩

/-- Only the cells of the list matter. -/
theorem rel_congr {s s' : PList K V} {t : P K (Nat × V)} {xs : List (K × V)} (h : One (gh s.mem) s.root t)
    (hr : s'.root = s.root) (hf : s.free ≤ s'.free) (hm : ∀ a ∈ s.root :: addrs t, gh s'.mem a = gh s.mem a)
    (hd : ∀ a ∈ s.root :: addrs t, s'.dir a = s.dir a) (hR : Rel cmp (abs s t) xs) : Rel cmp (abs s' t) xs := by
  obtain ⟨zs, hG, rfl⟩ := hR
  have hlist : (erase t).toList = zs := hG.list
  have h' := h.congr hm
  have hmem : ∀ a ∈ TreeList.addrs zs, a ∈ addrs t := fun a ha => by
    rw [← hlist] at ha
    exact (mem_tagged (tagged h.rep)).1 ha
  refine ⟨zs, ⟨hlist, hG.sorted, hG.exact, hG.nodup, fun e he => ?_, ?_, ⟨?_, ?_, ?_⟩⟩, rfl⟩
  · exact Nat.lt_of_lt_of_le (hG.fresh e he) hf
  · rw [← hlist]; exact rep_vals h'.rep
  · show (s'.dir s'.root).1 = _
    rw [hr, hd _ (by simp)]; exact hG.thread.head
  · show (s'.dir s'.root).2 = _
    rw [hr, hd _ (by simp)]; exact hG.thread.tail
  · refine TreeList.seg_congr hG.thread.seg fun a ha => ?_
    have := hd a (by simp [hmem a ha])
    exact ⟨congrArg Prod.fst this, congrArg Prod.snd this⟩

/-- One of the lists. -/
def Forest.at (s : Forest K V) (root : Nat) : PList K V := ⟨s.mem, s.dir, s.free, root⟩

/-- The lists hold the entries `xss`. -/
def FRel (cmp : K → K → Int) (s : Forest K V) (xss : List (List (K × V))) : Prop :=
  ∃ ps : List (Nat × P K (Nat × V)), Has (gh s.mem) s.free s.roots ps ∧ ps.length = xss.length ∧
    ∀ (i : Nat) (q : Nat × P K (Nat × V)) xs, ps[i]? = some q → xss[i]? = some xs → Rel cmp (abs (s.at q.1) q.2) xs

theorem FRel.empty {junk : K × V} : FRel cmp (Forest.empty junk) [] :=
  ⟨[], ⟨rfl, by simp, by simp⟩, rfl, by simp⟩

theorem gh_ne {m m' : Mem K V} {a : Nat} (h : m' a = m a) : gh m' a = gh m a := congrArg (tag a) h

/-- The new list of `New`. -/
theorem new_ok {junk : K × V} {s : Forest K V} {ps : List (Nat × P K (Nat × V))} {xss : List (List (K × V))}
    (h1 : Has (gh s.mem) s.free s.roots ps) (h2 : ps.length = xss.length)
    (h3 : ∀ (i : Nat) (q : Nat × P K (Nat × V)) xs, ps[i]? = some q → xss[i]? = some xs →
      Rel cmp (abs (s.at q.1) q.2) xs)
    {m' : Mem K V} {d' : Dir} {free' : Nat} {t : P K (Nat × V)} {zs : List (K × V)}
    (hf : s.free < free') (hone : One (gh m') s.free t) (hbelow : ∀ a ∈ addrs t, s.free < a ∧ a < free')
    (hm : ∀ a, a < s.free → m' a = s.mem a) (hd : ∀ a, a < s.free → d' a = s.dir a)
    (hR : Rel cmp (abs ⟨m', d', free', s.free⟩ t) zs) :
    FRel cmp ⟨m', d', free', s.roots ++ [s.free]⟩ (xss ++ [zs]) := by
  have hcell : ∀ a ∈ cells (s.free, t), s.free ≤ a ∧ a < free' := by
    intro a ha
    rcases List.mem_cons.1 ha with rfl | ha
    · exact ⟨Nat.le_refl _, hf⟩
    · have := hbelow a ha; omega
  refine ⟨ps ++ [(s.free, t)], (h1.mono (Nat.le_of_lt hf) fun x hx => gh_ne (hm x hx)).push (q := (s.free, t)) hone
    (fun a ha => (hcell a ha).2) ?_, by simp [h2], ?_⟩
  · intro i p hp x hx hx'
    have := (h1.one i p hp).2 x hx
    have := hcell x hx'
    omega
  · intro i q xs hq hx
    rcases Nat.lt_or_ge i ps.length with hi | hi
    · rw [List.getElem?_append_left hi] at hq
      rw [List.getElem?_append_left (by omega)] at hx
      have hb := (h1.one i q hq).2
      exact rel_congr (s := s.at q.1) (h1.one i q hq).1 rfl (Nat.le_of_lt hf) (fun a ha => gh_ne (hm a (hb a ha)))
        (fun a ha => hd a (hb a ha)) (h3 i q xs hq hx)
    · rw [List.getElem?_append_right hi] at hq
      rw [List.getElem?_append_right (by omega), ← h2] at hx
      rcases Nat.eq_or_lt_of_le hi with hi | hi
      · rw [← hi] at hq hx
        simp only [Nat.sub_self, List.getElem?_cons_zero, Option.some.injEq] at hq hx
        subst hq hx
        exact hR
      · rw [List.getElem?_eq_none (by simp; omega)] at hq; cases hq

theorem setOp_ok (hc : Lawful cmp) {junk : K × V} {s : Forest K V} {ps : List (Nat × P K (Nat × V))}
    {xss : List (List (K × V))} (h1 : Has (gh s.mem) s.free s.roots ps) (h2 : ps.length = xss.length)
    (h3 : ∀ (i : Nat) (q : Nat × P K (Nat × V)) xs, ps[i]? = some q → xss[i]? = some xs →
      Rel cmp (abs (s.at q.1) q.2) xs) {op : SetOp} {i j : Nat} {q r : Nat × P K (Nat × V)} {xs ys : List (K × V)}
    (hq : ps[i]? = some q) (hr : ps[j]? = some r) (hx : xss[i]? = some xs) (hy : xss[j]? = some ys) :
    ∃ s', setOp cmp junk op s q.1 r.1 = some s' ∧ FRel cmp s' (xss ++ [both (ord cmp) xs ys op]) := by
  have hxs : Sorted (ord cmp) xs := by
    obtain ⟨zs, hG, rfl⟩ := h3 i q xs hq hx
    exact TreeList.sorted_strip_iff.2 hG.sorted
  have hys : Sorted (ord cmp) ys := by
    obtain ⟨zs, hG, rfl⟩ := h3 j r ys hr hy
    exact TreeList.sorted_strip_iff.2 hG.sorted
  rw [← merge_both hc hxs hys]
  -- the memory with the node `root`
  have m0 : ∀ a, a < s.free → blank junk s.mem s.free none a = s.mem a := fun a ha => upd_ne _ (by omega)
  have d0 : ∀ a, a < s.free → setDir (setDir s.dir s.free false none) s.free true none a = s.dir a := fun a ha => by
    rw [setDir_ne _ _ _ (by omega), setDir_ne _ _ _ (by omega)]
  have root0 : blank junk s.mem s.free none s.free = ⟨junk.1, junk.2, 0, 0, none, none, none⟩ := upd_self ..
  have dir0 : setDir (setDir s.dir s.free false none) s.free true none s.free = (none, none) := by
    simp [setDir_self]
  simp only [setOp]
  generalize blank junk s.mem s.free none = m at m0 root0
  generalize setDir (setDir s.dir s.free false none) s.free true none = d at d0 dir0
  have old : ∀ (i : Nat) (q : Nat × P K (Nat × V)) xs, ps[i]? = some q → xss[i]? = some xs →
      Rel cmp (abs ⟨m, d, s.free + 1, q.1⟩ q.2) xs := fun i q xs hq hx => by
    have hb := (h1.one i q hq).2
    exact rel_congr (s := s.at q.1) (h1.one i q hq).1 rfl (Nat.le_succ _) (fun a ha => gh_ne (m0 a (hb a ha)))
      (fun a ha => d0 a (hb a ha)) (h3 i q xs hq hx)
  have str : ∀ (i : Nat) (q : Nat × P K (Nat × V)) xs, ps[i]? = some q → xss[i]? = some xs →
      TreeList.Stream (view m d) (d q.1).1 xs ∧ xs.length ≤ s.free + 1 ∧ InS (addrs q.2) (d q.1).1 ∧
      (∀ a ∈ addrs q.2, ∀ b, (view m d a).next = some b → b ∈ addrs q.2) ∧ ∀ a ∈ addrs q.2, a < s.free :=
    fun i q xs hq hx => by
      obtain ⟨one, below⟩ := h1.one i q hq
      obtain ⟨zs, hG, rfl⟩ := old i q xs hq hx
      have holds : Holds cmp (⟨m, d, s.free + 1, q.1⟩ : PList K V) q.2 zs :=
        ⟨one.congr fun a ha => gh_ne (m0 a (below a ha)), fun a ha => Nat.lt_succ_of_lt (below a ha), hG⟩
      refine ⟨hG.stream, (List.length_map ..).trans_le hG.length, ?_, ?_, fun a ha => below a (List.mem_cons_of_mem _ ha)⟩
      · intro a ha
        have := hG.thread.head
        refine holds.mem.1 (List.mem_of_head? (this.symm.trans ?_))
        exact ha
      · intro a ha b hb
        exact (holds.links ha).2 hb
  obtain ⟨st1, le1, in1, cl1, bd1⟩ := str i q xs hq hx
  obtain ⟨st2, le2, in2, cl2, bd2⟩ := str j r ys hr hy
  have hN : xs.length + ys.length ≤ (s.free + 1) + (s.free + 1) := by omega
  rw [TreeList.countAll_ok (cmp := cmp) (op := op) _ st1 st2 hN]
  simp only [Option.bind_some]
  by_cases h0 : (merge cmp op xs ys).length = 0
  · rw [if_pos h0]
    refine ⟨_, rfl, ?_⟩
    rw [List.length_eq_zero_iff.1 h0]
    refine new_ok (junk := junk) h1 h2 h3 (t := nil) (Nat.lt_succ_self _) ⟨trivial, ?_, ?_, by simp [addrs]⟩
      (by simp [addrs]) m0 d0 ⟨[], TreeList.Good.empty rfl ?_ ?_, rfl⟩
    · rw [gh_lo, root0]; rfl
    · rw [gh_hi, root0]
    · show (d s.free).1 = none; rw [dir0]
    · show (d s.free).2 = none; rw [dir0]
  · rw [if_neg h0]
    obtain ⟨t, b', xs', ys', e0, B⟩ := build_ok (cmp := cmp) (op := op) (junk := junk) (root := s.free)
      (h0 := view m d) (S := addrs q.2 ++ addrs r.2) (N := (s.free + 1) + (s.free + 1))
      (fun a ha => (List.mem_append.1 ha).elim (bd1 a) (bd2 a))
      (fun a ha b hb => List.mem_append.2 ((List.mem_append.1 ha).imp (fun h => cl1 a h b hb) fun h => cl2 a h b hb))
      _ _ s.free ⟨m, d, s.free + 1, none, (d q.1).1, (d r.1).1⟩ (D := []) (Nat.le_refl _) st1 st2
      (fun a ha => List.mem_append.2 (.inl (in1 a ha))) (fun a ha => List.mem_append.2 (.inr (in2 a ha)))
      (fun _ _ => rfl) hN (Nat.le_refl _) ⟨trivial, rfl, congrArg Prod.fst dir0⟩ (Nat.lt_succ_self _) (by simp) (by simp)
    have bfree : s.free + 1 ≤ b'.free := B.free
    have bnew : ∀ a ∈ addrs t, s.free + 1 ≤ a ∧ a < b'.free := B.new
    have bmem : ∀ a, a < s.free + 1 → b'.mem a = m a := B.mem
    have bdir : ∀ a, a < s.free + 1 → a ≠ s.free → b'.dir a = d a := fun a h h' => B.dir a h h' (by simp)
    have ht := tagged B.rep
    have hrow := row_perm ht
    have hnot : s.free ∉ addrs t := fun h => by have := bnew _ h; omega
    have hout := B.out
    rw [List.take_length] at hout
    have hB := B.row
    rw [List.nil_append] at hB
    refine ⟨_, by rw [e0]; rfl, ?_⟩
    have hother : ∀ a, a ≠ s.free → link b'.mem s.free false (ptr t) a = b'.mem a := fun a ha => upd_ne _ ha
    have hrep : Rep (gh (link b'.mem s.free false (ptr t))) s.free t := B.rep.congr fun a ha =>
      gh_ne (hother a fun e => hnot (e ▸ ha))
    refine new_ok (junk := junk) h1 h2 h3 (t := t) (Nat.lt_of_lt_of_le (Nat.lt_succ_self _) bfree) ⟨hrep, ?_, ?_, ?_⟩ (fun a ha => ?_) (fun a ha => ?_) (fun a ha => ?_)
      ⟨(erase t).toList, ⟨rfl, ?_, B.exact, ?_, ?_, ?_, ⟨?_, ?_, ?_⟩⟩, hout⟩
    · rw [gh_lo, link, upd_self]; rfl
    · rw [gh_hi, link, upd_self, bmem _ (Nat.lt_succ_self _), root0]; rfl
    · rw [List.nodup_cons]; exact ⟨hnot, B.nodup⟩
    · exact ⟨Nat.lt_of_succ_le (bnew a ha).1, (bnew a ha).2⟩
    · rw [hother a (by omega), bmem a (by omega), m0 a ha]
    · rw [setDir_ne _ _ _ (by omega), bdir a (by omega) (by omega), d0 a ha]
    · rw [← TreeList.sorted_strip_iff, hout]; exact (TreeList.merge_ok hc hxs hys).1
    · exact hrow.nodup_iff.2 B.nodup
    · intro e he
      exact (bnew _ ((mem_tagged ht).1 (TreeList.mem_addrs.2 ⟨e, he, rfl⟩))).2
    · exact rep_vals hrep
    · show (setDir b'.dir s.free true b'.prev s.free).1 = _
      rw [setDir_self]; exact hB.head
    · show (setDir b'.dir s.free true b'.prev s.free).2 = _
      rw [setDir_self]; exact hB.prev
    · refine seg_lk hB.seg fun a ha => ?_
      have : a ≠ s.free := fun e => hnot (e ▸ hrow.mem_iff.1 ha)
      show (setDir b'.dir s.free true b'.prev a).1 = _ ∧ (setDir b'.dir s.free true b'.prev a).2 = _
      rw [setDir_ne _ _ _ this]
      exact ⟨rfl, rfl⟩

/-- One call: as the ideal maps, or an insertion that panics, where the list has more than 63 entries. -/
theorem fstep_ok (hc : Lawful cmp) {junk : K × V} {s : Forest K V} {xss : List (List (K × V))} {c : Call K V}
    (hl : flegal (TreeList.legal cmp) xss c) (h : FRel cmp s xss) :
    (fstep cmp junk s c = none ∧ ∃ i op xs, c = .on i op ∧ op.inserts = true ∧ xss[i]? = some xs ∧ 63 < xs.length) ∨
    ∃ s', fstep cmp junk s c = some (s', (fspec (ord cmp) xss c).2) ∧ FRel cmp s' (fspec (ord cmp) xss c).1 := by
  obtain ⟨ps, h1, h2, h3⟩ := h
  have get : ∀ i, i < xss.length → ∃ q xs, ps[i]? = some q ∧ xss[i]? = some xs ∧ s.roots[i]? = some q.1 :=
    fun i hi => ⟨ps[i], xss[i], List.getElem?_eq_getElem (by omega), List.getElem?_eq_getElem hi,
      h1.root (List.getElem?_eq_getElem (by omega))⟩
  cases c with
  | new =>
    refine .inr ⟨_, rfl, ?_⟩
    have root0 : blank junk s.mem s.free none s.free = ⟨junk.1, junk.2, 0, 0, none, none, none⟩ := upd_self ..
    have dir0 : setDir (setDir s.dir s.free false none) s.free true none s.free = (none, none) := by
      simp [setDir_self]
    refine new_ok (junk := junk) h1 h2 h3 (t := nil) (Nat.lt_succ_self _) ⟨trivial, ?_, ?_, by simp [addrs]⟩
      (by simp [addrs]) (fun a ha => upd_ne _ (by omega)) (fun a ha => ?_) ⟨[], TreeList.Good.empty rfl ?_ ?_, rfl⟩
    · rw [gh_lo, root0]; rfl
    · rw [gh_hi, root0]
    · rw [setDir_ne _ _ _ (by omega), setDir_ne _ _ _ (by omega)]
    · show (setDir (setDir s.dir s.free false none) s.free true none s.free).1 = none
      rw [dir0]
    · show (setDir (setDir s.dir s.free false none) s.free true none s.free).2 = none
      rw [dir0]
  | on i op =>
    obtain ⟨xs, hxs, hop⟩ := hl
    have hi : i < xss.length := (List.getElem?_eq_some_iff.1 hxs).1
    obtain ⟨q, xs', hq, hxs', hr⟩ := get i hi
    rw [hxs] at hxs'
    cases hxs'
    have hR := h3 i q xs hq hxs
    obtain ⟨one, below⟩ := h1.one i q hq
    obtain ⟨zs, hG, rfl⟩ := id hR
    have holds : Holds cmp (s.at q.1) q.2 zs := ⟨one, below, hG⟩
    rcases TreeList.step_ok hc hop hR with ⟨e1, e2, e3⟩ | ⟨x', e1, e2⟩
    · refine .inl ⟨?_, i, op, _, rfl, e2, hxs, ?_⟩
      · have := step_none holds e2 e1
        simp only [fstep, hr, Option.bind_some]
        rw [show (⟨s.mem, s.dir, s.free, q.1⟩ : PList K V) = s.at q.1 from rfl, this]
        rfl
      · have := hR.height
        omega
    · right
      obtain ⟨s', f1, f2⟩ := step_sim holds e1
      obtain ⟨f3, t', f4, f5, f6⟩ := f2.rel e2
      refine ⟨⟨s'.mem, s'.dir, s'.free, s.roots⟩, ?_, ps.set i (q.1, t'), ?_, by simp [fspec, h2], ?_⟩
      · simp only [fstep, hr, Option.bind_some]
        rw [show (⟨s.mem, s.dir, s.free, q.1⟩ : PList K V) = s.at q.1 from rfl, f1]
        simp only [Option.map_some, fspec, hxs, Option.getD_some]
      · rw [f3] at f4
        have := h1.set (q' := (q.1, t')) hq f4
        have hroots : s.roots.set i q.1 = s.roots := by
          apply List.ext_getElem?
          intro j
          by_cases hj : i = j
          · subst hj
            rw [List.getElem?_set_self (List.getElem?_eq_some_iff.1 hr).1, hr]
          · rw [List.getElem?_set_ne hj]
        simp only at this
        rw [hroots] at this
        exact this
      · intro j p ys hp hy
        simp only [fspec, hxs, Option.getD_some] at hy
        by_cases hj : i = j
        · subst hj
          rw [List.getElem?_set_self (by omega)] at hp hy
          cases hp
          cases hy
          have : s' = (⟨s'.mem, s'.dir, s'.free, s.roots⟩ : Forest K V).at q.1 := by
            rw [show q.1 = s'.root from f3.symm]; rfl
          rw [this] at f5
          exact f5
        · rw [List.getElem?_set_ne hj] at hp hy
          have hb := (h1.one j p hp).2
          have hap := h1.apart j i p q (Ne.symm hj) hp hq
          refine rel_congr (s := s.at p.1) (h1.one j p hp).1 rfl f4.le (fun a ha => f4.frame a (hb a ha) (hap a ha))
            (fun a ha => f6 a ?_ ?_) (h3 j p ys hp hy)
          · rintro rfl; exact hap _ ha (by simp [cells, Forest.at])
          · intro h
            rcases List.mem_cons.1 h with h | h
            · have := hb a ha
              have h : a = s.free := h
              omega
            · exact hap a ha (by simp [cells, h])
  | merge op i j =>
    obtain ⟨q, xs, hq, hxs, hr⟩ := get i hl.1
    obtain ⟨q', ys, hq', hys, hr'⟩ := get j hl.2
    obtain ⟨s', e1, e2⟩ := setOp_ok hc (junk := junk) h1 h2 h3 (op := op) hq hq' hxs hys
    refine .inr ⟨s', ?_, ?_⟩
    · simp only [fstep, hr, hr', Option.bind_some, e1, Option.map_some]; rfl
    · simp only [fspec, hxs, hys, Option.getD_some]; exact e2

end Verif.ListHeap
