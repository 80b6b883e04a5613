import Verif.Tree.IndexHeapSplit
import Verif.Tree.IndexLemmas

/-! The pointer program of `Verif.Tree.IndexHeap` agrees with the model with subtrees of
`Verif.Tree.IndexModel`: one call on one tree. -/

namespace Verif.IndexHeap
open Verif.AvlHeap (P ptr addrs erase ptr_nil ptr_node ptr_mem ptr_ne)
open Verif.Tree Verif.Size Verif.IndexTree
variable {K V W : Type} {cmp : K → K → Int}

/-- The tree `t` hangs below the node `root`. -/
structure One (m : Mem K V) (root : Nat) (t : P K V) : Prop where
  rep : Rep m root t
  lo : (m root).lo = ptr t
  hi : (m root).hi = none
  nodup : (root :: addrs t).Nodup

theorem One.hole {m : Mem K V} {root : Nat} {t : P K V} (h : One m root t) (new : List Nat) :
    Hole new m root false t :=
  ⟨h.lo, fun a _ => by show (m root).hi ≠ some a; rw [h.hi]; simp⟩

theorem One.notMem {m : Mem K V} {root : Nat} {t : P K V} (h : One m root t) : root ∉ addrs t :=
  (List.nodup_cons.1 h.nodup).1

theorem One.congr {m m' : Mem K V} {root : Nat} {t : P K V} (h : One m root t)
    (hm : ∀ x ∈ root :: addrs t, m' x = m x) : One m' root t :=
  ⟨h.rep.congr fun x hx => hm x (by simp [hx]), by rw [hm root (by simp)]; exact h.lo,
    by rw [hm root (by simp)]; exact h.hi, h.nodup⟩

/-- The nodes below a bound. -/
def Below (free root : Nat) (t : P K V) : Prop := ∀ x ∈ root :: addrs t, x < free

theorem length_of_below : ∀ (n : Nat) (xs : List Nat), xs.Nodup → (∀ x ∈ xs, x < n) → xs.length ≤ n
  | 0, xs, _, h => by
    cases xs with
    | nil => simp
    | cons x xs => exact absurd (h x (by simp)) (by omega)
  | n + 1, xs, hn, h => by
    have h1 := length_of_below n (xs.erase n) (hn.erase n) fun x hx => by
      have := h x (List.mem_of_mem_erase hx)
      have : x ≠ n := by rintro rfl; exact (List.Nodup.mem_erase_iff hn).1 hx |>.1 rfl
      omega
    have h2 : xs.length - 1 ≤ (xs.erase n).length := by
      rw [List.length_erase]; split <;> omega
    omega

theorem One.fuel {m : Mem K V} {free root : Nat} {t : P K V} (h : One m root t) (hb : Below free root t) :
    (addrs t).length < free ∧ t.height < free := by
  have h1 := length_of_below free _ h.nodup hb
  have h2 := height_le t
  simp only [List.length_cons] at h1
  omega

/-- The tree `t` below `root` has become `t'` below `root'`; nodes of other trees are not touched. -/
structure Next (m : Mem K V) (free root : Nat) (t : P K V) (m' : Mem K V) (free' root' : Nat) (t' : P K V) :
    Prop where
  le : free ≤ free'
  one : One m' root' t'
  bound : ∀ x ∈ root' :: addrs t', x < free' ∧ (x ∈ root :: addrs t ∨ free ≤ x)
  frame : ∀ x, x < free → x ∉ root :: addrs t → m' x = m x

theorem Next.refl {m : Mem K V} {free root : Nat} {t : P K V} (h : One m root t) (hb : Below free root t) :
    Next m free root t m free root t :=
  ⟨Nat.le_refl _, h, fun x hx => ⟨hb x hx, .inl hx⟩, fun _ _ _ => rfl⟩

theorem next_of_good {m m' : Mem K V} {free free' root : Nat} {t t' : P K V} {new gone : List Nat}
    (h : One m root t) (hb : Below free root t) (hg : Good new gone m m' root false t t')
    (hle : free ≤ free') (hnew : ∀ x ∈ new, free ≤ x ∧ x < free') (hnn : new.Nodup) :
    Next m free root t m' free' root t' := by
  have hn : (root :: (new ++ addrs t)).Nodup := by
    have h1 := h.nodup
    have : ∀ x ∈ new, x ∉ root :: addrs t := fun x hx hx2 => by
      have := hb x hx2; have := (hnew x hx).1; omega
    have h3 : root ∉ new := fun h4 => this root h4 (by simp)
    rw [List.nodup_cons] at h1 ⊢
    refine ⟨by simp [h1.1, h3], List.nodup_append.2 ⟨hnn, h1.2, ?_⟩⟩
    rintro a ha b hb rfl
    exact this a ha (by simp [hb])
  have hn' := hg.nodup hn
  refine ⟨hle, ⟨hg.rep, ?_, ?_, ?_⟩, fun x hx => ?_, fun x hx hx2 => ?_⟩
  · rw [hg.par]; rfl
  · rw [hg.par]; exact h.hi
  · exact hn'.sublist (List.Sublist.cons_cons _ (List.sublist_append_right _ _))
  · rcases List.mem_cons.1 hx with rfl | hx
    · exact ⟨Nat.lt_of_lt_of_le (hb x (by simp)) hle, .inl (by simp)⟩
    · have := hg.perm.mem_iff.1 (List.mem_append_right gone hx)
      rcases List.mem_append.1 this with h1 | h1
      · exact ⟨(hnew x h1).2, .inr (hnew x h1).1⟩
      · exact ⟨Nat.lt_of_lt_of_le (hb x (by simp [h1])) hle, .inl (by simp [h1])⟩
  · simp only [List.mem_cons, not_or] at hx2
    refine hg.frame x ?_ hx2.1
    rw [List.mem_append, not_or]
    exact ⟨fun h => by have := (hnew x h).1; omega, hx2.2⟩

theorem next_of_good' {m m' : Mem K V} {free root : Nat} {t t' : P K V} {gone : List Nat}
    (h : One m root t) (hb : Below free root t) (hg : Good [] gone m m' root false t t') :
    Next m free root t m' free root t' :=
  next_of_good h hb hg (Nat.le_refl _) (by simp) .nil

/-- The walk to the root is over. -/
theorem Runs.done {β : Type} {new : List Nat} {Q : List Nat → Mem K V → Prop} {prog : Nat → Option β}
    {loop : Nat → Mem K V → Nat → Option β} {m : Mem K V} {p : Nat} {d : Bool} {t : P K V} {u : T K V}
    {f : Mem K V → β} (h : Runs new Q prog loop m p d t u) (hl : ∀ n m', loop (n + 1) m' p = some (f m'))
    {n : Nat} (hn : (addrs t).length < n) :
    ∃ m' t' gone, erase t' = u ∧ Good new gone m m' p d t t' ∧ prog n = some (f m') := by
  obtain ⟨m', t', gone, j, h1, h2, h3, -, h5⟩ := h
  refine ⟨m', t', gone, h2, h3, ?_⟩
  have := h5 (n - j) (by omega)
  rw [Nat.sub_add_cancel (by omega)] at this
  obtain ⟨n', e⟩ : ∃ n', n - j = n' + 1 := ⟨n - j - 1, by omega⟩
  rw [this, e, hl]

theorem resume_root {root : Nat} {bal : Bool} {lim : Nat → Option (Int × Int)} {up : Up} {n : Nat} {m : Mem K V}
    (h : up ≠ .leaf) : resume root bal lim up (n + 1) m root = some m := by
  cases up with
  | leaf => exact absurd rfl h
  | fix => simp [resume, fixPutLoop]
  | size => simp [resume, fixPutSize]

theorem fixNode_leaf {lim : Nat → Option (Int × Int)} {up up' : Up} {t u : T K V}
    (h : fixNode lim up t = some (u, up')) : up' ≠ .leaf := by
  rintro rfl
  cases t with
  | nil => cases up <;> simp [fixNode] at h
  | node a k v l r =>
    cases up with
    | leaf => simp only [fixNode] at h; split at h <;> simp at h
    | size => simp [fixNode] at h
    | fix hgt =>
      simp only [fixNode, Option.bind_eq_some_iff] at h
      obtain ⟨s, -, h⟩ := h
      split at h
      · split at h
        · split at h <;> simp at h
        · split at h <;> simp at h
      · simp at h

theorem put_leaf {lim : Nat → Option (Int × Int)} {key : K} {val : V} {write : K × V → K × V} {a : Int} {k : K}
    {v : V} {l r u : T K V} {up : Up}
    (h : Size.put lim cmp key val write (node a k v l r) = some (u, some up)) : up ≠ .leaf := by
  have H : ∀ (p : T K V × Option Up) (t : T K V) (x : T K V × Option Up),
      (match p.2 with
        | none => some (x.1, none)
        | some up => (fixNode lim up t).map fun q => (q.1, some q.2)) = some (u, some up) → up ≠ .leaf := by
    rintro ⟨p1, p2⟩ t x h
    cases p2 with
    | none => simp at h
    | some up' =>
      simp only [Option.map_eq_some_iff] at h
      obtain ⟨⟨q1, q2⟩, h1, h2⟩ := h
      cases h2
      exact fixNode_leaf h1
  simp only [Size.put] at h
  split at h
  · obtain ⟨p, -, h⟩ := Option.bind_eq_some_iff.1 h
    exact H p _ (node a k v p.1 r, none) h
  · split at h
    · obtain ⟨p, -, h⟩ := Option.bind_eq_some_iff.1 h
      exact H p _ (node a k v l p.1, none) h
    · simp at h

theorem decLoop_root {root : Nat} {val : V} (n : Nat) (m : Mem K V) :
    decLoop root val (n + 1) m root = some (m, val) := by
  simp [decLoop, fixRemoveSize]

theorem ancLoop_root {root : Nat} {anc : Anc} (n : Nat) (m : Mem K V) :
    ancLoop root anc (n + 1) m root = some m := by
  cases anc <;> simp [ancLoop, sumLoop, subLoop]

section
variable {shift : Nat} {m : Mem K (Option W)} {free root : Nat} {t : P K (Option W)}

theorem putWith_ok {write : K × Option W → K × Option W} {k : K} {v : Option W}
    {q : T K (Option W) × Option Up} (h : One m root t) (hb : Below free root t)
    (hq : Size.put (limit shift) cmp k v write (erase t) = some q) :
    ∃ s' t', PTree.putWith shift cmp ⟨m, free, root⟩ write k v = some (s', q.2.isNone) ∧ erase t' = q.1 ∧
      Next m free root t s'.mem s'.free s'.root t' := by
  have hrf : root < free := hb root (by simp)
  cases t with
  | nil =>
    simp only [erase, Size.put, Option.some.injEq] at hq
    subst hq
    have hlo : (m root).lo = none := h.lo
    refine ⟨⟨link (alloc m free root k v) root false (some free), free + 1, root⟩, node (free, 1) k v nil nil, ?_, rfl,
      next_of_good h hb (alloc_ok (c := false) (key := k) (val := v) (by omega : root ≠ free)) (free' := free + 1)
        (by omega) (by simp) (by simp)⟩
    simp only [PTree.putWith, PTree.top, hlo]
    rfl
  | node a k' v' l r =>
    have hlo : (m root).lo = some a.1 := h.lo
    have hf := h.fuel hb
    have hn : (root :: ([free] ++ addrs (node a k' v' l r))).Nodup := by
      have h1 := h.nodup
      rw [List.nodup_cons] at h1 ⊢
      refine ⟨?_, ?_⟩
      · simp only [List.cons_append, List.nil_append, List.mem_cons, not_or]; exact ⟨by omega, h1.1⟩
      · refine List.nodup_cons.2 ⟨fun hx => ?_, h1.2⟩
        have := hb free (List.mem_cons_of_mem _ hx)
        omega
    obtain ⟨t', h1, h2⟩ := put_ok (bal := true) (rounds := free) h.rep hn (h.hole _) (ptr_node ..) h.notMem (by omega) hq
    obtain ⟨u, o⟩ := q
    cases o with
    | none =>
      obtain ⟨m', g, h3⟩ := h2
      refine ⟨⟨m', free, root⟩, t', ?_, h1, next_of_good' h hb g⟩
      simp only [PTree.putWith, PTree.top, hlo, h3, Option.map_some]
      rfl
    | some up =>
      obtain ⟨m', g, j, hj, h3⟩ := h2
      refine ⟨⟨m', free + 1, root⟩, t', ?_, h1, next_of_good h hb g (by simp) (by simp) (by simp)⟩
      have h4 := h3 (free - j)
      obtain ⟨n', e⟩ : ∃ n', free - j = n' + 1 := ⟨free - j - 1, by omega⟩
      rw [Nat.sub_add_cancel (by omega), e, resume_root (put_leaf hq)] at h4
      simp only [PTree.putWith, PTree.top, hlo, h4, Option.map_some]
      rfl

theorem put_step {k : K} {v : Option W} {q : T K (Option W) × Option Up} (h : One m root t)
    (hb : Below free root t) (hq : Size.put (limit shift) cmp k v kept (erase t) = some q) :
    ∃ s' t', PTree.put shift cmp ⟨m, free, root⟩ k v = some (s', q.2.isSome) ∧ erase t' = q.1 ∧
      Next m free root t s'.mem s'.free s'.root t' := by
  obtain ⟨s', t', h1, h2, h3⟩ := putWith_ok h hb hq
  refine ⟨s', t', ?_, h2, h3⟩
  simp only [PTree.put, h1, Option.map_some]
  cases q.2 <;> rfl

theorem remove_step {k : K} {u : T K (Option W)} {o : Option (K × Option W)} (h : One m root t)
    (hb : Below free root t) (hq : Size.remove (fun _ w => w) cmp k (erase t) = some (u, o)) :
    ∃ m' t', PTree.remove cmp ⟨m, free, root⟩ k = some (⟨m', free, root⟩, o.bind (·.2)) ∧ erase t' = u ∧
      Next m free root t m' free root t' := by
  have hf := h.fuel hb
  have h1 := remove_ok (root := root) t root false free u o h.rep h.nodup (h.hole []) h.notMem hf.2 hq
  cases o with
  | none =>
    obtain ⟨h2, rfl⟩ := h1
    refine ⟨m, t, ?_, rfl, .refl h hb⟩
    simp only [PTree.remove, PTree.top, h.lo, h2, Option.bind_some]
    rfl
  | some e =>
    obtain ⟨b, h2, h3⟩ := h1
    obtain ⟨m', t', gone, i1, i2, i3⟩ := h3.done decLoop_root hf.1
    refine ⟨m', t', ?_, i1, next_of_good' h hb i2⟩
    simp only [PTree.remove, PTree.top, h.lo, h2, Option.bind_some, i3, Option.map_some]

/-- Both trees after `Split`. -/
theorem split_pair {junk : K × Option W} {key : K} {incl : Bool} {xv yv : T K (Option W)} (h : One m root t)
    (hb : Below free root t) (e : IndexTree.split cmp incl key (erase t) = some (xv, yv)) :
    ∃ m' x y, erase x = xv ∧ erase y = yv ∧
      IndexHeap.split cmp incl key junk root free free m = some (m', true) ∧
      Next m free root t m' (free + 1) root x ∧ Next m free root t m' (free + 1) free y ∧
      ∀ z ∈ root :: addrs x, z ∉ free :: addrs y := by
  have hf := h.fuel hb
  have hn : (root :: free :: addrs t).Nodup := by
    have h1 := h.nodup
    rw [List.nodup_cons] at h1 ⊢
    refine ⟨?_, List.nodup_cons.2 ⟨fun hx => ?_, h1.2⟩⟩
    · simp only [List.mem_cons, not_or]; exact ⟨by have := hb root (by simp); omega, h1.1⟩
    · have := hb free (by simp [hx]); omega
  obtain ⟨m', x, y, h1, h2, h3, h4, h5, h6, h7, h8, h9⟩ := split_ok (junk := junk) h.rep h.lo h.hi hn e
  have hfr : ∀ z, z < free → z ∉ root :: addrs t → m' z = m z := fun z z1 z2 => h8 z (by
    simp only [List.mem_cons, not_or] at z2 ⊢
    exact ⟨z2.1, by omega, z2.2⟩)
  have hn2 : (root :: free :: (addrs x ++ addrs y)).Nodup := ((h7.cons _).cons _).nodup_iff.2 hn
  refine ⟨m', x, y, h1, h2, h9 free hf.1,
    ⟨by omega, ⟨h3, by rw [h5]; rfl, by rw [h5]; exact h.hi, ?_⟩, fun z hz => ?_, hfr⟩,
    ⟨by omega, ⟨h4, by rw [h6], by rw [h6], ?_⟩, fun z hz => ?_, hfr⟩, ?_⟩
  · exact hn2.sublist (List.Sublist.cons_cons _ ((List.sublist_append_left _ _).cons _))
  · rcases List.mem_cons.1 hz with rfl | hz
    · exact ⟨by have := hb z (by simp); omega, .inl (by simp)⟩
    · have := h7.mem_iff.1 (List.mem_append_left _ hz)
      exact ⟨by have := hb z (by simp [this]); omega, .inl (by simp [this])⟩
  · exact (List.nodup_cons.1 hn2).2.sublist (List.Sublist.cons_cons _ (List.sublist_append_right _ _))
  · rcases List.mem_cons.1 hz with rfl | hz
    · exact ⟨by simp, .inr (Nat.le_refl _)⟩
    · have := h7.mem_iff.1 (List.mem_append_right _ hz)
      exact ⟨by have := hb z (by simp [this]); omega, .inl (by simp [this])⟩
  · clear h1 h2 h3 h4 h5 h6 h7 h8 h9 hfr hn hf hb h e
    simp only [List.nodup_cons, List.nodup_append, List.mem_cons, List.mem_append, not_or] at hn2
    intro z hz hz2
    simp only [List.mem_cons] at hz hz2
    grind

/-- One call. -/
theorem step_sim {junk : K × Option W} {op : Op K W} {u : T K (Option W)} {res : Res K W} (h : One m root t)
    (hb : Below free root t) (hs : IndexTree.step shift cmp (erase t) op = some (u, res)) :
    ∃ s' t', step shift cmp junk ⟨m, free, root⟩ op = some (s', res) ∧ erase t' = u ∧
      Next m free root t s'.mem s'.free s'.root t' := by
  have hf := h.fuel hb
  have hlo := h.lo
  have same : ∀ r, ∃ s' t', some ((⟨m, free, root⟩ : PTree K (Option W)), r) = some (s', r) ∧
      erase t' = erase t ∧ Next m free root t s'.mem s'.free s'.root t' := fun (r : Res K W) =>
    ⟨⟨m, free, root⟩, t, rfl, rfl, .refl h hb⟩
  cases op with
  | put k v =>
    simp only [IndexTree.step, Option.map_eq_some_iff] at hs
    obtain ⟨q, h1, h2⟩ := hs
    cases h2
    obtain ⟨s', t', i1, i2, i3⟩ := put_step h hb h1
    exact ⟨s', t', by simp only [step, i1, Option.map_some], i2, i3⟩
  | insertIfAbsent k v =>
    simp only [IndexTree.step, Option.map_eq_some_iff] at hs
    obtain ⟨q, h1, h2⟩ := hs
    cases h2
    obtain ⟨s', t', i1, i2, i3⟩ := put_step h hb h1
    exact ⟨s', t', by simp only [step, i1, Option.map_some], i2, i3⟩
  | set k v =>
    simp only [IndexTree.step] at hs
    cases t with
    | nil =>
      simp only [erase, Tree.isNil, if_true, Option.some.injEq, Prod.mk.injEq] at hs
      obtain ⟨rfl, rfl⟩ := hs
      obtain ⟨s', t', i1, i2, i3⟩ := putWith_ok (shift := shift) (cmp := cmp) (write := fun _ => (k, v)) (k := k)
        (v := v) h hb rfl
      refine ⟨s', t', ?_, i2, i3⟩
      have hlo' : (m root).lo = none := hlo
      simp only [step, i1, Option.map_some, PTree.top, hlo']
      rfl
    | node a k' v' l r =>
      simp only [erase, Tree.isNil, Bool.false_eq_true, if_false, Option.map_eq_some_iff] at hs
      obtain ⟨q, h1, h2⟩ := hs
      cases h2
      obtain ⟨s', t', i1, i2, i3⟩ := putWith_ok (write := fun _ => (k, v)) h hb h1
      refine ⟨s', t', ?_, i2, i3⟩
      have hlo' : (m root).lo = some a.1 := hlo
      simp only [step, i1, Option.map_some, PTree.top, hlo', Option.isNone_some, Bool.false_or]
  | upsert k v =>
    simp only [IndexTree.step] at hs
    have hg := get_ok (cmp := cmp) (key := k) t root false free h.rep h.nodup (h.hole []) hf.2
    cases e : Size.get cmp k (erase t) with
    | none =>
      rw [e] at hg hs
      simp only [Option.isSome_none, Bool.false_eq_true, if_false, Option.map_eq_some_iff] at hs
      obtain ⟨q, h1, h2⟩ := hs
      cases h2
      obtain ⟨s', t', i1, i2, i3⟩ := put_step h hb h1
      exact ⟨s', t', by simp only [step, PTree.top, hlo, hg, Option.bind_some, i1, Option.map_some], i2, i3⟩
    | some e' =>
      rw [e] at hg hs
      obtain ⟨b, h1, h2, h3⟩ := hg
      simp only [Option.isSome_some, if_true, Option.some.injEq, Prod.mk.injEq] at hs
      obtain ⟨rfl, rfl⟩ := hs
      obtain ⟨t', h4, h5⟩ := h3 v
      exact ⟨⟨upd m b fun x => { x with val := v }, free, root⟩, t', by
        simp only [step, PTree.top, hlo, h1, Option.bind_some], h4, next_of_good' h hb h5⟩
  | get k =>
    simp only [IndexTree.step, Option.some.injEq, Prod.mk.injEq] at hs
    obtain ⟨rfl, rfl⟩ := hs
    have hg := get_ok (cmp := cmp) (key := k) t root false free h.rep h.nodup (h.hole []) hf.2
    cases e : Size.get cmp k (erase t) with
    | none =>
      rw [e] at hg
      simp only [step, PTree.top, hlo, hg, Option.map_some]
      exact same _
    | some e' =>
      rw [e] at hg
      obtain ⟨b, h1, h2, h3⟩ := hg
      simp only [step, PTree.top, hlo, h1, Option.map_some, h2]
      exact same _
  | remove k =>
    simp only [IndexTree.step, Option.map_eq_some_iff] at hs
    obtain ⟨⟨u', o⟩, h1, h2⟩ := hs
    cases h2
    obtain ⟨m', t', i1, i2, i3⟩ := remove_step h hb h1
    exact ⟨⟨m', free, root⟩, t', by simp only [step, i1, Option.map_some], i2, i3⟩
  | delete k =>
    simp only [IndexTree.step, Option.map_eq_some_iff] at hs
    obtain ⟨⟨u', o⟩, h1, h2⟩ := hs
    cases h2
    obtain ⟨m', t', i1, i2, i3⟩ := remove_step h hb h1
    exact ⟨⟨m', free, root⟩, t', by simp only [step, i1, Option.map_some], i2, i3⟩
  | index i =>
    simp only [IndexTree.step] at hs
    cases hp : ptr t with
    | none =>
      obtain rfl := ptr_none hp
      simp only [erase, nodeAt, Option.some.injEq, Prod.mk.injEq] at hs
      obtain ⟨rfl, rfl⟩ := hs
      have hlo' : (m root).lo = none := hlo
      simp only [step, PTree.top, hlo', index, Option.bind_none]
      exact same _
    | some b =>
      have hi := (index_ok (root := root) (i := i) t root false free b (leftSz (erase t)) h.rep h.nodup (h.hole [])
        h.notMem (by omega) hp).1
      have e0 : index m i free (m root).lo = indexLoop m i free b (leftSz (erase t)) := by
        rw [hlo, hp]; simp only [index, Option.bind_some, leftSz_ok h.rep hp]
      cases e : nodeAt i (erase t) (leftSz (erase t)) with
      | none =>
        rw [e] at hi hs
        cases hs
        simp only [step, PTree.top, e0, hi]
        exact same _
      | some e' =>
        rw [e] at hi hs
        obtain ⟨x, i1, i2, i3⟩ := hi
        cases hs
        simp only [step, PTree.top, e0, i1, i2, i3]
        exact same _
  | indexOf k =>
    simp only [IndexTree.step, Option.some.injEq, Prod.mk.injEq] at hs
    obtain ⟨rfl, rfl⟩ := hs
    cases hp : ptr t with
    | none =>
      obtain rfl := ptr_none hp
      have hlo' : (m root).lo = none := hlo
      simp only [step, PTree.top, hlo']
      exact same _
    | some b =>
      have e0 : (m root).lo = some b := hlo.trans hp
      simp only [step, PTree.top, e0, leftSz_ok h.rep hp,
        indexOf_ok (cmp := cmp) (key := k) t root free b _ h.rep (by omega) hp, Option.map_some]
      exact same _
  | removeIndex i =>
    simp only [IndexTree.step] at hs
    cases hp : ptr t with
    | none =>
      obtain rfl := ptr_none hp
      simp only [erase, removeAt, Option.some.injEq, Prod.mk.injEq] at hs
      obtain ⟨rfl, rfl⟩ := hs
      have hlo' : (m root).lo = none := hlo
      simp only [step, PTree.top, hlo', index, Option.bind_none]
      exact same _
    | some b =>
      have hi := (index_ok (root := root) (i := i) t root false free b (leftSz (erase t)) h.rep h.nodup (h.hole [])
        h.notMem (by omega) hp).2
      have e0 : index m i free (m root).lo = indexLoop m i free b (leftSz (erase t)) := by
        rw [hlo, hp]; simp only [index, Option.bind_some, leftSz_ok h.rep hp]
      cases e : removeAt (fun _ w => w) i (erase t) (leftSz (erase t)) with
      | none =>
        rw [e] at hi hs
        cases hs
        simp only [step, PTree.top, e0, hi]
        exact same _
      | some o =>
        cases o with
        | none => rw [e] at hs; cases hs
        | some q =>
          rw [e] at hi hs
          cases hs
          obtain ⟨x, i1, i2⟩ := hi
          obtain ⟨m', t', gone, j1, j2, j3⟩ := i2.done decLoop_root hf.1
          exact ⟨⟨m', free, root⟩, t', by simp only [step, PTree.top, e0, i1, j3, Option.map_some], j1,
            next_of_good' h hb j2⟩
  | removeRange low high =>
    simp only [IndexTree.step] at hs
    by_cases c1 : cmp low high > 0
    · rw [if_pos c1] at hs
      cases hs
      simp only [step, if_pos c1]
      exact same _
    · rw [if_neg c1] at hs
      by_cases c2 : cmp low high = 0
      · rw [if_pos c2, Option.map_eq_some_iff] at hs
        obtain ⟨⟨u', o⟩, h1, h2⟩ := hs
        cases h2
        obtain ⟨m', t', i1, i2, i3⟩ := remove_step h hb h1
        exact ⟨⟨m', free, root⟩, t', by simp only [step, if_neg c1, if_pos c2, i1, Option.map_some], i2, i3⟩
      · rw [if_neg c2, Option.map_eq_some_iff] at hs
        obtain ⟨⟨z, anc⟩, h1, h2⟩ := hs
        cases h2
        rcases removeRange_ok (root := root) t root false free z anc h.rep h.nodup (h.hole []) h.notMem hf.2 h1
          with ⟨-, h3, rfl⟩ | ⟨-, b, h3, h4⟩
        · simp only [step, if_neg c1, if_neg c2, removeRange, hlo, h3, Option.bind_some, Option.map_some]
          exact same _
        · obtain ⟨m', t', gone, j1, j2, j3⟩ := h4.done ancLoop_root hf.1
          refine ⟨⟨m', free, root⟩, t', ?_, j1, next_of_good' h hb j2⟩
          simp only [rangeAt] at j3
          simp only [step, if_neg c1, if_neg c2, removeRange, hlo, h3, Option.bind_some, j3, Option.map_some]
  | removeRangeByIndex low high =>
    simp only [IndexTree.step] at hs
    by_cases c1 : low > high
    · rw [if_pos c1] at hs
      cases hs
      simp only [step, if_pos c1]
      exact same _
    · rw [if_neg c1] at hs
      cases hp : ptr t with
      | none =>
        obtain rfl := ptr_none hp
        simp only [erase, Size.removeRangeIdx, Option.some.injEq, Prod.mk.injEq] at hs
        obtain ⟨rfl, rfl⟩ := hs
        have hlo' : (m root).lo = none := hlo
        simp only [step, if_neg c1, PTree.top, hlo', rangeFind, Option.bind_none]
        exact same _
      | some b =>
        have hi := removeRangeIdx_ok (root := root) (low := low) (high := high) t root false free b (leftSz (erase t))
          h.rep h.nodup (h.hole []) h.notMem (by omega) hp
        have e0 : rangeFind m low high free (m root).lo = rangeLoop m low high free b (leftSz (erase t)) := by
          rw [hlo, hp]; simp only [rangeFind, Option.bind_some, leftSz_ok h.rep hp]
        cases e : Size.removeRangeIdx low high (erase t) (leftSz (erase t)) with
        | none =>
          rw [e] at hi hs
          cases hs
          simp only [step, if_neg c1, PTree.top, e0, hi]
          exact same _
        | some o =>
          cases o with
          | none => rw [e] at hs; cases hs
          | some q =>
            obtain ⟨z, anc⟩ := q
            rw [e] at hi hs
            cases hs
            obtain ⟨-, x, i, i1, i2⟩ := hi
            obtain ⟨m', t', gone, j1, j2, j3⟩ := i2.done ancLoop_root hf.1
            exact ⟨⟨m', free, root⟩, t', by simp only [step, if_neg c1, PTree.top, e0, i1, j3, Option.map_some], j1,
              next_of_good' h hb j2⟩
  | trim low high =>
    simp only [IndexTree.step] at hs
    by_cases c1 : cmp low high > 0
    · rw [if_pos c1] at hs
      cases hs
      simp only [step, if_pos c1]
      exact same _
    · rw [if_neg c1] at hs
      cases hs
      obtain ⟨m', t', gone, h1, h2, h3⟩ := trim_ok (cmp := cmp) (low := low) (high := high) h.rep h.nodup hlo
      exact ⟨⟨m', free, root⟩, t', by simp only [step, if_neg c1, h3 free hf.1, Option.map_some], h1,
        next_of_good' h hb h2⟩
  | trimByIndex low high =>
    simp only [IndexTree.step] at hs
    by_cases c1 : low > high
    · rw [if_pos c1] at hs
      cases hs
      simp only [step, if_pos c1]
      exact same _
    · rw [if_neg c1] at hs
      cases hp : ptr t with
      | none =>
        obtain rfl := ptr_none hp
        have hlo' : (m root).lo = none := hlo
        simp only [erase, trimIdx, Option.some.injEq, Prod.mk.injEq] at hs
        obtain ⟨rfl, rfl⟩ := hs
        simp only [step, if_neg c1, trimByIndex, hlo', rangeFind, Option.bind_none]
        exact same _
      | some b =>
        have hi := trimRun_ok (low := low) (high := high) (by omega) t root b (leftSz (erase t)) h.rep
          (List.nodup_cons.1 h.nodup).2 hp
        have e0 := trimByIndex_eq (root := root) (n := free) (low := low) (high := high) (hlo.trans hp)
        rw [leftSz_ok h.rep hp] at e0
        have hh := height_le t
        cases e : trimIdx low high (erase t) (leftSz (erase t)) with
        | ok z =>
          rw [e] at hi hs
          cases hs
          obtain ⟨m', s, gone, q, x, i1, i2, i3, i4⟩ := hi
          rw [i4 free free (by omega) (by omega)] at e0
          refine ⟨⟨replant m' root (some x), free, root⟩, s, by simp only [step, if_neg c1, e0]; rfl, i1,
            next_of_good' (gone := gone) h hb ?_⟩
          rw [← i3]; exact replant_ok h.nodup i2
        | untouched =>
          rw [e] at hi hs
          cases hs
          rw [hi free free (by omega) (by omega)] at e0
          simp only [step, if_neg c1, e0]
          exact same _
        | broken z =>
          rw [e] at hi hs
          cases hs
          obtain ⟨m', t', gone, i1, i2, i3, i4⟩ := hi
          rw [i4 free free (by omega) (by omega)] at e0
          refine ⟨⟨m', free, root⟩, t', by simp only [step, if_neg c1, e0]; rfl, i1, next_of_good' (gone := gone) h hb
            ⟨i2.rep, ?_, by simpa using i2.perm, fun x hx hxp => i2.frame x (by simpa using hx)⟩⟩
          show m' root = _
          rw [i2.frame root h.notMem, i3]
          exact (setKid_kid (c := false) hlo).symm
  | split key incl other =>
    simp only [IndexTree.step] at hs
    cases e : IndexTree.split cmp incl key (erase t) with
    | none =>
      rw [e] at hs
      obtain rfl : t = nil := by
        cases t with
        | nil => rfl
        | node => simp only [erase, IndexTree.split] at e; split at e <;> cases e
      cases other with
      | true => simp at hs
      | false =>
        simp only [Bool.false_eq_true, if_false] at hs
        cases hs
        have hlo' : (m root).lo = none := hlo
        refine ⟨⟨m, free + 1, root⟩, nil, ?_, rfl, ?_⟩
        · simp only [step, IndexHeap.split, hlo', Option.bind_some, Bool.false_eq_true, if_false]
        · exact ⟨by simp, h, fun x hx => ⟨Nat.lt_succ_of_lt (hb x hx), .inl hx⟩, fun _ _ _ => rfl⟩
    | some p =>
      obtain ⟨xv, yv⟩ := p
      rw [e] at hs
      cases hs
      obtain ⟨m', x, y, h1, h2, h3, h4, h5, -⟩ := split_pair (junk := junk) h hb e
      cases other with
      | true =>
        exact ⟨⟨m', free + 1, free⟩, y, by simp only [step, h3, Option.bind_some, if_true], h2, h5⟩
      | false =>
        exact ⟨⟨m', free + 1, root⟩, x, by
          simp only [step, h3, Option.bind_some, Bool.false_eq_true, if_false], h1, h4⟩
  | clear =>
    simp only [IndexTree.step, Option.some.injEq, Prod.mk.injEq] at hs
    obtain ⟨rfl, rfl⟩ := hs
    refine ⟨⟨link m root false none, free, root⟩, nil, rfl, rfl, next_of_good' (gone := addrs t) h hb ⟨trivial, ?_, by simp [addrs], ?_⟩⟩
    · simp [link, upd]
    · intro x _ hx; simp [link, upd, hx]
  | size =>
    simp only [IndexTree.step, Option.some.injEq, Prod.mk.injEq] at hs
    obtain ⟨rfl, rfl⟩ := hs
    simp only [step, PTree.top, hlo, getSize_ptr h.rep]
    exact same _
  | len =>
    simp only [IndexTree.step, Option.some.injEq, Prod.mk.injEq] at hs
    obtain ⟨rfl, rfl⟩ := hs
    simp only [step, PTree.top, hlo, getSize_ptr h.rep]
    exact same _
  | values =>
    simp only [IndexTree.step, Option.some.injEq, Prod.mk.injEq] at hs
    obtain ⟨rfl, rfl⟩ := hs
    simp only [step, PTree.top, hlo, traverse_ok t root free h.rep hf.2, Option.map_some]
    exact same _
  | traverse every =>
    simp only [IndexTree.step, Option.some.injEq, Prod.mk.injEq] at hs
    obtain ⟨rfl, rfl⟩ := hs
    simp only [step, PTree.top, hlo, traverse_ok t root free h.rep hf.2, Option.map_some]
    exact same _

end

/-- utils.go:339-380. -/
theorem checkRec_ok {m : Mem K V} : ∀ (t : P K V) (q n : Nat), Rep m q t → Exact (erase t) → t.height < n →
    checkRec m n (ptr t) = some true
  | nil, _, n, _, _, hl => by
    obtain ⟨n, rfl⟩ : ∃ n', n = n' + 1 := ⟨n - 1, by omega⟩
    rfl
  | node a k v l r, q, n, hR, hx, hl => by
    obtain ⟨⟨g, hg⟩, h1, h2⟩ := hR
    simp only [Tree.height] at hl
    obtain ⟨n, rfl⟩ : ∃ n', n = n' + 1 := ⟨n - 1, by omega⟩
    obtain ⟨e1, e2, e3⟩ := exact_node.1 hx
    have par : ∀ (u : P K V), Rep m a.1 u → ((ptr u).all fun b => decide ((m b).parent = some a.1)) = true := by
      intro u hu
      cases u with
      | nil => rfl
      | node b k' v' l' r' =>
        obtain ⟨⟨g', hg'⟩, -⟩ := hu
        simp [hg']
    have hs : a.2 = sz (erase l) + sz (erase r) + 1 := by rw [e1, e2.sz, e3.sz]
    simp only [ptr_node, checkRec, hg, getSize_ptr h1, getSize_ptr h2, hs, par l h1, par r h2,
      checkRec_ok l a.1 n h1 e2 (by omega), checkRec_ok r a.1 n h2 e3 (by omega)]
    simp

theorem check_ok {m : Mem K V} {root n : Nat} {t : P K V} (h : One m root t) (hx : Exact (erase t))
    (hn : t.height < n) : check m root n = some true := by
  have h1 := checkRec_ok t root n h.rep hx hn
  have h2 := h.lo
  cases t with
  | nil => simp only [check, h2, ptr_nil]
  | node a k v l r =>
    obtain ⟨⟨g, hg⟩, -⟩ := id h.rep
    rw [ptr_node] at h1 h2
    have h3 : (m a.1).parent = some root := by rw [hg]
    simp only [check, h2, h3, h1]
    simp

end Verif.IndexHeap
