import Verif.Tree.IndexHeapIterLemmas

/-! The iterator of an index tree while the tree is modified: specification and lemmas. -/

namespace Verif.IndexHeap
open Verif.AvlHeap (P ptr addrs erase ptr_nil ptr_node toP toE mapN mapS ptr_mapN addrs_mapN)
open Verif.Avl (Iter Path At Place befores afters)
open Verif.Tree Verif.Size Verif.IndexTree
variable {K W : Type} {cmp : K → K → Int}

/-! ### The specification: a list of entries and a cursor -/

/-- The seeks that place an iterator rightly. -/
def isSeek : IOp K → Bool
  | .seekToFirst | .seekToLast | .seekByIndex _ | .seekGE _ | .seekLE _ => true
  | _ => false

/-- The calls of a tree that concern at most one entry. -/
def gentle : Op K W → Bool
  | .removeRange _ _ | .removeRangeByIndex _ _ | .trim _ _ | .trimByIndex _ _ | .split _ _ _
  | .clear => false
  | _ => true

/-- The entries, and the cursor; `none`: the iterator must be placed by a seek before it is used. A call
that adds or removes an entry (only then the number of entries changes) has this effect, and every call
for a range of entries. Other calls of the tree leave the cursor where it is. -/
def cspec (o : K → K → Ordering) (x : List (K × Option W) × Option Cur) :
    COp K W → (List (K × Option W) × Option Cur) × CRes K W
  | .call op =>
    let q := spec o x.1 op
    ((q.1, if gentle op = true ∧ q.1.length = x.1.length then x.2 else none), .call q.2)
  | .iter op =>
    match x.2 with
    | some c => let q := ispec o x.1 c op; ((x.1, some q.1), .iter q.2)
    | none =>
      if isSeek op then
        let q := ispec o x.1 ⟨none, false, false⟩ op
        ((x.1, some q.1), .iter q.2)
      else (x, .iter .unit)

/-- Which calls are covered: those of the tree that behave as those of the ideal map (not the use of
the tree returned by `Split`, to which the iterator does not belong), those of the iterator that
`ilegal` permits when it has a place; without one only a seek or `Clone`. -/
def clegal (cmp : K → K → Int) (x : List (K × Option W) × Option Cur) : COp K W → Prop
  | .call op => legal cmp x.1 op ∧ ∀ k incl, op ≠ .split k incl true
  | .iter op =>
    match x.2 with
    | some c => ilegal x.1 c op
    | none => isSeek op = true ∨ op = .clone

/-! ### The place of the iterator -/

/-- The iterator is at the cursor. -/
structure CurRel (t : P K (Option W)) (it : PIter) (c : Cur) : Prop where
  place : ∃ cur stk, it.cur = ptr cur ∧ Place t ⟨min it.cap 128, cur, stk⟩ c.pos ∧
    (c.walk = true → it.stk = stk.map toE)
  pos : c.known = true → c.pos = some it.pos

/-- An iterator on subtrees. -/
theorem CurRel.of {t : P K (Option W)} {cap : Nat} {pos : Int} {c : Cur} {ai : Iter (Nat × Int) K (Option W)}
    (hc : ai.cap = min cap 128) (hp : Place t ai c.pos) (h : c.known = true → c.pos = some pos) :
    CurRel t (lift cap pos (toP ai)) c :=
  ⟨⟨ai.cur, ai.stk, rfl, by simp only; rw [← hc]; exact hp, fun _ => rfl⟩, h⟩

section
variable {m : Mem K (Option W)} {free root : Nat} {t : P K (Option W)}

theorem indexOf_here {key : K} (h : One m root t) (hb : Below free root t) :
    indexOf cmp m key free (m root).lo = some (Size.indexOf cmp key (erase t) (leftSz (erase t))) := by
  rw [h.lo]
  cases hp : ptr t with
  | none => cases t with
    | nil => rfl
    | node => cases hp
  | some b =>
    have := (h.fuel hb).2
    simp only [indexOf, leftSz_ok h.rep hp]
    exact indexOf_ok t root free b _ h.rep (by omega) hp

/-- A seek, wherever the iterator was before. -/
theorem seek_ok (hc : Lawful cmp) (h : One m root t) (hb : Below free root t) (hx : Exact (erase t))
    (hs : Sorted (ord cmp) t.toList) {it : PIter} (hcap : t.height ≤ min it.cap 128) {c : Cur}
    (hw : t = nil → c.walk = true → it.stk = []) {op : IOp K} (ho : isSeek op = true) :
    ∃ it', istep cmp ⟨m, free, root⟩ it op = some (it', (ispec (ord cmp) t.toList c op).2) ∧
      CurRel t it' (ispec (ord cmp) t.toList c op).1 := by
  have hfu := (h.fuel hb).2
  have hF : 2 * t.height + 2 ≤ 2 * free + 2 := by omega
  have hlen : (t.toList.length : Int) = sz (erase t) := by rw [hx.sz, AvlHeap.toList_erase]
  have htop : (PTree.mk m free root).top = ptr t := h.lo
  have hsz : getSize m (ptr t) = t.toList.length := by rw [getSize_ptr h.rep, hlen]
  have hV := view_rep h.rep
  have equal : ∀ k d, ∃ it', (it.seekEqual cmp ⟨m, free, root⟩ k d).map (fun p => (p.1, IRes.bool p.2)) =
        some (it', (.bool (Avl.has (ord cmp) k t.toList) : IRes K (Option W))) ∧ CurRel t it'
        (ispec.go (ord cmp) t.toList c (Avl.target (ord cmp) k d false t.toList) k).1 := by
    intro k d
    unfold PIter.seekEqual ispec.go
    rw [htop]
    cases ht : t with
    | nil =>
      refine ⟨{ it with cur := none }, rfl, ⟨nil, [], rfl, .unset (by simp [Tree.height]) rfl rfl, ?_⟩, ?_⟩
      · intro hc
        simp at hc
        exact hw ht hc
      · intro h
        simp [Avl.has] at h
    | node a k' v l r =>
      rw [← ht]
      have hne : t.toList.isEmpty = false := by rw [ht]; simp
      have hpt : ptr t = some a.1 := by rw [ht]; rfl
      -- the iterator on subtrees, and its rank
      obtain ⟨ai, b, g1, g2, g3, g4⟩ := Avl.seekLoop_ok (toEx_lawful hc) (key := k) (c := d)
        (strict := false) (it := ⟨min it.cap 128, t, []⟩) (by rw [toEx_ord]; exact hs) hcap
        .root (by simp [ht]) (Avl.Iter.fuel ⟨min it.cap 128, t, []⟩)
        (by simp [Avl.Iter.fuel]) (by simp [Avl.befores]) (by simp [Avl.afters])
      have hW : AvlHeap.W (view m) t.height (⟨min it.cap 128, t, []⟩ : Iter (Nat × Int) K (Option W)) :=
        AvlHeap.W.start hV (Nat.le_refl _) _
      obtain ⟨f1, -⟩ := AvlHeap.seekLoop_sim (N := 2 * free + 2) hF
        (Nat.le_trans hW.fuel hF) hW g1
      obtain ⟨f2, f3⟩ := equalLoop_of (pos := it.pos) (cap := it.cap) rfl f1
      have e0 : lift it.cap it.pos (toP (⟨min it.cap 128, t, []⟩ : Iter (Nat × Int) K (Option W))) =
          { it with cur := some a.1, stk := [] } := by
        simp [toP, hpt]
      rw [e0] at f2
      rw [hpt]
      simp only [f2, Option.bind_some]
      have e1 := indexOf_here (cmp := cmp) (key := k) h hb
      rw [h.lo, hpt] at e1
      simp only [e1, Option.map_some, hne, Bool.false_eq_true, if_false]
      have e2 : b = Avl.has (ord cmp) k t.toList := by
        rw [g3]
        have e : (fun e : K × Option W => exOrd (toEx cmp e.1 k) == .eq) = fun e => ord cmp e.1 k == .eq := by
          funext e; rw [← congrFun (congrFun (toEx_ord (cmp := cmp)) e.1) k]
        rw [e]; rfl
      rw [toEx_ord] at g4
      refine ⟨lift it.cap (Size.indexOf cmp k (erase t) (leftSz (erase t))) (toP ai), ?_, CurRel.of g2 g4 ?_⟩
      · rw [e2]
      · -- the rank, by the theorem for subtrees
        intro hk
        simp only at hk ⊢
        obtain ⟨s', i1, i2⟩ := seekEqual_ok hc hx (by rw [AvlHeap.toList_erase]; exact hs)
          (s := ⟨⟨(erase t).height, nil, []⟩, 0⟩) (c := ⟨none, false, true⟩)
          (IRel.of_place (.unset (Nat.le_refl _) rfl rfl) (by simp)) k d
        rw [AvlHeap.toList_erase] at i2
        have i3 := i2.pos (by simpa [ispec.go] using hk)
        simp only [ispec.go, hne, Bool.false_eq_true, if_false] at i3
        rw [i3]
        have : (erase t).isNil = false := by rw [ht]; rfl
        simp only [istep.seekEqual, this, Bool.false_eq_true, if_false, Option.map_eq_some_iff] at i1
        obtain ⟨q, -, i4⟩ := i1
        rw [← (Prod.mk.inj i4).1]
  cases op with
  | seekToFirst =>
    obtain ⟨ai, g1, g2, g3⟩ := Avl.seekFirst_ok (root := t)
      (it := (⟨min it.cap 128, nil, []⟩ : Iter (Nat × Int) K (Option W))) hcap
    obtain ⟨f1, -⟩ := AvlHeap.seekEnd_sim hF hV (Nat.le_refl _) g1 (pit := ⟨min it.cap 128, none, []⟩) rfl
    obtain ⟨f2, f3⟩ := downs_of (pos := it.pos) (cap := it.cap) rfl f1
    refine ⟨lift it.cap 0 (toP ai), ?_, CurRel.of g2 g3 ?_⟩
    · simp only [istep, PIter.seekEnd, htop]
      simp only [lift] at f2
      rw [f2]
      rfl
    · intro hk
      simp only [ispec] at hk ⊢
      rw [if_neg (by simpa using hk)]
  | seekToLast =>
    obtain ⟨ai, g1, g2, g3⟩ := Avl.seekLast_ok (root := t)
      (it := (⟨min it.cap 128, nil, []⟩ : Iter (Nat × Int) K (Option W))) hcap
    obtain ⟨f1, -⟩ := AvlHeap.seekEnd_sim hF hV (Nat.le_refl _) g1 (pit := ⟨min it.cap 128, none, []⟩) rfl
    obtain ⟨f2, f3⟩ := downs_of (pos := it.pos) (cap := it.cap) rfl f1
    refine ⟨lift it.cap (getSize m (ptr t) - 1) (toP ai), ?_, CurRel.of g2 g3 ?_⟩
    · simp only [istep, PIter.seekEnd, htop]
      simp only [lift] at f2
      rw [f2]
      rfl
    · intro hk
      simp only [ispec] at hk ⊢
      rw [if_neg (by simpa using hk), hsz]
  | seekByIndex i =>
    simp only [istep, ispec, htop, hsz]
    by_cases hi : 0 ≤ i ∧ i < t.toList.length
    · rw [if_neg (by omega), if_pos hi]
      cases hp : ptr t with
      | none => cases t with
        | nil => simp at hi; omega
        | node => cases hp
      | some b =>
        obtain ⟨cur, stk, a, k, v, l, r, g1, g2, g3, g4⟩ := index_path (i := i) h.rep hx Path.root hp
          (n := free) (by omega) (idx := leftSz (erase t)) (by simp [befores]) (by simp [befores]; omega)
          (by simp [befores]; omega)
        simp only [index, Option.bind_some, leftSz_ok h.rep hp, g1, Option.map_some]
        refine ⟨{ it with cur := some a.1, pos := i }, rfl, ⟨cur, stk, by rw [g2]; rfl, ?_, ?_⟩, ?_⟩
        · rw [← g4]
          exact .on (e := (k, v)) ⟨hcap, g3, a, l, r, g2, rfl, rfl⟩
        · simp
        · simp
    · rw [if_pos (by omega), if_neg hi]
      exact ⟨{ it with cur := none }, rfl, ⟨nil, [], rfl, .unset hcap rfl rfl, by simp⟩, by simp⟩
  | seekGE k => exact equal k true
  | seekLE k => exact equal k false
  | _ => simp [isSeek] at ho

/-- A call of an iterator in its place. -/
theorem istep_ok (hc : Lawful cmp) (h : One m root t) (hb : Below free root t) (hx : Exact (erase t))
    (hs : Sorted (ord cmp) t.toList) {it : PIter} {c : Cur} (hR : CurRel t it c) {op : IOp K}
    (hl : ilegal t.toList c op) :
    ∃ it', istep cmp ⟨m, free, root⟩ it op = some (it', (ispec (ord cmp) t.toList c op).2) ∧
      CurRel t it' (ispec (ord cmp) t.toList c op).1 := by
  have hfu := (h.fuel hb).2
  have hF : 2 * t.height + 2 ≤ 2 * free + 2 := by omega
  have hV := view_rep h.rep
  obtain ⟨⟨cur, stk, hcur, hP, hstk⟩, hpos⟩ := id hR
  have hcap : t.height ≤ min it.cap 128 := hP.cap
  have hent : ∀ e, Avl.entryAt t.toList c.pos = some e → ∃ a l r, cur = node a e.1 e.2 l r := by
    intro e he
    have := hP.current
    rw [he] at this
    simp only [Iter.current] at this
    cases cur with
    | nil => cases this
    | node a k v l r => simp only [Option.some.injEq] at this; subst this; exact ⟨a, l, r, rfl⟩
  by_cases ho : isSeek op = true
  · refine seek_ok hc h hb hx hs hcap (fun ht hw => ?_) ho
    subst ht
    have : stk = [] := place_nil hP
    rw [hstk hw, this]; rfl
  · have mv : ∀ d ai, c.walk = true → Iter.move d ⟨min it.cap 128, cur, stk⟩ = some ai →
        it.move m (2 * free + 2) d = some (lift it.cap it.pos (toP ai)) := by
      intro d ai hw h1
      obtain ⟨f1, -⟩ := AvlHeap.move_sim (hF := hF) (AvlHeap.Place.W hP hV) h1
      obtain ⟨f2, -⟩ := move_of (pos := it.pos) (cap := it.cap) rfl f1
      have e : lift it.cap it.pos (toP (⟨min it.cap 128, cur, stk⟩ : Iter (Nat × Int) K (Option W))) = it := by
        simp only [toP, ← hcur, ← hstk hw]
      rwa [e] at f2
    cases op with
    | next =>
      obtain ⟨ai, h1, h2, h3⟩ := Avl.move_true hP
      refine ⟨lift it.cap (it.pos + 1) (toP ai), by simp only [istep, mv true ai hl h1]; rfl,
        CurRel.of h2 h3 ?_⟩
      intro hk
      simp only [ispec, Bool.and_eq_true, bne_iff_ne, ne_eq] at hk ⊢
      have hp := hpos hk.1
      rw [hp] at hk hP ⊢
      have hle := (place_bounds hP rfl).2
      have : it.pos ≠ (t.toList.length : Int) := fun e => hk.2 (by rw [e])
      rw [Option.map_some]; congr 1; omega
    | prev =>
      obtain ⟨ai, h1, h2, h3⟩ := Avl.move_false hP
      refine ⟨lift it.cap (it.pos - 1) (toP ai), by simp only [istep, mv false ai hl h1]; rfl,
        CurRel.of h2 h3 ?_⟩
      intro hk
      simp only [ispec, Bool.and_eq_true, bne_iff_ne, ne_eq] at hk ⊢
      have hp := hpos hk.1
      rw [hp] at hk hP ⊢
      have hle := (place_bounds hP rfl).1
      have : it.pos ≠ -1 := fun e => hk.2 (by rw [e])
      rw [Option.map_some]; congr 1; omega
    | valid =>
      refine ⟨it, ?_, hR⟩
      simp only [istep, ispec, hcur, ← hP.current, Iter.current]
      cases cur <;> rfl
    | entry =>
      refine ⟨it, ?_, hR⟩
      simp only [ilegal] at hl
      cases he : Avl.entryAt t.toList c.pos with
      | none => exact absurd he hl
      | some e =>
        obtain ⟨a, l, r, rfl⟩ := hent e he
        have hW := (AvlHeap.Place.W hP hV).cur.1
        simp only [view] at hW
        injection hW with e1 e2
        simp only [istep, ispec, hcur, ptr_node, Option.map_some, he, e1, e2]
    | index =>
      refine ⟨it, ?_, hR⟩
      simp only [istep, ispec, hpos hl, Option.getD_some]
    | clone =>
      refine ⟨⟨max t.height 2, it.cur, it.stk, it.pos⟩, ?_, ⟨cur, stk, hcur, ?_, hstk⟩, hpos⟩
      · simp only [istep, iterator_ok h hb hx, Option.map_some]; rfl
      · exact AvlHeap.Place.recap hP (by simp only; omega)
    | seekGT k => exact hl.elim
    | seekLT k => exact hl.elim
    | _ => simp [isSeek] at ho

end

/-! ### Calls that keep the nodes -/

theorem putLoop_same {root fresh rounds : Nat} {bal : Bool} {lim : Nat → Option (Int × Int)} {write : K × Option W → K × Option W}
    {key : K} {val : Option W} : ∀ {n : Nat} {m : Mem K (Option W)} {cur : Nat} {m' : Mem K (Option W)},
    putLoop root bal lim cmp write fresh key val rounds n m cur = some (m', true) → ∃ a, m' = writeAt m a write
  | 0, _, _, _, h => by cases h
  | n + 1, m, cur, m', h => by
    simp only [putLoop] at h
    split at h
    · split at h
      · exact putLoop_same h
      · simp at h
    · split at h
      · split at h
        · exact putLoop_same h
        · simp at h
      · simp only [Option.some.injEq, Prod.mk.injEq, and_true] at h
        exact ⟨cur, h.symm⟩

theorem putWith_same {shift : Nat} {s s' : PTree K (Option W)} {write : K × Option W → K × Option W} {k : K}
    {v : Option W} (h : s.putWith shift cmp write k v = some (s', true)) :
    ∃ a f, s' = { s with mem := writeAt s.mem a f } := by
  simp only [PTree.putWith] at h
  split at h
  · simp at h
  · simp only [Option.map_eq_some_iff, Prod.mk.injEq] at h
    obtain ⟨⟨m', b⟩, h1, rfl, h2⟩ := h
    simp only at h2
    subst h2
    obtain ⟨a, rfl⟩ := putLoop_same h1
    exact ⟨a, write, rfl⟩

theorem insert_length {o : K → K → Ordering} {k : K} {v : Option W} {xs : List (K × Option W)}
    (h : Avl.has o k xs = false) : (Avl.insertEntry o (k, v) xs).length = xs.length + 1 := by
  have e : ∀ ys : List (K × Option W), Avl.has o k ys = false →
      (ys.filter fun x => o x.1 k == .lt).length + (ys.filter fun x => o x.1 k == .gt).length =
        ys.length := by
    intro ys hy
    induction ys with
    | nil => rfl
    | cons y ys ih =>
      simp only [Avl.has, List.any_cons, Bool.or_eq_false_iff] at hy ih
      have := ih hy.2
      simp only [List.filter_cons, List.length_cons]
      cases hz : o y.1 k <;> simp [hz] at hy ⊢ <;> omega
  have := e xs h
  simp only [Avl.insertEntry, List.length_append, List.length_cons]
  omega

/-- A call for one entry that does not change the number of entries writes at most one entry. -/
theorem step_same (hc : Lawful cmp) {shift : Nat} {junk : K × Option W} {s s' : PTree K (Option W)}
    {t : P K (Option W)} (h : One s.mem s.root t) (hb : Below s.free s.root t) {xs : List (K × Option W)}
    (hR : Rel cmp (erase t) xs) {op : Op K W} (hg : gentle op = true) (hl : legal cmp xs op)
    (hz : (spec (ord cmp) xs op).1.length = xs.length)
    (hs : step shift cmp junk s op = some (s', (spec (ord cmp) xs op).2)) :
    ∃ a f, s' = { s with mem := writeAt s.mem a f } := by
  have same : s' = s → ∃ a f, s' = { s with mem := writeAt s.mem a f } := fun h =>
    ⟨0, id, by rw [writeAt_id, h]⟩
  have hput : ∀ k v, s.put shift cmp k v = some (s', false) →
      ∃ a f, s' = { s with mem := writeAt s.mem a f } := by
    intro k v h
    simp only [PTree.put, Option.map_eq_some_iff, Prod.mk.injEq] at h
    obtain ⟨⟨q, b⟩, h1, rfl, h2⟩ := h
    simp only [Bool.not_eq_false'] at h2
    subst h2
    exact putWith_same h1
  have hrem : ∀ k o, (xs.filter fun e => ord cmp e.1 k != .eq).length = xs.length →
      s.remove cmp k = some (s', o) → s' = s := by
    intro k o hz h2
    obtain ⟨⟨u, q⟩, g1, g2, -⟩ := remove_rel hc hR k
    have h3 : q = none := by
      have g2 : q = xs.find? fun e => ord cmp e.1 k == .eq := g2
      rw [g2, List.find?_eq_none]
      intro e he
      have := List.length_filter_eq_length_iff.1 hz e he
      simp only [bne_iff_ne, ne_eq] at this
      simp [this]
    subst h3
    have h4 := remove_ok (root := s.root) t s.root false s.free u none h.rep h.nodup (h.hole []) h.notMem
      (h.fuel hb).2 g1
    simp only [PTree.remove, PTree.top, h.lo, h4.1, Option.bind_some, Option.some.injEq,
      Prod.mk.injEq] at h2
    exact h2.1.symm
  have hhas : ∀ (k : K) (v : Option W), (Avl.insertEntry (ord cmp) (k, v) xs).length = xs.length →
      Avl.has (ord cmp) k xs = true := by
    intro k v hz
    by_contra hn
    have := insert_length (v := v) (Bool.eq_false_iff.2 hn)
    omega
  cases op with
  | put k v =>
    simp only [spec] at hz hs
    have hk : Avl.has (ord cmp) k xs = true := by
      by_contra hn; rw [if_neg hn] at hz; exact hn (hhas k v hz)
    rw [if_pos hk] at hs
    simp only [step, Option.map_eq_some_iff] at hs
    obtain ⟨⟨q, b⟩, h1, h2⟩ := hs
    cases h2
    exact hput k v h1
  | insertIfAbsent k v =>
    simp only [spec] at hz hs
    have hk : Avl.has (ord cmp) k xs = true := by
      by_contra hn; rw [if_neg hn] at hz; exact hn (hhas k v hz)
    rw [if_pos hk] at hs
    simp only [step, Option.map_eq_some_iff] at hs
    obtain ⟨⟨q, b⟩, h1, h2⟩ := hs
    cases h2
    exact hput k v h1
  | set k v =>
    simp only [spec] at hz hs
    have hk : Avl.has (ord cmp) k xs = true := by
      by_contra hn; rw [if_neg hn] at hz; exact hn (hhas k v hz)
    rw [if_pos hk] at hs
    have hne : s.top.isNone = false := by
      rw [PTree.top, h.lo]
      cases t with
      | nil => exact absurd hR.list.symm hl
      | node => rfl
    simp only [step, Option.map_eq_some_iff, hne, Bool.false_or] at hs
    obtain ⟨⟨q, b⟩, h1, h2⟩ := hs
    cases h2
    exact putWith_same h1
  | upsert k v =>
    simp only [spec] at hz hs
    have hk : Avl.has (ord cmp) k xs = true := by
      by_contra hn; rw [if_neg hn] at hz; exact hn (hhas k v hz)
    rw [if_pos hk] at hs
    simp only [step, Option.bind_eq_some_iff] at hs
    obtain ⟨o, -, h1⟩ := hs
    cases o with
    | some cur =>
      simp only [Option.some.injEq, Prod.mk.injEq, and_true] at h1
      exact ⟨cur, fun e => (e.1, v), h1.symm⟩
    | none => simp at h1
  | remove k =>
    simp only [step, Option.map_eq_some_iff, Prod.mk.injEq] at hs
    obtain ⟨⟨q, o⟩, h1, rfl, -⟩ := hs
    exact same (hrem k o hz h1)
  | delete k =>
    simp only [step, Option.map_eq_some_iff, Prod.mk.injEq] at hs
    obtain ⟨⟨q, o⟩, h1, rfl, -⟩ := hs
    exact same (hrem k o hz h1)
  | removeIndex i =>
    have hp : at? xs i = none := by
      cases ha : at? xs i with
      | none => rfl
      | some e =>
        have hb : 0 ≤ i ∧ i < xs.length := by
          by_contra hn
          rw [at?_none.2 (by omega)] at ha
          cases ha
        simp only [spec, ha, List.length_eraseIdx] at hz
        rw [if_pos (by omega)] at hz
        omega
    simp only [spec, hp, step] at hs
    split at hs
    · cases hs; exact same rfl
    · simp at hs
  | get k =>
    simp only [step, Option.map_eq_some_iff, Prod.mk.injEq] at hs
    obtain ⟨q, -, h2, -⟩ := hs
    exact same h2.symm
  | index i =>
    simp only [step] at hs
    split at hs <;> exact same (Prod.mk.inj (Option.some.inj hs)).1.symm
  | indexOf k =>
    simp only [step] at hs
    split at hs
    · exact same (Prod.mk.inj (Option.some.inj hs)).1.symm
    · simp only [Option.map_eq_some_iff, Prod.mk.injEq] at hs
      obtain ⟨q, -, h2, -⟩ := hs
      exact same h2.symm
  | size => exact same (Prod.mk.inj (Option.some.inj hs)).1.symm
  | len => exact same (Prod.mk.inj (Option.some.inj hs)).1.symm
  | values =>
    simp only [step, Option.map_eq_some_iff, Prod.mk.injEq] at hs
    obtain ⟨q, -, h2, -⟩ := hs
    exact same h2.symm
  | traverse e =>
    simp only [step, Option.map_eq_some_iff, Prod.mk.injEq] at hs
    obtain ⟨q, -, h2, -⟩ := hs
    exact same h2.symm
  | _ => simp [gentle] at hg

/-! ### Histories -/

/-- The tree, the iterator, the entries and the cursor belong together. -/
def CInv (cmp : K → K → Int) (q : PTree K (Option W) × PIter) (x : List (K × Option W) × Option Cur) : Prop :=
  ∃ t, One q.1.mem q.1.root t ∧ Below q.1.free q.1.root t ∧ Rel cmp (erase t) x.1 ∧
    ∀ c, x.2 = some c → CurRel t q.2 c

theorem CurRel.mapN (g : Nat × Int → K → Option W → K × Option W) {t : P K (Option W)} {it : PIter} {c : Cur}
    (h : CurRel t it c) : CurRel (mapN g t) it c := by
  obtain ⟨⟨cur, stk, h1, h2, h3⟩, h4⟩ := h
  refine ⟨⟨AvlHeap.mapN g cur, mapS g stk, by rw [h1, ptr_mapN], AvlHeap.Place.mapN g h2, fun hw => ?_⟩, h4⟩
  rw [h3 hw, mapS, List.map_map]
  exact List.map_congr_left fun e _ => by simp [toE, ptr_mapN]

theorem cstep_ok (hc : Lawful cmp) {shift : Nat} {junk : K × Option W} {q : PTree K (Option W) × PIter}
    {x : List (K × Option W) × Option Cur} {op : COp K W} (hl : clegal cmp x op) (hC : CInv cmp q x)
    (hcap : ∀ i, q.1.iterator = some i → i.cap ≤ q.2.cap ∧ i.cap ≤ 128) :
    ∃ q', cstep cmp shift junk q op = some (q', (cspec (ord cmp) x op).2) ∧
      CInv cmp q' (cspec (ord cmp) x op).1 := by
  obtain ⟨t, hO, hB, hR, hP⟩ := hC
  obtain ⟨s, it⟩ := q
  obtain ⟨xs, st⟩ := x
  simp only at hO hB hR hP hcap
  have hlist : t.toList = xs := by rw [← AvlHeap.toList_erase, hR.list]
  have hsorted : Sorted (ord cmp) t.toList := by rw [hlist]; exact hR.sorted
  cases op with
  | call op =>
    obtain ⟨ha, -⟩ := hl
    simp only at ha
    obtain ⟨u, h1, h2⟩ := IndexTree.step_ok hc (shift := shift) ha hR
    obtain ⟨s', t', h3, rfl, h5⟩ := step_sim (junk := junk) hO hB h1
    refine ⟨(s', it), by simp only [cstep, cspec]; rw [h3]; rfl, t', h5.one, fun a ha => (h5.bound a ha).1, h2, ?_⟩
    intro c hp
    simp only [cspec] at hp
    split at hp
    · next hg =>
      have h6 := hP c hp
      obtain ⟨a, f, h7⟩ := step_same hc hO hB hR hg.1 ha hg.2 h3
      have h8 : mapN (fun b k v => if b.1 = a then f (k, v) else (k, v)) t = t' := by
        refine rep_unique (m := s'.mem) (p := s.root) ?_ h5.one.rep ?_
        · rw [h7]; exact writeAt_rep hO.rep
        · rw [ptr_mapN, ← hO.lo, ← h5.one.lo, h7]
          simp only [writeAt, upd]
          split <;> rfl
      rw [← h8]
      exact h6.mapN _
    · cases hp
  | iter op =>
    cases st with
    | some c =>
      simp only [clegal] at hl
      rw [← hlist] at hl
      obtain ⟨it', h1, h2⟩ := istep_ok (free := s.free) hc hO hB hR.exact hsorted (hP c rfl) hl
      rw [hlist] at h1 h2
      refine ⟨(s, it'), ?_, t, hO, hB, hR, ?_⟩
      · simp only [cstep, cspec]; rw [h1]; rfl
      · intro c' hc'
        simp only [cspec, Option.some.injEq] at hc'
        exact hc' ▸ h2
    | none =>
      simp only [clegal] at hl
      have hca : t.height ≤ min it.cap 128 := by
        have := hcap _ (iterator_ok hO hB hR.exact)
        simp only at this
        omega
      rcases hl with ho | rfl
      · obtain ⟨it', h1, h2⟩ := seek_ok (free := s.free) hc hO hB hR.exact hsorted hca
          (c := ⟨none, false, false⟩) (fun _ h => by cases h) ho
        rw [hlist] at h1 h2
        refine ⟨(s, it'), ?_, t, hO, hB, by simpa only [cspec, ho, if_true] using hR, ?_⟩
        · simp only [cstep, cspec, ho, if_true]; rw [h1]; rfl
        · intro c' hc'
          simp only [cspec, ho, if_true, Option.some.injEq] at hc'
          exact hc' ▸ h2
      · refine ⟨(s, ⟨max t.height 2, it.cur, it.stk, it.pos⟩), ?_, t, hO, hB, hR, ?_⟩
        · have e := iterator_ok hO hB hR.exact
          simp only [cstep, cspec, istep, isSeek, Bool.false_eq_true, if_false]
          rw [show s.iterator = _ from e]
          rfl
        · intro c' hc'
          simp [cspec, isSeek] at hc'

/-- The array of the iterator is at no time too short for the tree: for every beginning of the history,
a new iterator would not have a longer one, and not one of more than 128 slots. -/
def Roomy (cmp : K → K → Int) (shift : Nat) (junk : K × Option W) (q : PTree K (Option W) × PIter)
    (os : List (COp K W)) : Prop :=
  ∀ os₁, os₁ <+: os → ∀ q' rs, run (cstep cmp shift junk) q os₁ = some (q', rs) →
    ∀ i, q'.1.iterator = some i → i.cap ≤ q'.2.cap ∧ i.cap ≤ 128

theorem crun_ok (hc : Lawful cmp) {shift : Nat} {junk : K × Option W} :
    ∀ (os : List (COp K W)) {q : PTree K (Option W) × PIter} {x : List (K × Option W) × Option Cur},
    CInv cmp q x → LegalRun (cspec (ord cmp)) (clegal cmp) x os → Roomy cmp shift junk q os →
    ∃ q', run (cstep cmp shift junk) q os = some (q', (runSpec (cspec (ord cmp)) x os).2) ∧
      CInv cmp q' (runSpec (cspec (ord cmp)) x os).1
  | [], q, x, hC, _, _ => ⟨q, rfl, hC⟩
  | o :: os, q, x, hC, hl, hr => by
    obtain ⟨q1, h1, h2⟩ := cstep_ok (shift := shift) (junk := junk) hc hl.1 hC
      (hr [] (List.nil_prefix) _ _ rfl)
    obtain ⟨q2, h3, h4⟩ := crun_ok (shift := shift) (junk := junk) hc os h2 hl.2 fun os₁ hp q' rs h =>
      hr (o :: os₁) (List.prefix_cons_inj o |>.2 hp) q' ((cspec (ord cmp) x o).2 :: rs) (by simp only [run, h1, h])
    exact ⟨q2, by simp only [run, h1, h3, runSpec], h4⟩

end Verif.IndexHeap
