import Verif.Tree.AvlsHeapIter
import Verif.Tree.AvlsHeapSim
import Verif.Tree.AvlHeapIterRun
import Verif.Tree.AvlsProps

/-! Iterators of tree/avls while the tree is modified: specification and lemmas. -/

namespace Verif.AvlsHeap
open Verif.AvlHeap hiding istep COp cstep step put get put_ok get_ok cspec clegal step_same CInv istep_seek
  istep_sim cstep_ok Roomy crun_ok start_ok height_rec step_sim run_sim put_sim set_sim remove_sim
open Avl (Iter Place IOp IRes Res ord ispec ilegal)
open Avls (Op spec Inv Rel)
open Verif.Tree
variable {K V : Type} {cmp : K → K → Int}

/-! ### The specification: a list of entries and a cursor -/

/-- As `AvlHeap.cspec`, for the ideal stable multimap. `none`: the iterator must be placed by a seek
before it is used. A call that adds or removes an entry has this effect. Other calls of the tree leave
the cursor where it is. -/
def cspec (o : K → K → Ordering) (x : List (K × V) × Option (Option Int)) :
    COp K V → (List (K × V) × Option (Option Int)) × CRes K V
  | .call op =>
    let q := spec o x.1 op
    ((q.1, if q.1.length = x.1.length then x.2 else none), .call q.2)
  | .iter op =>
    match x.2 with
    | some p => let q := ispec o true x.1 p op; ((x.1, some q.1), .iter q.2)
    | none =>
      if isSeek op then let q := ispec o true x.1 none op; ((x.1, some q.1), .iter q.2)
      else (x, .iter .unit)

/-- Which calls are covered: those of the tree while it has fewer than 2^63 entries, those of the
iterator that `ilegal` permits when it has a place; without one only a seek and `Clone`. -/
def clegal (o : K → K → Ordering) (x : List (K × V) × Option (Option Int)) : COp K V → Prop
  | .call op => op.abstract = true ∧ (spec o x.1 op).1.length < 2 ^ 63
  | .iter op =>
    match x.2 with
    | some p => ilegal x.1 p op
    | none => isSeek op = true ∨ op matches .clone

/-! ### seekBound -/

/-- The candidate, with addresses only. -/
def toC (x : Option (P K V × List (P K V × Bool))) : Cand :=
  x.map fun p => ((ptr p.1).getD 0, p.2.map toE)

theorem boundLoop_sim {m : Mem K V} {cap : Nat} {key : K} {c strict : Bool} : ∀ {n : Nat} {t : P K V}
    {path : List (P K V × Bool)} {cand : Option (P K V × List (P K V × Bool))} {ex : Bool}, Rep m t →
    t.height < n → boundLoop cmp m cap key c strict n (ptr t) (path.map toE) (toC cand) ex =
      (Avl.seekBoundLoop cmp cap key c strict t path cand ex).map fun p => (toC p.1, p.2)
  | 0, t, _, _, _, _, h => by omega
  | n + 1, nil, path, cand, ex, hR, _ => rfl
  | n + 1, node a k v l r, path, cand, ex, hR, hh => by
    obtain ⟨ha, hl, hr⟩ := hR
    simp only [height] at hh
    simp only [boundLoop, ptr_node, ha, Avl.seekBoundLoop, kid_mk]
    generalize (if c = true then decide (cmp k key = 0) || decide (cmp k key < 0) && !strict
      else decide (cmp k key = 1) || decide (cmp k key < 0) && !strict) = sat
    generalize (if c = true then if cmp k key = 0 then false else if cmp k key < 0 then strict else true
      else if cmp k key = 1 then true else if cmp k key < 0 then !strict else false) = mv
    have hcand : (if sat = true then some (a.1, path.map toE) else toC cand) =
        toC (if sat = true then some (node a k v l r, path) else cand) := by
      cases sat <;> rfl
    rw [hcand]
    cases mv with
    | true =>
      simp only [if_true]
      match r, hr with
      | nil, _ => rfl
      | node b k2 v2 x y, hr =>
        simp only [ptr_node, Avl.isNil_node, Bool.false_eq_true, if_false, List.length_map]
        split
        · exact boundLoop_sim (path := (node a k v l (node b k2 v2 x y), true) :: path) hr (by omega)
        · rfl
    | false =>
      simp only [Bool.false_eq_true, if_false]
      match l, hl with
      | nil, _ => rfl
      | node b k2 v2 x y, hl =>
        simp only [ptr_node, Avl.isNil_node, Bool.false_eq_true, if_false, List.length_map]
        split
        · exact boundLoop_sim (path := (node a k v (node b k2 v2 x y) r, false) :: path) hl (by omega)
        · rfl

/-- The candidate is a node. -/
theorem bound_ne {cap : Nat} {key : K} {c strict : Bool} : ∀ {t : P K V}
    {path : List (P K V × Bool)} {cand : Option (P K V × List (P K V × Bool))} {ex : Bool} {p},
    (∀ x, cand = some x → x.1 ≠ nil) → Avl.seekBoundLoop cmp cap key c strict t path cand ex = some p →
    ∀ x, p.1 = some x → x.1 ≠ nil
  | nil, path, cand, ex, p, hc, h => by cases h; exact hc
  | node a k v l r, path, cand, ex, p, hc, h => by
    simp only [Avl.seekBoundLoop] at h
    revert h
    generalize (if c = true then decide (cmp k key = 0) || decide (cmp k key < 0) && !strict
      else decide (cmp k key = 1) || decide (cmp k key < 0) && !strict) = sat
    have hc' : ∀ x, (if sat = true then some (node a k v l r, path) else cand) = some x → x.1 ≠ nil := by
      intro x hx
      cases sat
      · exact hc x hx
      · cases hx; simp
    generalize (if c = true then if cmp k key = 0 then false else if cmp k key < 0 then strict else true
      else if cmp k key = 1 then true else if cmp k key < 0 then !strict else false) = mv
    intro h
    split at h
    · split at h
      · cases h; exact hc'
      · split at h
        · exact bound_ne hc' h
        · cases h
    · split at h
      · cases h; exact hc'
      · split at h
        · exact bound_ne hc' h
        · cases h

theorem seekBound_sim {m : Mem K V} {F : Nat} {root : P K V} (hR : Rep m root) (hF : root.height < F)
    {it : Iter (Nat × Int) K V} {key : K} {c strict : Bool} {pit : PIter} (hp : pit.cap = it.cap) :
    seekBound cmp m F (ptr root) key c strict pit =
      (it.seekBound cmp root key c strict).map fun p => (toP p.1, p.2) := by
  have h1 := boundLoop_sim (cmp := cmp) (cap := it.cap) (key := key) (c := c) (strict := strict)
    (path := []) (cand := none) (ex := false) hR hF
  simp only [seekBound, Iter.seekBound, hp]
  rw [show ([] : List (Nat × Bool)) = ([] : List (P K V × Bool)).map toE from rfl,
    show (none : Cand) = toC (none : Option (P K V × List (P K V × Bool))) from rfl, h1]
  have h2 := fun p => bound_ne (cmp := cmp) (cap := it.cap) (key := key) (c := c) (strict := strict)
    (t := root) (path := []) (cand := none) (ex := false) (p := p) (by simp)
  cases hq : Avl.seekBoundLoop cmp it.cap key c strict root [] none false with
  | none => rfl
  | some q =>
    obtain ⟨cd, ex⟩ := q
    cases cd with
    | none => rfl
    | some x =>
      obtain ⟨n, stk⟩ := x
      have h3 := h2 _ hq (n, stk) rfl
      cases n with
      | nil => exact absurd rfl h3
      | node a k v l r => rfl

/-! ### Calls that keep the nodes -/

/-- A call that does not change the number of entries writes at most one entry. -/
theorem step_same {d : Int} {zero : V} {s s' : PMap K V} {m : Avl.Map K V}
    (h : MRel s m) {op : Op K V} {r : Res K V} (hs : step cmp d zero s op = some (s', r))
    (hz : s'.size = s.size) : ∃ a f, s'.mem = write s.mem a f := by
  have same : s'.mem = s.mem → ∃ a f, s'.mem = write s.mem a f := fun h =>
    ⟨0, id, by rw [write_id, h]⟩
  have hput : ∀ k v, putM cmp d zero s k v = some s' → ∃ a f, s'.mem = write s.mem a f := by
    intro k v h
    simp only [putM, Option.map_eq_some_iff] at h
    obtain ⟨p, h1, h2⟩ := h
    rw [← h2] at hz; simp at hz
  have hset : ∀ k v b, setM cmp d zero s k v = some (s', b) → ∃ a f, s'.mem = write s.mem a f := by
    intro k v b h
    simp only [setM, Option.bind_eq_some_iff] at h
    obtain ⟨e, -, h1⟩ := h
    cases e with
    | some cur => cases h1; exact ⟨cur, fun e => (e.1, v), rfl⟩
    | none =>
      simp only [Option.map_eq_some_iff] at h1
      obtain ⟨q, h1, h2⟩ := h1
      cases h2
      exact hput k v h1
  have hrem : ∀ k o, removeM cmp d s k = some (s', o) → ∃ a f, s'.mem = write s.mem a f := by
    intro k o h2
    simp only [removeM, Option.map_eq_some_iff] at h2
    obtain ⟨⟨m1, o1, b1⟩, h1, h2⟩ := h2
    obtain ⟨hs, t, ht, hH, hlen⟩ := h
    have h3 := removeLeft_ok (cmp := cmp) (d := d) (key := k) hH.rep hH.nodup hH.root
      hH.center (List.nodup_cons.1 hH.nodup).1 hH.height
    rw [h1] at h3
    obtain ⟨q', -, -, t', gone, -, h5, h6⟩ := h3.some_left
    have h7 := h5.perm.length_eq
    simp only [List.length_append, List.length_nil, h6, ← hlen] at h7
    cases h2
    simp only at hz
    cases o1 with
    | none => exact same (removeLeft_none h1).1
    | some v => simp at h7 hz; omega
  cases op with
  | put k v => simp only [step, Option.map_eq_some_iff] at hs; obtain ⟨q, h1, h2⟩ := hs; cases h2
               exact hput k v h1
  | insertIfAbsent k v =>
    simp only [step, Option.map_eq_some_iff] at hs; obtain ⟨q, h1, h2⟩ := hs; cases h2
    simp only [insertIfAbsentM, Option.bind_eq_some_iff] at h1
    obtain ⟨e, -, h1⟩ := h1
    split at h1
    · cases h1; exact same rfl
    · simp only [Option.map_eq_some_iff] at h1
      obtain ⟨q', h1, h2⟩ := h1
      cases h2
      exact hput k v h1
  | set k v => simp only [step, Option.map_eq_some_iff] at hs; obtain ⟨q, h1, h2⟩ := hs; cases h2
               exact hset k v q.2 h1
  | upsert k v => simp only [step, Option.map_eq_some_iff] at hs; obtain ⟨q, h1, h2⟩ := hs; cases h2
                  exact hset k v q.2 h1
  | remove k => simp only [step, Option.map_eq_some_iff] at hs; obtain ⟨q, h1, h2⟩ := hs; cases h2
                exact hrem k q.2 h1
  | delete k => simp only [step, Option.map_eq_some_iff] at hs; obtain ⟨q, h1, h2⟩ := hs; cases h2
                exact hrem k q.2 h1
  | clear =>
    cases hs
    obtain ⟨-, t, -, hH, hlen⟩ := h
    cases t with
    | nil =>
      have h1 : (s.mem 0).hi = none := hH.root
      refine same ?_
      funext b
      simp only [link, upd, Cell.setKid, if_true]
      split
      · next e => rw [e, ← h1]
      · rfl
    | node a k v l r => simp [addrs] at hlen; simp at hz; omega
  | get k => simp only [step, Option.map_eq_some_iff] at hs; obtain ⟨q, h1, h2⟩ := hs; cases h2; exact same rfl
  | size => cases hs; exact same rfl
  | len => cases hs; exact same rfl
  | height => simp only [step, Option.map_eq_some_iff] at hs; obtain ⟨q, h1, h2⟩ := hs; cases h2; exact same rfl
  | values =>
    simp only [step] at hs
    split at hs
    · cases hs; exact same rfl
    · simp only [Option.map_eq_some_iff] at hs; obtain ⟨q, h1, h2⟩ := hs; cases h2; exact same rfl
  | traverse e => simp only [step, Option.map_eq_some_iff] at hs; obtain ⟨q, h1, h2⟩ := hs; cases h2; exact same rfl

/-! ### One call -/

/-- The tree, the iterator, the entries and the cursor belong together. -/
def CInv (cmp : K → K → Int) (q : PMap K V × PIter)
    (x : List (K × V) × Option (Option Int)) : Prop :=
  ∃ m t, MRel q.1 m ∧ Inv cmp 2 m ∧ Rel cmp m x.1 ∧ x.1.length < 2 ^ 63 ∧ Holds q.1 t ∧
    erase t = m.root ∧ ∀ p, x.2 = some p → ∃ ai, toP ai = q.2 ∧ Place t ai p

theorem height_rec {s : PMap K V} {m : Avl.Map K V} {t : P K V}
    (hM : MRel s m) (hI : Inv cmp 2 m) (ht : erase t = m.root) : s.height = some (t.height : Int) := by
  have h1 := height_eq' hM
  rw [h1, Avls.height_eq hI.rel.size, hI.good.1.hgt, ← ht, height_erase]
where
  height_eq' {s : PMap K V} {m : Avl.Map K V} (h : MRel s m) : s.height = m.height := by
    obtain ⟨hz, t, ht, hH, -⟩ := h
    have hroot : s.root = ptr t := hH.root
    simp only [PMap.height, Avl.Map.height, hz, hroot, ← ht]
    split
    · rfl
    · match t, hH with
      | nil, _ => rfl
      | node a k v l r, hH => simp [hH.rep.1]; rfl

/-- A seek, wherever the iterator was before. -/
theorem istep_seek {s : PMap K V} {t : P K V} (hH : Holds s t) {op : IOp K}
    (ho : isSeek op = true) {ai ai' : Iter (Nat × Int) K V} {r : IRes K V}
    (h : Avl.istep cmp true t ai op = some (ai', r)) {pit : PIter} (hp : pit.cap = ai.cap) :
    istep cmp s pit op = some (toP ai', r) := by
  have hF : 2 * t.height + 2 ≤ 2 * s.free + 2 := by have := hH.height; omega
  have hr : s.root = ptr t := hH.root
  have e1 : ∀ c, (∃ i, ai.seekEnd t c = some i ∧ (i, IRes.unit) = (ai', r)) →
      (pit.seekEnd s.mem (2 * s.free + 2) s.root c).map (fun i => (i, IRes.unit)) =
        some (toP ai', r) := by
    rintro c ⟨i, h1, h2⟩
    cases h2
    rw [hr, (seekEnd_sim hF hH.rep (Nat.le_refl _) h1 hp).1]
    rfl
  have e2 : ∀ k c strict, (∃ i, ai.seekBound cmp t k c strict = some i ∧
      (i.1, IRes.bool i.2) = (ai', r)) →
      (seekBound cmp s.mem (2 * s.free + 2) s.root k c strict pit).map (fun p => (p.1, IRes.bool p.2)) =
        some (toP ai', r) := by
    rintro k c strict ⟨i, h1, h2⟩
    cases h2
    rw [hr, seekBound_sim hH.rep (by omega) hp, h1]
    rfl
  cases op <;> simp [isSeek] at ho <;>
    simp only [Avl.istep, Avl.istep.seek, if_true, Option.map_eq_some_iff] at h
  · exact e1 _ h
  · exact e1 _ h
  · exact e2 _ _ _ h
  · exact e2 _ _ _ h
  · exact e2 _ _ _ h
  · exact e2 _ _ _ h

/-- A call of an iterator in its place. -/
theorem istep_sim {s : PMap K V} {m : Avl.Map K V} {t : P K V}
    (hM : MRel s m) (hI : Inv cmp 2 m) (ht : erase t = m.root) (hH : Holds s t) {op : IOp K}
    {ai ai' : Iter (Nat × Int) K V} {r : IRes K V} {p p' : Option Int} (hP : Place t ai p)
    (h : Avl.istep cmp true t ai op = some (ai', r)) (hP' : Place t ai' p') :
    ∃ bi, istep cmp s (toP ai) op = some (toP bi, r) ∧ Place t bi p' := by
  have hW := Place.W hP hH.rep
  have hF : 2 * t.height + 2 ≤ 2 * s.free + 2 := by have := hH.height; omega
  by_cases ho : isSeek op = true
  · exact ⟨ai', istep_seek hH ho h rfl, hP'⟩
  · cases op <;> simp [isSeek] at ho
    · simp only [Avl.istep, Option.map_eq_some_iff] at h
      obtain ⟨i, h1, h2⟩ := h
      cases h2
      refine ⟨ai', ?_, hP'⟩
      simp only [istep]
      rw [(move_sim hF hW h1).1]
      rfl
    · simp only [Avl.istep, Option.map_eq_some_iff] at h
      obtain ⟨i, h1, h2⟩ := h
      cases h2
      refine ⟨ai', ?_, hP'⟩
      simp only [istep]
      rw [(move_sim hF hW h1).1]
      rfl
    · cases h
      refine ⟨ai, ?_, hP'⟩
      simp only [istep, toP]
      cases ai.cur <;> rfl
    · simp only [Avl.istep] at h
      split at h
      · cases h
      · next a k v l r' hc =>
        cases h
        refine ⟨ai, ?_, hP'⟩
        have := hW.cur
        rw [hc] at this
        simp [istep, toP, hc, this.1]
    · cases h
      refine ⟨⟨t.height, ai.cur, ai.stk⟩, ?_, Place.recap hP' (Nat.le_refl _)⟩
      simp only [istep, PMap.iterator, height_rec hM hI ht, Option.bind_some]
      rw [if_neg (by omega)]
      simp only [Option.bind_some, toP, Int.toNat_natCast]

theorem cstep_ok (hc : LawfulEx cmp) (zero : V)
    {q : PMap K V × PIter} {x : List (K × V) × Option (Option Int)} {op : COp K V}
    (hl : clegal (ord cmp) x op) (hC : CInv cmp q x)
    (hcap : ∀ h, q.1.height = some h → h ≤ q.2.cap) :
    ∃ q', cstep cmp 2 zero q op = some (q', (cspec (ord cmp) x op).2) ∧
      CInv cmp q' (cspec (ord cmp) x op).1 := by
  obtain ⟨m, t, hM, hI, hR, hx, hH, ht, hP⟩ := hC
  obtain ⟨s, it⟩ := q
  obtain ⟨xs, st⟩ := x
  simp only at hM hR hx hH hP hcap
  have hlist : t.toList = xs := by rw [← toList_erase, ht, hR.list]
  have hsorted : SortedLE (ord cmp) t.toList := by rw [hlist]; exact hR.sorted
  cases op with
  | call op =>
    obtain ⟨ha, hr⟩ := hl
    simp only at hr
    obtain ⟨m', r, h1, h2⟩ := Avls.step_ok hc Avls.cfg hI (Avls.height_small hR hI.good hx) op
    obtain ⟨h3, h4⟩ := Avls.step_partial hc hR h1
    replace h3 := h3 ha
    have h5 := step_sim (cmp := cmp) (d := 2) (zero := zero) hM op
    rw [h1] at h5
    obtain ⟨⟨s', r'⟩, h6, h7, h8⟩ := h5.some_right
    simp only at h7 h8
    subst h7
    obtain ⟨hz, t', ht', hH', hlen'⟩ := id h8
    refine ⟨(s', it), by simp only [cstep, h6, cspec, h3, Option.map_some], m', t', h8, h2, h4, hr, hH',
      ht', ?_⟩
    intro p hp
    simp only [cspec] at hp
    split at hp
    · next hlen =>
      obtain ⟨ai, h9, h10⟩ := hP p hp
      obtain ⟨a, f, h11⟩ := step_same hM h6 (by
        rw [hz, h4.size, hM.1, hR.size, hlen])
      refine ⟨⟨ai.cap, mapN (fun b k v => if b.1 = a then f (k, v) else (k, v)) ai.cur,
        mapS (fun b k v => if b.1 = a then f (k, v) else (k, v)) ai.stk⟩, by rw [toP_mapN, h9], ?_⟩
      have h12 : mapN (fun b k v => if b.1 = a then f (k, v) else (k, v)) t = t' := by
        refine rep_unique (m := s'.mem) ?_ hH'.rep ?_
        · rw [h11]; exact rep_write hH.rep (List.nodup_cons.1 hH.nodup).2
        · rw [ptr_mapN, ← hH.root, ← hH'.root, h11]
          simp only [write, upd, Cell.kid, if_true]
          by_cases h0 : 0 = a
          · subst h0; rfl
          · rw [if_neg h0]
      rw [← h12]
      exact Place.mapN _ h10
    · cases hp
  | iter op =>
    cases st with
    | some p =>
      obtain ⟨ai, h1, h2⟩ := hP p rfl
      simp only [clegal] at hl
      rw [← hlist] at hl
      obtain ⟨ai', h3, h4⟩ := Avl.istep_ok (A := Nat × Int) hc true (by simpa using hsorted) hl h2
      obtain ⟨bi, h5, h6⟩ := istep_sim hM hI ht hH h2 h3 h4
      refine ⟨(s, toP bi), ?_, m, t, hM, hI, hR, hx, hH, ht, ?_⟩
      · simp only [cstep, cspec, ← h1, h5, Option.map_some, hlist]
      · intro p' hp'
        simp only [cspec, Option.some.injEq] at hp'
        rw [hlist] at h6
        exact ⟨bi, rfl, hp' ▸ h6⟩
    | none =>
      simp only [clegal] at hl
      rcases hl with ho | ho
      · have hca : t.height ≤ it.cap := by
          have := hcap _ (height_rec hM hI ht); omega
        have h2 : Place t ⟨it.cap, nil, []⟩ none := .unset hca rfl rfl
        obtain ⟨ai', h3, h4⟩ := Avl.istep_ok (A := Nat × Int) hc true (op := op)
          (by simpa using hsorted) (by cases op <;> trivial) h2
        have e : cspec (ord cmp) (xs, none) (.iter op) = ((xs, some (ispec (ord cmp) true xs none op).1),
            .iter (ispec (ord cmp) true xs none op).2) := by simp only [cspec, ho, if_true]
        rw [e]
        refine ⟨(s, toP ai'), ?_, m, t, hM, hI, hR, hx, hH, ht, ?_⟩
        · simp only [cstep]
          rw [istep_seek hH ho h3 (pit := it) rfl, hlist]
          rfl
        · intro p' hp'
          simp only [Option.some.injEq] at hp'
          rw [hlist] at h4
          exact ⟨ai', rfl, hp' ▸ h4⟩
      · cases op <;> simp at ho
        refine ⟨(s, ⟨t.height, it.cur, it.stk⟩), ?_, m, t, hM, hI, hR, hx, hH, ht, ?_⟩
        · simp only [cstep, cspec, istep, PMap.iterator, height_rec hM hI ht, Option.bind_some]
          rw [if_neg (by omega)]
          simp [isSeek]
        · intro p' hp'
          simp [cspec, isSeek] at hp'

/-- The array of the iterator is at no time shorter than the tree is high: for every beginning of the
history, `Height()` is at most what it was when the iterator (or its last clone) was made. -/
def Roomy (cmp : K → K → Int) (zero : V) (q : PMap K V × PIter) (os : List (COp K V)) : Prop :=
  ∀ os₁, os₁ <+: os → ∀ q' rs, run (cstep cmp 2 zero) q os₁ = some (q', rs) →
    ∀ h, q'.1.height = some h → h ≤ q'.2.cap

theorem crun_ok (hc : LawfulEx cmp) (zero : V) :
    ∀ (os : List (COp K V)) {q : PMap K V × PIter} {x : List (K × V) × Option (Option Int)},
    CInv cmp q x → LegalRun (cspec (ord cmp)) (clegal (ord cmp)) x os → Roomy cmp zero q os →
    ∃ q', run (cstep cmp 2 zero) q os = some (q', (runSpec (cspec (ord cmp)) x os).2) ∧
      CInv cmp q' (runSpec (cspec (ord cmp)) x os).1
  | [], q, x, hC, _, _ => ⟨q, rfl, hC⟩
  | o :: os, q, x, hC, hl, hr => by
    obtain ⟨q1, h1, h2⟩ := cstep_ok hc zero hl.1 hC (hr [] (List.nil_prefix) _ _ rfl)
    obtain ⟨q2, h3, h4⟩ := crun_ok hc zero os h2 hl.2 fun os₁ hp q' rs h =>
      hr (o :: os₁) (List.prefix_cons_inj o |>.2 hp) q' (_ :: rs) (by simp only [run, h1, h]; rfl)
    exact ⟨q2, by simp only [run, h1, h3, runSpec], h4⟩

/-- The state after a history of the tree, with a new iterator. -/
theorem start_ok (hc : LawfulEx cmp) (zero : V) (junk : K × V) {os : List (Op K V)}
    (hf : ∀ os₁, os₁ <+: os → (runSpec (spec (ord cmp)) [] os₁).1.length < 2 ^ 63) :
    ∃ s rs it, run (step cmp 2 zero) (PMap.new junk) os = some (s, rs) ∧ s.iterator = some it ∧
      CInv cmp (s, it) ((runSpec (spec (ord cmp)) [] os).1, some none) := by
  obtain ⟨m, rs, h1, h2, h3⟩ := Avls.run_ok hc hf
  have h4 := run_sim (cmp := cmp) (d := 2) (zero := zero) os (MRel.new junk)
  rw [h1] at h4
  obtain ⟨⟨s, rs'⟩, h5, -, h6⟩ := h4.some_right
  obtain ⟨-, t, ht, hH, -⟩ := id h6
  refine ⟨s, rs', ⟨t.height, none, []⟩, h5, ?_, m, t, h6, h2, h3, hf os (List.prefix_refl _), hH, ht, ?_⟩
  · simp only [PMap.iterator, height_rec h6 h2 ht, Option.bind_some]
    rw [if_neg (by omega)]
    simp
  · intro p hp
    cases hp
    exact ⟨⟨t.height, nil, []⟩, rfl, .unset (Nat.le_refl _) rfl rfl⟩

end Verif.AvlsHeap
