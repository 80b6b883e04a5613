import Verif.Tree.AvlHeapIterLemmas
import Verif.Tree.AvlProps

/-! Iterators of tree/avl and set/treeset while the map is modified: specification and lemmas. -/

namespace Verif.AvlHeap
open Avl (Iter Place IOp IRes Op Res Fits spec ord ispec ilegal room Cfg Inv Rel)
open Verif.Tree
variable {K V : Type} {cmp : K → K → Int}

/-! ### The specification: a list of entries and a cursor -/

/-- The calls that place an iterator. -/
def isSeek : IOp K → Bool
  | .seekToFirst | .seekToLast | .seekGE _ | .seekGT _ | .seekLE _ | .seekLT _ => true
  | _ => false

/-- The entries, and the cursor; `none`: the iterator must be placed by a seek before it is used. A
call that adds or removes an entry (only then the number of entries changes) has this effect. Other
calls of the map leave the cursor where it is. -/
def cspec (o : K → K → Ordering) (x : List (K × V) × Option (Option Int)) :
    COp K V → (List (K × V) × Option (Option Int)) × CRes K V
  | .call op =>
    let q := spec o x.1 op
    ((q.1, if q.1.length = x.1.length then x.2 else none), .call q.2)
  | .iter op =>
    match x.2 with
    | some p => let q := ispec o false x.1 p op; ((x.1, some q.1), .iter q.2)
    | none =>
      if isSeek op then let q := ispec o false x.1 none op; ((x.1, some q.1), .iter q.2)
      else (x, .iter .unit)

/-- Which calls are covered: those of the map while it has fewer than `room d` entries, those of the
iterator that `ilegal` permits when it has a place; without one only a seek in a map that is not empty,
and in tree/avl also `Clone`. -/
def clegal (o : K → K → Ordering) (one : Bool) (d : Int) (x : List (K × V) × Option (Option Int)) :
    COp K V → Prop
  | .call op => op.abstract = true ∧ (spec o x.1 op).1.length < room d
  | .iter op =>
    match x.2 with
    | some p => ilegal x.1 p op
    | none => (isSeek op = true ∧ x.1 ≠ []) ∨ (op matches .clone ∧ one = false)

/-! ### Calls that keep the nodes -/

theorem write_id (m : Mem K V) (a : Nat) : write m a id = m := by
  funext b; simp only [write, upd, id]; split <;> simp_all

theorem put_same {one : Bool} {d : Int} {zero : V} {free : Nat} {key : K} : ∀ {n : Nat}
    {m : Mem K V} {a : Nat} {c : Bool} {p : Put K V}, put cmp one d zero free key n m a c = some p →
    p.ex = true → p.mem = m
  | 0, _, _, _, _, h, _ => by cases h
  | n + 1, m, a, c, p, h, he => by
    simp only [put] at h
    split at h
    · cases h; cases he
    · split at h
      · cases h; rfl
      · simp only [Option.bind_eq_some_iff] at h
        obtain ⟨x, -, q, h1, h2⟩ := h
        split at h2
        · cases h2; exact put_same h1 he
        · next h3 =>
          simp only [Option.map_eq_some_iff] at h2
          obtain ⟨y, -, rfl⟩ := h2
          simp only at he
          simp [he] at h3

theorem remove_same {one : Bool} {d : Int} {key : K} : ∀ {n : Nat} {m : Mem K V} {g : Nat}
    {c2 c : Bool} {p : Mem K V × Option V × Bool}, remove cmp one d key n m g c2 c = some p →
    p.2.1 = none → p.1 = m ∧ p.2.2 = false
  | 0, _, _, _, _, _, h, _ => by cases h
  | n + 1, m, g, c2, c, p, h, he => by
    simp only [remove, Option.bind_eq_some_iff] at h
    obtain ⟨par, -, h⟩ := h
    split at h
    · cases h; exact ⟨rfl, rfl⟩
    · split at h
      · split at h
        · cases h; cases he
        · split at h
          · cases h; cases he
          · simp only [Option.bind_eq_some_iff, Option.map_eq_some_iff] at h
            obtain ⟨q, -, y, -, rfl⟩ := h
            cases he
      · simp only [Option.bind_eq_some_iff] at h
        obtain ⟨x, -, q, h1, h2⟩ := h
        split at h2
        · next h3 =>
          simp only [Option.map_eq_some_iff] at h2
          obtain ⟨y, -, rfl⟩ := h2
          have := remove_same h1 he
          rw [this.2] at h3
          cases h3.2
        · cases h2; exact remove_same h1 he

/-- A call that does not change the number of entries writes at most one entry. -/
theorem step_same {one : Bool} {d : Int} {zero : V} {s s' : PMap K V} {m : Avl.Map K V}
    (h : MRel s m) {op : Op K V} {r : Res K V} (hs : step cmp one d zero s op = some (s', r))
    (hz : s'.size = s.size) : ∃ a f, s'.mem = write s.mem a f := by
  have same : s'.mem = s.mem → ∃ a f, s'.mem = write s.mem a f := fun h =>
    ⟨0, id, by rw [write_id, h]⟩
  have hput : ∀ k v b, s.put cmp one d zero k v = some (s', b) → ∃ a f, s'.mem = write s.mem a f := by
    intro k v b h
    simp only [PMap.put, Option.map_eq_some_iff] at h
    obtain ⟨p, h1, h2⟩ := h
    split at h2
    · next he => cases h2; exact same (put_same h1 he)
    · cases h2; simp at hz
  have hset : ∀ k v b, s.set cmp one d zero k v = some (s', b) → ∃ a f, s'.mem = write s.mem a f := by
    intro k v b h
    simp only [PMap.set, Option.map_eq_some_iff] at h
    obtain ⟨p, h1, h2⟩ := h
    split at h2
    · next he => cases h2; exact ⟨_, _, by rw [put_same h1 he]⟩
    · cases h2; simp at hz
  have hrem : ∀ k o, s.remove cmp one d k = some (s', o) → ∃ a f, s'.mem = write s.mem a f := by
    intro k o h2
    simp only [PMap.remove, Option.map_eq_some_iff] at h2
    obtain ⟨p, h1, h2⟩ := h2
    obtain ⟨hs, t, ht, hH, hlen⟩ := h
    have h3 := remove_ok (cmp := cmp) (one := one) (d := d) (key := k) hH.rep hH.nodup hH.root
      hH.center (List.nodup_cons.1 hH.nodup).1 hH.height
    rw [h1] at h3
    obtain ⟨q', -, -, t', gone, -, h5, h6⟩ := h3.some_left
    have h7 := h5.perm.length_eq
    simp only [List.length_append, List.length_nil, h6, ← hlen] at h7
    cases h2
    simp only at hz
    cases ho : p.2.1 with
    | none => exact same (remove_same h1 ho).1
    | some v => rw [ho] at h7 hz; simp at h7 hz; omega
  cases op with
  | put k v => simp only [step, Option.map_eq_some_iff] at hs; obtain ⟨q, h1, h2⟩ := hs; cases h2
               exact hput k v q.2 h1
  | insertIfAbsent k v =>
    simp only [step, Option.map_eq_some_iff] at hs; obtain ⟨q, h1, h2⟩ := hs; cases h2
    exact hput k v q.2 h1
  | set k v => simp only [step, Option.map_eq_some_iff] at hs; obtain ⟨q, h1, h2⟩ := hs; cases h2
               exact hset k v q.2 h1
  | upsert k v =>
    simp only [step, Option.map_eq_some_iff] at hs; obtain ⟨q, h1, h2⟩ := hs; cases h2
    simp only [PMap.upsert, Option.bind_eq_some_iff] at h1
    obtain ⟨e, -, h1⟩ := h1
    cases e with
    | some cur => cases h1; exact ⟨cur, fun e => (e.1, v), rfl⟩
    | none =>
      simp only [Option.map_eq_some_iff] at h1
      obtain ⟨q', h1, rfl⟩ := h1
      exact hset k v q'.2 h1
  | remove k => simp only [step, Option.map_eq_some_iff] at hs; obtain ⟨q, h1, h2⟩ := hs; cases h2
                exact hrem k q.2 h1
  | delete k => simp only [step, Option.map_eq_some_iff] at hs; obtain ⟨q, h1, h2⟩ := hs; cases h2
                exact hrem k q.2 h1
  | clear =>
    cases hs
    obtain ⟨-, t, -, hH, hlen⟩ := h
    cases t with
    | nil =>
      have h1 : (s.mem 0).hi = none := hH.root
      refine same ?_
      funext b
      simp only [link, upd, Cell.setKid, if_true]
      split
      · next e => rw [e, ← h1]
      · rfl
    | node a k v l r => simp [addrs] at hlen; simp at hz; omega
  | get k => simp only [step, Option.map_eq_some_iff] at hs; obtain ⟨q, h1, h2⟩ := hs; cases h2; exact same rfl
  | contains k => simp only [step, Option.map_eq_some_iff] at hs; obtain ⟨q, h1, h2⟩ := hs; cases h2; exact same rfl
  | size => cases hs; exact same rfl
  | len => cases hs; exact same rfl
  | empty => cases hs; exact same rfl
  | height => simp only [step, Option.map_eq_some_iff] at hs; obtain ⟨q, h1, h2⟩ := hs; cases h2; exact same rfl
  | values =>
    simp only [step] at hs
    split at hs
    · cases hs; exact same rfl
    · simp only [Option.map_eq_some_iff] at hs; obtain ⟨q, h1, h2⟩ := hs; cases h2; exact same rfl
  | traverse e => simp only [step, Option.map_eq_some_iff] at hs; obtain ⟨q, h1, h2⟩ := hs; cases h2; exact same rfl

/-! ### One call -/

/-- The map, the iterator, the entries and the cursor belong together. -/
def CInv (cmp : K → K → Int) (d : Int) (q : PMap K V × PIter)
    (x : List (K × V) × Option (Option Int)) : Prop :=
  ∃ m t, MRel q.1 m ∧ Inv cmp d m ∧ Rel cmp m x.1 ∧ x.1.length < room d ∧ Holds q.1 t ∧
    erase t = m.root ∧ ∀ p, x.2 = some p → ∃ ai, toP ai = q.2 ∧ Place t ai p

theorem holds_unique {s : PMap K V} {t t' : P K V} (h : Holds s t) (h' : Holds s t') : t = t' :=
  rep_unique h.rep h'.rep (h.root.symm.trans h'.root)

theorem height_rec {d : Int} {s : PMap K V} {m : Avl.Map K V} {t : P K V} (zero : V)
    (hM : MRel s m) (hI : Inv cmp d m) (ht : erase t = m.root) : s.height = some (t.height : Int) := by
  have h1 := step_sim (cmp := cmp) (one := false) (d := d) (zero := zero) hM .height
  rw [Avl.step_height hI.rel] at h1
  obtain ⟨⟨s1, r1⟩, h2, h3, -⟩ := h1.some_right
  simp only [step, Option.map_eq_some_iff] at h2
  obtain ⟨hh, h4, h5⟩ := h2
  cases h5
  simp only [Res.int.injEq] at h3
  rw [h4, h3, hI.good.1.hgt, ← ht, height_erase]

/-- A seek, wherever the iterator was before. -/
theorem istep_seek {one : Bool} {s : PMap K V} {t : P K V} (hH : Holds s t) {op : IOp K}
    (ho : isSeek op = true) {ai ai' : Iter (Nat × Int) K V} {r : IRes K V}
    (h : Avl.istep cmp false t ai op = some (ai', r)) {pit : PIter} (hp : pit.cap = ai.cap)
    (he : t = nil → pit = toP ai ∧ W s.mem t.height ai) :
    istep cmp one s pit op = some (toP ai', r) := by
  have hF : 2 * t.height + 2 ≤ 2 * s.free + 2 := by have := hH.height; omega
  have hr : s.root = ptr t := hH.root
  have e1 : ∀ c, (∃ i, ai.seekEnd t c = some i ∧ (i, IRes.unit) = (ai', r)) →
      (pit.seekEnd s.mem (2 * s.free + 2) s.root c).map (fun i => (i, IRes.unit)) =
        some (toP ai', r) := by
    rintro c ⟨i, h1, h2⟩
    cases h2
    rw [hr, (seekEnd_sim hF hH.rep (Nat.le_refl _) h1 hp).1]
    rfl
  have e2 : ∀ k c strict, (∃ i, ai.seek cmp t k c strict = some i ∧
      (i.1, IRes.bool i.2) = (ai', r)) →
      (pit.seek cmp s.mem (2 * s.free + 2) s.root k c strict).map (fun p => (p.1, IRes.bool p.2)) =
        some (toP ai', r) := by
    rintro k c strict ⟨i, h1, h2⟩
    cases h2
    rw [hr, (seek_sim hF hH.rep (Nat.le_refl _) h1 hp he).1]
    rfl
  cases op <;> simp [isSeek] at ho <;>
    simp only [Avl.istep, Avl.istep.seek, Bool.false_eq_true, if_false, Option.map_eq_some_iff] at h
  · exact e1 _ h
  · exact e1 _ h
  · exact e2 _ _ _ h
  · exact e2 _ _ _ h
  · exact e2 _ _ _ h
  · exact e2 _ _ _ h

/-- A call of an iterator in its place. -/
theorem istep_sim {one : Bool} {d : Int} (zero : V) {s : PMap K V} {m : Avl.Map K V} {t : P K V}
    (hM : MRel s m) (hI : Inv cmp d m) (ht : erase t = m.root) (hH : Holds s t) {op : IOp K}
    {ai ai' : Iter (Nat × Int) K V} {r : IRes K V} {p p' : Option Int} (hP : Place t ai p)
    (h : Avl.istep cmp false t ai op = some (ai', r)) (hP' : Place t ai' p') :
    ∃ bi, istep cmp one s (toP ai) op = some (toP bi, r) ∧ Place t bi p' := by
  have hW := Place.W hP hH.rep
  have hF : 2 * t.height + 2 ≤ 2 * s.free + 2 := by have := hH.height; omega
  by_cases ho : isSeek op = true
  · exact ⟨ai', istep_seek hH ho h rfl (fun _ => ⟨rfl, hW⟩), hP'⟩
  · cases op <;> simp [isSeek] at ho
    · simp only [Avl.istep, Option.map_eq_some_iff] at h
      obtain ⟨i, h1, h2⟩ := h
      cases h2
      refine ⟨ai', ?_, hP'⟩
      simp only [istep]
      rw [(move_sim hF hW h1).1]
      rfl
    · simp only [Avl.istep, Option.map_eq_some_iff] at h
      obtain ⟨i, h1, h2⟩ := h
      cases h2
      refine ⟨ai', ?_, hP'⟩
      simp only [istep]
      rw [(move_sim hF hW h1).1]
      rfl
    · cases h
      refine ⟨ai, ?_, hP'⟩
      simp only [istep, toP]
      cases ai.cur <;> rfl
    · simp only [Avl.istep] at h
      split at h
      · cases h
      · next a k v l r' hc =>
        cases h
        refine ⟨ai, ?_, hP'⟩
        have := hW.cur
        rw [hc] at this
        simp [istep, toP, hc, this.1]
    · cases h
      refine ⟨⟨t.height, ai.cur, ai.stk⟩, ?_, Place.recap hP' (Nat.le_refl _)⟩
      have := Place.short hP
      simp only [istep, PMap.iterator, height_rec zero hM hI ht, Option.bind_some]
      rw [if_neg (by omega)]
      simp only [Option.bind_some, toP, List.length_map, Int.toNat_natCast]
      rw [if_neg (by omega)]

theorem cstep_ok (hc : LawfulEx cmp) {one : Bool} {d : Int} (cfg : Cfg one d) (zero : V)
    {q : PMap K V × PIter} {x : List (K × V) × Option (Option Int)} {op : COp K V}
    (hl : clegal (ord cmp) one d x op) (hC : CInv cmp d q x)
    (hcap : ∀ h, q.1.height = some h → h ≤ q.2.cap) :
    ∃ q', cstep cmp one d zero q op = some (q', (cspec (ord cmp) x op).2) ∧
      CInv cmp d q' (cspec (ord cmp) x op).1 := by
  obtain ⟨m, t, hM, hI, hR, hx, hH, ht, hP⟩ := hC
  obtain ⟨s, it⟩ := q
  obtain ⟨xs, st⟩ := x
  simp only at hM hR hx hH hP hcap
  have hlist : t.toList = xs := by rw [← toList_erase, ht, hR.list]
  have hsorted : Sorted (ord cmp) t.toList := by rw [hlist]; exact hR.sorted
  cases op with
  | call op =>
    obtain ⟨ha, hr⟩ := hl
    simp only at hr
    obtain ⟨m', r, h1, h2, -⟩ := Avl.step_ok hc cfg hI (Avl.height_of_room hR hI.good hx) op
    obtain ⟨h3, h4⟩ := Avl.step_partial hc ha hR h1
    have h5 := step_sim (cmp := cmp) (one := one) (d := d) (zero := zero) hM op
    rw [h1] at h5
    obtain ⟨⟨s', r'⟩, h6, h7, h8⟩ := h5.some_right
    simp only at h7 h8
    subst h7
    obtain ⟨hz, t', ht', hH', hlen'⟩ := id h8
    refine ⟨(s', it), by simp only [cstep, h6, cspec, h3, Option.map_some], m', t', h8, h2, h4, hr, hH',
      ht', ?_⟩
    intro p hp
    simp only [cspec] at hp
    split at hp
    · next hlen =>
      obtain ⟨ai, h9, h10⟩ := hP p hp
      obtain ⟨a, f, h11⟩ := step_same hM h6 (by
        rw [hz, h4.size, hM.1, hR.size, hlen])
      refine ⟨⟨ai.cap, mapN (fun b k v => if b.1 = a then f (k, v) else (k, v)) ai.cur,
        mapS (fun b k v => if b.1 = a then f (k, v) else (k, v)) ai.stk⟩, by rw [toP_mapN, h9], ?_⟩
      have h12 : mapN (fun b k v => if b.1 = a then f (k, v) else (k, v)) t = t' := by
        refine rep_unique (m := s'.mem) ?_ hH'.rep ?_
        · rw [h11]; exact rep_write hH.rep (List.nodup_cons.1 hH.nodup).2
        · rw [ptr_mapN, ← hH.root, ← hH'.root, h11]
          simp only [write, upd, Cell.kid, if_true]
          by_cases h0 : 0 = a
          · subst h0; rfl
          · rw [if_neg h0]
      rw [← h12]
      exact Place.mapN _ h10
    · cases hp
  | iter op =>
    cases st with
    | some p =>
      obtain ⟨ai, h1, h2⟩ := hP p rfl
      simp only [clegal] at hl
      rw [← hlist] at hl
      obtain ⟨ai', h3, h4⟩ := Avl.istep_ok (A := Nat × Int) hc false (by simpa using hsorted) hl h2
      obtain ⟨bi, h5, h6⟩ := istep_sim (one := one) zero hM hI ht hH h2 h3 h4
      refine ⟨(s, toP bi), ?_, m, t, hM, hI, hR, hx, hH, ht, ?_⟩
      · simp only [cstep, cspec, ← h1, h5, Option.map_some, hlist]
      · intro p' hp'
        simp only [cspec, Option.some.injEq] at hp'
        rw [hlist] at h6
        exact ⟨bi, rfl, hp' ▸ h6⟩
    | none =>
      simp only [clegal] at hl
      rcases hl with ⟨ho, hne⟩ | ⟨ho, hone⟩
      · have hnil : t ≠ nil := by rintro rfl; exact hne hlist.symm
        have hca : t.height ≤ it.cap := by
          have := hcap _ (height_rec zero hM hI ht); omega
        have h2 : Place t ⟨it.cap, nil, []⟩ none := .unset hca rfl rfl
        obtain ⟨ai', h3, h4⟩ := Avl.istep_ok (A := Nat × Int) hc false (op := op)
          (by simpa using hsorted) (by cases op <;> trivial) h2
        have e : cspec (ord cmp) (xs, none) (.iter op) = ((xs, some (ispec (ord cmp) false xs none op).1),
            .iter (ispec (ord cmp) false xs none op).2) := by simp only [cspec, ho, if_true]
        rw [e]
        refine ⟨(s, toP ai'), ?_, m, t, hM, hI, hR, hx, hH, ht, ?_⟩
        · simp only [cstep]
          rw [istep_seek (one := one) hH ho h3 (pit := it) rfl (fun h => absurd h hnil), hlist]
          rfl
        · intro p' hp'
          simp only [Option.some.injEq] at hp'
          rw [hlist] at h4
          exact ⟨ai', rfl, hp' ▸ h4⟩
      · cases op <;> simp at ho
        subst hone
        refine ⟨(s, ⟨t.height, it.cur, it.stk⟩), ?_, m, t, hM, hI, hR, hx, hH, ht, ?_⟩
        · simp only [cstep, cspec, istep, PMap.iterator, height_rec zero hM hI ht, Option.bind_some]
          rw [if_neg (by omega)]
          simp [isSeek]
        · intro p' hp'
          simp [cspec, isSeek] at hp'

/-- The array of the iterator is at no time shorter than the map is high: for every beginning of the
history, `Height()` is at most what it was when the iterator (or its last clone) was made. -/
def Roomy (cmp : K → K → Int) (one : Bool) (d : Int) (zero : V) (q : PMap K V × PIter)
    (os : List (COp K V)) : Prop :=
  ∀ os₁, os₁ <+: os → ∀ q' rs, run (cstep cmp one d zero) q os₁ = some (q', rs) →
    ∀ h, q'.1.height = some h → h ≤ q'.2.cap

theorem crun_ok (hc : LawfulEx cmp) {one : Bool} {d : Int} (cfg : Cfg one d) (zero : V) :
    ∀ (os : List (COp K V)) {q : PMap K V × PIter} {x : List (K × V) × Option (Option Int)},
    CInv cmp d q x → LegalRun (cspec (ord cmp)) (clegal (ord cmp) one d) x os →
    Roomy cmp one d zero q os →
    ∃ q', run (cstep cmp one d zero) q os = some (q', (runSpec (cspec (ord cmp)) x os).2) ∧
      CInv cmp d q' (runSpec (cspec (ord cmp)) x os).1
  | [], q, x, hC, _, _ => ⟨q, rfl, hC⟩
  | o :: os, q, x, hC, hl, hr => by
    obtain ⟨q1, h1, h2⟩ := cstep_ok hc cfg zero hl.1 hC (hr [] (List.nil_prefix) _ _ rfl)
    obtain ⟨q2, h3, h4⟩ := crun_ok hc cfg zero os h2 hl.2 fun os₁ hp q' rs h =>
      hr (o :: os₁) (List.prefix_cons_inj o |>.2 hp) q' (_ :: rs) (by simp only [run, h1, h]; rfl)
    exact ⟨q2, by simp only [run, h1, h3, runSpec], h4⟩

/-- The state after a history of the map, with a new iterator. -/
theorem start_ok (hc : LawfulEx cmp) {one : Bool} {d : Int} (cfg : Cfg one d) (zero : V)
    (junk : K × V) {os : List (Op K V)} (hf : Fits (ord cmp) d os) :
    ∃ s rs it, run (step cmp one d zero) (PMap.new junk) os = some (s, rs) ∧ s.iterator = some it ∧
      CInv cmp d (s, it) ((runSpec (spec (ord cmp)) [] os).1, some none) := by
  obtain ⟨m, rs, h1, h2, h3⟩ := Avl.run_ok hc cfg hf
  have h4 := run_sim (cmp := cmp) (one := one) (d := d) (zero := zero) os (MRel.new junk)
  rw [h1] at h4
  obtain ⟨⟨s, rs'⟩, h5, -, h6⟩ := h4.some_right
  obtain ⟨-, t, ht, hH, -⟩ := id h6
  refine ⟨s, rs', ⟨t.height, none, []⟩, h5, ?_, m, t, h6, h2, h3, hf os (List.prefix_refl _), hH, ht, ?_⟩
  · simp only [PMap.iterator, height_rec zero h6 h2 ht, Option.bind_some]
    rw [if_neg (by omega)]
    simp
  · intro p hp
    cases hp
    exact ⟨⟨t.height, nil, []⟩, rfl, .unset (Nat.le_refl _) rfl rfl⟩

end Verif.AvlHeap
