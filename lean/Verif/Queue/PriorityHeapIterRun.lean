import Verif.Queue.PriorityHeapIter
import Verif.Queue.PriorityHeapRun
import Verif.Queue.PriorityIter
import Verif.Tree.AvlHeapIterRun
import Verif.Tree.AvlHeapProps

/-! Iterators of queue/priority while the queue is modified: specification and lemmas. -/

namespace Verif.PriorityHeap
open Verif.AvlHeap (PIter Mem Rep P ptr addrs erase toP W rep_unique mapN mapS toP_mapN ptr_mapN rep_write
  isSeek move_sim seekEnd_sim seek_sim toList_erase height_erase write write_id link upd
  follow follow_none ptr_nil ptr_node Sim)
open Verif.Avl (Iter Place IOp IRes ord ispec ilegal)
open Priority (Op Res spec legal Rel cursor)
open Verif.Tree
variable {K V : Type} {cmp : K → K → Int}

/-! ### The specification: a list of entries and a cursor -/

/-- The entries, and the cursor; `none`: the iterator must be placed by a seek before it is used. A
call that adds or removes an entry (only then the number of entries changes) has this effect. Other
calls of the queue leave the cursor where it is. Where a seek goes, and the answers of the iterator,
are those of C54 (`Priority.cursor`). -/
def crel (o : K → K → Ordering) (x : List (K × V) × Option (Option Int)) (op : COp K V) (r : CRes K V)
    (x' : List (K × V) × Option (Option Int)) : Prop :=
  match op with
  | .call op =>
    x' = ((spec o x.1 op).1, if (spec o x.1 op).1.length = x.1.length then x.2 else none) ∧
      r = .call (spec o x.1 op).2
  | .iter op =>
    match x.2 with
    | some p => ∃ p' r', x' = (x.1, some p') ∧ r = .iter r' ∧ cursor o x.1 p op r' p'
    | none =>
      if isSeek op then ∃ p' r', x' = (x.1, some p') ∧ r = .iter r' ∧ cursor o x.1 none op r' p'
      else x' = x ∧ r = .iter .unit
  | .look => x' = x ∧ ∀ p, x.2 = some p → r = .look (Avl.entryAt x.1 p)

/-- The entries, and whether the iterator has a place. -/
def lspec (o : K → K → Ordering) (x : List (K × V) × Bool) : COp K V → (List (K × V) × Bool) × Unit
  | .call op => (((spec o x.1 op).1, x.2 && decide ((spec o x.1 op).1.length = x.1.length)), ())
  | .iter op => ((x.1, x.2 || isSeek op), ())
  | .look => (x, ())

/-- Which calls are covered: those of the queue but for `RemoveIndex` out of range, all of an iterator
that has a place (with `Key` and `Value` by `look`); without one only a seek in a queue that is not
empty, `Clone`, and `look`, whose answer is then not determined. -/
def clegal (x : List (K × V) × Bool) : COp K V → Prop
  | .call op => legal x.1 op
  | .iter .entry => False
  | .iter .clone => True
  | .iter op => x.2 = true ∨ (isSeek op = true ∧ x.1 ≠ [])
  | .look => True

/-- No node of the queue lies deeper than the array of the iterator is long. -/
def Fits (q : PQueue K V × PIter) : Prop :=
  ∀ π a, follow q.1.mem q.1.root π = some a → π.length < q.2.cap

/-- This holds after every beginning of the history. -/
def Roomy (cmp : K → K → Int) (zero : V) (q : PQueue K V × PIter) (os : List (COp K V)) : Prop :=
  ∀ os₁, os₁ <+: os → ∀ q' rs, run (cstep cmp zero) q os₁ = some (q', rs) → Fits q'

/-! ### Depth -/

theorem deepest {m : Mem K V} : ∀ {t : P K V}, Rep m t → t ≠ nil →
    ∃ π a, follow m (ptr t) π = some a ∧ π.length + 1 = t.height
  | nil, _, h => absurd rfl h
  | .node b k v l r, hR, _ => by
    obtain ⟨hc, hl, hr⟩ := hR
    by_cases h : l.height ≤ r.height
    · by_cases hn : r = nil
      · subst hn
        have : l.height = 0 := by simpa [height] using h
        exact ⟨[], b.1, rfl, by simp [height, this]⟩
      · obtain ⟨π, a, h1, h2⟩ := deepest hr hn
        refine ⟨true :: π, a, ?_, by simp only [List.length_cons, height]; omega⟩
        simp only [ptr_node, follow, hc]; exact h1
    · have hn : l ≠ nil := by rintro rfl; simp [height] at h
      obtain ⟨π, a, h1, h2⟩ := deepest hl hn
      refine ⟨false :: π, a, ?_, by simp only [List.length_cons, height]; omega⟩
      simp only [ptr_node, follow, hc]; exact h1

theorem Fits.height {q : PQueue K V × PIter} {t : P K V} (h : Fits q) (hH : Held q.1 t) :
    t.height ≤ q.2.cap := by
  by_cases hn : t = nil
  · subst hn; exact Nat.zero_le _
  · obtain ⟨π, a, h1, h2⟩ := deepest hH.rep hn
    have h3 : q.1.root = ptr t := hH.root
    have := h π a (by rw [h3]; exact h1)
    omega

/-! ### Calls that keep the nodes -/

theorem removeLeft_same {key : K} : ∀ {n : Nat} {m : Mem K V} {g : Nat}
    {c2 c : Bool} {p : Mem K V × Option V}, removeLeft cmp key n m g c2 c = some p →
    p.2 = none → p.1 = m
  | 0, _, _, _, _, _, h, _ => by cases h
  | n + 1, m, g, c2, c, p, h, he => by
    simp only [removeLeft, Option.bind_eq_some_iff] at h
    obtain ⟨par, -, h⟩ := h
    split at h
    · cases h; rfl
    · split at h
      · simp only [Option.bind_eq_some_iff] at h
        obtain ⟨q, h1, h⟩ := h
        split at h
        · next h2 =>
          split at h
          · simp only [Option.map_eq_some_iff] at h
            obtain ⟨y, -, rfl⟩ := h
            simp only at he
            rw [he] at h2; cases h2
          · cases h; simp only at he; rw [he] at h2; cases h2
        · simp only [Option.map_eq_some_iff] at h
          obtain ⟨y, -, rfl⟩ := h
          cases he
      · simp only [Option.bind_eq_some_iff] at h
        obtain ⟨x, -, q, h1, h⟩ := h
        split at h
        · next h2 =>
          split at h
          · simp only [Option.map_eq_some_iff] at h
            obtain ⟨y, -, rfl⟩ := h
            simp only at he
            rw [he] at h2; cases h2
          · cases h; simp only at he; rw [he] at h2; cases h2
        · cases h; exact removeLeft_same h1 he

theorem length_insertAfter {o : K → K → Ordering} {e : K × V} : ∀ xs : List (K × V),
    (Avls.insertAfter o e xs).length = xs.length + 1 := by
  intro xs
  have h : (xs.filter fun x => o x.1 e.1 != .gt).length + (xs.filter fun x => o x.1 e.1 == .gt).length =
      xs.length := by
    induction xs with
    | nil => rfl
    | cons x xs ih =>
      simp only [List.filter_cons]
      cases o x.1 e.1 <;> simp <;> omega
  simp only [Avls.insertAfter, List.length_append, List.length_cons]
  omega


/-- A call that does not change the number of entries writes at most one entry. -/
theorem step_same {zero : V} {s s' : PQueue K V} {xs : List (K × V)} {t : P K V} (hH : Held s t)
    (hR : Rel cmp (erase t) xs) {op : Op K V} (hl : legal xs op)
    (hs : step cmp zero s op = some (s', (spec (ord cmp) xs op).2))
    (hz : (spec (ord cmp) xs op).1.length = xs.length) : ∃ a f, s'.mem = write s.mem a f := by
  have same : s'.mem = s.mem → ∃ a f, s'.mem = write s.mem a f := fun h =>
    ⟨0, id, by rw [write_id, h]⟩
  have hrem : ∀ k, (s.remove cmp k).map (fun p => (p.1, (Res.val p.2 : Res K V))) =
      some (s', .val ((xs.find? fun e => ord cmp e.1 k == .eq).map (·.2))) →
      (xs.eraseP fun e => ord cmp e.1 k == .eq).length = xs.length → s'.mem = s.mem := by
    intro k h h2
    simp only [PQueue.remove, Option.map_map, Option.map_eq_some_iff] at h
    obtain ⟨p, h3, h4⟩ := h
    have h5 : p.2 = ((xs.find? fun e => ord cmp e.1 k == .eq).map (·.2)) := by
      injection h4 with _ h4; injection h4
    have h6 : s'.mem = p.1 := by injection h4 with h4 _; rw [← h4]
    rw [h6]
    refine removeLeft_same h3 ?_
    rw [h5]
    cases hf : xs.find? fun e => ord cmp e.1 k == .eq with
    | none => rfl
    | some e =>
      have h7 := List.mem_of_find?_eq_some hf
      have h8 := List.find?_some hf
      rw [List.length_eraseP_of_mem h7 h8] at h2
      have := List.length_pos_of_mem h7
      omega
  cases op with
  | put k v => simp only [spec, length_insertAfter] at hz; omega
  | insertIfAbsent k v =>
    by_cases ha : (xs.any fun e => ord cmp e.1 k == .eq) = true
    · simp only [spec, ha, if_true, step, PQueue.insertIfAbsent, Option.map_eq_some_iff,
        Option.bind_eq_some_iff] at hs
      obtain ⟨q, ⟨e, -, h1⟩, h2⟩ := hs
      split at h1
      · cases h1; cases h2; exact same rfl
      · simp only [Option.map_eq_some_iff] at h1
        obtain ⟨y, -, rfl⟩ := h1
        injection h2 with _ h2
        injection h2 with h2
        cases h2
    · simp only [spec, ha, Bool.false_eq_true, if_false, length_insertAfter] at hz; omega
  | upsert k v =>
    by_cases ha : (xs.any fun e => ord cmp e.1 k == .eq) = true
    · simp only [spec, ha, if_true, step, PQueue.upsert, Option.map_eq_some_iff,
        Option.bind_eq_some_iff] at hs
      obtain ⟨q, ⟨e, -, h1⟩, h2⟩ := hs
      cases e with
      | some cur => cases h1; cases h2; exact ⟨cur, fun e => (e.1, v), rfl⟩
      | none =>
        simp only [Option.map_eq_some_iff] at h1
        obtain ⟨y, -, rfl⟩ := h1
        injection h2 with _ h2
        injection h2 with h2
        cases h2
    · simp only [spec, ha, Bool.false_eq_true, if_false, length_insertAfter] at hz; omega
  | get k =>
    simp only [step, Option.map_eq_some_iff] at hs; obtain ⟨q, -, h⟩ := hs
    injection h with h _; exact same (by rw [h])
  | index i =>
    simp only [step, Option.map_eq_some_iff] at hs; obtain ⟨q, -, h⟩ := hs
    injection h with h _; exact same (by rw [h])
  | remove k => exact same (hrem k hs hz)
  | delete k => exact same (hrem k hs hz)
  | removeIndex i =>
    obtain ⟨h1, h2⟩ := hl
    have h3 : Priority.rank xs i = some i.toNat := by
      simp only [Priority.rank]
      rw [if_neg (show ¬ i < 0 by omega), if_pos ⟨h1, h2⟩]
    simp only [spec, h3] at hz
    rw [List.length_eraseIdx_of_lt (by omega)] at hz
    omega
  | popHead =>
    cases xs with
    | nil =>
      have h1 : s.size = 0 := by rw [held_size hH, hR.exact.sz, hR.list]; rfl
      simp only [step, PQueue.popHead, h1, if_true, Option.map_some, Option.some.injEq] at hs
      injection hs with h _
      exact same (by rw [h])
    | cons x xs => simp [spec] at hz
  | popTail =>
    cases xs with
    | nil =>
      have h1 : s.size = 0 := by rw [held_size hH, hR.exact.sz, hR.list]; rfl
      simp only [step, PQueue.popTail, h1, if_true, Option.map_some, Option.some.injEq] at hs
      injection hs with h _
      exact same (by rw [h])
    | cons x xs => simp [spec] at hz
  | clear =>
    have h0 : xs = [] := List.length_eq_zero_iff.1 hz.symm
    have ht : t = nil := by
      have := hR.list
      rw [h0, toList_erase] at this
      exact Tree.toList_eq_nil.1 this
    subst ht
    have h1 : (s.mem 0).hi = none := hH.root
    simp only [step, Option.some.injEq] at hs
    injection hs with h _
    refine same ?_
    rw [← h]
    funext b
    simp only [link, upd, AvlHeap.Cell.setKid, if_true]
    split
    · next e => rw [e, ← h1]
    · rfl
  | size =>
    simp only [step, Option.some.injEq, Prod.mk.injEq] at hs; exact same (by rw [hs.1])
  | len =>
    simp only [step, Option.some.injEq, Prod.mk.injEq] at hs; exact same (by rw [hs.1])
  | traverse e =>
    simp only [step, Option.map_eq_some_iff] at hs; obtain ⟨q, -, h⟩ := hs
    injection h with h _; exact same (by rw [h])
  | values =>
    simp only [step] at hs
    split at hs
    · simp only [Option.some.injEq, Prod.mk.injEq] at hs; exact same (by rw [hs.1])
    · split at hs
      · cases hs
      · simp only [Option.map_eq_some_iff] at hs; obtain ⟨q, -, h⟩ := hs
        injection h with h _; exact same (by rw [h])

/-! ### One call -/

/-- The queue, the iterator, the entries and the cursor belong together. -/
def CInv (cmp : K → K → Int) (q : PQueue K V × PIter) (x : List (K × V) × Option (Option Int)) : Prop :=
  ∃ t, Held q.1 t ∧ Rel cmp (erase t) x.1 ∧ ∀ p, x.2 = some p → ∃ ai, toP ai = q.2 ∧ Place t ai p

theorem iterator_some {s : PQueue K V} {t : P K V} {xs : List (K × V)} (hH : Held s t)
    (hR : Rel cmp (erase t) xs) : ∃ h, s.iterator = some ⟨h, none, []⟩ := by
  have h1 : s.size = xs.length := by rw [held_size hH, hR.exact.sz, hR.list]
  rw [PQueue.iterator, h1, Priority.maybeHeight, if_neg (by omega)]
  exact ⟨_, rfl⟩

/-- A seek, wherever the iterator was before. -/
theorem istep_seek {s : PQueue K V} {t : P K V} (hH : Held s t) {op : IOp K}
    (ho : isSeek op = true) {ai ai' : Iter (Nat × Int) K V} {r : IRes K V}
    (h : Avl.istep cmp false t ai op = some (ai', r)) {pit : PIter} (hp : pit.cap = ai.cap)
    (he : t = nil → pit = toP ai ∧ W s.mem t.height ai) :
    istep cmp s pit op = some (toP ai', r) := by
  have hF : 2 * t.height + 2 ≤ 2 * s.free + 2 := by have : t.height < s.free := hH.height; omega
  have hr : s.root = ptr t := hH.root
  have e1 : ∀ c, (∃ i, ai.seekEnd t c = some i ∧ (i, IRes.unit) = (ai', r)) →
      (pit.seekEnd s.mem (2 * s.free + 2) s.root c).map (fun i => (i, IRes.unit)) =
        some (toP ai', r) := by
    rintro c ⟨i, h1, h2⟩
    cases h2
    rw [hr, (seekEnd_sim hF hH.rep (Nat.le_refl _) h1 hp).1]
    rfl
  have e2 : ∀ k c strict, (∃ i, ai.seek cmp t k c strict = some i ∧
      (i.1, IRes.bool i.2) = (ai', r)) →
      (pit.seek cmp s.mem (2 * s.free + 2) s.root k c strict).map (fun p => (p.1, IRes.bool p.2)) =
        some (toP ai', r) := by
    rintro k c strict ⟨i, h1, h2⟩
    cases h2
    rw [hr, (seek_sim hF hH.rep (Nat.le_refl _) h1 hp he).1]
    rfl
  cases op <;> simp [isSeek] at ho <;>
    simp only [Avl.istep, Avl.istep.seek, Bool.false_eq_true, if_false, Option.map_eq_some_iff] at h
  · exact e1 _ h
  · exact e1 _ h
  · exact e2 _ _ _ h
  · exact e2 _ _ _ h
  · exact e2 _ _ _ h
  · exact e2 _ _ _ h

/-- A call of an iterator in its place, but for `Clone`. -/
theorem istep_sim {s : PQueue K V} {t : P K V} (hH : Held s t) {op : IOp K}
    {ai ai' : Iter (Nat × Int) K V} {r : IRes K V} {p : Option Int} (hP : Place t ai p)
    (hop : op ≠ .clone) (h : Avl.istep cmp false t ai op = some (ai', r)) :
    istep cmp s (toP ai) op = some (toP ai', r) := by
  have hW : W s.mem t.height ai := AvlHeap.Place.W hP hH.rep
  have hF : 2 * t.height + 2 ≤ 2 * s.free + 2 := by have : t.height < s.free := hH.height; omega
  by_cases ho : isSeek op = true
  · exact istep_seek hH ho h rfl (fun _ => ⟨rfl, hW⟩)
  · cases op <;> simp [isSeek] at ho
    · simp only [Avl.istep, Option.map_eq_some_iff] at h
      obtain ⟨i, h1, h2⟩ := h
      cases h2
      simp only [istep]
      rw [(move_sim hF hW h1).1]
      rfl
    · simp only [Avl.istep, Option.map_eq_some_iff] at h
      obtain ⟨i, h1, h2⟩ := h
      cases h2
      simp only [istep]
      rw [(move_sim hF hW h1).1]
      rfl
    · cases h
      simp only [istep, toP]
      cases ai.cur <;> rfl
    · simp only [Avl.istep] at h
      split at h
      · cases h
      · next a k v l r' hc =>
        cases h
        have := hW.cur
        rw [hc] at this
        simp [istep, toP, hc, this.1]
    · exact absurd rfl hop

theorem look_ok {s : PQueue K V} {t : P K V} (hH : Held s t) {ai : Iter (Nat × Int) K V}
    {p : Option Int} (hP : Place t ai p) :
    ((toP ai).cur.map fun a => ((s.mem a).key, (s.mem a).val)) = Avl.entryAt t.toList p := by
  have hW : W s.mem t.height ai := AvlHeap.Place.W hP hH.rep
  rw [← hP.current]
  simp only [toP, Iter.current]
  cases hc : ai.cur with
  | nil => rfl
  | node a k v l r =>
    have := hW.cur
    rw [hc] at this
    simp [this.1]

theorem cstep_ok (hc : LawfulEx cmp) (zero : V)
    {q : PQueue K V × PIter} {x : List (K × V) × Option (Option Int)} {op : COp K V}
    (hl : clegal (x.1, x.2.isSome) op) (hC : CInv cmp q x) (hf : Fits q)
    (hf' : ∀ q' r, cstep cmp zero q op = some (q', r) → Fits q') :
    ∃ q' r x', cstep cmp zero q op = some (q', r) ∧ crel (ord cmp) x op r x' ∧ CInv cmp q' x' ∧
      (x'.1, x'.2.isSome) = (lspec (ord cmp) (x.1, x.2.isSome) op).1 := by
  obtain ⟨t, hH, hR, hP⟩ := hC
  have hcap := hf.height hH
  obtain ⟨s, it⟩ := q
  obtain ⟨xs, st⟩ := x
  simp only at hH hR hP hcap
  have hlist : t.toList = xs := by rw [← toList_erase, hR.list]
  have hsorted : SortedLE (fun a b => exOrd (cmp a b)) t.toList := by rw [hlist]; exact hR.sorted
  cases op with
  | call op =>
    obtain ⟨u, h1, h2⟩ := Priority.step_ok hc op hl hR
    have h3 := step_sim (cmp := cmp) (zero := zero) ⟨t, rfl, hH⟩ op
    rw [h1] at h3
    obtain ⟨⟨s', r'⟩, h4, h5, t', h6, hH'⟩ := h3.some_right
    simp only at h5
    subst h5 h6
    refine ⟨(s', it), _, _, by simp only [cstep, h4, Option.map_some], ⟨rfl, rfl⟩, ⟨t', hH', h2, ?_⟩, ?_⟩
    · intro p hp
      simp only at hp
      split at hp
      · next hlen =>
        obtain ⟨ai, h9, h10⟩ := hP p hp
        obtain ⟨a, f, h11⟩ := step_same hH hR hl h4 hlen
        refine ⟨⟨ai.cap, mapN (fun b k v => if b.1 = a then f (k, v) else (k, v)) ai.cur,
          mapS (fun b k v => if b.1 = a then f (k, v) else (k, v)) ai.stk⟩, by rw [toP_mapN, h9], ?_⟩
        have h12 : mapN (fun b k v => if b.1 = a then f (k, v) else (k, v)) t = t' := by
          refine rep_unique (m := s'.mem) ?_ hH'.rep ?_
          · rw [h11]; exact rep_write hH.rep (List.nodup_cons.1 hH.nodup).2
          · rw [ptr_mapN, ← hH.root, ← hH'.root]
            simp only
            rw [h11]
            simp only [write, upd, AvlHeap.Cell.kid, if_true]
            by_cases h0 : 0 = a
            · subst h0; rfl
            · rw [if_neg h0]
        rw [← h12]
        exact AvlHeap.Place.mapN _ h10
      · cases hp
    · simp only [lspec]
      by_cases hlen : (spec (ord cmp) xs op).1.length = xs.length
      · simp [hlen]
      · simp [hlen]
  | look =>
    refine ⟨(s, it), _, (xs, st), rfl, ⟨rfl, ?_⟩, ⟨t, hH, hR, hP⟩, rfl⟩
    rintro p hp
    obtain ⟨ai, rfl, h1⟩ := hP p hp
    rw [look_ok hH h1, hlist]
  | iter op =>
    by_cases hop : op = .clone
    · subst hop
      obtain ⟨h, hi⟩ := iterator_some hH hR
      have h1 : cstep cmp zero (s, it) (.iter .clone) = some ((s, ⟨h, it.cur, it.stk⟩), .iter .unit) := by
        simp only [cstep, istep, hi, Option.map_some]
      have h2 := (hf' _ _ h1).height hH
      refine ⟨_, _, (xs, st), h1, ?_, ⟨t, hH, hR, ?_⟩, by simp [lspec, isSeek]⟩
      · cases st with
        | none => simp [crel, isSeek]
        | some p => exact ⟨p, _, rfl, rfl, rfl⟩
      · intro p hp
        obtain ⟨ai, h3, h4⟩ := hP p hp
        subst h3
        exact ⟨⟨h, ai.cur, ai.stk⟩, rfl, AvlHeap.Place.recap h4 h2⟩
    · have hil : ∀ p, ilegal t.toList p op := by
        intro p
        cases op <;> first | trivial | exact hl.elim
      cases st with
      | some p =>
        obtain ⟨ai, h1, h2⟩ := hP p rfl
        obtain ⟨ai', r, p', h3, h4, h5⟩ := Priority.istep_dup (A := Nat × Int) hc hsorted (hil p) h2
        have h6 := istep_sim hH h2 hop h3
        rw [h1] at h6
        refine ⟨(s, toP ai'), .iter r, (xs, some p'), by simp only [cstep, h6, Option.map_some], ?_,
          ⟨t, hH, hR, ?_⟩, by simp [lspec]⟩
        · rw [hlist] at h4; exact ⟨p', r, rfl, rfl, h4⟩
        · rintro p'' hp''; cases hp''; exact ⟨ai', rfl, h5⟩
      | none =>
        have hsk : isSeek op = true ∧ xs ≠ [] := by
          cases op <;> simp_all [clegal, isSeek]
        obtain ⟨ho, hne⟩ := hsk
        have hnil : t ≠ nil := by rintro rfl; exact hne hlist.symm
        have h2 : Place t (⟨it.cap, nil, []⟩ : Iter (Nat × Int) K V) none := .unset hcap rfl rfl
        obtain ⟨ai', r, p', h3, h4, h5⟩ := Priority.istep_dup (A := Nat × Int) hc hsorted (hil none) h2
        have h6 := istep_seek hH ho h3 (pit := it) rfl (fun h => absurd h hnil)
        refine ⟨(s, toP ai'), .iter r, (xs, some p'), by simp only [cstep, h6, Option.map_some], ?_,
          ⟨t, hH, hR, ?_⟩, by simp [lspec, ho]⟩
        · simp only [crel, ho, if_true]
          rw [hlist] at h4; exact ⟨p', r, rfl, rfl, h4⟩
        · rintro p'' hp''; cases hp''; exact ⟨ai', rfl, h5⟩

theorem crun_ok (hc : LawfulEx cmp) (zero : V) :
    ∀ (os : List (COp K V)) {q : PQueue K V × PIter} {x : List (K × V) × Option (Option Int)},
    CInv cmp q x → LegalRun (lspec (ord cmp)) clegal (x.1, x.2.isSome) os → Roomy cmp zero q os →
    ∃ q' rs x', run (cstep cmp zero) q os = some (q', rs) ∧ Trace (crel (ord cmp)) x os rs x' ∧
      CInv cmp q' x'
  | [], q, x, hC, _, _ => ⟨q, [], x, rfl, .nil x, hC⟩
  | o :: os, q, x, hC, hl, hr => by
    obtain ⟨q1, r1, x1, h1, h2, h3, h4⟩ := cstep_ok hc zero hl.1 hC (hr [] (List.nil_prefix) _ _ rfl)
      (fun q' r h => hr [o] (by simp) q' [r] (by simp only [run, h]))
    obtain ⟨q2, rs, x2, h5, h6, h7⟩ := crun_ok hc zero os h3 (by rw [h4]; exact hl.2)
      fun os₁ hp q' rs h =>
        hr (o :: os₁) (List.prefix_cons_inj o |>.2 hp) q' (_ :: rs) (by simp only [run, h1, h]; rfl)
    exact ⟨q2, r1 :: rs, x2, by simp only [run, h1, h5], .cons h2 h6, h7⟩

/-- The state after a history of the queue, with a new iterator. -/
theorem start_ok (hc : LawfulEx cmp) (zero : V) (junk : K × V) {os : List (Op K V)}
    (hl : LegalRun (spec (ord cmp)) legal [] os) :
    ∃ s it, run (step cmp zero) (PQueue.new junk) os = some (s, (runSpec (spec (ord cmp)) [] os).2) ∧
      s.iterator = some it ∧
      (Fits (s, it) → CInv cmp (s, it) ((runSpec (spec (ord cmp)) [] os).1, some none)) := by
  obtain ⟨u, h1, h2⟩ := Priority.run_ok hc os hl
  have h3 := run_sim (cmp := cmp) (zero := zero) os (QRel.new junk)
  rw [h1] at h3
  obtain ⟨⟨s, rs⟩, h4, h5, t, h6, hH⟩ := h3.some_right
  simp only at h5
  subst h5 h6
  obtain ⟨h, hi⟩ := iterator_some hH h2
  refine ⟨s, _, h4, hi, fun hf => ⟨t, hH, h2, ?_⟩⟩
  rintro p hp
  cases hp
  exact ⟨⟨h, nil, []⟩, rfl, .unset (hf.height hH) rfl rfl⟩

end Verif.PriorityHeap
