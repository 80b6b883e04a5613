import Verif.Tree.TreeListProps

/-! Property C82: iterators of tree lists that are modified during the iteration. -/

namespace Verif.TreeList

open Tree Size DLL
open IndexTree (any_lawful)

variable {K V : Type} {cmp : K → K → Int}

/-- A call on the list or on the iterator. -/
inductive Ev (K V : Type) where
  | list (o : Op K V)
  | iter (o : IOp K)

/-- The list and an iterator of it. -/
def both (cmp : K → K → Int) (c : TL K V × Iter) : Ev K V → Option ((TL K V × Iter) × (Res K V ⊕ IRes K V))
  | .list o => (step cmp c.1 o).map fun p => ((p.1, c.2), .inl p.2)
  | .iter o => (istep cmp c.1 c.2 o).map fun p => ((c.1, p.1), .inr p.2)

/-- The calls that may take entries out. -/
def Op.removes : Op K V → Bool
  | .remove _ | .removeIndex _ | .removeHead | .removeTail | .clear | .removeRange _ _
  | .removeRangeByIndex _ _ | .trim _ _ | .trimByIndex _ _ => true
  | _ => false

/-- Where the ideal iterator is: on a key, nowhere, or not known since entries may have been taken out. -/
inductive Cursor (K : Type) where
  | at (k : K) | off | stale

/-- On the key of this entry. -/
def Cursor.of : Option (K × V) → Cursor K
  | some e => .at e.1
  | none => .off

/-- The ideal iterator is a key. `Next` goes to the smallest greater key that is in the list when it is called,
`Prev` to the greatest smaller one. -/
def liveI (cmp : K → K → Int) (xs : List (K × V)) (c : Cursor K) : IOp K → Cursor K × IRes K V
  | .seekGE k => (.of (xs.filter fun e => decide (0 ≤ cmp e.1 k)).head?, .bool (xs.any fun e => decide (cmp e.1 k = 0)))
  | .seekGT k => (.of (xs.filter fun e => decide (0 < cmp e.1 k)).head?, .bool (xs.any fun e => decide (cmp e.1 k = 0)))
  | .seekLE k => (.of (xs.filter fun e => decide (cmp e.1 k ≤ 0)).getLast?, .bool (xs.any fun e => decide (cmp e.1 k = 0)))
  | .seekLT k => (.of (xs.filter fun e => decide (cmp e.1 k < 0)).getLast?, .bool (xs.any fun e => decide (cmp e.1 k = 0)))
  | .seekByIndex i => if 0 ≤ i ∧ i < xs.length then (.of xs[i.toNat]?, .unit) else (c, .panic)
  | .seekToFirst => (.of xs.head?, .unit)
  | .seekToLast => (.of xs.getLast?, .unit)
  | .next => (match c with
    | .at k => .of (xs.filter fun e => decide (0 < cmp e.1 k)).head?
    | c => c, .unit)
  | .prev => (match c with
    | .at k => .of (xs.filter fun e => decide (cmp e.1 k < 0)).getLast?
    | c => c, .unit)
  | .valid => (c, .bool (match c with | .at _ => true | _ => false))
  | .index => (c, .panic)
  | .slice => (c, match c with
    | .at k => (match xs.find? fun e => decide (cmp e.1 k = 0) with | some e => .slice e | none => .panic)
    | _ => .panic)
  | .compare k' => (c, match c with | .at k => .int (cmp k k') | _ => .panic)

/-- The ideal list with the ideal iterator. -/
def live (cmp : K → K → Int) (t : List (K × V) × Cursor K) : Ev K V → (List (K × V) × Cursor K) × (Res K V ⊕ IRes K V)
  | .list o => (((spec (ord cmp) t.1 o).1, match t.2 with
      | .at k => if o.removes then .stale else .at k
      | c => c), .inl (spec (ord cmp) t.1 o).2)
  | .iter o => ((t.1, (liveI cmp t.1 t.2 o).1), .inr (liveI cmp t.1 t.2 o).2)

/-- The calls of the theorem: those of C44 on the list; seeks by key in a list that is not empty, and steps and
looks from a known key. `Index` is not among them. -/
def liveLegal (cmp : K → K → Int) (t : List (K × V) × Cursor K) : Ev K V → Prop
  | .list o => legal cmp t.1 o
  | .iter (.seekGE _) | .iter (.seekGT _) | .iter (.seekLE _) | .iter (.seekLT _) => t.1 ≠ []
  | .iter .next | .iter .prev | .iter .slice | .iter (.compare _) => ∃ k, t.2 = .at k
  | .iter .valid => t.2 ≠ .stale
  | .iter .index => False
  | .iter _ => True

/-! ### The proof -/

/-- The iterator is on the node that holds the key, or nowhere. -/
def On (zs : List (Ent K V)) (it : Iter) : Cursor K → Prop
  | .at k => ∃ e ∈ zs, it.cur = some e.2.1 ∧ e.1 = k
  | .off => it.cur = none
  | .stale => True

/-- The list holds the entries and the iterator is where the ideal one is. -/
def LRel (cmp : K → K → Int) (c : TL K V × Iter) (t : List (K × V) × Cursor K) : Prop :=
  ∃ zs, Good cmp c.1 zs ∧ zs.map strip = t.1 ∧ On zs c.2 t.2

theorem on_of {s : TL K V} {zs : List (Ent K V)} (hG : Good cmp s zs) {it : Iter} {o : Option (K × V)}
    (h1 : ∀ a, it.cur = some a → a ∈ addrs zs) (h2 : it.entry s = o) : On zs it (.of o) := by
  subst h2
  cases hc : it.cur with
  | none => simp only [Iter.entry, hc]; exact hc
  | some a =>
    obtain ⟨e, he, rfl⟩ := mem_addrs.1 (h1 a hc)
    simp only [Iter.entry, hc, Option.map_some, Cursor.of, hG.vals e he]
    exact ⟨e, he, hc, rfl⟩

theorem mem_of_at? {α : Type} {xs : List α} {i : Int} {a : α} (h : at? xs i = some a) : a ∈ xs := by
  rw [at?_split h]; simp

theorem IRel.mem {zs : List (Ent K V)} {it : Iter} {p : Pos} (h : IRel zs it p) :
    ∀ a, it.cur = some a → a ∈ addrs zs := by
  intro a ha
  rw [h.1] at ha
  cases p with
  | none => cases ha
  | some i => exact mem_of_at? ha

/-- The entries after and before one of them. -/
theorem around (hc : Lawful cmp) {xs L R : List (K × V)} {e : K × V} (hs : Sorted (ord cmp) xs) (h : xs = L ++ e :: R) :
    (xs.filter fun x => decide (0 < cmp x.1 e.1)) = R ∧ (xs.filter fun x => decide (cmp x.1 e.1 < 0)) = L ∧
    xs.find? (fun x => decide (cmp x.1 e.1 = 0)) = some e := by
  have : Std.TransCmp (ord cmp) := hc
  subst h
  obtain ⟨-, -, h1, h2, -⟩ := Sorted.split.1 hs
  have h0 : cmp e.1 e.1 = 0 := by rw [← ord_eq]; exact Ord.refl _
  have hL : ∀ x ∈ L, cmp x.1 e.1 < 0 := fun x hx => ord_lt.1 (h1 x hx)
  have hR : ∀ x ∈ R, 0 < cmp x.1 e.1 := fun x hx => by
    rw [← gt_iff_lt, ← ord_gt, ← Ord.lt_iff (o := ord cmp)]; exact h2 x hx
  refine ⟨?_, ?_, ?_⟩
  · rw [List.filter_append, List.filter_cons, if_neg (by simp [h0]), List.filter_eq_nil_iff.2, List.filter_eq_self.2]
    · rfl
    · intro x hx; simpa using hR x hx
    · intro x hx; have := hL x hx; simp; omega
  · rw [List.filter_append, List.filter_cons, if_neg (by simp [h0]), List.filter_eq_self.2, List.filter_eq_nil_iff.2]
    · simp
    · intro x hx; have := hR x hx; simp; omega
    · intro x hx; simpa using hL x hx
  · rw [List.find?_append, List.find?_eq_none.2, List.find?_cons_of_pos (by simp [h0])]
    · rfl
    · intro x hx; have := hL x hx; simp; omega

/-- One legal call on the iterator. -/
theorem istep_live (hc : Lawful cmp) {s : TL K V} {zs : List (Ent K V)} (hG : Good cmp s zs) {it : Iter} {c : Cursor K}
    (hO : On zs it c) {op : IOp K} (hl : liveLegal cmp (zs.map strip, c) (.iter op)) :
    ∃ it', istep cmp s it op = some (it', (liveI cmp (zs.map strip) c op).2) ∧
      On zs it' (liveI cmp (zs.map strip) c op).1 := by
  have : Std.TransCmp (ord cmp) := hc
  have hs : Sorted (ord cmp) (zs.map strip) := sorted_strip_iff.2 hG.sorted
  -- a step from an entry
  have hat : ∀ k, c = .at k → ∃ L R, ∃ e : Ent K V, zs = L ++ e :: R ∧ it.cur = some e.2.1 ∧ e.1 = k ∧
      (s.heap e.2.1).val = strip e ∧ (s.heap e.2.1).next = (addrs R).head? ∧
      (s.heap e.2.1).prev = (addrs L).getLast? := by
    rintro k rfl
    obtain ⟨e, he, h1, h2⟩ := hO
    obtain ⟨L, R, rfl⟩ := List.append_of_mem he
    have := hG.thread.seg
    rw [addrs_append, addrs_cons, seg_append] at this
    obtain ⟨-, h3, h4, -⟩ := this
    exact ⟨L, R, e, rfl, h1, h2, hG.vals e he, by simpa using h4, by simpa using h3⟩
  have mem : ∀ {op : IOp K} {it' : Iter} {r : IRes K V}, ilegal (zs.map strip) none op →
      istep cmp s ⟨none, 0⟩ op = some (it', r) → ∀ a, it'.cur = some a → a ∈ addrs zs := by
    intro op it' r hl he
    obtain ⟨i, h1, h2⟩ := istep_ok hc hG (it := ⟨none, 0⟩) (p := none) ⟨rfl, rfl⟩ hl
    rw [he] at h1
    cases h1
    exact h2.mem
  have seek := fun (hn : zs.map strip ≠ []) key => seek_rel hc ⟨zs, hG, rfl⟩ hn ⟨none, 0⟩ key
  cases op with
  | seekGE k =>
    obtain ⟨⟨i, h1, h2, -⟩, -⟩ := seek hl k
    exact ⟨i, h1, on_of hG (mem (op := .seekGE k) hl h1) h2⟩
  | seekGT k =>
    obtain ⟨-, ⟨i, h1, h2, -⟩, -⟩ := seek hl k
    exact ⟨i, h1, on_of hG (mem (op := .seekGT k) hl h1) h2⟩
  | seekLE k =>
    obtain ⟨-, -, ⟨i, h1, h2, -⟩, -⟩ := seek hl k
    exact ⟨i, h1, on_of hG (mem (op := .seekLE k) hl h1) h2⟩
  | seekLT k =>
    obtain ⟨-, -, -, ⟨i, h1, h2, -⟩⟩ := seek hl k
    exact ⟨i, h1, on_of hG (mem (op := .seekLT k) hl h1) h2⟩
  | seekByIndex i =>
    have hnode : nodeAt i s.tree (leftSz s.tree) = at? zs i := by
      rw [nodeAt_eq hG.exact (here_root _), hG.list]; simp
    simp only [istep, liveI, hnode]
    by_cases hi : 0 ≤ i ∧ i < zs.length
    · obtain ⟨e, he⟩ : ∃ e, zs[i.toNat]? = some e := ⟨_, List.getElem?_eq_getElem (by omega)⟩
      have ha : at? zs i = some e := by rw [at?, if_neg (by omega)]; exact he
      rw [ha, if_pos (by simpa using hi)]
      refine ⟨_, rfl, ?_⟩
      rw [List.getElem?_map, he]
      exact ⟨e, List.mem_of_getElem? he, rfl, rfl⟩
    · have ha : at? zs i = none := by
        rw [at?]
        split
        · rfl
        · exact List.getElem?_eq_none (by omega)
      rw [ha, if_neg (by simpa using hi)]
      exact ⟨it, rfl, hO⟩
  | seekToFirst =>
    refine ⟨_, rfl, ?_⟩
    simp only [liveI]
    cases zs with
    | nil => exact hG.thread.head
    | cons e zs => exact ⟨e, by simp, hG.thread.head, rfl⟩
  | seekToLast =>
    refine ⟨_, rfl, ?_⟩
    simp only [liveI]
    have ht := hG.thread.tail
    rcases List.eq_nil_or_concat zs with rfl | ⟨L, e, rfl⟩
    · exact ht
    · rw [List.concat_eq_append] at *
      rw [List.map_append, List.map_cons, List.map_nil, List.getLast?_concat]
      exact ⟨e, by simp, by rw [ht]; simp, rfl⟩
  | next =>
    obtain ⟨k, rfl⟩ := hl
    obtain ⟨L, R, e, h1, h2, rfl, -, h4, -⟩ := hat k rfl
    obtain ⟨a1, -, -⟩ := around hc hs (L := L.map strip) (e := strip e) (R := R.map strip) (by simp [h1])
    refine ⟨⟨(s.heap e.2.1).next, it.idx + 1⟩, by rw [istep, h2]; rfl, ?_⟩
    simp only [liveI]
    rw [show e.1 = (strip e).1 from rfl, a1, h4]
    cases R with
    | nil => rfl
    | cons f R => exact ⟨f, by simp [h1], rfl, rfl⟩
  | prev =>
    obtain ⟨k, rfl⟩ := hl
    obtain ⟨L, R, e, h1, h2, rfl, -, -, h4⟩ := hat k rfl
    obtain ⟨-, a1, -⟩ := around hc hs (L := L.map strip) (e := strip e) (R := R.map strip) (by simp [h1])
    refine ⟨⟨(s.heap e.2.1).prev, it.idx - 1⟩, by rw [istep, h2]; rfl, ?_⟩
    simp only [liveI]
    rw [show e.1 = (strip e).1 from rfl, a1, h4]
    rcases List.eq_nil_or_concat L with rfl | ⟨L, f, rfl⟩
    · rfl
    · rw [List.concat_eq_append] at *
      rw [List.map_append, List.map_cons, List.map_nil, List.getLast?_concat]
      exact ⟨f, by simp [h1], by simp, rfl⟩
  | valid =>
    refine ⟨it, ?_, hO⟩
    cases c with
    | stale => exact absurd rfl hl
    | off => rw [istep, show it.cur = none from hO]; rfl
    | «at» k =>
      obtain ⟨e, -, h1, -⟩ := hO
      rw [istep, h1]; rfl
  | index => exact hl.elim
  | slice =>
    obtain ⟨k, rfl⟩ := hl
    obtain ⟨L, R, e, h1, h2, rfl, h3, -⟩ := hat k rfl
    obtain ⟨-, -, a1⟩ := around hc hs (L := L.map strip) (e := strip e) (R := R.map strip) (by simp [h1])
    refine ⟨it, ?_, hO⟩
    simp only [liveI]
    rw [show e.1 = (strip e).1 from rfl, a1, istep, h2, Option.map_some, h3]
  | compare k' =>
    obtain ⟨k, rfl⟩ := hl
    obtain ⟨L, R, e, h1, h2, rfl, h3, -⟩ := hat k rfl
    exact ⟨it, by rw [istep, h2, Option.map_some, h3]; rfl, hO⟩

/-- The entries stay on their nodes. -/
theorem step_keeps (hc : Lawful cmp) {s s' : TL K V} {zs : List (Ent K V)} (hG : Good cmp s zs) {op : Op K V} {r : Res K V}
    (hr : op.removes = false) (hl : legal cmp (zs.map strip) op) (h : step cmp s op = some (s', r)) :
    ∃ zs', Good cmp s' zs' ∧ zs'.map strip = (spec (ord cmp) (zs.map strip) op).1 ∧
      ∀ e ∈ zs, ∃ e' ∈ zs', e'.1 = e.1 ∧ e'.2.1 = e.2.1 := by
  have : Std.TransCmp (ord cmp) := hc
  obtain ⟨-, zs1, hG1, hz1⟩ := step_partial hc hl ⟨zs, hG, rfl⟩ h
  have hput : ∀ (k : K) (v : V) (f : V → V) b, putWith cmp s k v f = some (s', b) →
      ∃ zs', Good cmp s' zs' ∧ ∀ e ∈ zs, ∃ e' ∈ zs', e'.1 = e.1 ∧ e'.2.1 = e.2.1 := by
    intro k v f b hp
    obtain ⟨-, h2⟩ := putWith_ok hc hG hp
    refine ⟨_, h2, fun e he => ?_⟩
    by_cases hh : Avl.has (ord cmp) k zs = true
    · rw [if_pos hh]
      refine ⟨_, List.mem_map.2 ⟨e, he, rfl⟩, ?_⟩
      split <;> exact ⟨rfl, rfl⟩
    · rw [if_neg hh]
      refine ⟨e, ?_, rfl, rfl⟩
      rw [Avl.insertEntry, List.mem_append, List.mem_cons, List.mem_filter, List.mem_filter]
      have hne : ord cmp e.1 k ≠ .eq := fun h0 => hh (by
        rw [Avl.has, List.any_eq_true]; exact ⟨e, he, by simp [h0]⟩)
      cases ho : ord cmp e.1 k with
      | lt => exact .inl ⟨he, by simp [ho]⟩
      | eq => exact absurd ho hne
      | gt => exact .inr (.inr ⟨he, by simp [ho]⟩)
  have hput' : (∃ k v f b, putWith cmp s k v f = some (s', b)) →
      ∃ zs', Good cmp s' zs' ∧ zs'.map strip = (spec (ord cmp) (zs.map strip) op).1 ∧
        ∀ e ∈ zs, ∃ e' ∈ zs', e'.1 = e.1 ∧ e'.2.1 = e.2.1 := by
    rintro ⟨k, v, f, b, hp⟩
    obtain ⟨zs', g, hk⟩ := hput k v f b hp
    have : zs' = zs1 := g.list.symm.trans hG1.list
    subst this
    exact ⟨zs', g, hz1, hk⟩
  have hsame : s' = s → ∃ zs', Good cmp s' zs' ∧ zs'.map strip = (spec (ord cmp) (zs.map strip) op).1 ∧
        ∀ e ∈ zs, ∃ e' ∈ zs', e'.1 = e.1 ∧ e'.2.1 = e.2.1 := by
    rintro rfl
    have : zs = zs1 := hG.list.symm.trans hG1.list
    subst this
    exact ⟨zs, hG, hz1, fun e he => ⟨e, he, rfl, rfl⟩⟩
  cases op with
  | put k v =>
    simp only [step, Option.map_eq_some_iff, Prod.mk.injEq] at h
    obtain ⟨p, hp, rfl, -⟩ := h
    exact hput' ⟨_, _, _, _, hp⟩
  | set k v =>
    simp only [step, Option.map_eq_some_iff, Prod.mk.injEq] at h
    obtain ⟨p, hp, rfl, -⟩ := h
    exact hput' ⟨_, _, _, _, hp⟩
  | putDup k v f =>
    simp only [step, Option.map_eq_some_iff, Prod.mk.injEq] at h
    obtain ⟨p, hp, rfl, -⟩ := h
    exact hput' ⟨_, _, _, _, hp⟩
  | forward =>
    simp only [step, Option.map_eq_some_iff, Prod.mk.injEq] at h
    obtain ⟨p, hp, rfl, -⟩ := h
    exact hsame rfl
  | backward =>
    simp only [step, Option.map_eq_some_iff, Prod.mk.injEq] at h
    obtain ⟨p, hp, rfl, -⟩ := h
    exact hsame rfl
  | index i =>
    simp only [step] at h
    split at h <;> (cases h; exact hsame rfl)
  | get _ | head | tail | size | indexOf _ | slices | traverse _ => cases h; exact hsame rfl
  | remove _ | removeIndex _ | removeHead | removeTail | clear | removeRange _ _ | removeRangeByIndex _ _
  | trim _ _ | trimByIndex _ _ => cases hr

theorem both_live (hc : Lawful cmp) {c c' : TL K V × Iter} {t : List (K × V) × Cursor K} {ev : Ev K V}
    {r : Res K V ⊕ IRes K V} (hl : liveLegal cmp t ev) (hR : LRel cmp c t) (h : both cmp c ev = some (c', r)) :
    r = (live cmp t ev).2 ∧ LRel cmp c' (live cmp t ev).1 := by
  obtain ⟨s, it⟩ := c
  obtain ⟨xs, cu⟩ := t
  obtain ⟨zs, hG, rfl, hO⟩ := hR
  cases ev with
  | iter op =>
    obtain ⟨it', h1, h2⟩ := istep_live hc hG hO hl
    simp only [both, h1, Option.map_some, Option.some.injEq, Prod.mk.injEq] at h
    obtain ⟨rfl, rfl⟩ := h
    exact ⟨rfl, zs, hG, rfl, h2⟩
  | list op =>
    simp only [both, Option.map_eq_some_iff, Prod.mk.injEq] at h
    obtain ⟨⟨s', r'⟩, h1, rfl, rfl⟩ := h
    obtain ⟨hr, zs1, hG1, hz1⟩ := step_partial hc hl ⟨zs, hG, rfl⟩ h1
    refine ⟨by rw [hr]; rfl, ?_⟩
    cases hrm : op.removes with
    | true =>
      refine ⟨zs1, hG1, hz1, ?_⟩
      simp only [live, hrm, if_true]
      cases cu with
      | «at» k => trivial
      | off => exact hO
      | stale => trivial
    | false =>
      obtain ⟨zs', g, hz, hk⟩ := step_keeps hc hG hrm hl h1
      refine ⟨zs', g, hz, ?_⟩
      simp only [live, hrm, Bool.false_eq_true, if_false]
      cases cu with
      | «at» k =>
        obtain ⟨e, he, hcur, rfl⟩ := hO
        obtain ⟨e', he', k1, k2⟩ := hk e he
        exact ⟨e', he', by rw [k2]; exact hcur, k1⟩
      | off => exact hO
      | stale => trivial

theorem LRel.new (junk : K × V) : LRel cmp (new junk, ⟨none, 0⟩) ([], .off) :=
  ⟨[], Good.empty rfl rfl rfl, rfl, rfl⟩

/-! ### C82 -/

/-- C82: any calls on a new list and a new iterator of it, in any order. Every run that does not panic answers as
the ideal list with the ideal iterator, a key from which `Next` and `Prev` go to the nearest key that is in the
list then. So insertions and `Set` between the steps of an iteration do not disturb it. Missing from the full
statement: after a call that may take entries out, the iterator must be placed by a seek before it is used again
(`liveLegal`); see `C82_remove_current_skips`, `C82_remove_other_repeats`. -/
theorem C82_modified_partial (hc : Lawful cmp) (junk : K × V) (es : List (Ev K V))
    (hl : LegalRun (live cmp) (liveLegal cmp) ([], .off) es) (c : TL K V × Iter) (rs : List (Res K V ⊕ IRes K V))
    (h : run (both cmp) (new junk, ⟨none, 0⟩) es = some (c, rs)) : rs = (runSpec (live cmp) ([], .off) es).2 :=
  (run_partial_legal (step := both cmp) (spec := live cmp) (LRel cmp)
    (fun _ _ _ _ _ h1 h2 h3 => both_live hc h1 h2 h3) es _ _ _ _ hl (LRel.new junk) h).1

/-- The calls of `liveLegal`, with insertions only while there are at most 63 entries. -/
def liveSmall (cmp : K → K → Int) (t : List (K × V) × Cursor K) (ev : Ev K V) : Prop :=
  liveLegal cmp t ev ∧ ∀ o, ev = .list o → o.inserts = true → t.1.length ≤ 63

/-- C82: with at most 64 entries no such run panics. -/
theorem C82_small_partial (hc : Lawful cmp) (junk : K × V) (es : List (Ev K V))
    (hl : LegalRun (live cmp) (liveSmall cmp) ([], .off) es) :
    ∃ c, run (both cmp) (new junk, ⟨none, 0⟩) es = some (c, (runSpec (live cmp) ([], .off) es).2) := by
  obtain ⟨c, h, -⟩ := run_refines_legal (step := both cmp) (spec := live cmp) (legal := liveSmall cmp) (LRel cmp)
    (fun c t ev h1 h2 => by
      suffices H : ∃ p, both cmp c ev = some p by
        obtain ⟨⟨c', r⟩, hp⟩ := H
        obtain ⟨rfl, h3⟩ := both_live hc h1.1 h2 hp
        exact ⟨c', hp, h3⟩
      obtain ⟨zs, hG, hz, hO⟩ := h2
      cases ev with
      | iter op =>
        obtain ⟨it', h3, -⟩ := istep_live hc hG hO (op := op) (by rw [hz]; exact h1.1)
        exact ⟨_, by rw [both, h3]; rfl⟩
      | list op =>
        have hR : Rel cmp c.1 t.1 := ⟨zs, hG, hz⟩
        rcases step_ok hc (s := c.1) (xs := t.1) (op := op) h1.1 hR with ⟨-, h3, h4⟩ | ⟨s', h3, -⟩
        · have := h1.2 op rfl h3
          have := hR.height
          omega
        · exact ⟨_, by rw [both, h3]; rfl⟩) es _ _ hl (LRel.new junk)
  exact ⟨c, h⟩

/-- C82, an iteration on the ideal list: from a key of the list, `Next` goes to the key that follows it, whatever has
been put since, and all keys up to the end are met in their order. -/
theorem C82_next_in_order (hc : Lawful cmp) {L R : List (K × V)} {e : K × V}
    (hs : (L ++ e :: R).Pairwise fun a b => cmp a.1 b.1 < 0) :
    (liveI cmp (L ++ e :: R) (.at e.1) .next).1 = Cursor.of R.head? ∧
    (liveI cmp (L ++ e :: R) (.at e.1) .prev).1 = Cursor.of L.getLast? ∧
    (liveI cmp (L ++ e :: R) (.at e.1) .slice).2 = .slice e := by
  have hs' : Sorted (ord cmp) (L ++ e :: R) := List.Pairwise.imp (fun h => ord_lt.2 h) hs
  obtain ⟨h1, h2, h3⟩ := around hc hs' rfl
  simp only [liveI, h1, h2, h3, and_self]

/-- A loop that removes the current key 2 of {1, 2, 3}: the iterator is then on 3, and `Next` passes over it. -/
theorem C82_remove_current_skips :
    (run (both Compare.any) (new ((0 : Int), ()), ⟨none, 0⟩) [.list (.put 1 ()), .list (.put 2 ()), .list (.put 3 ()),
      .iter .seekToFirst, .iter .slice, .iter .next, .iter .slice, .list (.remove 2), .iter .next, .iter .valid,
      .list .slices]).map (·.2) =
    some [.inl (.bool true), .inl (.bool true), .inl (.bool true), .inr .unit, .inr (.slice (1, ())), .inr .unit,
      .inr (.slice (2, ())), .inl (.slice (some (2, ()))), .inr .unit, .inr (.bool false),
      .inl (.list [(1, ()), (3, ())])] := by decide +kernel

/-- Removing another key than the current one, 2 of {1, 2} with the iterator on 1: `Next` comes to 1 again. -/
theorem C82_remove_other_repeats :
    (run (both Compare.any) (new ((0 : Int), ()), ⟨none, 0⟩) [.list (.put 2 ()), .list (.put 1 ()),
      .iter .seekToFirst, .iter .slice, .list (.remove 2), .iter .next, .iter .slice, .iter .next, .iter .valid]).map (·.2) =
    some [.inl (.bool true), .inl (.bool true), .inr .unit, .inr (.slice (1, ())),
      .inl (.slice (some (2, ()))), .inr .unit, .inr (.slice (1, ())), .inr .unit, .inr (.bool false)] := by decide +kernel

/-- `Index` does not follow insertions: after {2}, `SeekToFirst`, `Put(1)` it is still 0 on the key 2. -/
theorem C82_index_stale :
    (run (both Compare.any) (new ((0 : Int), ()), ⟨none, 0⟩) [.list (.put 2 ()), .iter .seekToFirst, .list (.put 1 ()),
      .iter .slice, .iter .index, .list (.indexOf 2)]).map (·.2) =
    some [.inl (.bool true), .inr .unit, .inl (.bool true), .inr (.slice (2, ())), .inr (.int 0), .inl (.int 1)] := by
  decide +kernel

/-- Insertions around the iterator, an update of its entry, a removal and a new seek. -/
def events : List (Ev Int String) :=
  [.list (.put 4 "d"), .list (.put 8 "h"), .iter .seekToFirst, .list (.put 2 "b"), .list (.put 6 "f"),
    .list (.set 4 "D"), .iter .slice, .iter .next, .iter .slice, .iter .prev, .iter .prev, .iter .slice,
    .list (.remove 4), .iter (.seekGE 3), .list (.put 7 "g"), .iter .next, .iter .slice, .iter .next, .iter .slice,
    .iter .next, .list (.put 9 "i"), .iter .valid]

theorem events_legal : LegalRun (live Compare.any) (liveSmall Compare.any) ([], .off) events := by
  refine ⟨⟨trivial, ?_⟩, ⟨trivial, ?_⟩, ⟨trivial, ?_⟩, ⟨trivial, ?_⟩, ⟨trivial, ?_⟩, ⟨trivial, ?_⟩, ⟨⟨_, rfl⟩, ?_⟩,
    ⟨⟨_, rfl⟩, ?_⟩, ⟨⟨_, rfl⟩, ?_⟩, ⟨⟨_, rfl⟩, ?_⟩, ⟨⟨_, rfl⟩, ?_⟩, ⟨⟨_, rfl⟩, ?_⟩, ⟨trivial, ?_⟩,
    ⟨List.cons_ne_nil _ _, ?_⟩, ⟨trivial, ?_⟩, ⟨⟨_, rfl⟩, ?_⟩, ⟨⟨_, rfl⟩, ?_⟩, ⟨⟨_, rfl⟩, ?_⟩, ⟨⟨_, rfl⟩, ?_⟩,
    ⟨⟨_, rfl⟩, ?_⟩, ⟨trivial, ?_⟩, ⟨(fun h => nomatch (show (Cursor.off : Cursor Int) = .stale from h)), ?_⟩, trivial⟩ <;>
  first
    | (intro o h; cases h; decide)
    | (intro o h; cases h)

example : ∃ c, run (both Compare.any) (new (0, ""), ⟨none, 0⟩) events = some (c,
    [.inl (.bool true), .inl (.bool true), .inr .unit, .inl (.bool true), .inl (.bool true),
      .inl (.bool true), .inr (.slice (4, "D")), .inr .unit, .inr (.slice (6, "f")), .inr .unit, .inr .unit,
      .inr (.slice (2, "b")), .inl (.slice (some (4, "D"))), .inr (.bool false), .inl (.bool true), .inr .unit,
      .inr (.slice (7, "g")), .inr .unit, .inr (.slice (8, "h")), .inr .unit, .inl (.bool true), .inr (.bool false)]) := by
  obtain ⟨c, h⟩ := C82_small_partial any_lawful (0, "") events events_legal
  exact ⟨c, h.trans rfl⟩

end Verif.TreeList
