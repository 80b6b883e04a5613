import Verif.Graph.Back

/-! `search` as a whole. -/

namespace Verif.Astar

open Verif.Heap (PQ)
open Verif.Heap.Wk (Weak Rep)

variable {cost weight : Count}

/-- Nothing is counted and the heap is empty. -/
structure Fresh (g : Graph) : Prop where
  tiles : ∀ p, g.tiles p = ⟨0, 0, false, (g.tiles p).attr⟩
  outside : ∀ p, inBounds g p = false → (g.tiles p).attr = PLAIN
  size : g.heap.size = 0
  cap : 16 ≤ g.heap.elements.length

/-- The heap is empty between calls. -/
structure Idle (g : Graph) : Prop where
  size : g.heap.size = 0
  cap : 16 ≤ g.heap.elements.length

theorem rep_nil {α : Type} [Inhabited α] {le : α → α → Prop} {h : PQ α} (hs : h.size = 0) (hc : 16 ≤ h.elements.length) :
    Rep le h [] := by
  refine ⟨hc, by omega, ?_, ?_⟩
  · intro i hi hin; omega
  · rw [hs]; simp

abbrev any : Pos → Pos → Prop := fun _ _ => True

theorem put_cap {cmp : Pos → Pos → Int} {h h' : PQ Pos} {m : List Pos} {v : Pos} (hr : Rep any h m)
    (hp : h.put cmp v = some h') : ∃ m', Rep any h' m' := by
  obtain ⟨h2, hp2, hr2⟩ := Heap.Wk.put_ok (Weak.all cmp) h m v hr
  rw [hp] at hp2
  simp only [Option.some.injEq] at hp2
  subst hp2
  exact ⟨_, hr2⟩

theorem visit_cap {t n : Pos} {g g' : Graph} {m : List Pos} (hr : Rep any g.heap m)
    (h : visit cost weight t g n = some g') : ∃ m', Rep any g'.heap m' := by
  unfold visit at h
  split at h
  · simp only [Option.map_eq_some_iff] at h
    obtain ⟨h', hp, rfl⟩ := h
    exact put_cap (m := m) hr hp
  · simp at h; subst h; exact ⟨m, hr⟩

theorem expand_cap {t : Pos} : ∀ (ns : List Pos) {g g' : Graph} {m : List Pos}, Rep any g.heap m →
    expand cost weight t ns g = some g' → ∃ m', Rep any g'.heap m' := by
  intro ns
  induction ns with
  | nil => intro g g' m hr h; simp [expand] at h; subst h; exact ⟨m, hr⟩
  | cons n ns ih =>
    intro g g' m hr h
    simp only [expand, Option.bind_eq_some_iff] at h
    obtain ⟨g1, h1, h2⟩ := h
    obtain ⟨m1, hr1⟩ := visit_cap hr h1
    exact ih hr1 h2

theorem finish_heap {multi b : Bool} {s t : Pos} {g g' : Graph} (h : finish multi s t g = some (g', b)) :
    g'.heap = g.heap := by
  unfold finish at h
  split at h <;> (simp only [Option.map_eq_some_iff, Prod.mk.injEq] at h; obtain ⟨_, _, rfl, _⟩ := h; rfl)

theorem loop_cap {multi b : Bool} {s e : Pos} : ∀ (n : Nat) {g g' : Graph} {m : List Pos}, Rep any g.heap m →
    loop cost weight multi s e n g = some (g', b) → ∃ m', Rep any g'.heap m' := by
  intro n
  induction n with
  | zero => intro g g' m _ h; simp [loop] at h
  | succ n ih =>
    intro g g' m hr h
    by_cases hm : m = []
    · subst hm
      simp only [loop, Heap.Wk.pop_empty g.heap hr, Option.bind_some, Option.some.injEq, Prod.mk.injEq] at h
      obtain ⟨rfl, _⟩ := h
      exact ⟨[], hr⟩
    · obtain ⟨h1, m1, hp, hr1, _⟩ := Heap.Wk.pop_ok (Weak.all (weightCompare g.tiles)) g.heap m hr hm
      simp only [loop, hp, Option.bind_some] at h
      split at h
      · have := finish_heap h
        rw [this]; exact ⟨m1, hr1⟩
      · simp only [Option.bind_eq_some_iff] at h
        obtain ⟨g2, h2, h3⟩ := h
        obtain ⟨m2, hr2⟩ := expand_cap _ (m := m1) (by exact hr1) h2
        exact ih hr2 h3

theorem search_idle {multi b : Bool} {g g' : Graph} (hi : Idle g) (h : search cost weight multi g = some (g', b)) :
    Idle g' := by
  simp only [search, Option.bind_eq_some_iff, Option.map_eq_some_iff, Prod.mk.injEq] at h
  obtain ⟨s, _, e, _, ts, _, te, _, hp, h1, r, h2, rfl, _⟩ := h
  obtain ⟨m, hr⟩ := put_cap (rep_nil hi.size hi.cap) h1
  obtain ⟨m', hr'⟩ := loop_cap _ (by exact hr) h2
  exact ⟨rfl, hr'.cap⟩

/-- What `SetStringTiles` does, is done by `SetAttr` and by setting the points. -/
theorem setRow_induct {P : Graph → Prop} (hp : ∀ g s e, P g → P { g with start := s, fin := e })
    (ha : ∀ {g g' p a}, P g → setAttr g p a = some g' → P g') (y : Nat) : ∀ (l : List Nat) (x : Nat) {g g' : Graph}, P g →
    setRow y x l g = some g' → P g'
  | [], x, g, g', hg, h => by
    simp only [setRow, Option.some.injEq] at h
    subst h; exact hg
  | a :: l, x, g, g', hg, h => by
    rw [setRow] at h
    split at h
    · split at h
      · exact setRow_induct hp ha y l _ (hp g _ g.fin hg) h
      · split at h
        · exact setRow_induct hp ha y l _ (hp g g.start _ hg) h
        · split at h
          · exact setRow_induct hp ha y l _ hg h
          · split at h
            · rw [Option.bind_eq_some_iff] at h
              obtain ⟨g1, h1, h2⟩ := h
              exact setRow_induct hp ha y l _ (ha hg h1) h2
            · exact setRow_induct hp ha y l _ hg h
    · simp only [Option.some.injEq] at h
      subst h; exact hg

theorem setRows_induct {P : Graph → Prop} (hp : ∀ g s e, P g → P { g with start := s, fin := e })
    (ha : ∀ {g g' p a}, P g → setAttr g p a = some g' → P g') : ∀ (L : List (List Nat)) (y : Nat) {g g' : Graph}, P g →
    setRows y L g = some g' → P g'
  | [], y, g, g', hg, h => by
    simp only [setRows, Option.some.injEq] at h
    subst h; exact hg
  | l :: L, y, g, g', hg, h => by
    rw [setRows, Option.bind_eq_some_iff] at h
    obtain ⟨g1, h1, h2⟩ := h
    exact setRows_induct hp ha L _ (setRow_induct hp ha y l 0 hg h1) h2

theorem setAttr_idle {g g' : Graph} {p : Pos} {a : Nat} (ih : Idle g) (h : setAttr g p a = some g') : Idle g' := by
  simp only [Astar.setAttr, Option.map_eq_some_iff] at h
  obtain ⟨t, _, rfl⟩ := h
  exact ⟨ih.size, ih.cap⟩

theorem idle_of_reached {g : Graph} (h : Reached g) : Idle g := by
  induction h with
  | new w h => exact ⟨rfl, by simp [Astar.new, PQ.new]⟩
  | newWithTiles text => exact ⟨rfl, by simp [Astar.newWithTiles, Astar.new, PQ.new]⟩
  | setStringTiles _ h ih => exact setRows_induct (fun g s e hg => ⟨hg.size, hg.cap⟩) setAttr_idle _ _ ih h
  | setAttr _ h ih => exact setAttr_idle ih h
  | setTarget s e _ ih => exact ⟨ih.size, ih.cap⟩
  | setNeighbor d _ ih => exact ⟨ih.size, ih.cap⟩
  | search _ h ih => exact search_idle ih h
  | clear _ h ih =>
    unfold Astar.clear at h
    split at h
    · simp at h; subst h; exact ⟨ih.size, ih.cap⟩
    · simp at h

theorem clearTile_reset {g : Graph} {t t' : Tile} (h : clearTile g t = some t') : t' = ⟨0, 0, false, t'.attr⟩ := by
  unfold clearTile at h
  simp only at h
  split at h
  · simp at h; subst h; rfl
  · split at h
    · simp only [Option.map_eq_some_iff] at h; obtain ⟨_, _, rfl⟩ := h; rfl
    · split at h
      · simp only [Option.map_eq_some_iff] at h; obtain ⟨_, _, rfl⟩ := h; rfl
      · simp at h; subst h; rfl

theorem clear_fresh {g g' : Graph} (hi : Idle g) (h : clear g = some g') : Fresh g' := by
  unfold clear at h
  split at h
  · rename_i hall
    simp at h; subst h
    refine ⟨?_, ?_, hi.size, hi.cap⟩
    · intro p
      by_cases hp : inBounds g p = true
      · simp only [hp, if_true]
        have := List.all_eq_true.1 hall p (mem_cells.2 hp)
        obtain ⟨t, ht⟩ := Option.isSome_iff_exists.1 this
        rw [ht]
        exact clearTile_reset ht
      · simp only [hp, Bool.false_eq_true, if_false]
    · intro p hp
      have hp' : inBounds g p = false := hp
      simp [hp']
  · simp at h

theorem setAttr_fresh {g g' : Graph} {p : Pos} {a : Nat} (ih : Fresh g) (h : setAttr g p a = some g') : Fresh g' := by
  simp only [Astar.setAttr, Option.map_eq_some_iff] at h
  obtain ⟨t, ht, rfl⟩ := h
  unfold Graph.at? at ht
  split at ht
  · rename_i hb
    simp at ht; subst ht
    refine ⟨?_, ?_, ih.size, ih.cap⟩
    · intro q
      simp only [Graph.set]
      by_cases hq : q = p
      · simp only [hq, if_true]; rw [ih.tiles p]
      · simp only [hq, if_false]; exact ih.tiles q
    · intro q hq
      simp only [Graph.set]
      by_cases hqp : q = p
      · subst hqp
        have : inBounds g q = false := hq
        rw [hb] at this; simp at this
      · simp only [hqp, if_false]; exact ih.outside q hq
  · simp at ht

theorem fresh_of_ready {g : Graph} (h : Ready g) : Fresh g := by
  induction h with
  | new w h => exact ⟨fun _ => rfl, fun _ _ => rfl, rfl, by simp [Astar.new, PQ.new]⟩
  | newWithTiles text =>
    refine ⟨fun _ => rfl, ?_, rfl, by simp [Astar.newWithTiles, Astar.new, PQ.new]⟩
    intro p hp
    have : inBounds (Astar.new (xMax (tileBuffer text)) (tileBuffer text).length) p = false := hp
    simp [Astar.newWithTiles, this]
  | setStringTiles _ h ih =>
    exact setRows_induct (fun g s e hg => ⟨hg.tiles, hg.outside, hg.size, hg.cap⟩) setAttr_fresh _ _ ih h
  | clear hg h => exact clear_fresh (idle_of_reached hg) h
  | setAttr _ h ih => exact setAttr_fresh ih h
  | setTarget s e _ ih => exact ⟨ih.tiles, ih.outside, ih.size, ih.cap⟩
  | setNeighbor d _ ih => exact ⟨ih.tiles, ih.outside, ih.size, ih.cap⟩

/-! ### The beginning of a search -/

theorem inside_iff {g : Graph} {p : Pos} : Inside g p ↔ inBounds g p = true := inBounds_iff.symm

/-- The graph when the loop begins, but for the heap. -/
def prepared (g : Graph) (s e : Pos) : Graph :=
  let g1 := { g.set s { g.tiles s with isCount := true, attr := START } with start := some ⟨s, (g.tiles s).attr⟩ }
  { g1.set e { g1.tiles e with isCount := false, attr := END } with fin := some ⟨e, (g1.tiles e).attr⟩ }

theorem search_eq {multi : Bool} {g : Graph} {s e : Pos} (ht : Target g s e) (hs : Inside g s) (he : Inside g e) :
    search cost weight multi g = (((prepared g s e).heap.put (weightCompare (prepared g s e).tiles) s).bind fun h =>
      (loop cost weight multi s e (g.dimX * g.dimY + 2) { prepared g s e with heap := h }).map fun r =>
        ({ r.1 with heap := { r.1.heap with size := 0 } }, r.2)) := by
  obtain ⟨h1, h2⟩ := ht
  simp only [Option.map_eq_some_iff] at h1 h2
  obtain ⟨⟨s', a⟩, h1, rfl⟩ := h1
  obtain ⟨⟨e', b⟩, h2, rfl⟩ := h2
  have hs' := inside_iff.1 hs
  have he' := inside_iff.1 he
  simp only at hs' he'
  have e1 : ∀ (g2 : Graph), g2.dimX = g.dimX → g2.dimY = g.dimY → inBounds g2 e' = true := by
    intro g2 ha hb; rw [← he']; simp [inBounds, ha, hb]
  simp only [search, h1, h2, Option.bind_some, Graph.at?, hs', if_true]
  split
  · rfl
  · rename_i h; exact absurd (e1 _ rfl rfl) h

theorem prepared_prep {g : Graph} {s e : Pos} (hf : Fresh g) (hs : Inside g s) (he : Inside g e) (hne : s ≠ e) :
    Prep (prepared g s e) s e where
  ne := hne
  inS := inside_iff.1 hs
  inE := inside_iff.1 he
  cnt := by
    intro p
    have h := hf.tiles p
    by_cases h1 : p = e
    · subst h1; simp [prepared, Graph.set, Ne.symm hne]
    · by_cases h2 : p = s
      · subst h2; simp [prepared, Graph.set, hne]
      · simp [prepared, Graph.set, h1, h2]; rw [h]
  cost := by simp [prepared, Graph.set, hne]; rw [hf.tiles s]
  attrS := by simp [prepared, Graph.set, hne, START, BLOCK]
  attrE := by simp [prepared, Graph.set, END, BLOCK]

theorem prepared_attr {g : Graph} {s e : Pos} (p : Pos) :
    ((prepared g s e).tiles p).attr = if p = e then END else if p = s then START else (g.tiles p).attr := by
  by_cases h1 : p = e
  · simp [prepared, Graph.set, h1]
  · by_cases h2 : p = s
    · subst h2; simp [prepared, Graph.set, h1]
    · simp [prepared, Graph.set, h1, h2]

/-- What a search with different start and end comes to. -/
theorem search_cases {multi : Bool} {g : Graph} {s e : Pos} (hf : Fresh g) (ht : Target g s e) (hs : Inside g s)
    (he : Inside g e) (hne : s ≠ e) :
    ∃ g' m P h, At cost weight (prepared g s e) s e g' m P ∧
      ((m = [] ∧ search cost weight multi g = some ({ g' with heap := { h with size := 0 } }, false)) ∨
       (e ∈ m ∧ (∀ y ∈ m, (g'.tiles y).weight ≤ (g'.tiles e).weight) ∧
        search cost weight multi g = (finish multi s e { g' with heap := h }).map fun r =>
          ({ r.1 with heap := { r.1.heap with size := 0 } }, r.2))) := by
  have hp := prepared_prep hf hs he hne
  obtain ⟨h1, h2, h3⟩ := Heap.Wk.put_ok (weak (prepared g s e).tiles) (prepared g s e).heap [] s
    (rep_nil hf.size hf.cap)
  have hinit : At cost weight (prepared g s e) s e { prepared g s e with heap := h1 } [s] [] := .init
  have hleft : left { prepared g s e with heap := h1 } < (prepared g s e).dimX * (prepared g s e).dimY :=
    left_lt hp.inS ((hp.cnt s).2 rfl)
  obtain ⟨g', m, P, h, a, r⟩ := loop_ok (multi := multi) (g.dimX * g.dimY + 2) _ _ _ hinit h3 (by
    intro p hp'
    have : p = s := by simpa using hp'
    exact (hp.cnt p).2 this) (by
    exact Nat.lt_succ_of_le (Nat.le_succ_of_le (Nat.succ_le_of_lt hleft)))
  refine ⟨g', m, P, h, a, ?_⟩
  rw [search_eq ht hs he, h2]
  simp only [Option.bind_some]
  rcases r with ⟨r1, r2⟩ | ⟨r1, r2, r3⟩
  · exact Or.inl ⟨r1, by rw [r2]; rfl⟩
  · exact Or.inr ⟨r1, r2, by rw [r3]⟩

/-- With the same start and end the search is over at once. -/
theorem search_same {multi : Bool} {g : Graph} {s : Pos} (hf : Fresh g) (ht : Target g s s) (hs : Inside g s) :
    ∃ h, search cost weight multi g = some
      ({ prepared g s s with heap := h, pathlist := if multi then [[s, s]] else [[s]] }, true) := by
  obtain ⟨h1, h2, h3⟩ := Heap.Wk.put_ok (weak (prepared g s s).tiles) (prepared g s s).heap [] s
    (rep_nil hf.size hf.cap)
  obtain ⟨h4, m4, h5, _, h7⟩ := Heap.Wk.pop_ok (weak (prepared g s s).tiles) h1 [s] h3 (by simp)
  have htop : Heap.g h1.elements 0 = s := by
    have := h7.symm.subset (List.mem_cons_self (a := Heap.g h1.elements 0))
    simpa using this
  rw [htop] at h5
  refine ⟨{ h4 with size := 0 }, ?_⟩
  rw [search_eq ht hs hs, h2]
  simp only [Option.bind_some]
  rw [loop]
  simp only [h5, Option.bind_some, if_true]
  have hpos : ∀ n, singlePath { prepared g s s with heap := h4 } s n s [s] = some [s] := by
    intro n; unfold singlePath; simp
  have hpos2 : ∀ n, multiPath { prepared g s s with heap := h4 } s n s [s] = some [[s, s]] := by
    intro n; unfold multiPath; simp
  cases multi
  · simp only [finish, Bool.false_eq_true, if_false]
    rw [hpos]; simp
  · simp only [finish, if_true]
    rw [hpos2]; simp [sortPaths, insertPath]

end Verif.Astar
