import Verif.Graph.Props

/-! A map of graph/astar through any history of calls: property C91. -/

namespace Verif.Astar

/-! ### The calls -/

/-- The calls for the tiles and the targets, the searches with the default cost, and `Clear`. `near` are
`SetNeighbor` with `Neighbor4` or `Neighbor8`. -/
inductive GOp where
  | setAttr (p : Pos) (a : Nat) | getAttr (p : Pos) | setTarget (s e : Pos) | near (diagonal : Bool)
  | search (multi : Bool) | clear

inductive GRes where
  | unit | attr (a : Nat) | found (b : Bool)
  deriving DecidableEq

/-- One call, see the definitions for their places in astar.go. -/
def gstep (weight : Count) (g : Graph) : GOp → Option (Graph × GRes)
  | .setAttr p a => (setAttr g p a).map fun g => (g, .unit)
  | .getAttr p => (getAttr g p).map fun a => (g, .attr a)
  | .setTarget s e => some (setTarget g s e, .unit)
  | .near d => some ({ g with dirs := if d then eight else four }, .unit)
  | .search multi => (search simpleCost weight multi g).map fun r => (r.1, .found r.2)
  | .clear => (clear g).map fun g => (g, .unit)

/-! ### The specification -/

/-- A map as a user thinks of it: its tiles, the directions, the targets, and whether something was
searched since the last `Clear`. -/
structure Board where
  w : Nat
  h : Nat
  attr : Pos → Nat
  dirs : List Pos
  target : Option (Pos × Pos)
  searched : Bool

/-- The position is on the map. -/
def Board.inside (b : Board) (p : Pos) : Prop := 0 ≤ p.1 ∧ 0 ≤ p.2 ∧ p.1 < b.w ∧ p.2 < b.h

/-- There is a way from the start that avoids blocks, or it may be one if it is `e`. -/
inductive Board.Way (b : Board) (s e : Pos) : Pos → Prop
  | here : Way b s e s
  | step {p : Pos} (d : Pos) (h : Way b s e p) (hd : d ∈ b.dirs) (hi : b.inside (p.1 + d.1, p.2 + d.2))
      (ho : (p.1 + d.1, p.2 + d.2) = s ∨ (p.1 + d.1, p.2 + d.2) = e ∨ b.attr (p.1 + d.1, p.2 + d.2) ≠ 120) :
      Way b s e (p.1 + d.1, p.2 + d.2)

/-- What `GetAttr` shows: the tiles, but after a search the start is 's' and the end is 'e'. -/
def Board.shown (b : Board) (p : Pos) : Nat :=
  match b.target with
  | none => b.attr p
  | some (s, e) => if b.searched then if p = e then 101 else if p = s then 115 else b.attr p else b.attr p

open Classical in
/-- The calls. -/
noncomputable def gspec (b : Board) : GOp → Board × GRes
  | .setAttr p a => ({ b with attr := fun q => if q = p then a else b.attr q }, .unit)
  | .getAttr p => (b, .attr (b.shown p))
  | .setTarget s e => ({ b with target := some (s, e) }, .unit)
  | .near d => ({ b with dirs := if d then eight else four }, .unit)
  | .search _ =>
    match b.target with
    | none => (b, .unit)
    | some (s, e) => ({ b with searched := true }, .found (decide (b.Way s e e)))
  | .clear => ({ b with searched := false }, .unit)

/-- Which calls are covered: positions on the map (else there is a panic, see `C91_outside_panics`); no
attribute that has a meaning for `Clear`; between a search and `Clear` no change of the start and the end and
no second search; a search needs two different targets on the map. -/
def glegal (b : Board) : GOp → Prop
  | .setAttr p a => b.inside p ∧ a ∉ [111, 115, 101] ∧
      (b.searched = true → ∀ s e, b.target = some (s, e) → p ≠ s ∧ p ≠ e)
  | .getAttr p => b.inside p
  | .setTarget _ _ => b.searched = false
  | .near _ => True
  | .search _ => b.searched = false ∧ ∃ s e, b.target = some (s, e) ∧ b.inside s ∧ b.inside e ∧ s ≠ e
  | .clear => True

/-! ### The invariant -/

/-- The graph is the map. -/
structure GInv (g : Graph) (b : Board) : Prop where
  dimX : g.dimX = b.w
  dimY : g.dimY = b.h
  dirs : g.dirs = b.dirs
  sym : b.dirs = four ∨ b.dirs = eight
  idle : Idle g
  outside : ∀ p, ¬ b.inside p → b.attr p = PLAIN
  plain : ∀ p, b.inside p → b.attr p ∉ [111, 115, 101]
  target : (g.start.map (·.pos)) = b.target.map (·.1) ∧ (g.fin.map (·.pos)) = b.target.map (·.2)
  fresh : b.searched = false → ∀ p, g.tiles p = ⟨0, 0, false, b.attr p⟩
  marked : b.searched = true → ∃ s e, b.inside s ∧ b.inside e ∧ s ≠ e ∧ g.start = some ⟨s, b.attr s⟩ ∧
    g.fin = some ⟨e, b.attr e⟩ ∧ ∀ p, (g.tiles p).attr = if p = e then END else if p = s then START else b.attr p

variable {g : Graph} {b : Board}

theorem GInv.inside (h : GInv g b) {p : Pos} : b.inside p ↔ inBounds g p = true := by
  rw [← inside_iff]
  simp [Board.inside, Inside, h.dimX, h.dimY]

theorem GInv.shown (h : GInv g b) (p : Pos) : (g.tiles p).attr = b.shown p := by
  unfold Board.shown
  cases hs : b.searched with
  | false =>
    rw [h.fresh hs p]
    cases b.target with
    | none => rfl
    | some t => rfl
  | true =>
    obtain ⟨s, e, -, -, -, h1, h2, h3⟩ := h.marked hs
    obtain ⟨t1, t2⟩ := h.target
    rw [h1] at t1
    rw [h2] at t2
    cases ht : b.target with
    | none => rw [ht] at t1; simp at t1
    | some t =>
      rw [ht] at t1 t2
      simp at t1 t2
      rw [h3 p, t1, t2]
      rfl

theorem GInv.toFresh (h : GInv g b) (hs : b.searched = false) : Fresh g where
  tiles p := by rw [h.fresh hs p]
  outside p hp := by
    rw [h.fresh hs p]
    exact h.outside p fun hi => by rw [h.inside.1 hi] at hp; cases hp
  size := h.idle.size
  cap := h.idle.cap

theorem walk_way (h : GInv g b) (hs : b.searched = false) (s e p : Pos) :
    (∃ n, Walk g s e n p) ↔ b.Way s e p := by
  constructor
  · rintro ⟨n, hw⟩
    induction hw with
    | here => exact .here
    | step _ ha ho ih =>
      obtain ⟨d, hd, rfl⟩ := ha
      rw [h.dirs] at hd
      have ho2 := ho.2
      rw [h.fresh hs] at ho2
      exact .step d ih hd (h.inside.2 (inside_iff.1 ho.1)) ho2
  · intro hw
    induction hw with
    | here => exact ⟨0, .here⟩
    | step d _ hd hi ho ih =>
      obtain ⟨n, hn⟩ := ih
      refine ⟨n + 1, .step hn ⟨d, by rw [h.dirs]; exact hd, rfl⟩ ⟨inside_iff.2 (h.inside.1 hi), ?_⟩⟩
      rw [h.fresh hs]
      exact ho

/-- `Clear` on what a search leaves or does not. -/
theorem clear_board (h : GInv g b) : ∃ g', clear g = some g' ∧ GInv g' { b with searched := false } := by
  have hct : ∀ p, inBounds g p = true → clearTile g (g.tiles p) = some ⟨0, 0, false, b.attr p⟩ := by
    intro p hp
    have hpl := h.plain p (h.inside.2 hp)
    simp only [List.mem_cons, List.not_mem_nil, or_false, not_or] at hpl
    have n1 : b.attr p ≠ PATH := hpl.1
    have n2 : b.attr p ≠ START := hpl.2.1
    have n3 : b.attr p ≠ END := hpl.2.2
    unfold clearTile
    simp only
    cases hs : b.searched with
    | false =>
      rw [h.fresh hs p]
      simp only
      rw [if_neg n1, if_neg n2, if_neg n3]
    | true =>
      obtain ⟨s, e, -, -, hne, h1, h2, h3⟩ := h.marked hs
      rw [h3 p]
      by_cases hpe : p = e
      · subst hpe
        rw [if_pos rfl, if_neg (by decide), if_neg (by decide), if_pos rfl, h2]
        rfl
      · rw [if_neg hpe]
        by_cases hps : p = s
        · subst hps
          rw [if_pos rfl, if_neg (by decide), if_pos rfl, h1]
          rfl
        · rw [if_neg hps, if_neg n1, if_neg n2, if_neg n3]
  have hall : ((cells g).all fun p => (clearTile g (g.tiles p)).isSome) = true := by
    rw [List.all_eq_true]
    intro p hp
    rw [hct p (mem_cells.1 hp)]
    rfl
  refine ⟨_, by unfold clear; rw [if_pos hall], ?_⟩
  refine ⟨h.dimX, h.dimY, h.dirs, h.sym, ⟨h.idle.size, h.idle.cap⟩, h.outside, h.plain, h.target, fun _ p => ?_,
    fun h => by cases h⟩
  simp only
  by_cases hp : inBounds g p = true
  · rw [if_pos hp, hct p hp]; rfl
  · rw [if_neg hp, h.outside p (fun hi => hp (h.inside.1 hi))]

theorem gstep_ok (weight : Count) {op : GOp} (hl : glegal b op) (h : GInv g b) :
    ∃ g', gstep weight g op = some (g', (gspec b op).2) ∧ GInv g' (gspec b op).1 := by
  cases op with
  | setAttr p a =>
    obtain ⟨hp, ha, hm⟩ := hl
    refine ⟨g.set p { g.tiles p with attr := a }, ?_, h.dimX, h.dimY, h.dirs, h.sym, ⟨h.idle.size, h.idle.cap⟩, ?_, ?_,
      h.target, ?_, ?_⟩
    · simp [gstep, setAttr, Graph.at?, h.inside.1 hp, gspec]
    · intro q hq
      have : q ≠ p := by rintro rfl; exact hq hp
      simp only [gspec, this, if_false]
      exact h.outside q hq
    · intro q hq
      simp only [gspec]
      by_cases e : q = p
      · rw [if_pos e]; exact ha
      · rw [if_neg e]; exact h.plain q hq
    · intro hs q
      simp only [gspec, Graph.set]
      by_cases e : q = p
      · subst e; rw [if_pos rfl, if_pos rfl, h.fresh hs]
      · rw [if_neg e, if_neg e]; exact h.fresh hs q
    · intro hs
      obtain ⟨s, e, i1, i2, hne, h1, h2, h3⟩ := h.marked hs
      have hn : p ≠ s ∧ p ≠ e := by
        refine hm hs s e ?_
        obtain ⟨t1, t2⟩ := h.target
        rw [h1] at t1
        rw [h2] at t2
        cases ht : b.target with
        | none => rw [ht] at t1; simp at t1
        | some t => rw [ht] at t1 t2; simp at t1 t2; rw [t1, t2]
      refine ⟨s, e, i1, i2, hne, ?_, ?_, fun q => ?_⟩
      · simp only [gspec, if_neg (Ne.symm hn.1)]; exact h1
      · simp only [gspec, if_neg (Ne.symm hn.2)]; exact h2
      · simp only [gspec, Graph.set]
        by_cases e' : q = p
        · subst e'; rw [if_pos rfl, if_neg hn.2, if_neg hn.1, if_pos rfl]
        · rw [if_neg e', if_neg e']; exact h3 q
  | getAttr p =>
    refine ⟨g, ?_, h⟩
    simp [gstep, getAttr, Graph.at?, h.inside.1 hl, gspec, h.shown]
  | setTarget s e =>
    refine ⟨_, rfl, h.dimX, h.dimY, h.dirs, h.sym, ⟨h.idle.size, h.idle.cap⟩, h.outside, h.plain, ⟨rfl, rfl⟩, h.fresh,
      fun hs => ?_⟩
    have hl : b.searched = false := hl
    have hs : b.searched = true := hs
    rw [hl] at hs
    cases hs
  | near d =>
    refine ⟨_, rfl, h.dimX, h.dimY, rfl, ?_, ⟨h.idle.size, h.idle.cap⟩, h.outside, h.plain, h.target, h.fresh, h.marked⟩
    cases d <;> simp [gspec]
  | search multi =>
    obtain ⟨hs, s, e, ht, is, ie, hne⟩ := hl
    have hf := h.toFresh hs
    have hsym : Symmetric g := by
      rcases h.sym with h1 | h1
      · exact symmetric_four (h.dirs.trans h1)
      · exact symmetric_eight (h.dirs.trans h1)
    have htg : Target g s e := by
      have := h.target
      rw [ht] at this
      exact this
    have is' := inside_iff.2 (h.inside.1 is)
    have ie' := inside_iff.2 (h.inside.1 ie)
    obtain ⟨g1, r, h1, h2⟩ := search_decides weight multi hf hsym htg is' ie'
    obtain ⟨a1, a2, a3, a4, a5, a6, -⟩ := search_after hf htg is' ie' hne h1
    have hi := search_idle h.idle h1
    have hat : ∀ p, (g.tiles p).attr = b.attr p := fun p => by rw [h.fresh hs]
    refine ⟨g1, ?_, ?_⟩
    · simp only [gstep, h1, Option.map_some, gspec, ht, Option.some.injEq, Prod.mk.injEq, true_and, GRes.found.injEq]
      rw [walk_way h hs] at h2
      cases r with
      | true => exact (@decide_eq_true _ (Classical.propDecidable _) (h2.1 rfl)).symm
      | false => exact (@decide_eq_false _ (Classical.propDecidable _) fun hw => by simpa using h2.2 hw).symm
    · simp only [gspec, ht]
      refine ⟨a1.trans h.dimX, a2.trans h.dimY, a3.trans h.dirs, h.sym, hi, h.outside, h.plain, ?_, fun h => (by cases h),
        fun _ => ⟨s, e, is, ie, hne, ?_, ?_, ?_⟩⟩
      · simp only [ht, a4, a5]; exact ⟨rfl, rfl⟩
      · rw [a4, hat]
      · rw [a5, hat]
      · intro p; rw [a6 p, hat]
  | clear =>
    obtain ⟨g', h1, h2⟩ := clear_board h
    exact ⟨g', by simp [gstep, h1, gspec], h2⟩

/-! ### C91 -/

/-- The map that a graph is on which nothing was searched. -/
def Board.of (g : Graph) : Board :=
  ⟨g.dimX, g.dimY, fun p => (g.tiles p).attr, g.dirs,
    g.start.bind fun s => g.fin.map fun e => (s.pos, e.pos), false⟩

/-- C91: from any graph on which nothing was searched, with both targets or none. Missing, and false (below): two
equal targets, attributes with a meaning for `Clear`, other targets between a search and `Clear`. -/
theorem C91_attributes_partial (weight : Count) {g : Graph} (hg : Ready g) (hpl : Plain g)
    (hd : g.dirs = four ∨ g.dirs = eight) (ht : g.start.isSome = g.fin.isSome) (os : List GOp)
    (hl : LegalRun gspec glegal (Board.of g) os) :
    ∃ g', run (gstep weight) g os = some (g', (runSpec gspec (Board.of g) os).2) := by
  have hf := fresh_of_ready hg
  obtain ⟨g', h, -⟩ := run_refines_legal (step := gstep weight) (spec := gspec) (legal := glegal) GInv
    (fun _ _ _ h1 h2 => gstep_ok weight h1 h2) os g (Board.of g) hl
    { dimX := rfl, dimY := rfl, dirs := rfl, sym := hd, idle := ⟨hf.size, hf.cap⟩
      outside := fun p hp => hf.outside p (by
        cases hb : inBounds g p with
        | false => rfl
        | true => exact absurd (inside_iff.2 hb) hp)
      plain := fun p hp => by
        obtain ⟨h1, h2, h3⟩ := hpl p hp
        simp only [List.mem_cons, List.not_mem_nil, or_false, not_or]
        exact ⟨h1, h2, h3⟩
      target := by
        cases h1 : g.start <;> cases h2 : g.fin <;> simp [h1, h2, Board.of] at ht ⊢
      fresh := fun _ p => hf.tiles p
      marked := fun h => by cases h }
  exact ⟨g', h⟩

/-- C91: outside of the map both calls panic. -/
theorem C91_outside_panics (weight : Count) (g : Graph) (p : Pos) (hp : ¬ Inside g p) (a : Nat) :
    gstep weight g (.getAttr p) = none ∧ gstep weight g (.setAttr p a) = none := by
  rw [inside_iff] at hp
  simp [gstep, getAttr, setAttr, Graph.at?, hp]

/-- What the calls on a new map answer. -/
def answers (w h : Nat) (os : List GOp) : Option (List GRes) :=
  (run (gstep simpleWeight) (new w h) os).map (·.2)

/-- False in general: with equal targets `Clear` does not restore the tile. -/
theorem C91_equal_targets : answers 2 1 [.setTarget (0, 0) (0, 0), .search false, .clear, .getAttr (0, 0)] =
    some [.unit, .found true, .unit, .attr 115] := by decide +kernel

/-- False in general: targets that are changed before `Clear` lose their tiles. -/
theorem C91_new_target : answers 3 1 [.setTarget (0, 0) (2, 0), .search false, .setTarget (1, 0) (2, 0), .clear,
    .getAttr (0, 0)] = some [.unit, .found true, .unit, .unit, .attr 0] := by decide +kernel

/-- False in general: an attribute 'o' is lost with `Clear`, 's' is a panic without a target. -/
theorem C91_marks_lost : answers 1 1 [.setAttr (0, 0) 111, .clear, .getAttr (0, 0)] =
      some [.unit, .unit, .attr 46] ∧
    answers 1 1 [.setAttr (0, 0) 115, .clear] = none := by decide +kernel

/-- False in general: a second search without `Clear` does not find what the first one found. -/
theorem C91_search_twice : answers 3 1 [.setTarget (0, 0) (2, 0), .search false, .search false] =
    some [.unit, .found true, .found false] := by decide +kernel

/-- The example: a block is set and taken away between two searches. -/
def lifeDemo : List GOp :=
  [.setTarget (0, 0) (2, 0), .setAttr (1, 0) 120, .search false, .getAttr (0, 0), .getAttr (1, 0), .setAttr (1, 0) 46,
    .clear, .getAttr (0, 0), .search true, .getAttr (2, 0), .clear, .near true, .getAttr (2, 0)]

theorem lifeDemo_legal : LegalRun gspec glegal (Board.of (new 3 1)) lifeDemo := by
  have i : ∀ x : Int, 0 ≤ x → x < 3 → ∀ b : Board, b.w = 3 → b.h = 1 → b.inside (x, 0) := by
    intro x h1 h2 b hw hh
    simp [Board.inside, hw, hh, h1, h2]
  refine ⟨rfl, ⟨i 1 (by decide) (by decide) _ rfl rfl, by decide, fun h => by cases h⟩,
    ⟨rfl, _, _, rfl, i 0 (by decide) (by decide) _ rfl rfl, i 2 (by decide) (by decide) _ rfl rfl, by decide⟩,
    i 0 (by decide) (by decide) _ rfl rfl, i 1 (by decide) (by decide) _ rfl rfl,
    ⟨i 1 (by decide) (by decide) _ rfl rfl, by decide, fun _ s e h => ?_⟩, trivial,
    i 0 (by decide) (by decide) _ rfl rfl,
    ⟨rfl, _, _, rfl, i 0 (by decide) (by decide) _ rfl rfl, i 2 (by decide) (by decide) _ rfl rfl, by decide⟩,
    i 2 (by decide) (by decide) _ rfl rfl, trivial, trivial, i 2 (by decide) (by decide) _ rfl rfl, trivial⟩
  cases h
  decide

example (weight : Count) : ∃ g', run (gstep weight) (new 3 1) lifeDemo =
    some (g', (runSpec gspec (Board.of (new 3 1)) lifeDemo).2) :=
  C91_attributes_partial weight (.new 3 1) (fun _ _ => by simp only [new]; decide) (.inl rfl) rfl _ lifeDemo_legal

/-- The answers of the example. -/
example : answers 3 1 lifeDemo = some [.unit, .unit, .found false, .attr 115, .attr 120, .unit, .unit, .attr 46,
    .found true, .attr 101, .unit, .unit, .attr 46] := by decide +kernel

end Verif.Astar
