import Verif.Graph.Text

/-! What is claimed about graph/astar: maps, walks and paths, apart from the search. -/

namespace Verif.Astar

/-- The position is on the map. -/
def Inside (g : Graph) (p : Pos) : Prop := 0 ≤ p.1 ∧ 0 ≤ p.2 ∧ p.1 < g.dimX ∧ p.2 < g.dimY

/-- From `p` one direction of the neighbourhood leads to `q`. -/
def Adjacent (g : Graph) (p q : Pos) : Prop := ∃ d ∈ g.dirs, q = (p.1 + d.1, p.2 + d.2)

/-- Whoever goes from `s` to `e` may be at `p`: on the map, and no block unless it is `s` or `e` itself. -/
def Open (g : Graph) (s e p : Pos) : Prop := Inside g p ∧ (p = s ∨ p = e ∨ (g.tiles p).attr ≠ BLOCK)

/-- There is a walk of so many steps from `s` to the tile. -/
inductive Walk (g : Graph) (s e : Pos) : Nat → Pos → Prop
  | here : Walk g s e 0 s
  | step {n : Nat} {p q : Pos} (h : Walk g s e n p) (ha : Adjacent g p q) (ho : Open g s e q) : Walk g s e (n + 1) q

/-- A path as `GetPath` gives it: from the end to the start. -/
structure ValidPath (g : Graph) (s e : Pos) (l : List Pos) : Prop where
  first : l.head? = some e
  last : l.getLast? = some s
  steps : l.IsChain (fun p q => Adjacent g p q)
  free : ∀ p ∈ l, Open g s e p
  nodup : l.Nodup

/-- Every step can be undone. -/
def Symmetric (g : Graph) : Prop := ∀ d ∈ g.dirs, (-d.1, -d.2) ∈ g.dirs

/-- The graphs that a user can have got by the calls of the package, none of which has panicked. -/
inductive Reached : Graph → Prop
  | new (w h : Nat) : Reached (new w h)
  | newWithTiles (text : List Nat) : Reached (newWithTiles text)
  | setStringTiles {g g' : Graph} {text : List Nat} (hg : Reached g) (h : setStringTiles g text = some g') : Reached g'
  | setAttr {g g' : Graph} {p : Pos} {a : Nat} (hg : Reached g) (h : setAttr g p a = some g') : Reached g'
  | setTarget {g : Graph} (s e : Pos) (hg : Reached g) : Reached (setTarget g s e)
  | setNeighbor {g : Graph} (dirs : List Pos) (hg : Reached g) : Reached { g with dirs := dirs }
  | search {g g' : Graph} {cost weight : Count} {multi b : Bool} (hg : Reached g)
      (h : search cost weight multi g = some (g', b)) : Reached g'
  | clear {g g' : Graph} (hg : Reached g) (h : clear g = some g') : Reached g'

/-- Those on which nothing has been searched, or not since the last `Clear`. -/
inductive Ready : Graph → Prop
  | new (w h : Nat) : Ready (new w h)
  | newWithTiles (text : List Nat) : Ready (newWithTiles text)
  | setStringTiles {g g' : Graph} {text : List Nat} (hg : Ready g) (h : setStringTiles g text = some g') : Ready g'
  | clear {g g' : Graph} (hg : Reached g) (h : clear g = some g') : Ready g'
  | setAttr {g g' : Graph} {p : Pos} {a : Nat} (hg : Ready g) (h : setAttr g p a = some g') : Ready g'
  | setTarget {g : Graph} (s e : Pos) (hg : Ready g) : Ready (setTarget g s e)
  | setNeighbor {g : Graph} (dirs : List Pos) (hg : Ready g) : Ready { g with dirs := dirs }

/-- The targets are set. -/
def Target (g : Graph) (s e : Pos) : Prop := g.start.map (·.pos) = some s ∧ g.fin.map (·.pos) = some e

end Verif.Astar
