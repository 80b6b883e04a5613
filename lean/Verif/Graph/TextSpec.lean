import Verif.Graph.Spec

/-! What is claimed about the text functions of graph/astar. -/

namespace Verif.Astar

/-- The text shows the tiles: a newline, and every row with a newline at its end. -/
structure Picture (g : Graph) (data : Pos → Nat) (text : List Nat) : Prop where
  size : text.length = 1 + g.dimY * (g.dimX + 1)
  first : text[0]? = some 10
  tile : ∀ x y : Nat, x < g.dimX → y < g.dimY → text[1 + y * (g.dimX + 1) + x]? = some (data ((x : Int), (y : Int)))
  ends : ∀ y : Nat, y < g.dimY → text[1 + y * (g.dimX + 1) + g.dimX]? = some 10

/-- Neither space (`\t \n \f \r` and blank) nor one of the bytes `* s e`, which mean something in a text. -/
def Ordinary (a : Nat) : Prop := a ∉ [9, 10, 12, 13, 32] ∧ a ∉ [42, 115, 101]

/-- All the tiles of the map have ordinary attributes. -/
def AllOrdinary (g : Graph) : Prop := ∀ p, Inside g p → Ordinary (g.tiles p).attr

/-- The maps have the same size and the same attributes. -/
structure SameMap (g g' : Graph) : Prop where
  dimX : g'.dimX = g.dimX
  dimY : g'.dimY = g.dimY
  attr : ∀ p, Inside g p → (g'.tiles p).attr = (g.tiles p).attr

/-- What the picture of a path shows: the end, the start, the path, and the tiles elsewhere. -/
def drawn (g : Graph) (s e : Pos) (path : List Pos) (p : Pos) : Nat :=
  if p = e then 101 else if p = s then 115 else if p ∈ path then 111 else (g.tiles p).attr

/-- A line of text for a map: tiles with tabs or blanks between them, at least one tile in a line that is not empty,
no longer than a reader's buffer. -/
structure MapLine (l : List Nat) : Prop where
  bytes : 10 ∉ l ∧ 12 ∉ l ∧ 13 ∉ l
  tiles : l ≠ [] → ∃ a ∈ l, a ≠ 9 ∧ a ≠ 32
  len : l.length ≤ 4096

end Verif.Astar
