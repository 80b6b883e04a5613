import Verif.Heap.Model

/-! Model of graph/astar. `none` is a run-time panic or a loop that does not end.

* A tile is known by its position, which stands for the pointer `*Tile`; `tiles` is meaningful within the
  dimensions only. `int` does not overflow, except in `abs`, which is exact.
* `Neighbor`, `CountCost` and `CountWeight` are interfaces: `dirs` are the directions of a neighbourhood (the
  two of the package differ only in these); a cost or weight is any function of the graph, the tile and the
  tile it is reached from, which must change nothing but the tile's `Cost` or `Weight`.
* Parsing and printing are in Graph/Text.lean. -/

namespace Verif.Astar

open Verif.Heap (PQ)

abbrev Pos := Int × Int

/-- astar.go:12-25. -/
def PLAIN : Nat := 46
def BLOCK : Nat := 120
def START : Nat := 115
def END : Nat := 101
def PATH : Nat := 111

/-- astar.go:73-80 `Tile`. -/
structure Tile where
  cost : Int
  weight : Int
  isCount : Bool
  attr : Nat
  deriving DecidableEq

/-- astar.go:49-52 `Point`. -/
structure Point where
  pos : Pos
  attr : Nat
  deriving DecidableEq

/-- astar.go:29-46 `Graph`. -/
structure Graph where
  dimX : Nat
  dimY : Nat
  start : Option Point
  fin : Option Point
  pathlist : List (List Pos)
  tiles : Pos → Tile
  dirs : List Pos
  heap : PQ Pos

/-- A count of `CountCost` or `CountWeight`: the new value for the tile, reached from the other tile. -/
abbrev Count := Graph → Pos → Pos → Int

/-- neighbor_interface.go:35, the directions of `Neighbor4`. -/
def four : List Pos := [(1, 0), (-1, 0), (0, 1), (0, -1)]

/-- neighbor_interface.go:15, the directions of `Neighbor8`. -/
def eight : List Pos := [(1, 0), (-1, 0), (0, 1), (0, -1), (1, 1), (-1, 1), (-1, -1), (1, -1)]

/-- astar.go:83-100 `New`. -/
def new (dimX dimY : Nat) : Graph :=
  { dimX := dimX, dimY := dimY, start := none, fin := none, pathlist := [], tiles := fun _ => ⟨0, 0, false, PLAIN⟩
    dirs := four, heap := PQ.new }

/-- The bounds checks of neighbor_interface.go:18, 38 and of the slices. -/
def inBounds (g : Graph) (p : Pos) : Bool :=
  decide (0 ≤ p.1) && decide (0 ≤ p.2) && decide (p.1 < g.dimX) && decide (p.2 < g.dimY)

/-- `graph.Tiles[y][x]` with its bounds checks. -/
def Graph.at? (g : Graph) (p : Pos) : Option Tile := if inBounds g p then some (g.tiles p) else none

/-- A write to the fields of a tile. -/
def Graph.set (g : Graph) (p : Pos) (t : Tile) : Graph :=
  { g with tiles := fun q => if q = p then t else g.tiles q }

/-- astar.go:185-187 `SetAttr`. -/
def setAttr (g : Graph) (p : Pos) (attr : Nat) : Option Graph :=
  (g.at? p).map fun t => g.set p { t with attr := attr }

/-- astar.go:205-208 `SetTarget`. -/
def setTarget (g : Graph) (s e : Pos) : Graph := { g with start := some ⟨s, 0⟩, fin := some ⟨e, 0⟩ }

/-- neighbor_interface.go:13-26, 33-46 `GetNeighbor`. -/
def neighbors (g : Graph) (p : Pos) : List Pos :=
  (g.dirs.map fun d => (p.1 + d.1, p.2 + d.2)).filter (inBounds g)

/-- astar.go:171-177 `weightCompare`. -/
def weightCompare (tiles : Pos → Tile) (a b : Pos) : Int := if (tiles a).weight ≤ (tiles b).weight then 1 else -1

/-- astar.go:258-260 `GetSteps`. -/
def getSteps (path : List Pos) : Int := path.length - 1

/-- count_interface.go:18-20 `SimpleCost`. -/
def simpleCost : Count := fun g _ p => (g.tiles p).cost + 1

/-- astar.go:253-255 `abs`, on 64 bit: `(v ^ v>>31) - v>>31`. -/
def abs (v : Int) : Int :=
  let b := BitVec.ofInt 64 v
  ((b ^^^ b.sshiftRight 31) - b.sshiftRight 31).toInt

/-- count_interface.go:27-32 `SimpleWeight`. (`Search` has made sure that there is an end point.) -/
def simpleWeight : Count := fun g t _ =>
  let e := (g.fin.getD ⟨(0, 0), 0⟩).pos
  let absY := abs (t.2 - e.2)
  let absX := abs (t.1 - e.1)
  (-(absX + absY + (g.tiles t).cost))

/-- astar.go:386-405 `Clear`. A tile with the attribute of a point that is not set is a panic.
(What `tiles` is outside of the dimensions is of no meaning; it is made what `new` has there.) -/
def clearTile (g : Graph) (t : Tile) : Option Tile :=
  let reset (attr : Nat) : Tile := ⟨0, 0, false, attr⟩
  if t.attr = PATH then some (reset PLAIN)
  else if t.attr = START then g.start.map fun s => reset s.attr
  else if t.attr = END then g.fin.map fun e => reset e.attr
  else some (reset t.attr)

/-- All positions, row by row. -/
def cells (g : Graph) : List Pos :=
  (List.range g.dimY).flatMap fun (y : Nat) => (List.range g.dimX).map fun (x : Nat) => ((x : Int), (y : Int))

def clear (g : Graph) : Option Graph :=
  if (cells g).all fun p => (clearTile g (g.tiles p)).isSome then
    some { g with
      tiles := fun p => if inBounds g p then (clearTile g (g.tiles p)).getD (g.tiles p) else ⟨0, 0, false, PLAIN⟩ }
  else none

/-! ### Search -/

section
variable (cost weight : Count)

/-- astar.go:516-522: one round of the loop over the neighbours. -/
def visit (t : Pos) (g : Graph) (n : Pos) : Option Graph :=
  if (g.tiles n).isCount = false ∧ (g.tiles n).attr ≠ BLOCK then
    let g := g.set n { g.tiles n with cost := cost g n t }
    let g := g.set n { g.tiles n with weight := weight g n t }
    let g := g.set n { g.tiles n with isCount := true }
    (g.heap.put (weightCompare g.tiles) n).map fun h => { g with heap := h }
  else some g

/-- The loop. -/
def expand (t : Pos) : List Pos → Graph → Option Graph
  | [], g => some g
  | n :: ns, g => (visit cost weight t g n).bind fun g => expand t ns g

/-- astar.go:421-428: the neighbour to go back to. -/
def back (g : Graph) (t : Pos) : Pos :=
  (neighbors g t).foldl (fun r n => if (g.tiles n).isCount = true ∧ (g.tiles r).cost ≥ (g.tiles n).cost then n else r) t

/-- astar.go:417-435 `singlePath`. As the next tile depends on the tile only, a loop that has not ended after as
many rounds as there are tiles does not end. -/
def singlePath (g : Graph) (start : Pos) : Nat → Pos → List Pos → Option (List Pos)
  | n, t, path =>
    if t = start then some path
    else
      match n with
      | 0 => none
      | n + 1 => singlePath g start n (back g t) (path ++ [back g t])

/-- astar.go:442-454: `returnTile` and `minCostTiles`. -/
def minTiles (g : Graph) (t : Pos) : Pos × List Pos :=
  (neighbors g t).foldl (fun (r : Pos × List Pos) n =>
    if (g.tiles n).isCount = true then
      if (g.tiles r.1).cost > (g.tiles n).cost then (n, [n])
      else if (g.tiles r.1).cost = (g.tiles n).cost then (r.1, r.2 ++ [n])
      else r
    else r) (t, [])

/-- astar.go:437-466 `multiPath`: the paths that it appends. A chain of calls that is longer than the number
of tiles has met a tile twice and does not end. -/
def multiPath (g : Graph) (start : Pos) : Nat → Pos → List Pos → Option (List (List Pos))
  | n, t, path =>
    if t = start then some [path ++ [t]]
    else
      match n with
      | 0 => none
      | n + 1 => ((minTiles g t).2.mapM fun r => multiPath g start n r (path ++ [t])).map List.flatten

/-- astar.go:60-70 with the insertion sort that `sort.Sort` is for up to twelve elements. -/
def insertPath (p : List Pos) : List (List Pos) → List (List Pos)
  | [] => [p]
  | q :: qs => if p.length < q.length then p :: q :: qs else q :: insertPath p qs

def sortPaths (ps : List (List Pos)) : List (List Pos) := ps.foldl (fun acc p => insertPath p acc) []

/-- astar.go:501-512: the end tile is reached. (For more than twelve paths `sort.Sort` may give another order
to those of the same length; here it is always that in which they were found.) -/
def finish (multi : Bool) (s t : Pos) (g : Graph) : Option (Graph × Bool) :=
  if multi then
    (multiPath g s (g.dimX * g.dimY) t [t]).map fun ps =>
      ({ g with pathlist := sortPaths ps }, true)
  else
    (singlePath g s (g.dimX * g.dimY) t [t]).map fun p => ({ g with pathlist := [p] }, true)

/-- astar.go:495-531: the loop of `search`. Every tile gets into the heap at most once; the number of rounds is
bounded by that. -/
def loop (multi : Bool) (s e : Pos) : Nat → Graph → Option (Graph × Bool)
  | 0, _ => none
  | n + 1, g =>
    (g.heap.pop (weightCompare g.tiles)).bind fun r =>
      match r.2 with
      | .val t true =>
        if t = e then finish multi s t { g with heap := r.1 }
        else (expand cost weight t (neighbors g t) { g with heap := r.1 }).bind (loop multi s e n)
      | _ => some ({ g with heap := r.1 }, false)

/-- astar.go:469-532 `search`, with the deferred `Clear` of the heap. -/
def search (multi : Bool) (g : Graph) : Option (Graph × Bool) :=
  g.start.bind fun s => g.fin.bind fun e =>
    (g.at? s.pos).bind fun ts =>
      let g := { g.set s.pos { ts with isCount := true, attr := START } with start := some { s with attr := ts.attr } }
      (g.at? e.pos).bind fun te =>
        let g := { g.set e.pos { te with isCount := false, attr := END } with fin := some { e with attr := te.attr } }
        (g.heap.put (weightCompare g.tiles) s.pos).bind fun h =>
          (loop cost weight multi s.pos e.pos (g.dimX * g.dimY + 2) { g with heap := h }).map fun r =>
            ({ r.1 with heap := { r.1.heap with size := 0 } }, r.2)

end

end Verif.Astar
