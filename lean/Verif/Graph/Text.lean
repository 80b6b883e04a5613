import Verif.Graph.Model

/-! Model of the text functions of graph/astar: parsing (`NewWithTiles`, `SetStringTiles`), printing (`GetTiles`,
`GetTilesWithTarget`, `GetPathTiles`, `GetSinglePathTiles`) and the queries that read the list of paths.
A string is the list of its bytes. `none` is a run-time panic. -/

namespace Verif.Astar

open Verif.Heap (PQ)

/-- astar.go:15. -/
def SKIP : Nat := 42

/-- `'\t'`, `'\n'`, `'\f'`, `'\r'`, `' '`: the class `\s` of the package regexp. -/
def isSpace (b : Nat) : Bool := b == 9 || b == 10 || b == 12 || b == 13 || b == 32

/-! ### `bufio.Reader.ReadLine` over a `bytes.Reader`

The standard library as documented in bufio: the buffer has 4096 bytes; a line that does not fit is returned in
pieces. Both callers ignore `isPrefix`. -/

/-- The size of the buffer. -/
def bufSize : Nat := 4096

/-- The `'\r'` before a `'\n'` is dropped. -/
def dropCR (l : List Nat) : List Nat := if l.getLast? = some 13 then l.dropLast else l

/-- One `ReadLine`: the line and what is left to read; `none` is `io.EOF`. -/
def readLine (s : List Nat) : Option (List Nat × List Nat) :=
  if s = [] then none
  else
    let l := s.takeWhile (· ≠ 10)
    if bufSize ≤ l.length then
      let w := s.take bufSize
      if w.getLast? = some 13 then some (w.dropLast, s.drop (bufSize - 1)) else some (w, s.drop bufSize)
    else if l.length < s.length then some (dropCR l, s.drop (l.length + 1))
    else some (s, [])

/-- The calls up to `io.EOF`. Every line takes a byte at least, so there are no more of them than bytes. -/
def readLines : Nat → List Nat → List (List Nat)
  | 0, _ => []
  | n + 1, s =>
    match readLine s with
    | none => []
    | some r => r.1 :: readLines n r.2

/-- The lines that the callers look at: `len(line) == 0` is skipped, astar.go:115-117, 222-224. -/
def lines (s : List Nat) : List (List Nat) := (readLines s.length s).filter (· ≠ [])

/-! ### `NewWithTiles` -/

/-- astar.go:119-134: what is left of the lines, without those that are nothing but space. -/
def tileBuffer (s : List Nat) : List (List Nat) :=
  ((lines s).map fun line => line.filter fun b => !isSpace b).filter (· ≠ [])

/-- astar.go:106, 127-129 `xMax`. -/
def xMax (rows : List (List Nat)) : Nat := rows.foldl (fun m r => if m < r.length then r.length else m) 0

/-- `tilebuffer[y][x]`, when the row is that long. -/
def cell (rows : List (List Nat)) (p : Pos) : Option Nat := rows[p.2.toNat]?.bind (·[p.1.toNat]?)

/-- astar.go:145-160: the attribute of a tile. -/
def attrOf : Option Nat → Nat
  | none => PLAIN
  | some a => if a = SKIP ∨ a = START ∨ a = END then PLAIN else a

/-- astar.go:138-164: what the two loops leave in `graph.start` and `graph.end`. -/
def mark (rows : List (List Nat)) (c : Nat) (ps : List Pos) : Option Point :=
  ps.foldl (fun r p => if cell rows p = some c then some ⟨p, 0⟩ else r) none

/-- astar.go:103-168 `NewWithTiles`. (Outside of the dimensions `tiles` is what `new` has there.) -/
def newWithTiles (s : List Nat) : Graph :=
  let rows := tileBuffer s
  let g := new (xMax rows) rows.length
  { g with
    tiles := fun p => ⟨0, 0, false, if inBounds g p then attrOf (cell rows p) else PLAIN⟩
    start := mark rows START (cells g)
    fin := mark rows END (cells g) }

/-! ### `SetStringTiles` -/

/-- astar.go:226-248: a line, from the column and the byte on. -/
def setRow (y : Nat) : Nat → List Nat → Graph → Option Graph
  | _, [], g => some g
  | x, a :: l, g =>
    if x < g.dimX then
      if a = START then setRow y (x + 1) l { g with start := some ⟨((x : Int), (y : Int)), 0⟩ }
      else if a = END then setRow y (x + 1) l { g with fin := some ⟨((x : Int), (y : Int)), 0⟩ }
      else if a = 9 ∨ a = 32 ∨ a = 10 then setRow y x l g
      else if a ≠ SKIP then (setAttr g ((x : Int), (y : Int)) a).bind (setRow y (x + 1) l)
      else setRow y (x + 1) l g
    else some g

/-- astar.go:215-250: the lines. -/
def setRows : Nat → List (List Nat) → Graph → Option Graph
  | _, [], g => some g
  | y, l :: ls, g => (setRow y 0 l g).bind (setRows (y + 1) ls)

/-- astar.go:211-251 `SetStringTiles`. -/
def setStringTiles (g : Graph) (s : List Nat) : Option Graph := setRows 0 (lines s) g

/-! ### Printing -/

/-- astar.go:300-310 (and 334-344, 367-377): what is printed of `data`. -/
def content (g : Graph) (data : Pos → Nat) : List Nat :=
  10 :: (List.range g.dimY).flatMap fun (y : Nat) =>
    (List.range g.dimX).map (fun (x : Nat) => data ((x : Int), (y : Int))) ++ [10]

/-- A write to `data[p.Y][p.X]`. -/
def draw (g : Graph) (p : Pos) (a : Nat) (data : Pos → Nat) : Option (Pos → Nat) :=
  if inBounds g p then some fun q => if q = p then a else data q else none

/-- astar.go:291-298: the attributes. -/
def attrs (g : Graph) : Pos → Nat := fun p => (g.tiles p).attr

/-- astar.go:288-311 `GetTiles`. -/
def getTiles (g : Graph) : List Nat := content g (attrs g)

/-- astar.go:326-332: a point, if there is one. -/
def drawPoint (g : Graph) (p : Option Point) (a : Nat) (data : Pos → Nat) : Option (Pos → Nat) :=
  match p with
  | none => some data
  | some p => draw g p.pos a data

/-- astar.go:314-345 `GetTilesWithTarget`. -/
def getTilesWithTarget (g : Graph) : Option (List Nat) :=
  (drawPoint g g.start START (attrs g)).bind fun d => (drawPoint g g.fin END d).map (content g)

/-- astar.go:360-362: the tiles of the path. -/
def drawPath (g : Graph) : List Pos → (Pos → Nat) → Option (Pos → Nat)
  | [], d => some d
  | p :: ps, d => (draw g p PATH d).bind (drawPath g ps)

/-- astar.go:348-378 `GetPathTiles`; without a start or an end this is a `nil` dereference. -/
def getPathTiles (g : Graph) (path : List Pos) : Option (List Nat) :=
  (drawPath g path (attrs g)).bind fun d => g.start.bind fun s => (draw g s.pos START d).bind fun d =>
    g.fin.bind fun e => (draw g e.pos END d).map (content g)

/-! ### Queries -/

/-- astar.go:180-182 `GetAttr`. -/
def getAttr (g : Graph) (p : Pos) : Option Nat := (g.at? p).map (·.attr)

/-- astar.go:273-275 `GetPath`. -/
def getPath (g : Graph) : Option (List Pos) := g.pathlist[0]?

/-- astar.go:263-265 `GetSingleSteps`. -/
def getSingleSteps (g : Graph) : Option Int := g.pathlist[0]?.map fun p => (p.length : Int) - 1

/-- astar.go:381-383 `GetSinglePathTiles`. -/
def getSinglePathTiles (g : Graph) : Option (List Nat) := g.pathlist[0]?.bind (getPathTiles g)

end Verif.Astar
