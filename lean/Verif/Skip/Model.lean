import Verif.Common.Ord

/-! Model of tree/skiplist/skiplist.go, one goroutine (for several see `Verif.Conc.Skip`).

* Nodes are in a store; `fwd` is the slice `Forward`. A read or write outside of it, or through a nil
  pointer, is a run-time panic: `none`. A loop that does not end within as many rounds as there ever were
  nodes is `none`, too.
* The numbers of `rand.Intn(2)` that `randomLevel` draws are an argument of every call that inserts: `true`
  stands for 0. What comes after the end of the list is not 0. Every outcome of `randomLevel` is thus that
  of some list.
* Key and value of the header are never read. Memory is not reclaimed.
* `String`, `Slices` (the same as `Slice`), `Set` (the same as `Put`) are not modelled on their own. -/

namespace Verif.Skip

variable {K V : Type}

/-- skiplist.go:10-14 `Node`. -/
structure Node (K V : Type) where
  key : K
  val : V
  fwd : List (Option Nat)

abbrev Store (K V : Type) := Nat → Node K V

def Store.put (h : Store K V) (a : Nat) (n : Node K V) : Store K V := fun b => if b = a then n else h b

/-- `a.Forward[i] = v`. -/
def Store.setFwd (h : Store K V) (a i : Nat) (v : Option Nat) : Option (Store K V) :=
  if i < (h a).fwd.length then some (h.put a { h a with fwd := (h a).fwd.set i v }) else none

/-- skiplist.go:27-34 `SkipList`. `free` is the next address. -/
structure SL (K V : Type) where
  heap : Store K V
  header : Nat
  level : Nat
  size : Int
  maxLevel : Nat
  free : Nat

/-- skiplist.go:37 `MaxLevel`. -/
def MaxLevel : Nat := 16

/-- skiplist.go:882-896 `NewWithMaxLevel`; 40-51 `New` is that with `MaxLevel`. -/
def new (maxLevel : Int) (junk : K × V) : SL K V :=
  { heap := fun _ => ⟨junk.1, junk.2, List.replicate MaxLevel none⟩, header := 0, level := 1, size := 0
    maxLevel := if maxLevel < 1 ∨ maxLevel > MaxLevel then MaxLevel else maxLevel.toNat, free := 1 }

/-- skiplist.go:53-59 `randomLevel`: the loop with `level` so far. -/
def randomFrom (maxLevel : Nat) (level : Nat) : List Bool → Nat
  | [] => level
  | c :: cs => if level < maxLevel ∧ c = true then randomFrom maxLevel (level + 1) cs else level

def randomLevel (maxLevel : Nat) (coins : List Bool) : Nat := randomFrom maxLevel 1 coins

/-! ### Searching -/

/-- The inner loop of the searches, 72-74, 117-119, ...: go on at level `i` while the next node satisfies
`go`. -/
def scan (h : Store K V) (go : Nat → Bool) (i : Nat) : Nat → Nat → Option Nat
  | 0, _ => none
  | n + 1, cur =>
    match (h cur).fwd[i]? with
    | none => none
    | some none => some cur
    | some (some b) => if go b then scan h go i n b else some cur

/-- The outer loop: `update` up to the level, and `current`. -/
def descend (h : Store K V) (go : Nat → Bool) (fuel : Nat) : Nat → Nat → Option (List Nat × Nat)
  | 0, cur => some ([], cur)
  | i + 1, cur => (scan h go i fuel cur).bind fun c =>
      (descend h go fuel i c).map fun p => (p.1 ++ [c], p.2)

/-- The loop of 475-481, 585-591, which starts at the header in every level. -/
def descendH (h : Store K V) (go : Nat → Bool) (fuel header : Nat) : Nat → Option (List Nat)
  | 0 => some []
  | i + 1 => (scan h go i fuel header).bind fun c =>
      (descendH h go fuel header i).map fun us => us ++ [c]

/-- The inner loop of `SeekLE` and `SeekLT`, 374-377, 393-396, with the variable `result`. -/
def scanRes (h : Store K V) (go : Nat → Bool) (i : Nat) : Nat → Nat → Option Nat → Option (Nat × Option Nat)
  | 0, _, _ => none
  | n + 1, cur, res =>
    match (h cur).fwd[i]? with
    | none => none
    | some none => some (cur, res)
    | some (some b) => if go b then scanRes h go i n b (some b) else some (cur, res)

def descendRes (h : Store K V) (go : Nat → Bool) (fuel : Nat) : Nat → Nat → Option Nat → Option (Option Nat)
  | 0, _, res => some res
  | i + 1, cur, res => (scanRes h go i fuel cur res).bind fun p => descendRes h go fuel i p.1 p.2

/-- `update[i]`, which is the header where nothing else was stored. -/
def updAt (header : Nat) (us : List Nat) (i : Nat) : Nat := us[i]?.getD header

section
variable (cmp : K → K → Int)

/-- The condition of the search for `key` (without the end of the level). -/
def before (h : Store K V) (key : K) (b : Nat) : Bool := decide (cmp (h b).key key < 0)

def search (s : SL K V) (key : K) : Option (List Nat × Nat) :=
  descend s.heap (before cmp s.heap key) s.free s.level s.header

end

/-! ### Insertion and removal -/

/-- skiplist.go:101-104: the first `n` rounds. -/
def link (x : Nat) (upd : Nat → Nat) (h : Store K V) : Nat → Option (Store K V)
  | 0 => some h
  | n + 1 => (link x upd h n).bind fun h1 =>
      ((h1 (upd n)).fwd[n]?).bind fun f =>
        (h1.setFwd x n f).bind fun h2 => h2.setFwd (upd n) n (some x)

/-- skiplist.go:151-155, 487-491, 597-601, 650-654, 864-868: the first `n` rounds. -/
def unlink (c : Nat) (upd : Nat → Nat) (h : Store K V) : Nat → Option (Store K V)
  | 0 => some h
  | n + 1 => (unlink c upd h n).bind fun h1 =>
      ((h1 (upd n)).fwd[n]?).bind fun f =>
        if f = some c then ((h1 c).fwd[n]?).bind fun g => h1.setFwd (upd n) n g else some h1

/-- skiplist.go:157-159: `for s.level > 1 && s.header.Forward[s.level-1] == nil { s.level-- }`. -/
def shrink (h : Store K V) (header : Nat) : Nat → Option Nat
  | 0 => some 0
  | 1 => some 1
  | n + 2 =>
    match (h header).fwd[n + 1]? with
    | none => none
    | some none => shrink h header (n + 1)
    | some (some _) => some (n + 2)

section
variable (cmp : K → K → Int)

/-- skiplist.go:61-108 `Put`, 505-555 `PutDuplicate`, 711-754 `putInternal`. The second result is the slice
given to `do`; the first is whether the key was new. -/
def putWith (s : SL K V) (key : K) (value : V) (coins : List Bool) :
    Option (SL K V × Bool × Option (K × V)) :=
  (search cmp s key).bind fun p =>
    ((s.heap p.2).fwd[0]?).bind fun f =>
      let insert : Option (SL K V × Bool × Option (K × V)) :=
        let newLevel := randomLevel s.maxLevel coins
        let level := if newLevel ≥ s.level then newLevel + 1 else s.level
        let level := if level > s.maxLevel then s.maxLevel else level
        let h := s.heap.put s.free ⟨key, value, List.replicate level none⟩
        (link s.free (updAt s.header p.1) h newLevel).map fun h =>
          ({ s with heap := h, level := level, size := s.size + 1, free := s.free + 1 }, true, none)
      match f with
      | none => insert
      | some b =>
        if cmp (s.heap b).key key = 0 then
          some ({ s with heap := s.heap.put b { s.heap b with val := value } }, false,
            some ((s.heap b).key, (s.heap b).val))
        else insert

/-- What the removals do with the node `c` once `update` is known. -/
def takeOut (s : SL K V) (c : Nat) (us : List Nat) : Option (SL K V × (K × V)) :=
  (unlink c (updAt s.header us) s.heap s.level).bind fun h =>
    (shrink h s.header s.level).map fun l =>
      ({ s with heap := h, level := l, size := s.size - 1 }, ((h c).key, (h c).val))

/-- skiplist.go:129-163 `Remove`, 845-876 `removeInternal`. -/
def remove (s : SL K V) (key : K) : Option (SL K V × Option (K × V)) :=
  (search cmp s key).bind fun p =>
    ((s.heap p.2).fwd[0]?).bind fun f =>
      match f with
      | none => some (s, none)
      | some c =>
        if cmp (s.heap c).key key ≠ 0 then some (s, none)
        else (takeOut s c p.1).map fun q => (q.1, some q.2)

/-- The rest of `RemoveTail` (468-498) and `RemoveIndex` (579-608). -/
def removeAt (s : SL K V) (c : Nat) : Option (SL K V × Option (K × V)) :=
  (descendH s.heap (fun b => b != c && before cmp s.heap (s.heap c).key b) s.free s.header s.level).bind
    fun us => ((s.heap (updAt s.header us 0)).fwd[0]?).bind fun f =>
      if f ≠ some c then some (s, none) else (takeOut s c us).map fun q => (q.1, some q.2)

end

/-- Follow `Forward[0]` from `p`: `for i > 0 { current = current.Forward[0]; i-- }`. -/
def skip (h : Store K V) : Nat → Option Nat → Option (Option Nat)
  | 0, p => some p
  | _ + 1, none => none
  | n + 1, some a => ((h a).fwd[0]?).bind (skip h n)

/-- The nodes of a loop `for current != nil { ...; current = current.Forward[0] }`. (Loops that end early
see the first of them.) -/
def nodes (h : Store K V) : Nat → Option Nat → Option (List Nat)
  | _, none => some []
  | 0, some _ => none
  | n + 1, some a => ((h a).fwd[0]?).bind fun p => (nodes h n p).map fun l => a :: l

/-- `s.header.Forward[0]`. -/
def SL.first (s : SL K V) : Option (Option Nat) := (s.heap s.header).fwd[0]?

/-- All nodes in the order of level 0. -/
def SL.nodes (s : SL K V) : Option (List Nat) := s.first.bind fun p => Skip.nodes s.heap s.free p

/-- Key and value of a node. -/
def SL.ent (s : SL K V) (a : Nat) : K × V := ((s.heap a).key, (s.heap a).val)

section
variable (cmp : K → K → Int)

/-- skiplist.go:631-662, the loop of `RemoveRangeByIndex`. -/
def removeLoop : Nat → SL K V → Option Nat → Option (SL K V)
  | 0, s, _ => some s
  | _ + 1, s, none => some s
  | n + 1, s, some c =>
    ((s.heap c).fwd[0]?).bind fun next =>
      (descend s.heap (fun b => b != c && before cmp s.heap (s.heap c).key b) s.free s.level s.header).bind
        fun p => (takeOut s c p.1).bind fun q => removeLoop n q.1 next

/-- `for _, k := range keys { s.removeInternal(k) }`. -/
def removeAll : List K → SL K V → Option (SL K V)
  | [], s => some s
  | k :: ks, s => (remove cmp s k).bind fun p => removeAll ks p.1

inductive Op (K V : Type) where
  | put (k : K) (v : V) (coins : List Bool) | putDup (k : K) (v : V) (coins : List Bool)
  | get (k : K) | remove (k : K) | size | head | tail | index (i : Int) | indexOf (k : K) | clear
  | traverse (every : K × V → Bool) | slices | removeHead | removeTail | removeIndex (i : Int)
  | removeRangeByIndex (low high : Int) | trim (low high : K) | trimByIndex (low high : Int)

inductive Res (K V : Type) where
  | unit | bool (b : Bool) | int (i : Int) | found (v : Option V) | slice (s : Option (K × V))
  | list (l : List (K × V)) | dup (b : Bool) (s : Option (K × V))
  deriving DecidableEq

/-- skiplist.go:823-843. -/
def doTrimByIndex (s : SL K V) (low high : Int) : Option (SL K V) :=
  let low := if low < 0 then 0 else low
  let high := if high ≥ s.size then s.size - 1 else high
  if low > high then some s
  else s.nodes.bind fun as =>
    removeAll cmp ((as.zipIdx.filter fun x => decide ((x.2 : Int) < low) || decide ((x.2 : Int) > high)).map
      fun x => (s.heap x.1).key) s

/-- skiplist.go:611-663. -/
def doRemoveRangeByIndex (s : SL K V) (low high : Int) : Option (SL K V) :=
  let low := if low < 0 then 0 else low
  let high := if high ≥ s.size then s.size - 1 else high
  if low > high then some s
  else s.first.bind fun p => (skip s.heap low.toNat p).bind fun c =>
    removeLoop cmp (high - low + 1).toNat s c

def step (s : SL K V) : Op K V → Option (SL K V × Res K V)
  | .put k v coins => (putWith cmp s k v coins).map fun p => (p.1, .bool p.2.1)
  | .putDup k v coins => (putWith cmp s k v coins).map fun p => (p.1, .dup p.2.1 p.2.2)
  -- 110-127, 697-709 `searchInternal`
  | .get k => (search cmp s k).bind fun p => ((s.heap p.2).fwd[0]?).map fun f =>
      match f with
      | none => (s, .found none)
      | some b => if cmp (s.heap b).key k = 0 then (s, .found (some (s.heap b).val)) else (s, .found none)
  | .remove k => (remove cmp s k).map fun p => (p.1, .slice p.2)
  -- 165-169
  | .size => some (s, .int s.size)
  -- 179-189
  | .head => s.first.map fun p => (s, .slice (p.map s.ent))
  -- 191-206
  | .tail => s.nodes.map fun l => (s, .slice (l.getLast?.map s.ent))
  -- 208-225; the last dereference is a panic if the pointer is nil
  | .index i =>
    if i < 0 ∨ i ≥ s.size then some (s, .slice none)
    else s.first.bind fun p => (skip s.heap i.toNat p).bind fun c => c.map fun a => (s, .slice (some (s.ent a)))
  -- 227-241
  | .indexOf k => s.nodes.map fun l => (s, .int (match l.findIdx? fun a => cmp (s.heap a).key k == 0 with
      | none => -1 | some n => n))
  -- 243-252
  | .clear => some ({ s with
      heap := s.heap.put s.free ⟨(s.heap s.header).key, (s.heap s.header).val, List.replicate MaxLevel none⟩
      header := s.free, level := 1, size := 0, free := s.free + 1 }, .unit)
  -- 260-271
  | .traverse every => s.nodes.map fun l =>
      (s, .list (let es := l.map s.ent; es.take ((es.takeWhile every).length + 1)))
  -- 665-676
  | .slices => s.nodes.map fun l => (s, .list (l.map s.ent))
  -- 449-454
  | .removeHead =>
    if s.size = 0 then some (s, .slice none)
    else s.first.bind fun p => p.bind fun a => (remove cmp s (s.heap a).key).map fun q => (q.1, .slice q.2)
  -- 456-499; the first dereference is a panic if there is no node
  | .removeTail =>
    if s.size = 0 then some (s, .slice none)
    else s.nodes.bind fun l => l.getLast?.bind fun c => (removeAt cmp s c).map fun q => (q.1, .slice q.2)
  -- 561-609
  | .removeIndex i =>
    if i < 0 ∨ i ≥ s.size then some (s, .slice none)
    else s.first.bind fun p => (skip s.heap i.toNat p).bind fun c =>
      match c with
      | none => some (s, .slice none)
      | some c => (removeAt cmp s c).map fun q => (q.1, .slice q.2)
  | .removeRangeByIndex low high => (doRemoveRangeByIndex cmp s low high).map fun s' => (s', .unit)
  -- 796-812
  | .trim low high => s.nodes.bind fun l =>
      (removeAll cmp ((l.filter fun a => decide (cmp (s.heap a).key low < 0) ||
        decide (cmp (s.heap a).key high > 0)).map fun a => (s.heap a).key) s).map fun s' => (s', .unit)
  | .trimByIndex low high => (doTrimByIndex cmp s low high).map fun s' => (s', .unit)

/-! ### Set operations -/

/-- `putInternal` or `Put` of the slices `es`, in order; `coins` are those of each call. -/
def putAll : List ((K × V) × List Bool) → SL K V → Option (SL K V)
  | [], s => some s
  | (e, coins) :: es, s => (putWith cmp s e.1 e.2 coins).bind fun p => putAll es p.1

/-- Give each slice its random numbers. -/
def withCoins (coins : Nat → List Bool) (es : List (K × V)) : List ((K × V) × List Bool) :=
  es.zipIdx.map fun x => (x.1, coins x.2)

/-- The node found by `searchInternal` for each of the keys `ks`, 697-709. -/
def lookups (o : SL K V) : List K → Option (List (Option V))
  | [] => some []
  | k :: ks => (step cmp o (.get k)).bind fun p => (lookups o ks).map fun vs =>
      (match p.2 with | .found v => v | _ => none) :: vs

/-- skiplist.go:678-695 `Intersection`. -/
def intersection (s o : SL K V) (coins : Nat → List Bool) (junk : K × V) : Option (SL K V) :=
  s.nodes.bind fun l => (lookups cmp o (l.map fun a => (s.heap a).key)).bind fun vs =>
    putAll cmp (withCoins coins (((l.map s.ent).zip vs).filterMap fun x => x.2.map fun v => (x.1.1, v)))
      (new MaxLevel junk)

/-- skiplist.go:756-778 `UnionSets`. -/
def union (s o : SL K V) (coins : Nat → List Bool) (junk : K × V) : Option (SL K V) :=
  s.nodes.bind fun l => o.nodes.bind fun m =>
    putAll cmp (withCoins coins (l.map s.ent ++ m.map o.ent)) (new MaxLevel junk)

/-- skiplist.go:780-794 `DifferenceSets`. -/
def difference (s o : SL K V) (coins : Nat → List Bool) (junk : K × V) : Option (SL K V) :=
  s.nodes.bind fun l => (lookups cmp o (l.map fun a => (s.heap a).key)).bind fun vs =>
    putAll cmp (withCoins coins (((l.map s.ent).zip vs).filterMap fun x =>
      if x.2.isNone then some x.1 else none)) (new MaxLevel junk)

/-! ### Iterators -/

/-- skiplist.go:21-25 `Iterator`. -/
structure Iter where
  node : Option Nat
  index : Int
  deriving DecidableEq

inductive IOp (K : Type) where
  | seekToFirst | seekToLast | seekGE (k : K) | seekGT (k : K) | seekLE (k : K) | seekLT (k : K)
  | seekByIndex (i : Int) | next | prev | valid | slice | index

inductive IRes (K V : Type) where
  | unit | bool (b : Bool) | int (i : Int) | slice (s : Option (K × V))
  deriving DecidableEq

/-- skiplist.go:171-177 `Iterator`. -/
def iterator (s : SL K V) : Option Iter := s.first.map fun p => ⟨p, 0⟩

/-- The condition of `SeekGT` and `SeekLE`. -/
def upto (h : Store K V) (key : K) (b : Nat) : Bool := decide (cmp (h b).key key ≤ 0)

/-- The loop of `Prev`, 291-294: `prev` and `current` at its end. -/
def prevLoop (h : Store K V) (stop : Option Nat) : Nat → Nat → Option Nat → Option (Nat × Option Nat)
  | _, prev, none => some (prev, none)
  | 0, _, some _ => none
  | n + 1, prev, some a =>
    if some a = stop then some (prev, some a) else ((h a).fwd[0]?).bind fun p => prevLoop h stop n a p

/-- skiplist.go:273-447. `slice` stands for `Key` and `Value`, which are zero if there is no node. -/
def istep (s : SL K V) (it : Iter) : IOp K → Option (Iter × IRes K V)
  -- 308-311
  | .seekToFirst => s.first.map fun p => (⟨p, 0⟩, .unit)
  -- 313-327
  | .seekToLast => s.nodes.map fun l =>
      (⟨l.getLast?, if l.getLast?.isSome then s.size - 1 else it.index⟩, .unit)
  -- 329-345
  | .seekGE k => (descend s.heap (before cmp s.heap k) s.free s.level s.header).bind fun p =>
      ((s.heap p.2).fwd[0]?).map fun f => (⟨f, 0⟩, .bool f.isSome)
  -- 347-363
  | .seekGT k => (descend s.heap (upto cmp s.heap k) s.free s.level s.header).bind fun p =>
      ((s.heap p.2).fwd[0]?).map fun f => (⟨f, 0⟩, .bool f.isSome)
  -- 365-382
  | .seekLE k => (descendRes s.heap (upto cmp s.heap k) s.free s.level s.header none).map fun r =>
      (⟨r, it.index⟩, .bool r.isSome)
  -- 384-401
  | .seekLT k => (descendRes s.heap (before cmp s.heap k) s.free s.level s.header none).map fun r =>
      (⟨r, it.index⟩, .bool r.isSome)
  -- 431-447; `index` has been counted down to 0
  | .seekByIndex i =>
    if i < 0 ∨ i ≥ s.size then some (⟨none, it.index⟩, .unit)
    else s.first.bind fun p => (skip s.heap i.toNat p).map fun c => (⟨c, 0⟩, .unit)
  -- 277-282
  | .next =>
    match it.node with
    | none => some (it, .unit)
    | some a => ((s.heap a).fwd[0]?).map fun p => (⟨p, it.index + 1⟩, .unit)
  -- 284-306
  | .prev => s.first.bind fun p => (prevLoop s.heap it.node s.free s.header p).map fun q =>
      if q.2 = it.node then
        if q.1 ≠ s.header then (⟨some q.1, it.index - 1⟩, .unit) else (⟨none, it.index⟩, .unit)
      else if q.2 = none then (⟨none, it.index⟩, .unit) else (it, .unit)
  -- 273-275
  | .valid => some (it, .bool it.node.isSome)
  -- 403-417
  | .slice => some (it, .slice (it.node.map s.ent))
  -- 419-421
  | .index => some (it, .int it.index)

end

end Verif.Skip
