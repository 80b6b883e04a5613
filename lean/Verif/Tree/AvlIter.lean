import Verif.Tree.Base
import Verif.Common.Tac
import Verif.Common.Guard

/-! Iterators of the AVL trees: tree/avl/iterator.go, tree/avl/iterator_hide.go,
tree/avls/iterator.go, tree/avls/iterator_hide.go, set/treeset/iterator.go,
set/treeset/iterator_hide.go.

An iterator holds pointers into the tree. It is modelled for the time between two modifications of
the tree: a pointer to a node is the subtree below it. The array `stack` with the top index `idx` is
a list, top first, with a capacity; array slots above `idx` are never read. -/

namespace Verif.Avl

open Tree

variable {A K V : Type}

/-- tree/avl/iterator.go:4-16 `Iterator`, `NodeDir`; tree/avls/iterator.go:4-16;
set/treeset/iterator.go:4-16. A direction is `true` for 1. -/
structure Iter (A K V : Type) where
  cap : Nat
  cur : Tree A K V
  stk : List (Tree A K V × Bool)

theorem isNil_node (a : A) (k : K) (v : V) (l r : Tree A K V) : (node a k v l r).isNil = false := rfl
theorem isNil_nil : (nil : Tree A K V).isNil = true := rfl

theorem isNil_of_ne {t : Tree A K V} (h : t ≠ nil) : t.isNil = false := by
  cases t
  · exact absurd rfl h
  · rfl
theorem height_pos {t : Tree A K V} (h : t ≠ nil) : 1 ≤ t.height := by
  cases t
  · exact absurd rfl h
  · simp only [height]; omega

/-- `Children[c]`. -/
def child (c : Bool) : Tree A K V → Tree A K V
  | nil => nil
  | node _ _ _ l r => if c then r else l

/-- Push on the stack; `none` is an index out of range. -/
def Iter.push (it : Iter A K V) (e : Tree A K V × Bool) (cur : Tree A K V) : Option (Iter A K V) :=
  if it.stk.length < it.cap then some { it with cur := cur, stk := e :: it.stk } else none

/-- iterator_hide.go:16-39 `down` (the three packages alike). -/
def Iter.down (c : Bool) (it : Iter A K V) : Option (Iter A K V × Bool) :=
  if it.cur.isNil then
    match it.stk with
    | [] => some (it, false)
    | (n, d) :: stk => if d = !c then some ({ it with cur := n, stk := stk }, true)
        else some (it, false)
  else if (child c it.cur).isNil then some (it, false)
  else (it.push (it.cur, c) (child c it.cur)).map fun it' => (it', true)

/-- The search of `up`: the nearest entry with the other direction. -/
def findUp (c : Bool) : List (Tree A K V × Bool) → Option (Tree A K V × List (Tree A K V × Bool))
  | [] => none
  | (n, d) :: stk => if d = !c then some (n, stk) else findUp c stk

/-- iterator_hide.go:41-69 `up` (the three packages alike). -/
def Iter.up (c : Bool) (it : Iter A K V) : Option (Iter A K V × Bool) :=
  match findUp c it.stk with
  | some (n, stk) => some ({ it with cur := n, stk := stk }, true)
  | none =>
    if it.cur.isNil then some (it, false)
    else (it.push (it.cur, c) nil).map fun it' => (it', false)

/-- The loop `for iter.down(c) {}`, at most `n` rounds: `none` when they do not suffice (or on a
panic). -/
def Iter.downs (c : Bool) : Nat → Iter A K V → Option (Iter A K V)
  | 0, _ => none
  | n + 1, it => (it.down c).bind fun p => if p.2 then p.1.downs c n else some p.1

/-- A number of rounds that suffices. -/
def Iter.fuel (it : Iter A K V) : Nat :=
  it.cur.height + (match it.stk with | [] => 0 | (n, _) :: _ => n.height) + 2

/-- iterator_hide.go `move`: tree/avl 122-132, set/treeset 120-130, tree/avls 166-176. -/
def Iter.move (c : Bool) (it : Iter A K V) : Option (Iter A K V) :=
  (it.down c).bind fun p =>
    if p.2 then p.1.downs (!c) p.1.fuel else (it.up c).map (·.1)

/-- iterator.go:34-52 `SeekToFirst`, `SeekToLast` (tree/avl; the other packages alike). -/
def Iter.seekEnd (root : Tree A K V) (c : Bool) (it : Iter A K V) : Option (Iter A K V) :=
  let it' : Iter A K V := { it with cur := root, stk := [] }
  it'.downs c it'.fuel

section
variable (cmp : K → K → Int)

/-- The loop of `seekEqual` (`strict = false`) and `seekThan` (`strict = true`): tree/avl 79-92,
105-119; set/treeset 78-91, 103-117. -/
def Iter.seekLoop (key : K) (c strict : Bool) : Nat → Iter A K V → Option (Iter A K V × Bool)
  | 0, _ => none
  | n + 1, it =>
    match it.cur with
    | nil => none
    | node _ k _ _ _ =>
      let x := cmp k key
      if x < 0 then
        if strict then (it.move c).map fun it' => (it', true) else some (it, true)
      else if x = 0 ∨ x = 1 then
        let dir := decide (x = 1)
        (it.down dir).bind fun p =>
          if p.2 then p.1.seekLoop key c strict n
          else if dir = c then (p.1.up c).map fun q => (q.1, false) else some (p.1, false)
      else none

/-- iterator_hide.go `seekEqual`, `seekThan`: tree/avl 72-119; set/treeset 72-117. On an empty tree
the old stack stays. -/
def Iter.seek (root : Tree A K V) (key : K) (c strict : Bool) (it : Iter A K V) :
    Option (Iter A K V × Bool) :=
  if root.isNil then some ({ it with cur := nil }, false)
  else
    let it' : Iter A K V := { it with cur := root, stk := [] }
    it'.seekLoop cmp key c strict it'.fuel

/-- The loop of `seekBound`, tree/avls/iterator_hide.go:97-154: `cur`, the path to it, the candidate
with the path to it, `exact`. The array slots of the path are written in any case, hence the capacity
check. -/
def seekBoundLoop (cap : Nat) (key : K) (c strict : Bool) :
    Tree A K V → List (Tree A K V × Bool) → Option (Tree A K V × List (Tree A K V × Bool)) → Bool →
    Option (Option (Tree A K V × List (Tree A K V × Bool)) × Bool)
  | nil, _, cand, exact => some (cand, exact)
  | node h k v l r, path, cand, exact =>
    let x := cmp k key
    let exact := exact || decide (x < 0)
    let satisfies := if c then decide (x = 0) || (decide (x < 0) && !strict)
      else decide (x = 1) || (decide (x < 0) && !strict)
    let moveDir := if c then (if x = 0 then false else if x < 0 then strict else true)
      else (if x = 1 then true else if x < 0 then !strict else false)
    let cand := if satisfies then some (node h k v l r, path) else cand
    if moveDir then
      if r.isNil then some (cand, exact)
      else if path.length < cap then
        seekBoundLoop cap key c strict r ((node h k v l r, true) :: path) cand exact
      else none
    else
      if l.isNil then some (cand, exact)
      else if path.length < cap then
        seekBoundLoop cap key c strict l ((node h k v l r, false) :: path) cand exact
      else none

/-- tree/avls/iterator_hide.go:80-163 `seekBound`. -/
def Iter.seekBound (root : Tree A K V) (key : K) (c strict : Bool) (it : Iter A K V) :
    Option (Iter A K V × Bool) :=
  (seekBoundLoop cmp it.cap key c strict root [] none false).map fun p =>
    match p.1 with
    | none => ({ it with cur := nil, stk := [] }, p.2)
    | some (n, stk) => ({ it with cur := n, stk := stk }, p.2)

end

/-! ### Calls -/

/-- The methods of an iterator; `clone` goes on with the copy. `seekGE` etc. stand also for the
`Seek*Exact` of the tree set, whose `Seek*` drop the answer. -/
inductive IOp (K : Type) where
  | seekToFirst | seekToLast | next | prev | seekGE (k : K) | seekGT (k : K) | seekLE (k : K)
  | seekLT (k : K) | valid | entry | clone

inductive IRes (K V : Type) where
  | unit | bool (b : Bool) | entry (e : K × V)

/-- tree/avl/iterator.go, set/treeset/iterator.go: `Key` and `Value` together are `entry`, `none` on a
nil pointer. `bound`: the tree is the multimap tree/avls (`seekBound`). `Clone` (82-88 in tree/avl)
allocates a new stack for the present height and copies the old one: same contents as long as the
tree is unchanged. -/
def istep (cmp : K → K → Int) (bound : Bool) (root : Tree A K V) (it : Iter A K V) :
    IOp K → Option (Iter A K V × IRes K V)
  | .seekToFirst => (it.seekEnd root false).map fun i => (i, .unit)
  | .seekToLast => (it.seekEnd root true).map fun i => (i, .unit)
  | .next => (it.move true).map fun i => (i, .unit)
  | .prev => (it.move false).map fun i => (i, .unit)
  | .seekGE k => (seek k true false).map fun p => (p.1, .bool p.2)
  | .seekGT k => (seek k true true).map fun p => (p.1, .bool p.2)
  | .seekLE k => (seek k false false).map fun p => (p.1, .bool p.2)
  | .seekLT k => (seek k false true).map fun p => (p.1, .bool p.2)
  | .valid => some (it, .bool (!it.cur.isNil))
  | .entry => match it.cur with
    | nil => none
    | node _ k v _ _ => some (it, .entry (k, v))
  | .clone => some (⟨it.cap, it.cur, it.stk⟩, .unit)
where
  seek (k : K) (c strict : Bool) : Option (Iter A K V × Bool) :=
    if bound then it.seekBound cmp root k c strict else it.seek cmp root k c strict

/-! ### The place of an iterator in the tree -/

/-- The entries before and after the subtree reached by a path. -/
def befores : List (Tree A K V × Bool) → List (K × V)
  | [] => []
  | (node _ k v l _, true) :: stk => befores stk ++ (l.toList ++ [(k, v)])
  | _ :: stk => befores stk

def afters : List (Tree A K V × Bool) → List (K × V)
  | [] => []
  | (node _ k v _ r, false) :: stk => (k, v) :: r.toList ++ afters stk
  | _ :: stk => afters stk

/-- `stk` is the path from the root to the subtree. -/
inductive Path (root : Tree A K V) : List (Tree A K V × Bool) → Tree A K V → Prop
  | root : Path root [] root
  | right {h k v l r stk} : Path root stk (node h k v l r) → Path root ((node h k v l r, true) :: stk) r
  | left {h k v l r stk} : Path root stk (node h k v l r) → Path root ((node h k v l r, false) :: stk) l

theorem Path.toList {root cur : Tree A K V} {stk} (h : Path root stk cur) :
    root.toList = befores stk ++ cur.toList ++ afters stk := by
  induction h with
  | root => simp [befores, afters]
  | right _ ih => rw [ih]; simp [befores, afters]
  | left _ ih => rw [ih]; simp [befores, afters]

theorem Path.height {root cur : Tree A K V} {stk} (h : Path root stk cur) :
    stk.length + cur.height ≤ root.height := by
  induction h with
  | root => simp
  | right _ ih => simp only [Tree.height, List.length_cons] at *; omega
  | left _ ih => simp only [Tree.height, List.length_cons] at *; omega

/-- `findUp true`: the next entry above. -/
theorem Path.findUp_true {root cur : Tree A K V} {stk} (h : Path root stk cur) :
    (findUp true stk = none ∧ afters stk = []) ∨
    ∃ hh k v l r stk', findUp true stk = some (node hh k v l r, stk') ∧
      Path root stk' (node hh k v l r) ∧ befores stk' ++ l.toList = befores stk ++ cur.toList ∧
      afters stk = (k, v) :: r.toList ++ afters stk' := by
  induction h with
  | root => exact .inl ⟨rfl, rfl⟩
  | @right h k v l r stk hp ih =>
    rcases ih with ⟨h1, h2⟩ | ⟨hh, k', v', l', r', stk', h1, h2, h3, h4⟩
    · exact .inl ⟨by simpa [findUp] using h1, by simpa [afters] using h2⟩
    · exact .inr ⟨hh, k', v', l', r', stk', by simpa [findUp] using h1, h2, by
        rw [h3]; simp [befores], by simpa [afters] using h4⟩
  | @left h k v l r stk hp ih =>
    exact .inr ⟨h, k, v, l, r, stk, by simp [findUp], hp, by simp [befores], by simp [afters]⟩

/-- `findUp false`: the previous entry above. -/
theorem Path.findUp_false {root cur : Tree A K V} {stk} (h : Path root stk cur) :
    (findUp false stk = none ∧ befores stk = []) ∨
    ∃ hh k v l r stk', findUp false stk = some (node hh k v l r, stk') ∧
      Path root stk' (node hh k v l r) ∧ r.toList ++ afters stk' = cur.toList ++ afters stk ∧
      befores stk = befores stk' ++ (l.toList ++ [(k, v)]) := by
  induction h with
  | root => exact .inl ⟨rfl, rfl⟩
  | @left h k v l r stk hp ih =>
    rcases ih with ⟨h1, h2⟩ | ⟨hh, k', v', l', r', stk', h1, h2, h3, h4⟩
    · exact .inl ⟨by simpa [findUp] using h1, by simpa [befores] using h2⟩
    · exact .inr ⟨hh, k', v', l', r', stk', by simpa [findUp] using h1, h2, by
        rw [h3]; simp [afters], by simpa [befores] using h4⟩
  | @right h k v l r stk hp ih =>
    exact .inr ⟨h, k, v, l, r, stk, by simp [findUp], hp, by simp [afters], by simp [befores]⟩

/-- The iterator stands on an entry with `L` before it and `R` after it. -/
structure At (root : Tree A K V) (it : Iter A K V) (L : List (K × V)) (e : K × V)
    (R : List (K × V)) : Prop where
  cap : root.height ≤ it.cap
  path : Path root it.stk it.cur
  here : ∃ h l r, it.cur = node h e.1 e.2 l r ∧ L = befores it.stk ++ l.toList ∧
    R = r.toList ++ afters it.stk

theorem At.list {root : Tree A K V} {it : Iter A K V} {L R : List (K × V)} {e : K × V}
    (h : At root it L e R) : root.toList = L ++ e :: R := by
  obtain ⟨-, hp, hh, l, r, h1, h2, h3⟩ := h
  have := hp.toList
  rw [h1] at this
  rw [this, h2, h3]
  simp

/-- Descending on the left to the first entry of a subtree. -/
theorem downs_left {root : Tree A K V} {it : Iter A K V} (hcap : root.height ≤ it.cap)
    (hp : Path root it.stk it.cur) (hn : it.cur ≠ nil) (n : Nat) (hf : it.cur.height + 1 ≤ n) :
    ∃ it' e R, it.downs false n = some it' ∧ At root it' (befores it.stk) e R ∧
      it.cur.toList ++ afters it.stk = e :: R ∧ it'.cap = it.cap := by
  induction n generalizing it with
  | zero => omega
  | succ n ih =>
    cases hc : it.cur with
    | nil => exact absurd hc hn
    | node h k v l r =>
      rw [hc] at hp hf
      simp only [height] at hf
      by_cases hl : l = nil
      · subst hl
        refine ⟨it, (k, v), r.toList ++ afters it.stk, ?_, ⟨hcap, by rw [hc]; exact hp, ?_⟩, by simp, rfl⟩
        · simp [Iter.downs, Iter.down, hc, isNil, child]
        · exact ⟨h, nil, r, hc, by simp, rfl⟩
      · have hlen := hp.height
        simp only [height] at hlen
        have hl' : l.isNil = false := isNil_of_ne (by assumption)
        have h1 : 1 ≤ l.height := height_pos (by assumption)
        obtain ⟨it', e, R, h2, h3, h4, h5⟩ := ih
          (it := { it with cur := l, stk := (node h k v l r, false) :: it.stk }) hcap hp.left hl
          (by show l.height + 1 ≤ n; omega)
        refine ⟨it', e, R, ?_, by simpa [befores] using h3, ?_, h5⟩
        · rw [← h2]
          simp only [Iter.downs, Iter.down, hc, isNil_node, child, hl', Iter.push, Bool.false_eq_true,
            if_false]
          rw [if_pos (show it.stk.length < it.cap by omega)]
          rfl
        · rw [← h4]; simp [afters]

/-- Descending on the right to the last entry of a subtree. -/
theorem downs_right {root : Tree A K V} {it : Iter A K V} (hcap : root.height ≤ it.cap)
    (hp : Path root it.stk it.cur) (hn : it.cur ≠ nil) (n : Nat) (hf : it.cur.height + 1 ≤ n) :
    ∃ it' L e, it.downs true n = some it' ∧ At root it' L e (afters it.stk) ∧
      befores it.stk ++ it.cur.toList = L ++ [e] ∧ it'.cap = it.cap := by
  induction n generalizing it with
  | zero => omega
  | succ n ih =>
    cases hc : it.cur with
    | nil => exact absurd hc hn
    | node h k v l r =>
      rw [hc] at hp hf
      simp only [height] at hf
      by_cases hl : r = nil
      · subst hl
        refine ⟨it, befores it.stk ++ l.toList, (k, v), ?_, ⟨hcap, by rw [hc]; exact hp, ?_⟩, by simp, rfl⟩
        · simp [Iter.downs, Iter.down, hc, isNil, child]
        · exact ⟨h, l, nil, hc, rfl, by simp⟩
      · have hlen := hp.height
        simp only [height] at hlen
        have hl' : r.isNil = false := isNil_of_ne (by assumption)
        have h1 : 1 ≤ r.height := height_pos (by assumption)
        obtain ⟨it', L, e, h2, h3, h4, h5⟩ := ih
          (it := { it with cur := r, stk := (node h k v l r, true) :: it.stk }) hcap hp.right hl
          (by show r.height + 1 ≤ n; omega)
        refine ⟨it', L, e, ?_, by simpa [afters] using h3, ?_, h5⟩
        · rw [← h2]
          simp only [Iter.downs, Iter.down, hc, isNil_node, child, hl', Iter.push, Bool.false_eq_true,
            if_false, if_true]
          rw [if_pos (show it.stk.length < it.cap by omega)]
          rfl
        · rw [← h4]; simp [befores]

/-- The place of an iterator: nowhere yet, before the first entry, on an entry, or after the last
one. -/
inductive Place (root : Tree A K V) (it : Iter A K V) : Option Int → Prop
  | unset : root.height ≤ it.cap → it.cur = nil → it.stk = [] → Place root it none
  | on {L e R} : At root it L e R → Place root it (some (L.length : Int))
  | after {n stk L e} : it.cur = nil → it.stk = (n, true) :: stk →
      At root ⟨it.cap, n, stk⟩ L e [] → Place root it (some (root.toList.length : Int))
  | before {n stk e R} : it.cur = nil → it.stk = (n, false) :: stk →
      At root ⟨it.cap, n, stk⟩ [] e R → Place root it (some (-1))

theorem At.before {root : Tree A K V} {it : Iter A K V} {L R : List (K × V)} {e : K × V}
    (h : At root it L e R) : L.length + R.length + 1 = root.toList.length := by
  rw [h.list]; simp; omega

/-- `up true` from an entry whose right subtree is empty. -/
theorem up_true {root : Tree A K V} {it : Iter A K V} {L R : List (K × V)} {e : K × V}
    (h : At root it L e R) (hr : (child true it.cur).isNil = true) :
    ∃ it' b, it.up true = some (it', b) ∧ it'.cap = it.cap ∧
      Place root it' (some ((L.length : Int) + 1)) := by
  obtain ⟨hcap, hp, hh, l, r, h1, h2, h3⟩ := h
  obtain ⟨e1, e2⟩ := e
  have hr0 : r = nil := by
    rw [h1] at hr; simp only [child, if_true] at hr; cases r <;> simp_all [isNil]
  subst hr0
  have hlen := hp.height
  rcases hp.findUp_true with ⟨g1, g2⟩ | ⟨hh', k', v', l', r', stk', g1, g2, g3, g4⟩
  · rw [h1] at hlen
    simp only [height] at hlen
    simp only [Iter.up, g1, h1, isNil_node, Bool.false_eq_true, if_false, Iter.push]
    rw [if_pos (show it.stk.length < it.cap by omega)]
    refine ⟨_, _, rfl, rfl, ?_⟩
    have hat : At root ⟨it.cap, it.cur, it.stk⟩ L (e1, e2) [] :=
      ⟨hcap, hp, hh, l, nil, h1, h2, by simp [g2]⟩
    have := hat.before
    have e : (L.length : Int) + 1 = (root.toList.length : Int) := by simp at this; omega
    rw [e, ← h1]
    exact .after rfl rfl hat
  · simp only [Iter.up, g1]
    refine ⟨_, _, rfl, rfl, ?_⟩
    have e : (L.length : Int) + 1 = ((befores stk' ++ l'.toList).length : Int) := by
      rw [g3, h1, h2]; simp; omega
    rw [e]
    exact .on (e := (k', v')) (R := r'.toList ++ afters stk') ⟨hcap, g2, hh', l', r', rfl, rfl, rfl⟩

/-- `up false` from an entry whose left subtree is empty. -/
theorem up_false {root : Tree A K V} {it : Iter A K V} {L R : List (K × V)} {e : K × V}
    (h : At root it L e R) (hr : (child false it.cur).isNil = true) :
    ∃ it' b, it.up false = some (it', b) ∧ it'.cap = it.cap ∧
      Place root it' (some ((L.length : Int) - 1)) := by
  obtain ⟨hcap, hp, hh, l, r, h1, h2, h3⟩ := h
  obtain ⟨e1, e2⟩ := e
  have hr0 : l = nil := by
    rw [h1] at hr; simp only [child, Bool.false_eq_true, if_false] at hr
    cases l <;> simp_all [isNil]
  subst hr0
  have hlen := hp.height
  rcases hp.findUp_false with ⟨g1, g2⟩ | ⟨hh', k', v', l', r', stk', g1, g2, g3, g4⟩
  · rw [h1] at hlen
    simp only [height] at hlen
    simp only [Iter.up, g1, h1, isNil_node, Bool.false_eq_true, if_false, Iter.push]
    rw [if_pos (show it.stk.length < it.cap by omega)]
    refine ⟨_, _, rfl, rfl, ?_⟩
    have hat : At root ⟨it.cap, it.cur, it.stk⟩ [] (e1, e2) R :=
      ⟨hcap, hp, hh, nil, r, h1, by simp [g2], h3⟩
    have e : (L.length : Int) - 1 = -1 := by rw [h2, g2]; simp
    rw [e, ← h1]
    exact .before rfl rfl hat
  · simp only [Iter.up, g1]
    refine ⟨_, _, rfl, rfl, ?_⟩
    have e : (L.length : Int) - 1 = ((befores stk' ++ l'.toList).length : Int) := by
      rw [h2, g4]; simp; omega
    rw [e]
    exact .on (e := (k', v')) (R := r'.toList ++ afters stk') ⟨hcap, g2, hh', l', r', rfl, rfl, rfl⟩

/-- `Next` on an entry. -/
theorem move_true_on {root : Tree A K V} {it : Iter A K V} {L R : List (K × V)} {e : K × V}
    (h : At root it L e R) : ∃ it', it.move true = some it' ∧ it'.cap = it.cap ∧
      Place root it' (some ((L.length : Int) + 1)) := by
  by_cases hr : (child true it.cur).isNil = true
  · obtain ⟨it', b, h1, h2, h3⟩ := up_true h hr
    refine ⟨it', ?_, h2, h3⟩
    obtain ⟨-, -, hh, l, r, g1, -, -⟩ := h
    have hn : it.cur.isNil = false := by rw [g1]; rfl
    simp [Iter.move, Iter.down, hn, hr, h1]
  · obtain ⟨hcap, hp, hh, l, r, h1, h2, h3⟩ := h
    have hlen := hp.height
    rw [h1] at hr hp hlen
    simp only [child, if_true] at hr
    simp only [height] at hlen
    have hr' : r ≠ nil := by rintro rfl; exact hr rfl
    have q1 : 1 ≤ r.height := height_pos (by assumption)
    obtain ⟨it', e', R', g1, g2, g3, g4⟩ := downs_left
      (it := { it with cur := r, stk := (node hh e.1 e.2 l r, true) :: it.stk }) hcap hp.right hr'
      (Iter.fuel { it with cur := r, stk := (node hh e.1 e.2 l r, true) :: it.stk })
      (by simp only [Iter.fuel]; omega)
    refine ⟨it', ?_, g4, ?_⟩
    · simp only [Iter.move, Iter.down, h1, isNil_node, child, if_true, Bool.false_eq_true, if_false, hr,
        Iter.push]
      rw [if_pos (show it.stk.length < it.cap by omega)]
      exact g1
    · have e : (L.length : Int) + 1 = (befores ((node hh e.1 e.2 l r, true) :: it.stk)).length := by
        rw [h2]; simp [befores]; omega
      rw [e]
      exact .on g2

/-- `Prev` on an entry. -/
theorem move_false_on {root : Tree A K V} {it : Iter A K V} {L R : List (K × V)} {e : K × V}
    (h : At root it L e R) : ∃ it', it.move false = some it' ∧ it'.cap = it.cap ∧
      Place root it' (some ((L.length : Int) - 1)) := by
  by_cases hr : (child false it.cur).isNil = true
  · obtain ⟨it', b, h1, h2, h3⟩ := up_false h hr
    refine ⟨it', ?_, h2, h3⟩
    obtain ⟨-, -, hh, l, r, g1, -, -⟩ := h
    have hn : it.cur.isNil = false := by rw [g1]; rfl
    simp [Iter.move, Iter.down, hn, hr, h1]
  · obtain ⟨hcap, hp, hh, l, r, h1, h2, h3⟩ := h
    have hlen := hp.height
    rw [h1] at hr hp hlen
    simp only [child, Bool.false_eq_true, if_false] at hr
    simp only [height] at hlen
    have hr' : l ≠ nil := by rintro rfl; exact hr rfl
    have q1 : 1 ≤ l.height := height_pos (by assumption)
    obtain ⟨it', L', e', g1, g2, g3, g4⟩ := downs_right
      (it := { it with cur := l, stk := (node hh e.1 e.2 l r, false) :: it.stk }) hcap hp.left hr'
      (Iter.fuel { it with cur := l, stk := (node hh e.1 e.2 l r, false) :: it.stk })
      (by simp only [Iter.fuel]; omega)
    refine ⟨it', ?_, g4, ?_⟩
    · simp only [Iter.move, Iter.down, h1, isNil_node, child, Bool.false_eq_true, if_false, hr,
        Iter.push]
      rw [if_pos (show it.stk.length < it.cap by omega)]
      exact g1
    · have e : (L.length : Int) - 1 = L'.length := by
        have := congrArg List.length g3
        simp [befores] at this
        rw [h2]; simp; omega
      rw [e]
      exact .on g2

/-! ### Every call -/

/-- An iterator on `xs` is a cursor: `none` before the first seek (or after a seek in an empty tree),
-1 before the first entry, the index of an entry, or `xs.length` after the last one. -/
def irel (root : Tree A K V) (it : Iter A K V) (p : Option Int) : Prop := Place root it p

theorem Place.bounds {root : Tree A K V} {it : Iter A K V} {p : Option Int}
    (h : Place root it p) : ∀ i, p = some i → -1 ≤ i ∧ i ≤ root.toList.length := by
  intro i hi
  cases h with
  | unset => cases hi
  | on h => cases hi; have := h.before; omega
  | after h1 h2 h3 => cases hi; omega
  | before h1 h2 h3 => cases hi; omega

theorem Place.cap {root : Tree A K V} {it : Iter A K V} {p : Option Int}
    (h : Place root it p) : root.height ≤ it.cap := by
  cases h with
  | unset h => exact h
  | on h => exact h.cap
  | after h1 h2 h3 => exact h3.cap
  | before h1 h2 h3 => exact h3.cap

theorem At.child_right {root : Tree A K V} {it : Iter A K V} {L : List (K × V)} {e : K × V}
    (h : At root it L e []) : child true it.cur = nil ∧ findUp true it.stk = none := by
  obtain ⟨-, hp, hh, l, r, h1, h2, h3⟩ := h
  have h3 := h3.symm
  rw [List.append_eq_nil_iff] at h3
  rw [h1]
  refine ⟨toList_eq_nil.1 h3.1, ?_⟩
  rcases hp.findUp_true with ⟨g, -⟩ | ⟨_, _, _, _, _, _, -, -, -, g⟩
  · exact g
  · rw [g] at h3; simp at h3

theorem At.child_left {root : Tree A K V} {it : Iter A K V} {R : List (K × V)} {e : K × V}
    (h : At root it [] e R) : child false it.cur = nil ∧ findUp false it.stk = none := by
  obtain ⟨-, hp, hh, l, r, h1, h2, h3⟩ := h
  have h3 := h2.symm
  rw [List.append_eq_nil_iff] at h3
  rw [h1]
  refine ⟨toList_eq_nil.1 h3.2, ?_⟩
  rcases hp.findUp_false with ⟨g, -⟩ | ⟨_, _, _, _, _, _, -, -, -, g⟩
  · exact g
  · rw [g] at h3; simp at h3

theorem At.not_nil {root : Tree A K V} {it : Iter A K V} {L R : List (K × V)} {e : K × V}
    (h : At root it L e R) : it.cur.isNil = false := by
  obtain ⟨-, -, hh, l, r, h1, -, -⟩ := h
  rw [h1]; rfl

/-- `Next` from every place. -/
theorem move_true {root : Tree A K V} {it : Iter A K V} {p : Option Int} (h : Place root it p) :
    ∃ it', it.move true = some it' ∧ it'.cap = it.cap ∧
      Place root it' (p.map fun i => min (i + 1) (root.toList.length : Int)) := by
  cases h with
  | unset h1 h2 h3 =>
    refine ⟨it, ?_, rfl, .unset h1 h2 h3⟩
    simp [Iter.move, Iter.down, Iter.up, h2, h3, isNil, findUp]
  | on h =>
    obtain ⟨it', h1, h2, h3⟩ := move_true_on h
    refine ⟨it', h1, h2, ?_⟩
    have := h.before
    simp only [Option.map_some]
    rwa [Int.min_eq_left (by omega)]
  | @after n stk L e h1 h2 h3 =>
    refine ⟨it, ?_, rfl, ?_⟩
    · have := h3.child_right.2
      simp only at this
      simp [Iter.move, Iter.down, Iter.up, h1, h2, isNil, findUp, this]
    · simp only [Option.map_some]
      rw [Int.min_eq_right (by omega)]
      exact .after h1 h2 h3
  | @before n stk e R h1 h2 h3 =>
    refine ⟨⟨it.cap, n, stk⟩, ?_, rfl, ?_⟩
    · have h4 := h3.child_left.1
      have h5 := h3.not_nil
      simp only at h4 h5
      have hfuel : ∀ i : Iter A K V, i.fuel = (i.fuel - 1) + 1 := by
        intro i; simp only [Iter.fuel]; omega
      simp only [Iter.move, Iter.down, h1, h2, isNil_nil, if_true, Bool.not_true, Option.bind_some]
      rw [hfuel]
      simp [Iter.downs, Iter.down, h4, h5, isNil_nil]
    · simp only [Option.map_some]
      have := h3.before
      rw [Int.min_eq_left (by omega)]
      exact .on (L := []) h3

/-- `Prev` from every place. -/
theorem move_false {root : Tree A K V} {it : Iter A K V} {p : Option Int} (h : Place root it p) :
    ∃ it', it.move false = some it' ∧ it'.cap = it.cap ∧
      Place root it' (p.map fun i => max (i - 1) (-1)) := by
  cases h with
  | unset h1 h2 h3 =>
    refine ⟨it, ?_, rfl, .unset h1 h2 h3⟩
    simp [Iter.move, Iter.down, Iter.up, h2, h3, isNil, findUp]
  | on h =>
    obtain ⟨it', h1, h2, h3⟩ := move_false_on h
    refine ⟨it', h1, h2, ?_⟩
    simp only [Option.map_some]
    rwa [Int.max_eq_left (by omega)]
  | @before n stk e R h1 h2 h3 =>
    refine ⟨it, ?_, rfl, ?_⟩
    · have := h3.child_left.2
      simp only at this
      simp [Iter.move, Iter.down, Iter.up, h1, h2, isNil, findUp, this]
    · simp only [Option.map_some]
      rw [Int.max_eq_right (by omega)]
      exact .before h1 h2 h3
  | @after n stk L e h1 h2 h3 =>
    refine ⟨⟨it.cap, n, stk⟩, ?_, rfl, ?_⟩
    · have h4 := h3.child_right.1
      have h5 := h3.not_nil
      simp only at h4 h5
      have hfuel : ∀ i : Iter A K V, i.fuel = (i.fuel - 1) + 1 := by
        intro i; simp only [Iter.fuel]; omega
      simp only [Iter.move, Iter.down, h1, h2, isNil_nil, if_true, Bool.not_false, Option.bind_some]
      rw [hfuel]
      simp [Iter.downs, Iter.down, h4, h5, isNil_nil]
    · simp only [Option.map_some]
      have := h3.before
      simp only [List.length_nil] at this
      rw [Int.max_eq_left (by omega), show (root.toList.length : Int) - 1 = (L.length : Int) by omega]
      exact .on h3

theorem seekFirst_ok {root : Tree A K V} {it : Iter A K V} (h : root.height ≤ it.cap) :
    ∃ it', it.seekEnd root false = some it' ∧ it'.cap = it.cap ∧
      Place root it' (if root.toList.isEmpty then none else some 0) := by
  cases hr : root with
  | nil => exact ⟨⟨it.cap, nil, []⟩, rfl, rfl, .unset (by simp [height]) rfl rfl⟩
  | node a k v l r =>
    rw [← hr]
    have hne : root.toList.isEmpty = false := by rw [hr]; simp
    simp only [hne, Bool.false_eq_true, if_false]
    obtain ⟨it', e, R, h1, h2, -, h3⟩ := downs_left (it := { it with cur := root, stk := [] }) h
      .root (by simp [hr]) (Iter.fuel { it with cur := root, stk := [] }) (by simp [Iter.fuel])
    exact ⟨it', h1, h3, .on h2⟩

theorem seekLast_ok {root : Tree A K V} {it : Iter A K V} (h : root.height ≤ it.cap) :
    ∃ it', it.seekEnd root true = some it' ∧ it'.cap = it.cap ∧
      Place root it' (if root.toList.isEmpty then none else some ((root.toList.length : Int) - 1)) := by
  cases hr : root with
  | nil => exact ⟨⟨it.cap, nil, []⟩, rfl, rfl, .unset (by simp [height]) rfl rfl⟩
  | node a k v l r =>
    rw [← hr]
    have hne : root.toList.isEmpty = false := by rw [hr]; simp
    simp only [hne, Bool.false_eq_true, if_false]
    obtain ⟨it', L, e, h1, h2, -, h3⟩ := downs_right (it := { it with cur := root, stk := [] }) h
      .root (by simp [hr]) (Iter.fuel { it with cur := root, stk := [] }) (by simp [Iter.fuel])
    have := h2.before
    simp only [afters, List.length_nil] at this
    refine ⟨it', h1, h3, ?_⟩
    rw [show (root.toList.length : Int) - 1 = L.length by omega]
    exact .on h2

section
variable (o : K → K → Ordering)

/-- Where a seek goes: with `c` forward (`GE`, `GT`), otherwise backward (`LE`, `LT`). -/
def target (key : K) (c strict : Bool) (xs : List (K × V)) : Int :=
  if c then
    (if strict then (xs.filter fun e => o e.1 key != .gt).length
      else (xs.filter fun e => o e.1 key == .lt).length : Nat)
  else
    ((if strict then (xs.filter fun e => o e.1 key == .lt).length
      else (xs.filter fun e => o e.1 key != .gt).length : Nat) : Int) - 1

/-- The cursor, specified. `bound`: a seek that finds nothing leaves the cursor nowhere
(tree/avls). -/
def ispec (bound : Bool) (xs : List (K × V)) (p : Option Int) : IOp K → Option Int × IRes K V
  | .seekToFirst => (if xs.isEmpty then none else some 0, .unit)
  | .seekToLast => (if xs.isEmpty then none else some ((xs.length : Int) - 1), .unit)
  | .next => (p.map fun i => min (i + 1) (xs.length : Int), .unit)
  | .prev => (p.map fun i => max (i - 1) (-1), .unit)
  | .seekGE k => (go (target o k true false xs), .bool (xs.any fun e => o e.1 k == .eq))
  | .seekGT k => (go (target o k true true xs), .bool (xs.any fun e => o e.1 k == .eq))
  | .seekLE k => (go (target o k false false xs), .bool (xs.any fun e => o e.1 k == .eq))
  | .seekLT k => (go (target o k false true xs), .bool (xs.any fun e => o e.1 k == .eq))
  | .valid => (p, .bool (match p with
      | none => false
      | some i => decide (0 ≤ i) && decide (i < (xs.length : Int))))
  | .entry => (p, match p with
      | none => .unit
      | some i => match xs[i.toNat]? with
        | none => .unit
        | some e => .entry e)
  | .clone => (p, .unit)
where
  go (i : Int) : Option Int :=
    if xs.isEmpty then none
    else if bound && (decide (i < 0) || decide ((xs.length : Int) ≤ i)) then none
    else some i

/-- `Key` and `Value` may be called only when the iterator is valid. -/
def ilegal (xs : List (K × V)) (p : Option Int) : IOp K → Prop
  | .entry => ∃ i : Int, p = some i ∧ 0 ≤ i ∧ i < xs.length
  | _ => True

end

section
variable {o : K → K → Ordering} {key : K}

theorem counts {L R : List (K × V)} {q : K × V → Bool} (hl : ∀ e ∈ L, q e = true)
    (hr : ∀ e ∈ R, q e = false) : ((L ++ R).filter q).length = L.length := by
  rw [List.filter_append, List.filter_eq_self.2 hl, List.filter_eq_nil_iff.2 (by
    intro e he; simp [hr e he])]
  simp

end

/-- The search from a node on the path of the key. -/
theorem seekLoop_ok {cmp : K → K → Int} (hc : LawfulEx cmp) {root : Tree A K V} {key : K}
    {c strict : Bool} {it : Iter A K V} (hs : Sorted (fun a b => exOrd (cmp a b)) root.toList)
    (hcap : root.height ≤ it.cap)
    (hp : Path root it.stk it.cur) (hn : it.cur ≠ nil) (n : Nat) (hf : it.cur.height ≤ n)
    (hb : ∀ e ∈ befores it.stk, exOrd (cmp e.1 key) = .lt)
    (ha : ∀ e ∈ afters it.stk, exOrd (cmp e.1 key) = .gt) :
    ∃ it' b, it.seekLoop cmp key c strict n = some (it', b) ∧ it'.cap = it.cap ∧
      b = (root.toList.any fun e => exOrd (cmp e.1 key) == .eq) ∧
      Place root it' (some (target (fun a b => exOrd (cmp a b)) key c strict root.toList)) := by
  have := hc.trans
  induction n generalizing it with
  | zero =>
    cases hcur : it.cur with
    | nil => exact absurd hcur hn
    | node h k v l r => rw [hcur] at hf; simp [height] at hf
  | succ n ih =>
    cases hcur : it.cur with
    | nil => exact absurd hcur hn
    | node h k v l r =>
      rw [hcur] at hp hf
      simp only [height] at hf
      have hlist := hp.toList
      have hlen := hp.height
      simp only [height] at hlen
      rw [toList_node] at hlist
      have hat : At root it (befores it.stk ++ l.toList) (k, v) (r.toList ++ afters it.stk) :=
        ⟨hcap, by rw [hcur]; exact hp, h, l, r, hcur, rfl, rfl⟩
      have hlist' : root.toList = (befores it.stk ++ l.toList) ++ (k, v) :: (r.toList ++ afters it.stk) := by
        rw [hlist]; simp
      rw [hlist'] at hs
      obtain ⟨-, -, s3, s4, -⟩ := Sorted.split.1 hs
      simp only [Iter.seekLoop, hcur]
      rcases hc.range k key with hx | hx | hx
      · -- found
        have hord : exOrd (cmp k key) = .eq := by simp [exOrd, hx]
        have hL : ∀ e ∈ befores it.stk ++ l.toList, exOrd (cmp e.1 key) = .lt := fun e he =>
          Ord.lt_of_lt_of_eq (o := fun a b => exOrd (cmp a b)) (s3 e he) hord
        have hR : ∀ e ∈ r.toList ++ afters it.stk, exOrd (cmp e.1 key) = .gt := fun e he => by
          have := Ord.lt_of_eq_of_lt (o := fun a b => exOrd (cmp a b)) (Ord.eq_symm (o := fun a b => exOrd (cmp a b)) hord) (s4 e he)
          exact (Ord.gt_iff (o := fun a b => exOrd (cmp a b))).2 this
        have hany : (root.toList.any fun e => exOrd (cmp e.1 key) == .eq) = true := by
          rw [hlist']; simp [hord]
        have n1 : (root.toList.filter fun e => exOrd (cmp e.1 key) == .lt).length =
            (befores it.stk ++ l.toList).length := by
          rw [hlist']
          refine counts (fun e he => by simp [hL e he]) (fun e he => ?_)
          rcases List.mem_cons.1 he with rfl | he
          · simp [hord]
          · simp [hR e he]
        have n2 : (root.toList.filter fun e => exOrd (cmp e.1 key) != .gt).length =
            (befores it.stk ++ l.toList).length + 1 := by
          rw [hlist', show ∀ L R : List (K × V), ∀ e, L ++ e :: R = (L ++ [e]) ++ R by simp]
          rw [counts (L := (befores it.stk ++ l.toList) ++ [(k, v)])]
          · simp [Nat.add_assoc]
          · intro e he
            rcases List.mem_append.1 he with he | he
            · simp [hL e he]
            · rw [List.mem_singleton] at he; subst he; simp [hord]
          · intro e he; simp [hR e he]
        rw [if_pos (by omega), hany]
        cases strict with
        | false =>
          simp only [Bool.false_eq_true, if_false]
          refine ⟨it, true, rfl, rfl, rfl, ?_⟩
          have e : target (fun a b => exOrd (cmp a b)) key c false root.toList =
              ((befores it.stk ++ l.toList).length : Int) := by
            cases c <;> simp only [target, n1, n2] <;> simp
          rw [e]
          exact .on hat
        | true =>
          simp only [if_true]
          cases c with
          | true =>
            obtain ⟨it', h1, h2, h3⟩ := move_true_on hat
            refine ⟨it', true, by rw [h1]; rfl, h2, rfl, ?_⟩
            simp only [target, n2, if_true]
            exact h3
          | false =>
            obtain ⟨it', h1, h2, h3⟩ := move_false_on hat
            refine ⟨it', true, by rw [h1]; rfl, h2, rfl, ?_⟩
            simp only [target, n1, if_true, Bool.false_eq_true, if_false]
            exact h3
      · -- the key is on the left
        have hord : exOrd (cmp k key) = .gt := by simp [exOrd, hx]
        have hR : ∀ e ∈ (k, v) :: (r.toList ++ afters it.stk), exOrd (cmp e.1 key) = .gt := fun e he => by
          rcases List.mem_cons.1 he with rfl | he
          · exact hord
          · have := Ord.lt_trans (o := fun a b => exOrd (cmp a b))
              ((Ord.gt_iff (o := fun a b => exOrd (cmp a b))).1 hord) (s4 e he)
            exact (Ord.gt_iff (o := fun a b => exOrd (cmp a b))).2 this
        rw [if_neg (by omega), if_pos (.inl hx), show decide (cmp k key = 1) = false by
          simp [hx]]
        by_cases hl : l = nil
        · subst hl
          have hdown : it.down false = some (it, false) := by
            simp [Iter.down, hcur, isNil, child]
          simp only [hdown, Option.bind_some, Bool.false_eq_true, if_false]
          have hany : (root.toList.any fun e => exOrd (cmp e.1 key) == .eq) = false := by
            rw [hlist', List.any_eq_false]
            intro e he
            rcases List.mem_append.1 he with he | he
            · simp at he; simp [hb e he]
            · simp [hR e he]
          have n1 : (root.toList.filter fun e => exOrd (cmp e.1 key) == .lt).length =
              (befores it.stk).length := by
            rw [hlist', toList_nil, List.append_nil]
            exact counts (fun e he => by simp [hb e he]) (fun e he => by simp [hR e he])
          have n2 : (root.toList.filter fun e => exOrd (cmp e.1 key) != .gt).length =
              (befores it.stk).length := by
            rw [hlist', toList_nil, List.append_nil]
            exact counts (fun e he => by simp [hb e he]) (fun e he => by simp [hR e he])
          rw [hany]
          cases c with
          | false =>
            obtain ⟨it', b, h1, h2, h3⟩ := up_false hat (by rw [hcur]; rfl)
            refine ⟨it', false, by rw [if_pos rfl, h1]; rfl, h2, rfl, ?_⟩
            have e : target (fun a b => exOrd (cmp a b)) key false strict root.toList =
              ((befores it.stk ++ (nil : Tree A K V).toList).length : Int) - 1 := by
              cases strict <;> simp only [target, n1, n2] <;> simp
            rw [e]
            exact h3
          | true =>
            refine ⟨it, false, by rw [if_neg (by simp)], rfl, rfl, ?_⟩
            have e : target (fun a b => exOrd (cmp a b)) key true strict root.toList =
              ((befores it.stk ++ (nil : Tree A K V).toList).length : Int) := by
              cases strict <;> simp only [target, n1, n2] <;> simp
            rw [e]
            exact .on hat
        · have hl' : l.isNil = false := isNil_of_ne (by assumption)
          have q1 : 1 ≤ l.height := height_pos (by assumption)
          have hdown : it.down false = some ({ it with cur := l, stk := (it.cur, false) :: it.stk }, true) := by
            simp only [Iter.down, hcur, isNil_node, child, hl', Iter.push, Bool.false_eq_true, if_false]
            rw [if_pos (show it.stk.length < it.cap by omega)]
            rfl
          simp only [hdown, Option.bind_some, if_true]
          rw [hcur]
          exact ih (it := { it with cur := l, stk := (node h k v l r, false) :: it.stk }) hcap hp.left
            hl (by show l.height ≤ n; omega) (by simpa [befores] using hb) (by
              intro e he
              simp only [afters, List.cons_append] at he
              exact hR e he)
      · -- the key is on the right
        have hord : exOrd (cmp k key) = .lt := by simp [exOrd, hx]
        have hL : ∀ e ∈ (befores it.stk ++ l.toList) ++ [(k, v)], exOrd (cmp e.1 key) = .lt := fun e he => by
          rcases List.mem_append.1 he with he | he
          · exact Ord.lt_trans (o := fun a b => exOrd (cmp a b)) (s3 e he) hord
          · rw [List.mem_singleton] at he; subst he; exact hord
        rw [if_neg (by omega), if_pos (.inr hx), show decide (cmp k key = 1) = true by
          simp [hx]]
        by_cases hl : r = nil
        · subst hl
          have hdown : it.down true = some (it, false) := by
            simp [Iter.down, hcur, isNil, child]
          simp only [hdown, Option.bind_some, Bool.false_eq_true, if_false]
          have hlist2 : root.toList = ((befores it.stk ++ l.toList) ++ [(k, v)]) ++ afters it.stk := by
            rw [hlist']; simp
          have hany : (root.toList.any fun e => exOrd (cmp e.1 key) == .eq) = false := by
            rw [hlist2, List.any_eq_false]
            intro e he
            rcases List.mem_append.1 he with he | he
            · simp [hL e he]
            · simp [ha e he]
          have n1 : (root.toList.filter fun e => exOrd (cmp e.1 key) == .lt).length =
              (befores it.stk ++ l.toList).length + 1 := by
            rw [hlist2, counts (L := (befores it.stk ++ l.toList) ++ [(k, v)])
              (fun e he => by simp [hL e he]) (fun e he => by simp [ha e he])]
            simp [Nat.add_assoc]
          have n2 : (root.toList.filter fun e => exOrd (cmp e.1 key) != .gt).length =
              (befores it.stk ++ l.toList).length + 1 := by
            rw [hlist2, counts (L := (befores it.stk ++ l.toList) ++ [(k, v)])
              (fun e he => by simp [hL e he]) (fun e he => by simp [ha e he])]
            simp [Nat.add_assoc]
          rw [hany]
          cases c with
          | true =>
            obtain ⟨it', b, h1, h2, h3⟩ := up_true hat (by rw [hcur]; rfl)
            refine ⟨it', false, by rw [if_pos rfl, h1]; rfl, h2, rfl, ?_⟩
            have e : target (fun a b => exOrd (cmp a b)) key true strict root.toList =
              ((befores it.stk ++ l.toList).length : Int) + 1 := by
              cases strict <;> simp only [target, n1, n2] <;> simp
            rw [e]
            exact h3
          | false =>
            refine ⟨it, false, by rw [if_neg (by simp)], rfl, rfl, ?_⟩
            have e : target (fun a b => exOrd (cmp a b)) key false strict root.toList =
              ((befores it.stk ++ l.toList).length : Int) := by
              cases strict <;> simp only [target, n1, n2] <;> simp
            rw [e]
            exact .on hat
        · have hl' : r.isNil = false := isNil_of_ne (by assumption)
          have q1 : 1 ≤ r.height := height_pos (by assumption)
          have hdown : it.down true = some ({ it with cur := r, stk := (it.cur, true) :: it.stk }, true) := by
            simp only [Iter.down, hcur, isNil_node, child, hl', Iter.push, Bool.false_eq_true, if_false,
              if_true]
            rw [if_pos (show it.stk.length < it.cap by omega)]
            rfl
          simp only [hdown, Option.bind_some, if_true]
          rw [hcur]
          exact ih (it := { it with cur := r, stk := (node h k v l r, true) :: it.stk }) hcap hp.right
            hl (by show r.height ≤ n; omega) (by
              intro e he
              simp only [befores, ← List.append_assoc] at he
              exact hL e he) (by simpa [afters] using ha)

/-! ### `seekBound` -/

/-- Does the search go right? -/
def goesRight (c strict : Bool) (x : Ordering) : Bool :=
  if c == strict then x != .gt else x == .lt

theorem goesRight_left {o : K → K → Ordering} [Std.TransCmp o] {c strict : Bool} {a b key : K}
    (h : goesRight c strict (o b key) = true) (hab : o a b ≠ .gt) :
    goesRight c strict (o a key) = true := by
  unfold goesRight at *
  by_cases hh : (c == strict) = true
  · rw [if_pos hh] at *
    simp only [bne_iff_ne] at *; exact Ord.ngt_trans hab h
  · rw [if_neg hh] at *
    simp only [beq_iff_eq] at *; exact Ord.lt_of_ngt_of_lt hab h

theorem goesRight_lt {c strict : Bool} {x : Ordering} (h : goesRight c strict x = true)
    (hx : x ≠ .eq) : x = .lt := by
  cases c <;> cases strict <;> cases x <;> simp_all [goesRight]

theorem goesRight_gt {c strict : Bool} {x : Ordering} (h : goesRight c strict x = false)
    (hx : x ≠ .eq) : x = .gt := by
  cases c <;> cases strict <;> cases x <;> simp_all [goesRight]

theorem goesRight_right {o : K → K → Ordering} [Std.TransCmp o] {c strict : Bool} {a b key : K}
    (h : goesRight c strict (o a key) = false) (hab : o a b ≠ .gt) :
    goesRight c strict (o b key) = false := by
  by_contra hh
  rw [Bool.not_eq_false] at hh
  rw [goesRight_left hh hab] at h
  exact absurd h (by simp)

theorem target_eq {o : K → K → Ordering} {key : K} {c strict : Bool} {xs : List (K × V)} :
    target o key c strict xs =
      if c then ((xs.filter fun e => goesRight c strict (o e.1 key)).length : Int)
      else ((xs.filter fun e => goesRight c strict (o e.1 key)).length : Int) - 1 := by
  cases c <;> cases strict <;> simp [target, goesRight]

/-- The candidate found so far. -/
def CandOK (root : Tree A K V) (cap : Nat) (c : Bool) (path : List (Tree A K V × Bool))
    (t : Tree A K V) (cand : Option (Tree A K V × List (Tree A K V × Bool))) : Prop :=
  match cand with
  | none => if c then afters path = [] else befores path = []
  | some (n, stk) => ∃ L e R, At root ⟨cap, n, stk⟩ L e R ∧
      if c then L = befores path ++ t.toList else befores path = L ++ [e]

theorem seekBoundLoop_ok {cmp : K → K → Int} (hc : LawfulEx cmp) {root : Tree A K V} {key : K}
    {c strict : Bool} {cap : Nat} (hs : SortedLE (fun a b => exOrd (cmp a b)) root.toList)
    (hcap : root.height ≤ cap) (t : Tree A K V) (path : List (Tree A K V × Bool))
    (cand : Option (Tree A K V × List (Tree A K V × Bool))) (exact' : Bool)
    (hp : Path root path t)
    (hb : ∀ e ∈ befores path, goesRight c strict (exOrd (cmp e.1 key)) = true)
    (ha : ∀ e ∈ afters path, goesRight c strict (exOrd (cmp e.1 key)) = false)
    (hcand : CandOK root cap c path t cand)
    (hex1 : exact' = true → ∃ e ∈ root.toList, exOrd (cmp e.1 key) = .eq)
    (hex2 : exact' = false → ∀ e ∈ befores path ++ afters path, exOrd (cmp e.1 key) ≠ .eq) :
    ∃ cand' , seekBoundLoop cmp cap key c strict t path cand exact' =
        some (cand', root.toList.any fun e => exOrd (cmp e.1 key) == .eq) ∧
      match cand' with
      | none => target (fun a b => exOrd (cmp a b)) key c strict root.toList =
          if c then (root.toList.length : Int) else -1
      | some (n, stk) => ∃ L e R, At root ⟨cap, n, stk⟩ L e R ∧
          target (fun a b => exOrd (cmp a b)) key c strict root.toList = (L.length : Int) := by
  have htr := hc.trans
  induction t generalizing path cand exact' with
  | nil =>
    have hlist := hp.toList
    rw [toList_nil, List.append_nil] at hlist
    have hx : exact' = root.toList.any fun e => exOrd (cmp e.1 key) == .eq := by
      rw [Bool.eq_iff_iff]
      simp only [List.any_eq_true, beq_iff_eq]
      refine ⟨hex1, fun ⟨e, he, h⟩ => ?_⟩
      by_contra hn
      rw [Bool.not_eq_true] at hn
      rw [hlist] at he
      exact hex2 hn e he h
    refine ⟨cand, by simp [seekBoundLoop, hx], ?_⟩
    have hcnt : (root.toList.filter fun e => goesRight c strict (exOrd (cmp e.1 key))).length =
        (befores path).length := by
      rw [hlist]; exact counts hb ha
    rw [target_eq, hcnt]
    cases cand with
    | none =>
      simp only [CandOK] at hcand
      cases c with
      | true =>
        simp only [if_true] at hcand ⊢
        rw [hlist, hcand]; simp
      | false =>
        simp only [Bool.false_eq_true, if_false] at hcand ⊢
        rw [hcand]; simp
    | some p =>
      obtain ⟨n, stk⟩ := p
      obtain ⟨L, e, R, h1, h2⟩ := hcand
      refine ⟨L, e, R, h1, ?_⟩
      cases c with
      | true => simp only [if_true] at h2 ⊢; rw [h2]; simp
      | false => simp only [Bool.false_eq_true, if_false] at h2 ⊢; rw [h2]; simp
  | node h k v l r ihl ihr =>
    have hlist := hp.toList
    rw [toList_node] at hlist
    have hlist' : root.toList = (befores path ++ l.toList) ++ (k, v) :: (r.toList ++ afters path) := by
      rw [hlist]; simp
    have hs' := hs
    rw [hlist'] at hs'
    obtain ⟨-, -, s3, s4, -⟩ := SortedLE.split.1 hs'
    have hlen := hp.height
    simp only [height] at hlen
    have hat : At root ⟨cap, node h k v l r, path⟩ (befores path ++ l.toList) (k, v)
        (r.toList ++ afters path) := ⟨hcap, hp, h, l, r, rfl, rfl, rfl⟩
    -- what happens on the way right and left
    have right : ∀ ex, goesRight c strict (exOrd (cmp k key)) = true →
        (ex = (exact' || decide (cmp k key < 0))) →
        ∃ cand', seekBoundLoop cmp cap key c strict r ((node h k v l r, true) :: path)
          (if c then cand else some (node h k v l r, path)) ex =
          some (cand', root.toList.any fun e => exOrd (cmp e.1 key) == .eq) ∧
        match cand' with
        | none => target (fun a b => exOrd (cmp a b)) key c strict root.toList =
            if c then (root.toList.length : Int) else -1
        | some (n, stk) => ∃ L e R, At root ⟨cap, n, stk⟩ L e R ∧
            target (fun a b => exOrd (cmp a b)) key c strict root.toList = (L.length : Int) := by
      intro ex hgo hex
      refine ihr _ _ ex hp.right ?_ ?_ ?_ ?_ ?_
      · intro e he
        simp only [befores, ← List.append_assoc] at he
        rcases List.mem_append.1 he with he | he
        · exact goesRight_left (o := fun a b => exOrd (cmp a b)) hgo (s3 e he)
        · rw [List.mem_singleton] at he; subst he; exact hgo
      · simpa [afters] using ha
      · cases c with
        | true =>
          simp only [if_true]
          cases cand with
          | none => simpa [CandOK, afters] using hcand
          | some p =>
            obtain ⟨n, stk⟩ := p
            obtain ⟨L, e, R, h1, h2⟩ := hcand
            exact ⟨L, e, R, h1, by simpa [befores] using h2⟩
        | false =>
          exact ⟨_, _, _, hat, by simp [befores]⟩
      · intro h1
        rw [hex, Bool.or_eq_true] at h1
        rcases h1 with h1 | h1
        · exact hex1 h1
        · exact ⟨(k, v), by rw [hlist']; simp, by simp at h1; simp [exOrd, h1]⟩
      · intro h1 e he
        rw [hex, Bool.or_eq_false_iff] at h1
        simp only [befores, afters, List.append_assoc, List.mem_append] at he
        have hk : exOrd (cmp k key) ≠ .eq := by
          have := h1.2
          simp at this
          simp only [exOrd]; rw [if_neg (by omega)]; split <;> simp
        have hklt : exOrd (cmp k key) = .lt := goesRight_lt hgo hk
        rcases he with he | he | he | he
        · exact hex2 h1.1 e (by simp [he])
        · have := s3 e (by simp [he])
          rw [Ord.lt_of_ngt_of_lt (o := fun a b => exOrd (cmp a b)) this hklt]
          simp
        · rw [List.mem_singleton] at he; subst he; exact hk
        · exact hex2 h1.1 e (by simp [he])
    have left : ∀ ex, goesRight c strict (exOrd (cmp k key)) = false →
        (ex = (exact' || decide (cmp k key < 0))) →
        ∃ cand', seekBoundLoop cmp cap key c strict l ((node h k v l r, false) :: path)
          (if c then some (node h k v l r, path) else cand) ex =
          some (cand', root.toList.any fun e => exOrd (cmp e.1 key) == .eq) ∧
        match cand' with
        | none => target (fun a b => exOrd (cmp a b)) key c strict root.toList =
            if c then (root.toList.length : Int) else -1
        | some (n, stk) => ∃ L e R, At root ⟨cap, n, stk⟩ L e R ∧
            target (fun a b => exOrd (cmp a b)) key c strict root.toList = (L.length : Int) := by
      intro ex hgo hex
      refine ihl _ _ ex hp.left ?_ ?_ ?_ ?_ ?_
      · simpa [befores] using hb
      · intro e he
        simp only [afters, List.cons_append] at he
        rcases List.mem_cons.1 he with rfl | he
        · exact hgo
        · exact goesRight_right (o := fun a b => exOrd (cmp a b)) hgo (s4 e he)
      · cases c with
        | false =>
          simp only [Bool.false_eq_true, if_false]
          cases cand with
          | none => simpa [CandOK, befores] using hcand
          | some p =>
            obtain ⟨n, stk⟩ := p
            obtain ⟨L, e, R, h1, h2⟩ := hcand
            exact ⟨L, e, R, h1, by simpa [befores] using h2⟩
        | true =>
          exact ⟨_, _, _, hat, by simp [befores]⟩
      · intro h1
        rw [hex, Bool.or_eq_true] at h1
        rcases h1 with h1 | h1
        · exact hex1 h1
        · exact ⟨(k, v), by rw [hlist']; simp, by simp at h1; simp [exOrd, h1]⟩
      · intro h1 e he
        rw [hex, Bool.or_eq_false_iff] at h1
        simp only [befores, afters, List.cons_append, List.mem_append, List.mem_cons] at he
        have hk : exOrd (cmp k key) ≠ .eq := by
          have := h1.2
          simp at this
          simp only [exOrd]; rw [if_neg (by omega)]; split <;> simp
        have hkgt : exOrd (cmp k key) = .gt := goesRight_gt hgo hk
        rcases he with he | rfl | he | he
        · exact hex2 h1.1 e (by simp [he])
        · exact hk
        · have := s4 e (by simp [he])
          have h5 := (Ord.gt_iff (o := fun a b => exOrd (cmp a b))).1 hkgt
          have h6 := Ord.lt_of_lt_of_ngt (o := fun a b => exOrd (cmp a b)) h5 this
          rw [(Ord.gt_iff (o := fun a b => exOrd (cmp a b))).2 h6]
          simp
        · exact hex2 h1.1 e (by simp [he])
    -- the decision
    have key1 : (if c = true then (if cmp k key = 0 then false else if cmp k key < 0 then strict else true)
        else (if cmp k key = 1 then true else if cmp k key < 0 then !strict else false)) =
        goesRight c strict (exOrd (cmp k key)) := by
      rcases hc.range k key with hx | hx | hx <;> cases c <;> cases strict <;>
        simp [hx, goesRight, exOrd]
    have key2 : (if c = true then decide (cmp k key = 0) || (decide (cmp k key < 0) && !strict)
        else decide (cmp k key = 1) || (decide (cmp k key < 0) && !strict)) =
        (if c = true then !goesRight c strict (exOrd (cmp k key))
          else goesRight c strict (exOrd (cmp k key))) := by
      rcases hc.range k key with hx | hx | hx <;> cases c <;> cases strict <;>
        simp [hx, goesRight, exOrd]
    simp only [seekBoundLoop, key1, key2]
    cases hgo : goesRight c strict (exOrd (cmp k key)) with
    | true =>
      obtain ⟨cand', h1, h2⟩ := right _ hgo rfl
      have hcd : (if (if c = true then !true else true) = true then some (node h k v l r, path)
          else cand) = if c = true then cand else some (node h k v l r, path) := by
        cases c <;> rfl
      refine ⟨cand', ?_, h2⟩
      rw [if_pos rfl, hcd]
      by_cases hr : r = nil
      · subst hr
        rw [if_pos isNil_nil]
        simpa only [seekBoundLoop] using h1
      · have q1 : 1 ≤ r.height := height_pos (by assumption)
        rw [if_neg (by rw [isNil_of_ne hr]; simp), if_pos (by omega)]
        exact h1
    | false =>
      obtain ⟨cand', h1, h2⟩ := left _ hgo rfl
      have hcd : (if (if c = true then !false else false) = true then some (node h k v l r, path)
          else cand) = if c = true then some (node h k v l r, path) else cand := by
        cases c <;> rfl
      refine ⟨cand', ?_, h2⟩
      rw [if_neg (by simp), hcd]
      by_cases hr : l = nil
      · subst hr
        rw [if_pos isNil_nil]
        simpa only [seekBoundLoop] using h1
      · have q1 : 1 ≤ l.height := height_pos (by assumption)
        rw [if_neg (by rw [isNil_of_ne hr]; simp), if_pos (by omega)]
        exact h1

/-- Every call keeps the iterator where the cursor is. -/
theorem istep_ok {cmp : K → K → Int} (hc : LawfulEx cmp) (bound : Bool) {root : Tree A K V}
    (hs : if bound then SortedLE (fun a b => exOrd (cmp a b)) root.toList
      else Sorted (fun a b => exOrd (cmp a b)) root.toList)
    {it : Iter A K V} {p : Option Int} {op : IOp K} (hl : ilegal root.toList p op)
    (h : Place root it p) :
    ∃ it', istep cmp bound root it op =
        some (it', (ispec (fun a b => exOrd (cmp a b)) bound root.toList p op).2) ∧
      Place root it' (ispec (fun a b => exOrd (cmp a b)) bound root.toList p op).1 := by
  have hcap := h.cap
  have hseek : ∀ k c strict, ∃ it', istep.seek cmp bound root it k c strict =
      some (it', root.toList.any fun e => exOrd (cmp e.1 k) == .eq) ∧
      Place root it' (ispec.go bound root.toList
        (target (fun a b => exOrd (cmp a b)) k c strict root.toList)) := by
    intro k c strict
    unfold istep.seek ispec.go
    cases bound with
    | true =>
      simp only [if_true, Bool.true_and] at hs ⊢
      obtain ⟨cand, h1, h2⟩ := seekBoundLoop_ok hc (key := k) (c := c) (strict := strict)
        hs hcap root [] none false .root (by simp [befores]) (by simp [afters])
        (by simp [CandOK, befores, afters]) (by simp) (by simp [befores, afters])
      unfold Iter.seekBound
      rw [h1]
      by_cases he : root.toList = []
      · have hr := toList_eq_nil.1 he
        rw [if_pos (by simp [he])]
        cases cand with
        | none =>
          exact ⟨_, rfl, .unset hcap rfl rfl⟩
        | some q =>
          obtain ⟨n, stk⟩ := q
          obtain ⟨L, e, R, h3, -⟩ := h2
          have := h3.list
          rw [he] at this
          simp at this
      · rw [if_neg (by simpa using he)]
        cases cand with
        | none =>
          simp only at h2
          rw [h2]
          refine ⟨_, rfl, ?_⟩
          rw [if_pos (by cases c <;> simp)]
          exact .unset hcap rfl rfl
        | some q =>
          obtain ⟨n, stk⟩ := q
          obtain ⟨L, e, R, h3, h4⟩ := h2
          refine ⟨_, rfl, ?_⟩
          have := h3.before
          rw [if_neg (by rw [h4]; simp; omega), h4]
          exact .on h3
    | false =>
      simp only [Bool.false_eq_true, if_false, Bool.false_and] at hs ⊢
      unfold Iter.seek
      by_cases he : root = nil
      · subst he
        simp only [isNil_nil, if_true, toList_nil, List.isEmpty_nil, List.any_nil]
        refine ⟨_, rfl, ?_⟩
        cases h with
        | unset h1 h2 h3 => exact .unset h1 rfl h3
        | on h => have := h.list; simp at this
        | after _ _ h => have := h.list; simp at this
        | before _ _ h => have := h.list; simp at this
      · have hne : root.toList.isEmpty = false := by
          cases hh : root.toList with
          | nil => exact absurd (toList_eq_nil.1 hh) he
          | cons => rfl
        rw [if_neg (by rw [isNil_of_ne he]; simp)]
        simp only [hne, Bool.false_eq_true, if_false]
        obtain ⟨it', b, h1, h2, h3, h4⟩ := seekLoop_ok hc (key := k) (c := c) (strict := strict) hs
          (it := { it with cur := root, stk := [] }) hcap .root he
          (Iter.fuel { it with cur := root, stk := [] }) (by simp only [Iter.fuel]; omega)
          (by simp [befores]) (by simp [afters])
        exact ⟨it', by rw [h1, h3], h4⟩
  cases op with
  | seekToFirst =>
    obtain ⟨it', h1, -, h3⟩ := seekFirst_ok hcap
    exact ⟨it', by simp only [istep, h1]; rfl, h3⟩
  | seekToLast =>
    obtain ⟨it', h1, -, h3⟩ := seekLast_ok hcap
    exact ⟨it', by simp only [istep, h1]; rfl, h3⟩
  | next =>
    obtain ⟨it', h1, -, h3⟩ := move_true h
    exact ⟨it', by simp only [istep, h1]; rfl, h3⟩
  | prev =>
    obtain ⟨it', h1, -, h3⟩ := move_false h
    exact ⟨it', by simp only [istep, h1]; rfl, h3⟩
  | seekGE k =>
    obtain ⟨it', h1, h3⟩ := hseek k true false
    exact ⟨it', by simp only [istep, h1]; rfl, h3⟩
  | seekGT k =>
    obtain ⟨it', h1, h3⟩ := hseek k true true
    exact ⟨it', by simp only [istep, h1]; rfl, h3⟩
  | seekLE k =>
    obtain ⟨it', h1, h3⟩ := hseek k false false
    exact ⟨it', by simp only [istep, h1]; rfl, h3⟩
  | seekLT k =>
    obtain ⟨it', h1, h3⟩ := hseek k false true
    exact ⟨it', by simp only [istep, h1]; rfl, h3⟩
  | valid =>
    refine ⟨it, ?_, h⟩
    simp only [istep, ispec]
    cases h with
    | unset h1 h2 h3 => simp [h2, isNil]
    | on h => have := h.before; have h5 := h.not_nil; simp [h5]; omega
    | after h1 _ h => simp [h1, isNil]
    | before h1 _ h => simp [h1, isNil]
  | entry =>
    refine ⟨it, ?_, h⟩
    obtain ⟨i, hi, i1, i2⟩ := hl
    subst hi
    cases h with
    | @on L e R h =>
      have h6 := h.list
      obtain ⟨-, -, hh, l, r, h1, -, -⟩ := h
      simp only [istep, h1, ispec, h6]
      simp
    | after h1 _ h => omega
    | before h1 _ h => omega
  | clone => exact ⟨_, rfl, h⟩

end Verif.Avl
