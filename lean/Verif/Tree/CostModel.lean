import Verif.Tree.TreeSetProps
import Verif.Tree.AvlsProps

/-! The searches of tree/avl, set/treeset and tree/avls with a count of the calls of the comparator. Without
the count they are those of `AvlModel` and `AvlsModel` (`getC_snd` and so on). -/

namespace Verif.Avl

open Tree

variable {K V : Type}

section
variable (cmp : K → K → Int) (one : Bool) (d : Int)

/-- tree/avl/tree_hide.go:40-49 `get`; set/treeset/tree_hide.go:40-49. One call of the comparator for each
turn of the loop. -/
def getC (key : K) : T K V → Nat × Option (Option (K × V))
  | nil => (0, some none)
  | node _ k v l r =>
    let c := cmp k key
    if c < 0 then (1, some (some (k, v)))
    else if c = 0 then ((getC key l).1 + 1, (getC key l).2)
    else if c = 1 then ((getC key r).1 + 1, (getC key r).2)
    else (1, none)

/-- tree/avl/tree_hide.go:9-38 `put`; set/treeset/tree_hide.go:9-38. One call for each node it comes to;
`rebalance` calls none. -/
def putC (key : K) (val : V) (upd : K × V → K × V) : T K V → Bool → Nat × Option (T K V × Bool × Bool)
  | nil, sib => (0, some (node 1 key val nil nil, false, sib))
  | node h k v l r, _ =>
    let c := cmp k key
    if c < 0 then (1, some (node h (upd (k, v)).1 (upd (k, v)).2 l r, true, false))
    else if c = 0 then
      ((putC key val upd l r.isNil).1 + 1, (putC key val upd l r.isNil).2.bind fun p =>
        if p.2.1 || !p.2.2 then some (node h k v p.1 r, p.2.1, p.2.2)
        else (rebalance one d (node h k v p.1 r)).map fun q => (q.1, p.2.1, q.2))
    else if c = 1 then
      ((putC key val upd r l.isNil).1 + 1, (putC key val upd r l.isNil).2.bind fun p =>
        if p.2.1 || !p.2.2 then some (node h k v l p.1, p.2.1, p.2.2)
        else (rebalance one d (node h k v l p.1)).map fun q => (q.1, p.2.1, q.2))
    else (1, none)

/-- tree/avl/tree_hide.go:51-89 `remove`; set/treeset/tree_hide.go:51-89. `neighboring` and `rebalance` call
none. -/
def removeC (key : K) : T K V → Bool → Nat × Option (T K V × Option V × Bool)
  | nil, _ => (0, some (nil, none, false))
  | node h k v l r, right =>
    let c := cmp k key
    if c < 0 then (1, removeHere one d right (node h k v l r))
    else if c = 0 then
      ((removeC key l false).1 + 1, (removeC key l false).2.bind fun p =>
        (rebIf one d p.2.2 (node h k v p.1 r)).map fun q => (q.1, p.2.1, q.2))
    else if c = 1 then
      ((removeC key r true).1 + 1, (removeC key r true).2.bind fun p =>
        (rebIf one d p.2.2 (node h k v l p.1)).map fun q => (q.1, p.2.1, q.2))
    else (1, none)

theorem getC_snd (key : K) (t : T K V) : (getC cmp key t).2 = get cmp key t := by
  induction t with
  | nil => rfl
  | node h k v l r ihl ihr => simp only [getC, get]; split <;> [rfl; (split <;> [exact ihl; (split <;> [exact ihr; rfl])])]

theorem putC_snd (key : K) (val : V) (upd : K × V → K × V) (t : T K V) : ∀ b,
    (putC cmp one d key val upd t b).2 = put cmp one d key val upd t b := by
  induction t with
  | nil => intro b; rfl
  | node h k v l r ihl ihr =>
    intro b
    simp only [putC, put]
    split
    · rfl
    · split
      · simp only [ihl]
      · split
        · simp only [ihr]
        · rfl

theorem removeC_snd (key : K) (t : T K V) : ∀ b,
    (removeC cmp one d key t b).2 = remove one d cmp key t b := by
  induction t with
  | nil => intro b; rfl
  | node h k v l r ihl ihr =>
    intro b
    simp only [removeC, remove]
    split
    · rfl
    · split
      · simp only [ihl]
      · split
        · simp only [ihr]
        · rfl

theorem getC_le (key : K) (t : T K V) : (getC cmp key t).1 ≤ t.height := by
  induction t with
  | nil => exact Nat.le_refl _
  | node h k v l r ihl ihr =>
    simp only [getC, height]
    split
    · simp
    · split
      · simp only; omega
      · split
        · simp only; omega
        · simp

theorem putC_le (key : K) (val : V) (upd : K × V → K × V) (t : T K V) : ∀ b,
    (putC cmp one d key val upd t b).1 ≤ t.height := by
  induction t with
  | nil => intro b; exact Nat.le_refl _
  | node h k v l r ihl ihr =>
    intro b
    have h1 := ihl r.isNil
    have h2 := ihr l.isNil
    simp only [putC, height]
    split
    · simp
    · split
      · simp only; omega
      · split
        · simp only; omega
        · simp

theorem removeC_le (key : K) (t : T K V) : ∀ b, (removeC cmp one d key t b).1 ≤ t.height := by
  induction t with
  | nil => intro b; exact Nat.le_refl _
  | node h k v l r ihl ihr =>
    intro b
    have h1 := ihl false
    have h2 := ihr true
    simp only [removeC, height]
    split
    · simp
    · split
      · simp only; omega
      · split
        · simp only; omega
        · simp

/-- The calls of the comparator in one call on the map: tree/avl/tree.go 43-98, set/treeset/tree.go 45-107
(`Upsert` calls `get`, then writes the node that was found or calls `Set`). -/
def calls (m : Map K V) : Op K V → Nat
  | .put k v | .insertIfAbsent k v => (putC cmp one d k v id m.root false).1
  | .set k v => (putC cmp one d k v (fun _ => (k, v)) m.root false).1
  | .upsert k v => (getC cmp k m.root).1 +
      match (getC cmp k m.root).2 with
      | some none => (putC cmp one d k v (fun _ => (k, v)) m.root false).1
      | _ => 0
  | .get k | .contains k => (getC cmp k m.root).1
  | .remove k | .delete k => (removeC cmp one d k m.root true).1
  | .clear | .size | .len | .empty | .height | .values | .traverse _ => 0

end

end Verif.Avl

namespace Verif.Avls

open Tree Avl

variable {K V : Type}

section
variable (cmp : K → K → Int) (d : Int)

/-- tree/avls/tree_hide.go:9-34 `put`. -/
def putC (key : K) (val : V) : T K V → Bool → Nat × Option (T K V × Bool)
  | nil, sib => (0, some (node 1 key val nil nil, sib))
  | node h k v l r, _ =>
    let c0 := cmp k key
    let c := if c0 < 0 then 1 else c0
    if c = 0 then ((putC key val l r.isNil).1 + 1,
      (putC key val l r.isNil).2.bind fun p => rebIf true d p.2 (node h k v p.1 r))
    else if c = 1 then ((putC key val r l.isNil).1 + 1,
      (putC key val r l.isNil).2.bind fun p => rebIf true d p.2 (node h k v l p.1))
    else (1, none)

/-- tree/avls/tree_hide.go:36-50 `get`. -/
def getC (key : K) : T K V → Nat × Option (Option (K × V))
  | nil => (0, some none)
  | node _ k v l r =>
    let c := cmp k key
    if c < 0 then ((getC key l).1 + 1,
      (getC key l).2.map fun o => if o.isSome then o else some (k, v))
    else if c = 0 then ((getC key l).1 + 1, (getC key l).2)
    else if c = 1 then ((getC key r).1 + 1, (getC key r).2)
    else (1, none)

/-- tree/avls/tree_hide.go:52-96 `removeLeft`. -/
def removeC (key : K) : T K V → Bool → Nat × Option (T K V × Option V × Bool)
  | nil, _ => (0, some (nil, none, false))
  | node h k v l r, right =>
    let c := cmp k key
    if c < 0 then
      ((removeC key l false).1 + 1, (removeC key l false).2.bind fun p =>
        if p.2.1.isSome then (rebIf true d p.2.2 (node h k v p.1 r)).map fun q => (q.1, p.2.1, q.2)
        else removeHere true d right (node h k v p.1 r))
    else if c = 0 then
      ((removeC key l false).1 + 1, (removeC key l false).2.bind fun p =>
        (rebIf true d p.2.2 (node h k v p.1 r)).map fun q => (q.1, p.2.1, q.2))
    else if c = 1 then
      ((removeC key r true).1 + 1, (removeC key r true).2.bind fun p =>
        (rebIf true d p.2.2 (node h k v l p.1)).map fun q => (q.1, p.2.1, q.2))
    else (1, none)

theorem putC_snd (key : K) (val : V) (t : T K V) : ∀ b,
    (putC cmp d key val t b).2 = put cmp d key val t b := by
  induction t with
  | nil => intro b; rfl
  | node h k v l r ihl ihr =>
    intro b
    simp only [putC, put, ← ihl, ← ihr]
    (repeat' split) <;> rfl

theorem getC_snd (key : K) (t : T K V) : (getC cmp key t).2 = get cmp key t := by
  induction t with
  | nil => rfl
  | node h k v l r ihl ihr =>
    simp only [getC, get, ← ihl, ← ihr]
    (repeat' split) <;> rfl

theorem removeC_snd (key : K) (t : T K V) : ∀ b,
    (removeC cmp d key t b).2 = remove cmp d key t b := by
  induction t with
  | nil => intro b; rfl
  | node h k v l r ihl ihr =>
    intro b
    simp only [removeC, remove, ← ihl, ← ihr]
    split
    · rfl
    · split
      · rfl
      · split <;> rfl

theorem putC_le (key : K) (val : V) (t : T K V) : ∀ b, (putC cmp d key val t b).1 ≤ t.height := by
  induction t with
  | nil => intro b; exact Nat.le_refl _
  | node h k v l r ihl ihr =>
    intro b
    have h1 := ihl r.isNil
    have h2 := ihr l.isNil
    simp only [putC, height]
    generalize (if cmp k key < 0 then 1 else cmp k key) = c
    split
    · simp only; omega
    · split
      · simp only; omega
      · simp

theorem getC_le (key : K) (t : T K V) : (getC cmp key t).1 ≤ t.height := by
  induction t with
  | nil => exact Nat.le_refl _
  | node h k v l r ihl ihr =>
    simp only [getC, height]
    split
    · simp only; omega
    · split
      · simp only; omega
      · split
        · simp only; omega
        · simp

theorem removeC_le (key : K) (t : T K V) : ∀ b, (removeC cmp d key t b).1 ≤ t.height := by
  induction t with
  | nil => intro b; exact Nat.le_refl _
  | node h k v l r ihl ihr =>
    intro b
    have h1 := ihl false
    have h2 := ihr true
    simp only [removeC, height]
    split
    · simp only; omega
    · split
      · simp only; omega
      · split
        · simp only; omega
        · simp

/-- The calls of the comparator in one call: tree/avls/tree.go:37-97 (`Set`, `Upsert` and `InsertIfAbsent`
call `get`, then `Put` if there is no such key). -/
def calls (m : Map K V) : Op K V → Nat
  | .put k v => (putC cmp d k v m.root false).1
  | .insertIfAbsent k v | .set k v | .upsert k v => (getC cmp k m.root).1 +
      match (getC cmp k m.root).2 with
      | some none => (putC cmp d k v m.root false).1
      | _ => 0
  | .get k => (getC cmp k m.root).1
  | .remove k | .delete k => (removeC cmp d k m.root true).1
  | .clear | .size | .len | .height | .values | .traverse _ => 0

end

end Verif.Avls
