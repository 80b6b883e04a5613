import Verif.Skip.Live
import Verif.Common.Stop

/-! Calls of the skip list during which the comparator panics. The functions are those of `Verif.Skip.Model`;
now every comparison may end the call. The list is then left as it is at that moment (all functions write to
it directly), and the lock is given back, as it is unlocked by `defer`. -/

namespace Verif.Skip

open Verif.Size (ord ord_lt ord_gt ord_eq)

variable {K V : Type}

/-- When the comparator panics during a call. `bad j i b`: in the `j`-th search of the call, at level `i`,
when it is asked about the node `b`. No search asks twice at a level about the same node, so this also
describes a comparator that panics at its `n`-th use. Level `atEnd` is the test for equality after
the search, level `inDo` the call of the function given to `PutDuplicate`, which may panic, too. -/
abbrev Bads := Nat → Nat → Nat → Bool

def Bads.some (b : Bads) : Prop := ∃ j i a, b j i a = true

/-- Not a level of any list. -/
def atEnd : Nat := 100
def inDo : Nat := 101

/-! ### The searches -/

/-- `scan`. -/
def scanB (s : SL K V) (bad : Nat → Bool) (go : Nat → Bool) (i : Nat) : Nat → Nat → Out (SL K V) Nat
  | 0, _ => .fail
  | n + 1, cur =>
    match (s.heap cur).fwd[i]? with
    | none => .fail
    | some none => .done cur
    | some (some b) => if bad b then .stopped s else if go b then scanB s bad go i n b else .done cur

/-- `descend`. -/
def descendB (s : SL K V) (bad : Nat → Nat → Bool) (go : Nat → Bool) (fuel : Nat) :
    Nat → Nat → Out (SL K V) (List Nat × Nat)
  | 0, cur => .done ([], cur)
  | i + 1, cur => (scanB s (bad i) go i fuel cur).bind fun c =>
      (descendB s bad go fuel i c).map fun p => (p.1 ++ [c], p.2)

/-- `descendH`. -/
def descendHB (s : SL K V) (bad : Nat → Nat → Bool) (go : Nat → Bool) (fuel header : Nat) :
    Nat → Out (SL K V) (List Nat)
  | 0 => .done []
  | i + 1 => (scanB s (bad i) go i fuel header).bind fun c =>
      (descendHB s bad go fuel header i).map fun us => us ++ [c]

section
variable (cmp : K → K → Int)

/-- `search`. -/
def searchB (bad : Nat → Nat → Bool) (s : SL K V) (key : K) : Out (SL K V) (List Nat × Nat) :=
  descendB s bad (before cmp s.heap key) s.free s.level s.header

/-- skiplist.go:61-108 `Put`, 505-555 `PutDuplicate`: `putWith`. `dup` is whether a function was given. -/
def putWithB (bad : Nat → Nat → Bool) (dup : Bool) (s : SL K V) (key : K) (value : V) (coins : List Bool) :
    Out (SL K V) (SL K V × Bool × Option (K × V)) :=
  (searchB cmp bad s key).bind fun p =>
    (Out.of (s.heap p.2).fwd[0]?).bind fun f =>
      let insert : Out (SL K V) (SL K V × Bool × Option (K × V)) :=
        let newLevel := randomLevel s.maxLevel coins
        let level := if newLevel ≥ s.level then newLevel + 1 else s.level
        let level := if level > s.maxLevel then s.maxLevel else level
        let h := s.heap.put s.free ⟨key, value, List.replicate level none⟩
        (Out.of (link s.free (updAt s.header p.1) h newLevel)).map fun h =>
          ({ s with heap := h, level := level, size := s.size + 1, free := s.free + 1 }, true, none)
      match f with
      | none => insert
      | some b =>
        if bad atEnd b then .stopped s
        else if cmp (s.heap b).key key = 0 then
          if dup && bad inDo b then .stopped s
          else .done ({ s with heap := s.heap.put b { s.heap b with val := value } }, false,
            some ((s.heap b).key, (s.heap b).val))
        else insert

/-- skiplist.go:129-163 `Remove`, 845-876 `removeInternal`. -/
def removeB (bad : Nat → Nat → Bool) (s : SL K V) (key : K) : Out (SL K V) (SL K V × Option (K × V)) :=
  (searchB cmp bad s key).bind fun p =>
    (Out.of (s.heap p.2).fwd[0]?).bind fun f =>
      match f with
      | none => .done (s, none)
      | some c =>
        if bad atEnd c then .stopped s
        else if cmp (s.heap c).key key ≠ 0 then .done (s, none)
        else (Out.of (takeOut s c p.1)).map fun q => (q.1, some q.2)

/-- The rest of `RemoveTail` (468-498) and `RemoveIndex` (579-608). The node itself is not compared. -/
def removeAtB (bad : Nat → Nat → Bool) (s : SL K V) (c : Nat) : Out (SL K V) (SL K V × Option (K × V)) :=
  (descendHB s (fun i b => b != c && bad i b) (fun b => b != c && before cmp s.heap (s.heap c).key b)
      s.free s.header s.level).bind
    fun us => (Out.of (s.heap (updAt s.header us 0)).fwd[0]?).bind fun f =>
      if f ≠ some c then .done (s, none) else (Out.of (takeOut s c us)).map fun q => (q.1, some q.2)

/-- skiplist.go:631-662, the loop of `RemoveRangeByIndex`; the next search is the `j`-th. -/
def removeLoopB (bad : Bads) : Nat → Nat → SL K V → Option Nat → Out (SL K V) (SL K V)
  | _, 0, s, _ => .done s
  | _, _ + 1, s, none => .done s
  | j, n + 1, s, some c =>
    (Out.of (s.heap c).fwd[0]?).bind fun next =>
      (descendB s (fun i b => b != c && bad j i b) (fun b => b != c && before cmp s.heap (s.heap c).key b)
          s.free s.level s.header).bind
        fun p => (Out.of (takeOut s c p.1)).bind fun q => removeLoopB bad (j + 1) n q.1 next

/-- `for _, k := range keys { s.removeInternal(k) }`. -/
def removeAllB (bad : Bads) : Nat → List K → SL K V → Out (SL K V) (SL K V)
  | _, [], s => .done s
  | j, k :: ks, s => (removeB cmp (bad j) s k).bind fun p => removeAllB bad (j + 1) ks p.1

/-- The comparisons of `IndexOf`, 233-236. -/
def indexB (bad : Nat → Bool) (s : SL K V) (key : K) : List Nat → Out (SL K V) (Option Nat)
  | [] => .done none
  | a :: as =>
    if bad a then .stopped s
    else if cmp (s.heap a).key key = 0 then .done (some 0)
    else (indexB bad s key as).map fun r => r.map (· + 1)

/-- The first loop of `Trim`, 801-807: the keys to remove. -/
def outsideB (bad : Nat → Nat → Bool) (s : SL K V) (low high : K) : List Nat → Out (SL K V) (List K)
  | [] => .done []
  | a :: as =>
    if bad 0 a then .stopped s
    else if cmp (s.heap a).key low < 0 then (outsideB bad s low high as).map fun ks => (s.heap a).key :: ks
    else if bad 1 a then .stopped s
    else if cmp (s.heap a).key high > 0 then (outsideB bad s low high as).map fun ks => (s.heap a).key :: ks
    else outsideB bad s low high as

/-- skiplist.go:814-843 `TrimByIndex`. -/
def doTrimByIndexB (bad : Bads) (s : SL K V) (low high : Int) : Out (SL K V) (SL K V) :=
  let low := if low < 0 then 0 else low
  let high := if high ≥ s.size then s.size - 1 else high
  if low > high then .done s
  else (Out.of s.nodes).bind fun as =>
    removeAllB cmp bad 0 ((as.zipIdx.filter fun x => decide ((x.2 : Int) < low) || decide ((x.2 : Int) > high)).map
      fun x => (s.heap x.1).key) s

/-- skiplist.go:611-663 `RemoveRangeByIndex`. -/
def doRemoveRangeByIndexB (bad : Bads) (s : SL K V) (low high : Int) : Out (SL K V) (SL K V) :=
  let low := if low < 0 then 0 else low
  let high := if high ≥ s.size then s.size - 1 else high
  if low > high then .done s
  else (Out.of s.first).bind fun p => (Out.of (skip s.heap low.toNat p)).bind fun c =>
    removeLoopB cmp bad 0 (high - low + 1).toNat s c

/-- All calls. Those that do not compare are as before. -/
def stepB (bad : Bads) (s : SL K V) : Op K V → Out (SL K V) (SL K V × Res K V)
  | .put k v coins => (putWithB cmp (bad 0) false s k v coins).map fun p => (p.1, .bool p.2.1)
  | .putDup k v coins => (putWithB cmp (bad 0) true s k v coins).map fun p => (p.1, .dup p.2.1 p.2.2)
  | .get k => (searchB cmp (bad 0) s k).bind fun p => (Out.of (s.heap p.2).fwd[0]?).bind fun f =>
      match f with
      | none => .done (s, .found none)
      | some b =>
        if bad 0 atEnd b then .stopped s
        else if cmp (s.heap b).key k = 0 then .done (s, .found (some (s.heap b).val)) else .done (s, .found none)
  | .remove k => (removeB cmp (bad 0) s k).map fun p => (p.1, .slice p.2)
  | .indexOf k => (Out.of s.nodes).bind fun l => (indexB cmp (bad 0 0) s k l).map fun r =>
      (s, .int (match r with | none => -1 | some n => n))
  | .removeHead =>
    if s.size = 0 then .done (s, .slice none)
    else (Out.of s.first).bind fun p => (Out.of p).bind fun a =>
      (removeB cmp (bad 0) s (s.heap a).key).map fun q => (q.1, .slice q.2)
  | .removeTail =>
    if s.size = 0 then .done (s, .slice none)
    else (Out.of s.nodes).bind fun l => (Out.of l.getLast?).bind fun c =>
      (removeAtB cmp (bad 0) s c).map fun q => (q.1, .slice q.2)
  | .removeIndex i =>
    if i < 0 ∨ i ≥ s.size then .done (s, .slice none)
    else (Out.of s.first).bind fun p => (Out.of (skip s.heap i.toNat p)).bind fun c =>
      match c with
      | none => .done (s, .slice none)
      | some c => (removeAtB cmp (bad 0) s c).map fun q => (q.1, .slice q.2)
  | .removeRangeByIndex low high => (doRemoveRangeByIndexB cmp bad s low high).map fun s' => (s', .unit)
  | .trim low high => (Out.of s.nodes).bind fun l =>
      (outsideB cmp (bad 0) s low high l).bind fun ks =>
        (removeAllB cmp bad 1 ks s).map fun s' => (s', .unit)
  | .trimByIndex low high => (doTrimByIndexB cmp bad s low high).map fun s' => (s', .unit)
  | op => .of (step cmp s op)

end

/-! ### Lemmas -/

open Out (Same same_if same_done)

section
variable {cmp : K → K → Int} {s : SL K V} {P : Prop}

theorem same_scan {bad go : Nat → Bool} (hb : ∀ b, bad b = true → P) (i : Nat) :
    ∀ (n cur : Nat), Same s P (scanB s bad go i n cur) (scan s.heap go i n cur)
  | 0, _ => .inr rfl
  | n + 1, cur => by
    rw [scanB, scan]
    rcases (s.heap cur).fwd[i]? with _ | _ | b
    · exact .inr rfl
    · exact .inr rfl
    · refine same_if (hb b) ?_
      simp only
      by_cases hg : go b = true
      · rw [if_pos hg, if_pos hg]; exact same_scan hb i n b
      · rw [if_neg hg, if_neg hg]; exact .inr rfl

theorem same_descend {bad : Nat → Nat → Bool} {go : Nat → Bool} (hb : ∀ i b, bad i b = true → P) (fuel : Nat) :
    ∀ (i cur : Nat), Same s P (descendB s bad go fuel i cur) (descend s.heap go fuel i cur)
  | 0, _ => .inr rfl
  | i + 1, _ => (same_scan (hb i) i fuel _).bind fun c _ => (same_descend hb fuel i c).map _

theorem same_descendH {bad : Nat → Nat → Bool} {go : Nat → Bool} (hb : ∀ i b, bad i b = true → P)
    (fuel header : Nat) : ∀ (i : Nat), Same s P (descendHB s bad go fuel header i) (descendH s.heap go fuel header i)
  | 0 => .inr rfl
  | i + 1 => (same_scan (hb i) i fuel _).bind fun _ _ => (same_descendH hb fuel header i).map _

theorem same_search {bad : Nat → Nat → Bool} (hb : ∀ i b, bad i b = true → P) (k : K) :
    Same s P (searchB cmp bad s k) (search cmp s k) := same_descend hb _ _ _

theorem same_put {bad : Nat → Nat → Bool} (hb : ∀ i b, bad i b = true → P) (dup : Bool) (k : K) (v : V)
    (coins : List Bool) : Same s P (putWithB cmp bad dup s k v coins) (putWith cmp s k v coins) := by
  refine (same_search hb k).bind fun p _ => (Same.of _).bind fun f _ => ?_
  cases f with
  | none => exact (Same.of _).map _
  | some b =>
    refine same_if (hb _ b) ?_
    simp only
    by_cases h : cmp (s.heap b).key k = 0
    · rw [if_pos h, if_pos h]
      refine same_if (fun h => hb inDo b ?_) (.inr rfl)
      simp only [Bool.and_eq_true] at h
      exact h.2
    · rw [if_neg h, if_neg h]
      exact (Same.of _).map _

theorem same_remove {bad : Nat → Nat → Bool} (hb : ∀ i b, bad i b = true → P) (k : K) :
    Same s P (removeB cmp bad s k) (remove cmp s k) := by
  refine (same_search hb k).bind fun p _ => (Same.of _).bind fun f _ => ?_
  cases f with
  | none => exact .inr rfl
  | some b =>
    refine same_if (hb _ b) ?_
    simp only
    by_cases h : cmp (s.heap b).key k ≠ 0
    · rw [if_pos h, if_pos h]; exact .inr rfl
    · rw [if_neg h, if_neg h]; exact (Same.of _).map _

theorem same_removeAt {bad : Nat → Nat → Bool} (hb : ∀ i b, bad i b = true → P) (c : Nat) :
    Same s P (removeAtB cmp bad s c) (removeAt cmp s c) := by
  refine (same_descendH (fun i b h => hb i b ?_) _ _ _).bind fun us _ => (Same.of _).bind fun f _ => ?_
  · simp only [Bool.and_eq_true] at h
    exact h.2
  · by_cases h : f ≠ some c
    · rw [if_pos h, if_pos h]; exact .inr rfl
    · rw [if_neg h, if_neg h]; exact (Same.of _).map _

theorem same_index {bad : Nat → Bool} (hb : ∀ b, bad b = true → P) (k : K) : ∀ (as : List Nat),
    Same s P (indexB cmp bad s k as) (some (as.findIdx? fun a => cmp (s.heap a).key k == 0))
  | [] => .inr rfl
  | a :: as => by
    rw [indexB, List.findIdx?_cons]
    refine same_if (hb a) ?_
    by_cases h : cmp (s.heap a).key k = 0
    · rw [if_pos h, if_pos (by simpa using h)]; exact .inr rfl
    · rw [if_neg h, if_neg (by simpa using h)]
      exact (same_index hb k as).map _

theorem same_outside {bad : Nat → Nat → Bool} (hb : ∀ i b, bad i b = true → P) (low high : K) :
    ∀ (as : List Nat), Same s P (outsideB cmp bad s low high as)
      (some ((as.filter fun a => decide (cmp (s.heap a).key low < 0) ||
        decide (cmp (s.heap a).key high > 0)).map fun a => (s.heap a).key))
  | [] => .inr rfl
  | a :: as => by
    have ih := same_outside hb low high as
    rw [outsideB]
    refine same_if (hb 0 a) ?_
    by_cases h : cmp (s.heap a).key low < 0
    · rw [if_pos h, List.filter_cons_of_pos (by simp [h])]
      exact ih.map _
    · rw [if_neg h]
      refine same_if (hb 1 a) ?_
      by_cases h' : cmp (s.heap a).key high > 0
      · rw [if_pos h', List.filter_cons_of_pos (by simp [h'])]
        exact ih.map _
      · rw [if_neg h', List.filter_cons_of_neg (by simp [h, h'])]
        exact ih

end

/-- The calls that change the list at most once, after the last comparison. -/
def Op.single : Op K V → Prop
  | .removeRangeByIndex _ _ | .trim _ _ | .trimByIndex _ _ => False
  | _ => True

theorem same_step (cmp : K → K → Int) (bad : Bads) (s : SL K V) (op : Op K V) (h : op.single) :
    Same s bad.some (stepB cmp bad s op) (step cmp s op) := by
  have hb : ∀ i b, bad 0 i b = true → bad.some := fun i b h => ⟨0, i, b, h⟩
  cases op with
  | put k v coins => exact (same_put hb _ k v coins).map _
  | putDup k v coins => exact (same_put hb _ k v coins).map _
  | get k =>
    refine (same_search hb k).bind fun p _ => ?_
    rw [Option.map_eq_bind]
    refine (Same.of _).bind fun f _ => ?_
    cases f with
    | none => exact .inr rfl
    | some b =>
      refine same_if (hb _ b) ?_
      by_cases h : cmp (s.heap b).key k = 0
      · simp only [Function.comp, h, if_true]; exact .inr rfl
      · simp only [Function.comp, h, if_false]; exact .inr rfl
  | remove k => exact (same_remove hb k).map _
  | indexOf k =>
    rw [stepB, step, Option.map_eq_bind]
    exact (Same.of _).bind fun l _ => (same_index (hb 0) k l).map _
  | removeHead =>
    rw [stepB, step]
    split
    · exact .inr rfl
    · exact (Same.of _).bind fun p _ => (Same.of _).bind fun a _ => (same_remove hb _).map _
  | removeTail =>
    rw [stepB, step]
    split
    · exact .inr rfl
    · exact (Same.of _).bind fun p _ => (Same.of _).bind fun a _ => (same_removeAt hb _).map _
  | removeIndex i =>
    rw [stepB, step]
    split
    · exact .inr rfl
    · refine (Same.of _).bind fun p _ => (Same.of _).bind fun c _ => ?_
      cases c with
      | none => exact .inr rfl
      | some c => exact (same_removeAt hb _).map _
  | removeRangeByIndex _ _ => exact h.elim
  | trim _ _ => exact h.elim
  | trimByIndex _ _ => exact h.elim
  | _ => exact .inr rfl

end Verif.Skip
