import Verif.Tree.AvlReach

/-! What an iterator shows: scans, and the entry reached by a seek. -/

namespace Verif.Avl

open Tree

variable {A K V : Type} {cmp : K → K → Int}

/-- The calls of a forward scan. -/
def scan (back : Bool) (n : Nat) : List (IOp K) :=
  (if back then .seekToLast else .seekToFirst) ::
    (List.replicate n [.valid, .entry, if back then .prev else .next]).flatten ++ [.valid]

/-- What the scan is expected to see. -/
def sees (xs : List (K × V)) : List (IRes K V) :=
  .unit :: (xs.map fun e => [.bool true, .entry e, .unit]).flatten ++ [.bool false]

theorem scan_forward_spec {o : K → K → Ordering} {b : Bool} (xs : List (K × V)) :
    LegalRun (ispec o b xs) (ilegal xs) none (scan false xs.length) ∧
    (runSpec (ispec o b xs) none (scan false xs.length)).2 = sees xs := by
  have key : ∀ ys L : List (K × V), xs = L ++ ys →
      LegalRun (ispec o b xs) (ilegal xs) (some (L.length : Int))
        ((List.replicate ys.length [.valid, .entry, .next]).flatten ++ [.valid]) ∧
      (runSpec (ispec o b xs) (some (L.length : Int))
        ((List.replicate ys.length [.valid, .entry, .next]).flatten ++ [.valid])).2 =
        (ys.map fun e => [.bool true, .entry e, .unit]).flatten ++ [.bool false] := by
    intro ys
    induction ys with
    | nil => intro L h; subst h; simp [LegalRun, runSpec, ispec, ilegal]
    | cons y ys ih =>
      intro L h
      have h' : xs = (L ++ [y]) ++ ys := by rw [h]; simp
      obtain ⟨i1, i2⟩ := ih (L ++ [y]) h'
      have hlen : xs.length = L.length + (ys.length + 1) := by rw [h]; simp
      have hget : xs[L.length]? = some y := by rw [h]; simp
      have hnext : min ((L.length : Int) + 1) (xs.length : Int) = ((L ++ [y]).length : Int) := by
        rw [hlen]; simp
      simp only [List.length_cons, List.replicate_succ, List.flatten_cons, List.cons_append,
        List.nil_append, LegalRun, runSpec, ispec, ilegal, Option.map_some, hnext, i2, List.map_cons]
      refine ⟨⟨trivial, ⟨_, rfl, by omega, by omega⟩, trivial, i1⟩, ?_⟩
      have : (L.length : Int) < (xs.length : Int) := by omega
      simp [hget, this]
  cases hx : xs with
  | nil => simp [scan, sees, LegalRun, runSpec, ispec, ilegal]
  | cons y ys =>
    have := key xs [] (by simp)
    rw [hx] at this
    simp only [scan, sees, Bool.false_eq_true, if_false, List.cons_append]
    exact ⟨⟨trivial, this.1⟩, by simp only [runSpec]; rw [← this.2]; rfl⟩

theorem scan_backward_spec {o : K → K → Ordering} {b : Bool} (xs : List (K × V)) :
    LegalRun (ispec o b xs) (ilegal xs) none (scan true xs.length) ∧
    (runSpec (ispec o b xs) none (scan true xs.length)).2 = sees xs.reverse := by
  have key : ∀ ys R : List (K × V), xs = ys.reverse ++ R →
      LegalRun (ispec o b xs) (ilegal xs) (some ((ys.length : Int) - 1))
        ((List.replicate ys.length [.valid, .entry, .prev]).flatten ++ [.valid]) ∧
      (runSpec (ispec o b xs) (some ((ys.length : Int) - 1))
        ((List.replicate ys.length [.valid, .entry, .prev]).flatten ++ [.valid])).2 =
        (ys.map fun e => [.bool true, .entry e, .unit]).flatten ++ [.bool false] := by
    intro ys
    induction ys with
    | nil => intro R h; subst h; simp [LegalRun, runSpec, ispec, ilegal]
    | cons y ys ih =>
      intro R h
      have h' : xs = ys.reverse ++ (y :: R) := by rw [h]; simp
      obtain ⟨i1, i2⟩ := ih (y :: R) h'
      have hlen : xs.length = ys.length + (R.length + 1) := by rw [h']; simp
      have hget : xs[ys.length]? = some y := by rw [h']; simp
      have e : ((ys.length + 1 : Nat) : Int) - 1 = ys.length := by omega
      have hprev : max ((ys.length : Int) - 1) (-1) = (ys.length : Int) - 1 := by omega
      simp only [List.length_cons, List.replicate_succ, List.flatten_cons, List.cons_append, e,
        List.nil_append, LegalRun, runSpec, ispec, ilegal, Option.map_some, hprev, i2, List.map_cons]
      refine ⟨⟨trivial, ⟨_, rfl, by omega, by omega⟩, trivial, i1⟩, ?_⟩
      have : (ys.length : Int) < (xs.length : Int) := by omega
      simp [hget, this]
  cases hx : xs with
  | nil => simp [scan, sees, LegalRun, runSpec, ispec, ilegal]
  | cons y ys =>
    have := key xs.reverse [] (by simp)
    rw [List.length_reverse] at this
    rw [← hx]
    have hne : xs.isEmpty = false := by rw [hx]; rfl
    simp only [scan, sees, if_true, List.cons_append, LegalRun, runSpec, ispec, hne,
      Bool.false_eq_true, if_false]
    exact ⟨⟨trivial, this.1⟩, by rw [← this.2]⟩

/-- The entry shown by an iterator: `Valid`, then `Key` and `Value`. -/
def Iter.current (it : Iter A K V) : Option (K × V) :=
  match it.cur with
  | nil => none
  | node _ k v _ _ => some (k, v)

/-- `current` is what `Valid`, `Key` and `Value` say. -/
theorem current_some {bound : Bool} {root : Tree A K V} {it : Iter A K V} {e : K × V} :
    it.current = some e ↔ istep cmp bound root it .valid = some (it, .bool true) ∧
      istep cmp bound root it .entry = some (it, .entry e) := by
  unfold Iter.current
  simp only [istep]
  split <;> simp [*, isNil_node, isNil_nil]

theorem current_none {bound : Bool} {root : Tree A K V} {it : Iter A K V} :
    it.current = none ↔ istep cmp bound root it .valid = some (it, .bool false) := by
  unfold Iter.current
  simp only [istep]
  split <;> simp [*, isNil_node, isNil_nil]

/-- The entry at a place. -/
def entryAt (xs : List (K × V)) : Option Int → Option (K × V)
  | none => none
  | some i => if i < 0 then none else xs[i.toNat]?

theorem Place.current {root : Tree A K V} {it : Iter A K V} {p : Option Int}
    (h : Place root it p) : it.current = entryAt root.toList p := by
  cases h with
  | unset _ h1 _ => simp [Iter.current, h1, entryAt]
  | on ha =>
    have h1 := ha.list
    obtain ⟨-, -, hh, l, r, h2, -, -⟩ := ha
    simp [Iter.current, h2, entryAt, h1]
  | after h1 _ _ => simp [Iter.current, h1, entryAt]
  | before h1 _ _ => simp [Iter.current, h1, entryAt]

/-- The four seeks: what they answer and where they go, for a tree with entries `xs`. -/
def Seeks (cmp : K → K → Int) (bound : Bool) (root : Tree A K V) (xs : List (K × V))
    (it : Iter A K V) (key : K) : Prop :=
  (∃ i, istep cmp bound root it (.seekGE key) =
      some (i, .bool (xs.any fun e => exOrd (cmp e.1 key) == .eq)) ∧
    i.current = (xs.filter fun e => exOrd (cmp e.1 key) != .lt).head?) ∧
  (∃ i, istep cmp bound root it (.seekGT key) =
      some (i, .bool (xs.any fun e => exOrd (cmp e.1 key) == .eq)) ∧
    i.current = (xs.filter fun e => exOrd (cmp e.1 key) == .gt).head?) ∧
  (∃ i, istep cmp bound root it (.seekLE key) =
      some (i, .bool (xs.any fun e => exOrd (cmp e.1 key) == .eq)) ∧
    i.current = (xs.filter fun e => exOrd (cmp e.1 key) != .gt).getLast?) ∧
  (∃ i, istep cmp bound root it (.seekLT key) =
      some (i, .bool (xs.any fun e => exOrd (cmp e.1 key) == .eq)) ∧
    i.current = (xs.filter fun e => exOrd (cmp e.1 key) == .lt).getLast?)

theorem entryAt_go {bound : Bool} {xs : List (K × V)} {i : Int} :
    entryAt xs (ispec.go bound xs i) = entryAt xs (some i) := by
  unfold ispec.go
  split
  · rename_i h
    rw [List.isEmpty_iff] at h
    simp [entryAt, h]
  · split
    · rename_i h
      simp only [Bool.and_eq_true, Bool.or_eq_true, decide_eq_true_eq] at h
      show none = if i < 0 then none else xs[i.toNat]?
      split
      · rfl
      · rw [List.getElem?_eq_none (by omega)]
    · rfl

theorem entryAt_head {L R : List (K × V)} : entryAt (L ++ R) (some (L.length : Int)) = R.head? := by
  cases R <;> simp [entryAt]

theorem entryAt_last {L R : List (K × V)} :
    entryAt (L ++ R) (some ((L.length : Int) - 1)) = L.getLast? := by
  rcases List.eq_nil_or_concat L with rfl | ⟨L', e, rfl⟩
  · simp [entryAt]
  · rw [List.concat_eq_append]; simp [entryAt]

theorem seek_entry {o : K → K → Ordering} [Std.TransCmp o] {xs : List (K × V)} (hs : SortedLE o xs)
    (k : K) :
    entryAt xs (some (target o k true false xs)) = (xs.filter fun e => o e.1 k != .lt).head? ∧
    entryAt xs (some (target o k true true xs)) = (xs.filter fun e => o e.1 k == .gt).head? ∧
    entryAt xs (some (target o k false false xs)) = (xs.filter fun e => o e.1 k != .gt).getLast? ∧
    entryAt xs (some (target o k false true xs)) = (xs.filter fun e => o e.1 k == .lt).getLast? := by
  have hp := parts k hs
  have hb := fun e => @mem_below K V o k xs e
  have hm := fun e => @mem_same K V o k xs e
  have ha := fun e => @mem_above K V o k xs e
  have fbs : xs.filter (fun e => o e.1 k != .gt) = below o k xs ++ same o k xs := by
    conv_lhs => rw [hp]
    rw [List.filter_append, List.filter_eq_self.2, List.filter_eq_nil_iff.2, List.append_nil]
    · intro e he; simp [((ha e).1 he).2]
    · intro e he
      rcases List.mem_append.1 he with he | he
      · simp [((hb e).1 he).2]
      · simp [((hm e).1 he).2]
  have fsa : xs.filter (fun e => o e.1 k != .lt) = same o k xs ++ above o k xs := by
    conv_lhs => rw [hp]
    rw [List.append_assoc, List.filter_append, List.filter_eq_nil_iff.2, List.filter_eq_self.2,
      List.nil_append]
    · intro e he
      rcases List.mem_append.1 he with he | he
      · simp [((hm e).1 he).2]
      · simp [((ha e).1 he).2]
    · intro e he; simp [((hb e).1 he).2]
  have fb : xs.filter (fun e => o e.1 k == .lt) = below o k xs := rfl
  have fa : xs.filter (fun e => o e.1 k == .gt) = above o k xs := rfl
  unfold target
  simp only [if_true, Bool.false_eq_true, if_false, fbs, fsa, fb, fa]
  refine ⟨?_, ?_, ?_, ?_⟩
  · conv_lhs => arg 1; rw [hp, List.append_assoc]
    exact entryAt_head
  · conv_lhs => arg 1; rw [hp]
    exact entryAt_head
  · conv_lhs => arg 1; rw [hp]
    exact entryAt_last
  · conv_lhs => arg 1; rw [hp, List.append_assoc]
    exact entryAt_last

theorem seeks_ok (hc : LawfulEx cmp) (bound : Bool) {root : Tree A K V}
    (hs : if bound then SortedLE (fun a b => exOrd (cmp a b)) root.toList
      else Sorted (fun a b => exOrd (cmp a b)) root.toList)
    {it : Iter A K V} {p : Option Int} (h : Place root it p) (key : K) :
    Seeks cmp bound root root.toList it key := by
  have := hc.trans
  have hle : SortedLE (fun a b => exOrd (cmp a b)) root.toList := by
    cases bound
    · exact Sorted.le hs
    · exact hs
  obtain ⟨e1, e2, e3, e4⟩ := seek_entry hle key
  refine ⟨?_, ?_, ?_, ?_⟩
  · obtain ⟨i, h1, h2⟩ := istep_ok hc bound hs (op := .seekGE key) trivial h
    refine ⟨i, h1, ?_⟩
    rw [h2.current]
    simp only [ispec, entryAt_go]
    exact e1
  · obtain ⟨i, h1, h2⟩ := istep_ok hc bound hs (op := .seekGT key) trivial h
    refine ⟨i, h1, ?_⟩
    rw [h2.current]
    simp only [ispec, entryAt_go]
    exact e2
  · obtain ⟨i, h1, h2⟩ := istep_ok hc bound hs (op := .seekLE key) trivial h
    refine ⟨i, h1, ?_⟩
    rw [h2.current]
    simp only [ispec, entryAt_go]
    exact e3
  · obtain ⟨i, h1, h2⟩ := istep_ok hc bound hs (op := .seekLT key) trivial h
    refine ⟨i, h1, ?_⟩
    rw [h2.current]
    simp only [ispec, entryAt_go]
    exact e4

/-- Every legal history on an iterator, then a seek. -/
theorem iter_run (hc : LawfulEx cmp) (bound : Bool) {root : Tree A K V}
    (hs : if bound then SortedLE (fun a b => exOrd (cmp a b)) root.toList
      else Sorted (fun a b => exOrd (cmp a b)) root.toList)
    {it : Iter A K V} (h : Place root it none) (ops : List (IOp K))
    (hl : LegalRun (ispec (fun a b => exOrd (cmp a b)) bound root.toList) (ilegal root.toList) none
      ops) :
    ∃ it', run (istep cmp bound root) it ops =
        some (it', (runSpec (ispec (fun a b => exOrd (cmp a b)) bound root.toList) none ops).2) ∧
      it'.current = entryAt root.toList
        (runSpec (ispec (fun a b => exOrd (cmp a b)) bound root.toList) none ops).1 ∧
      ∀ key, Seeks cmp bound root root.toList it' key := by
  obtain ⟨it', h5, h6⟩ := run_refines_legal (step := istep cmp bound root)
    (spec := ispec (fun a b => exOrd (cmp a b)) bound root.toList)
    (legal := ilegal root.toList) (Place root)
    (fun s t op hl hp => istep_ok hc bound hs hl hp) ops it none hl h
  exact ⟨it', h5, h6.current, seeks_ok hc bound hs h6⟩

end Verif.Avl
