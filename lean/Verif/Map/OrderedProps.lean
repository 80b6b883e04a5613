import Verif.Map.OrderedModel
import Verif.Tree.IndexProps

/-! Property C43: the ordered map, and `Delete`, `Set` and `Upsert` of the tree it is made of. -/

namespace Verif.OrderedMap

open Tree Size IndexTree

variable {K W : Type} {cmp : K → K → Int}

/-- The ideal map: the sorted list of entries. -/
def spec (o : K → K → Ordering) (xs : List (K × Option W)) : Op K W → List (K × Option W) × Res K W
  | .put k v =>
    if Avl.has o k xs then (xs, .bool false) else (Avl.insertEntry o (k, v) xs, .bool true)
  | .insertIfAbsent k v =>
    if Avl.has o k xs then (xs, .bool false) else (Avl.insertEntry o (k, v) xs, .bool true)
  | .set k v =>
    if Avl.has o k xs then (xs.map fun e => if o e.1 k == .eq then (k, v) else e, .bool true)
    else (Avl.insertEntry o (k, v) xs, .bool false)
  | .upsert k v =>
    if Avl.has o k xs then (xs.map fun e => if o e.1 k == .eq then (e.1, v) else e, .bool true)
    else (Avl.insertEntry o (k, v) xs, .bool false)
  | .get k => (xs, .found ((xs.find? fun e => o e.1 k == .eq).map (·.2)))
  | .remove k => (xs.filter fun e => o e.1 k != .eq,
      .found ((xs.find? fun e => o e.1 k == .eq).map (·.2)))
  | .delete k => (xs.filter fun e => o e.1 k != .eq,
      .found ((xs.find? fun e => o e.1 k == .eq).map (·.2)))
  | .contains k => (xs, .bool (Avl.has o k xs))
  | .indexOf k => (xs, .int (match xs.findIdx? fun e => o e.1 k == .eq with
      | none => -1 | some n => n))
  | .index i => (xs, match at? xs i with | none => .panic | some e => .entry e)
  | .removeIndex i => match at? xs i with
    | none => (xs, .removed none)
    | some e => (xs.eraseIdx i.toNat, .removed (some e))
  | .keys => (xs, .keys (xs.map (·.1)))
  | .values => (xs, .values (xs.map (·.2)))
  | .clear => ([], .unit)
  | .size => (xs, .int xs.length)
  | .len => (xs, .int xs.length)
  | .isEmpty => (xs, .bool xs.isEmpty)

/-- The calls that behave as those of the ideal map: values are not nil, `Set` not on an empty map. -/
def legal (xs : List (K × Option W)) : Op K W → Prop
  | .put _ v => v ≠ none
  | .insertIfAbsent _ v => v ≠ none
  | .set _ v => v ≠ none ∧ xs ≠ []
  | .upsert _ v => v ≠ none
  | _ => True

/-- No value is nil. -/
def Full (xs : List (K × Option W)) : Prop := ∀ e ∈ xs, e.2 ≠ none

theorem full_insert {o : K → K → Ordering} {k : K} {v : Option W} {xs : List (K × Option W)}
    (h : Full xs) (hv : v ≠ none) : Full (Avl.insertEntry o (k, v) xs) := by
  intro e he
  simp only [Avl.insertEntry, List.mem_append, List.mem_cons, List.mem_filter] at he
  rcases he with he | he | he
  · exact h e he.1
  · rw [he]; exact hv
  · exact h e he.1

theorem full_map {k : K} {v : Option W} {xs : List (K × Option W)} {q : K × Option W → Bool}
    {f : K × Option W → K} (h : Full xs) (hv : v ≠ none) :
    Full (xs.map fun e => if q e then (f e, v) else e) := by
  intro e he
  obtain ⟨e', h1, rfl⟩ := List.mem_map.1 he
  split
  · exact hv
  · exact h e' h1

theorem find_full {q : K × Option W → Bool} {xs : List (K × Option W)} (h : Full xs) :
    xs.find? q = none ∨ ∃ k w, xs.find? q = some (k, some w) := by
  cases hf : xs.find? q with
  | none => exact .inl rfl
  | some e =>
    obtain ⟨w, hw⟩ := Option.ne_none_iff_exists'.1 (h e (List.mem_of_find?_eq_some hf))
    exact .inr ⟨e.1, w, by rw [← hw]⟩

theorem step_ok (hc : Lawful cmp) {shift : Nat} {t : T K (Option W)} {xs : List (K × Option W)}
    {op : Op K W} (hl : legal xs op) (hR : Rel cmp t xs ∧ Full xs) :
    ∃ t', step shift cmp t op = some (t', (spec (ord cmp) xs op).2) ∧
      Rel cmp t' (spec (ord cmp) xs op).1 ∧ Full (spec (ord cmp) xs op).1 := by
  have : Std.TransCmp (ord cmp) := hc
  obtain ⟨hR, hF⟩ := hR
  have H := fun op hl => IndexTree.step_ok hc (shift := shift) (op := op) hl hR
  have hfilter : ∀ q : K × Option W → Bool, Full (xs.filter q) :=
    fun q e he => hF e (List.mem_filter.1 he).1
  have htr : (t.traverse fun _ _ => true).1 = xs := by
    rw [Tree.traverse_eq, hR.list]; simp only [seen_true]
  cases op with
  | put k v =>
    obtain ⟨t', h1, h2⟩ := H (.put k v) trivial
    refine ⟨t', ?_, ?_, ?_⟩
    · rw [step, h1]; simp only [IndexTree.spec, spec]; split <;> rfl
    · simp only [IndexTree.spec, spec] at h2 ⊢; split <;> simp_all
    · simp only [spec]; split
      · exact hF
      · exact full_insert hF hl
  | insertIfAbsent k v =>
    obtain ⟨t', h1, h2⟩ := H (.insertIfAbsent k v) trivial
    refine ⟨t', ?_, ?_, ?_⟩
    · rw [step, h1]; simp only [IndexTree.spec, spec]; split <;> rfl
    · simp only [IndexTree.spec, spec] at h2 ⊢; split <;> simp_all
    · simp only [spec]; split
      · exact hF
      · exact full_insert hF hl
  | set k v =>
    obtain ⟨t', h1, h2⟩ := H (.set k v) hl.2
    refine ⟨t', ?_, ?_, ?_⟩
    · rw [step, h1]; simp only [IndexTree.spec, spec]; split <;> rfl
    · simp only [IndexTree.spec, spec] at h2 ⊢
      split
      · rename_i hh; rwa [if_pos hh] at h2
      · rename_i hh; rwa [if_neg hh] at h2
    · simp only [spec]; split
      · exact full_map (k := k) hF hl.1
      · exact full_insert hF hl.1
  | upsert k v =>
    obtain ⟨t', h1, h2⟩ := H (.upsert k v) trivial
    refine ⟨t', ?_, ?_, ?_⟩
    · rw [step, h1]; simp only [IndexTree.spec, spec]; split <;> rfl
    · simp only [IndexTree.spec, spec] at h2 ⊢
      split
      · rename_i hh; rwa [if_pos hh] at h2
      · rename_i hh; rwa [if_neg hh] at h2
    · simp only [spec]; split
      · exact full_map (k := k) hF hl
      · exact full_insert hF hl
  | get k =>
    obtain ⟨t', h1, h2⟩ := H (.get k) trivial
    refine ⟨t', ?_, h2, hF⟩
    rw [step, h1]
    simp only [IndexTree.spec, spec]
    rcases find_full (q := fun e => ord cmp e.1 k == .eq) hF with h | ⟨k', w, h⟩ <;> rw [h] <;> rfl
  | remove k =>
    obtain ⟨t', h1, h2⟩ := H (.remove k) trivial
    refine ⟨t', ?_, h2, hfilter _⟩
    rw [step, h1]
    simp only [IndexTree.spec, spec]
    rcases find_full (q := fun e => ord cmp e.1 k == .eq) hF with h | ⟨k', w, h⟩ <;> rw [h] <;> rfl
  | delete k =>
    obtain ⟨t', h1, h2⟩ := H (.delete k) (fun e he _ => hF e he)
    refine ⟨t', ?_, h2, hfilter _⟩
    rw [step, h1]
    simp only [IndexTree.spec, spec]
    rcases find_full (q := fun e => ord cmp e.1 k == .eq) hF with h | ⟨k', w, h⟩ <;> rw [h] <;> rfl
  | contains k =>
    obtain ⟨t', h1, h2⟩ := H (.get k) trivial
    refine ⟨t', ?_, h2, hF⟩
    rw [step, h1]
    simp only [IndexTree.spec, spec]
    rw [Option.isSome_map, Avl.find_same, Avl.has_iff]
    cases same (ord cmp) k xs <;> rfl
  | indexOf k =>
    obtain ⟨t', h1, h2⟩ := H (.indexOf k) trivial
    exact ⟨t', by rw [step, h1]; rfl, h2, hF⟩
  | index i =>
    obtain ⟨t', h1, h2⟩ := H (.index i) trivial
    refine ⟨t', ?_, h2, hF⟩
    rw [step, h1]
    simp only [IndexTree.spec, spec]
    cases he : at? xs i with
    | none => rfl
    | some e =>
      obtain ⟨w, hw⟩ := Option.ne_none_iff_exists'.1 (hF e (by
        unfold at? at he
        split at he
        · cases he
        · exact List.mem_of_getElem? he))
      obtain ⟨k, v⟩ := e
      simp only at hw
      subst hw; rfl
  | removeIndex i =>
    simp only [step, spec, hR.exact.sz, hR.list]
    cases he : at? xs i with
    | none =>
      rw [if_pos (at?_none.1 he)]
      exact ⟨t, rfl, hR, hF⟩
    | some e =>
      have hb := at?_some he
      rw [if_neg (by omega)]
      obtain ⟨t1, h1, -⟩ := H (.index i) trivial
      obtain ⟨t2, h2, h3⟩ := H (.removeIndex i) trivial
      obtain ⟨w, hw⟩ := Option.ne_none_iff_exists'.1 (hF e (by
        unfold at? at he
        split at he
        · cases he
        · exact List.mem_of_getElem? he))
      obtain ⟨k, v⟩ := e
      simp only at hw
      subst hw
      simp only [IndexTree.spec, he] at h1 h2 h3
      rw [h1, h2]
      exact ⟨t2, rfl, h3, fun e h => hF e (List.mem_of_mem_eraseIdx h)⟩
  | keys => exact ⟨t, by rw [step, spec, htr], hR, hF⟩
  | values =>
    refine ⟨t, ?_, hR, hF⟩
    simp only [step, spec, htr]
    rw [if_neg]
    intro h
    obtain ⟨v, h1, h2⟩ := List.any_eq_true.1 h
    obtain ⟨e, h3, rfl⟩ := List.mem_map.1 h1
    exact hF e h3 (Option.isNone_iff_eq_none.1 h2)
  | clear => exact ⟨nil, rfl, Rel.new, fun _ h => by cases h⟩
  | size => exact ⟨t, by rw [step, spec, hR.exact.sz, hR.list], hR, hF⟩
  | len => exact ⟨t, by rw [step, spec, hR.exact.sz, hR.list], hR, hF⟩
  | isEmpty =>
    refine ⟨t, ?_, hR, hF⟩
    rw [step, spec, hR.exact.sz, hR.list]
    cases xs with
    | nil => rfl
    | cons x xs => simp; omega

/-- C43: every history of calls with values that are not nil answers as the ideal map; for a value type that
is not an interface type there are no others. Missing from the full statement: nil values, see
`C43_nil_value`, and `Set` on an empty map, see `C43_set_on_empty`. -/
theorem C43_ordered_map_partial (hc : Lawful cmp) (shift : Nat) (os : List (Op K W))
    (hl : LegalRun (spec (ord cmp)) legal [] os) :
    ∃ t, run (step shift cmp) nil os = some (t, (runSpec (spec (ord cmp)) [] os).2) := by
  obtain ⟨t, h, -⟩ := run_refines_legal (step := step shift cmp) (spec := spec (ord cmp))
    (legal := legal) (fun t xs => Rel cmp t xs ∧ Full xs)
    (fun _ _ _ h1 h2 => step_ok hc h1 h2) os nil [] hl ⟨Rel.new, fun _ h => by cases h⟩
  exact ⟨t, h⟩

/-- A nil value: it is there, but `Delete` and `Remove` report that it was not (and remove it), `Get` and
`Values` panic. -/
theorem C43_nil_value :
    (∃ t : T Int (Option Unit), run (step 2 Compare.any) nil
      [.put 1 none, .contains 1, .get 1, .values, .delete 1, .contains 1] =
      some (t, [.bool true, .bool true, .panic, .panic, .found none, .bool false])) ∧
    (∃ t : T Int (Option Unit), run (step 2 Compare.any) nil
      [.put 1 none, .remove 1, .contains 1] = some (t, [.bool true, .found none, .bool false])) ∧
    (∃ t : T Int (Option Unit), run (IndexTree.step 2 Compare.any) nil
      [.put 1 none, .get 1, .delete 1] = some (t, [.bool true, .found (some none), .found none])) :=
  ⟨⟨_, rfl⟩, ⟨_, rfl⟩, ⟨_, rfl⟩⟩

/-- `RemoveIndex` of a nil value removes it and then panics. -/
theorem C43_nil_removeIndex : ∃ t : T Int (Option Unit), run (step 2 Compare.any) nil
    [.put 1 none, .removeIndex 0, .size] = some (t, [.bool true, .panic, .int 0]) := ⟨_, rfl⟩

/-- `Set` reports that it replaced something in an empty map. -/
theorem C43_set_on_empty (shift : Nat) (k : K) (v : Option W) :
    ∃ t, step shift cmp nil (.set k v) = some (t, .bool true) := ⟨_, rfl⟩

example : ∃ t, run (step 2 Compare.any) nil
    [.put 3 (some "c"), .set 1 (some "a"), .set 3 (some "C"), .upsert 2 (some "b"), .delete 7, .delete 1,
      .remove 3, .contains 3, .removeIndex 4, .removeIndex 0, .isEmpty] =
    some (t, [.bool true, .bool false, .bool true, .bool false, .found none, .found (some (some "a")),
      .found (some (some "C")), .bool false, .removed none, .removed (some (2, some "b")), .bool true]) := by
  obtain ⟨t, h⟩ := C43_ordered_map_partial any_lawful 2
    [.put 3 (some "c"), .set 1 (some "a"), .set 3 (some "C"), .upsert 2 (some "b"), .delete 7, .delete 1,
      .remove 3, .contains 3, .removeIndex 4, .removeIndex 0, .isEmpty]
    ⟨(by simp [legal]), ⟨by simp, by decide⟩, ⟨by simp, by decide⟩, (by simp [legal]), trivial, trivial,
      trivial, trivial, trivial, trivial, trivial, trivial⟩
  exact ⟨t, h.trans rfl⟩

end Verif.OrderedMap
