import Verif.Print.Model
import Verif.Stack.Props
import Verif.Map.HashProps
import Verif.Map.LinkedProps
import Verif.List.ArrayProps
import Verif.List.LinkedProps
import Verif.Tree.TreeSetProps

/-! Property C97: the texts that `String` gives. -/

namespace Verif.Print

/-- The specification: an opening bracket, the texts with a separator between two of them, a closing
bracket. -/
def brackets (sep : UInt8) (xs : List Text) : Text := [91] ++ List.intercalate [sep] xs ++ [93]

theorem join_eq (sep : Text) : ∀ xs : List Text, join sep xs = List.intercalate sep xs
  | [] => rfl
  | [a] => by simp [join, List.intercalate]
  | a :: b :: xs => by
    rw [join, join_eq sep (b :: xs)]
    simp [List.intercalate, List.intersperse]

theorem sprintSlice_eq (xs : List Text) : sprintSlice xs = brackets 32 xs := by
  simp [sprintSlice, brackets, join_eq]

theorem runSpec_snoc {τ ω ρ : Type} (spec : τ → ω → τ × ρ) (o : ω) : ∀ (os : List ω) (t : τ),
    runSpec spec t (os ++ [o]) = ((spec (runSpec spec t os).1 o).1,
      (runSpec spec t os).2 ++ [(spec (runSpec spec t os).1 o).2])
  | [], _ => rfl
  | p :: os, t => by simp only [List.cons_append, runSpec, runSpec_snoc spec o os]

/-- The last call of a history. -/
theorem run_snoc {σ ω ρ : Type} {step : σ → ω → Option (σ × ρ)} {s s' : σ} {os : List ω} {o : ω}
    {rs : List ρ} {r : ρ} (h : run step s (os ++ [o]) = some (s', rs ++ [r])) :
    ∃ s₁, run step s os = some (s₁, rs) ∧ step s₁ o = some (s', r) := by
  rw [run_append] at h
  split at h
  · cases h
  · next s₁ rs₁ h₁ =>
    simp only [run] at h
    cases h₂ : step s₁ o with
    | none => rw [h₂] at h; cases h
    | some q =>
      rw [h₂] at h
      simp only [Option.some.injEq, Prod.mk.injEq] at h
      obtain ⟨rfl, h3⟩ := h
      obtain ⟨rfl, h4⟩ := List.append_inj' h3 rfl
      simp only [List.cons.injEq, and_true] at h4
      exact ⟨s₁, h₁, by rw [h₂, ← h4]⟩

section
variable {α : Type} [Inhabited α]

/-- C97 for the slice stack: the elements from the bottom to the top. -/
theorem C97_array_stack (sh : α → Text) (os : List (Stack.Op α)) :
    ∃ s rs, run Stack.AStack.step (Stack.AStack.new : Stack.AStack α) os = some (s, rs) ∧
      arrayStack sh s = brackets 32 ((runSpec Stack.spec [] os).1.reverse.map sh) := by
  obtain ⟨s, h⟩ := Stack.C04_array_lifo (os ++ [.values])
  rw [runSpec_snoc] at h
  obtain ⟨s₁, h1, h2⟩ := run_snoc h
  refine ⟨s₁, _, h1, ?_⟩
  simp only [Stack.AStack.step, Stack.spec, Option.some.injEq, Prod.mk.injEq, Stack.Res.list.injEq] at h2
  rw [arrayStack, sprintSlice_eq, h2.2]

/-- C97 for the linked stack. -/
theorem C97_list_stack (sh : α → Text) (os : List (Stack.Op α)) :
    ∃ s rs, run Stack.LStack.step (Stack.LStack.new : Stack.LStack α) os = some (s, rs) ∧
      listStack sh s = some (brackets 32 ((runSpec Stack.spec [] os).1.reverse.map sh)) := by
  obtain ⟨s, h⟩ := Stack.C04_list_lifo (os ++ [.values])
  rw [runSpec_snoc] at h
  obtain ⟨s₁, h1, h2⟩ := run_snoc h
  refine ⟨s₁, _, h1, ?_⟩
  simp only [Stack.LStack.step, Stack.spec, Option.map_eq_some_iff, Prod.mk.injEq,
    Stack.Res.list.injEq] at h2
  obtain ⟨l, h3, -, h4⟩ := h2
  simp only [listStack, h3, Option.map_some, sprintSlice_eq, h4]

/-- C97 for the segmented stack. -/
theorem C97_listarray_stack (sh : α → Text) (cap : Nat) (hcap : 1 ≤ cap) (os : List (Stack.Op α)) :
    ∃ s rs, run Stack.GStack.step (Stack.GStack.newWithCap cap : Stack.GStack α) os = some (s, rs) ∧
      segStack sh s = some (brackets 32 ((runSpec Stack.spec [] os).1.reverse.map sh)) := by
  obtain ⟨s, h⟩ := Stack.C05_listarray_lifo cap hcap (os ++ [.values])
  rw [runSpec_snoc] at h
  obtain ⟨s₁, h1, h2⟩ := run_snoc h
  refine ⟨s₁, _, h1, ?_⟩
  simp only [Stack.GStack.step, Stack.spec, Option.map_eq_some_iff, Prod.mk.injEq,
    Stack.Res.list.injEq] at h2
  obtain ⟨l, h3, -, h4⟩ := h2
  simp only [segStack, h3, Option.map_some, sprintSlice_eq, h4]

/-- C97 for the array list, after any legal history that memory sufficed for. -/
theorem C97_array_list (sh : α → Text) {M : Nat} (h8 : 8 ≤ M) (hM : M ≤ 2 ^ 62)
    {os : List (AList.Op α)} {l : AList.AL α} {rs : List (AList.Res α)}
    (hl : LegalRun AList.spec AList.legal [] os)
    (hr : runE (AList.AL.step M) (AList.AL.new : AList.AL α) os = .ok (l, rs)) :
    arrayList sh M l = .ok (brackets 32 ((runSpec AList.spec [] os).1.map sh)) := by
  rw [arrayList, (AList.reach h8 hM hl hr).values, ← sprintSlice_eq]
  rfl

/-- C97 for the linked list, also after edits through iterators. -/
theorem C97_linked_list (sh : α → Text) (os : List (LList.Op α))
    (hl : LegalRun LList.spec LList.legal LList.Sp.new os) :
    ∃ s, run LList.step (LList.St.new : LList.St α) os = some (s, (LList.ideal os).2) ∧
      linkedList sh s.l = some (brackets 32 ((LList.ideal os).1.vals.map sh)) := by
  obtain ⟨s, h1, hR⟩ := LList.reach os hl
  refine ⟨s, h1, ?_⟩
  obtain ⟨s', h2, -⟩ := LList.step_ok s _ .values trivial hR
  simp only [LList.step, LList.onRead, LList.spec] at h2
  simp only [linkedList]
  cases h3 : s.l.values with
  | none => rw [h3] at h2; simp at h2
  | some l =>
    rw [h3] at h2
    simp at h2
    simp [sprintSlice_eq, h2.2, LList.Sp.vals]

end

section
variable {K V : Type}

/-- C97 for the linked hash map: `{key:value}` for each entry, in order. -/
theorem C97_linked_hash_map [DecidableEq K] [Inhabited K] [Inhabited V] (shK : K → Text)
    (shV : V → Text) (os : List (Map.Linked.Op K V)) :
    ∃ m rs, run Map.Linked.LHM.step (Map.Linked.LHM.new : Map.Linked.LHM K V) os = some (m, rs) ∧
      linkedHashMap shK shV m = some (brackets 32 ((runSpec Map.Linked.spec [] os).1.map
        fun e => [123] ++ shK e.1 ++ [58] ++ shV e.2 ++ [125])) := by
  obtain ⟨m, h⟩ := Map.Linked.C14_linkedhashmap_order (os ++ [.slices])
  rw [runSpec_snoc] at h
  obtain ⟨m₁, h1, h2⟩ := run_snoc h
  refine ⟨m₁, _, h1, ?_⟩
  simp only [Map.Linked.LHM.step, Map.Linked.spec, Option.map_eq_some_iff, Prod.mk.injEq,
    Map.Linked.Res.slices.injEq] at h2
  obtain ⟨l, h3, -, h4⟩ := h2
  simp only [linkedHashMap, h3, Option.map_some, sprintSlice_eq, ← h4]
  congr 2
  apply List.map_congr_left
  intro e _
  simp [slice]

/-- C97 for the hash set: the items in some order, each once. -/
theorem C97_hash_set [DecidableEq K] (sh : K → Text) (ro : Map.RangeOrder (K × Unit))
    (os : List (Map.SOp K)) :
    ∃ m rs p, ∃ ks : List K, run (Map.HS.step ro) ([] : GoMap K Unit) os = some (m, rs) ∧
      Trace Map.SSpec (fun _ => False) os rs p ∧ ks.Nodup ∧ (∀ k, k ∈ ks ↔ p k) ∧
      hashSet sh ro m = brackets 44 (ks.map sh) := by
  obtain ⟨m, rs, p, h1, h2, hw, hp⟩ := run_refines_rel
    (fun (m : GoMap K Unit) (p : K → Prop) => m.WF ∧ ∀ k, (m.get k).isSome ↔ p k)
    (fun m f o hR => Map.HS.step_ok ro m f o hR) os [] (fun _ => False)
    ⟨GoMap.wf_nil, by simp [GoMap.get_nil]⟩
  obtain ⟨m', r, p', h3, h4, -⟩ := Map.HS.step_ok ro m p .values ⟨hw, hp⟩
  cases h3
  have h5 : ∀ (es : List (K × Unit)) (acc : List Text),
      es.foldl (fun items e => items ++ [sh e.1]) acc = acc ++ (es.map (·.1)).map sh := by
    intro es
    induction es with
    | nil => simp
    | cons e es ih => intro acc; simp [ih]
  cases h4 with
  | values _ hn hk => exact ⟨m, rs, p, _, h1, h2, hn, hk, by simp only [hashSet, h5, join_eq, brackets]; rfl⟩

theorem str_eq {A : Type} (shV : V → Text) : ∀ (t : Tree A K V) (c : Text),
    str shV t c = c ++ (t.toList.map fun e => shV e.2 ++ [32]).flatten
  | .nil, c => by simp [str]
  | .node a k v l r, c => by
    rw [str, str_eq shV l, str_eq shV r]
    simp [Tree.toList]

theorem trail (sep : UInt8) : ∀ (x : Text) (xs : List Text),
    ((x :: xs).map (· ++ [sep])).flatten = List.intercalate [sep] (x :: xs) ++ [sep]
  | x, [] => by simp [List.intercalate]
  | x, y :: xs => by
    rw [List.map_cons, List.flatten_cons, trail sep y xs]
    simp [List.intercalate, List.intersperse]

theorem treeSet_eq (shV : V → Text) (m : Avl.Map K V) :
    treeSet shV m = some (brackets 32 (m.root.toList.map fun e => shV e.2)) := by
  have h := str_eq shV m.root [91]
  simp only [treeSet, h]
  generalize m.root.toList = xs
  cases xs with
  | nil => simp [brackets, List.intercalate]
  | cons e es =>
    have h2 := trail 32 (shV e.2) (es.map fun e => shV e.2)
    rw [show ((e :: es).map fun e => shV e.2 ++ [32]) =
      ((shV e.2 :: es.map fun e => shV e.2).map (· ++ [32])) by simp, h2, ← List.append_assoc]
    rw [List.getLast?_concat, List.dropLast_concat]
    rfl

/-- C97 for the tree set: the values in the order of the keys. -/
theorem C97_tree_set {cmp : K → K → Int} (hc : LawfulEx cmp) (shV : V → Text) {m : Avl.Map K V}
    {xs : List (K × V)} (h : TreeSet.Reached cmp m xs) :
    treeSet shV m = some (brackets 32 (xs.map fun e => shV e.2)) := by
  rw [treeSet_eq]
  obtain ⟨os, rs, h1, h2, rfl⟩ := h
  obtain ⟨m', rs', h3, -, hR⟩ := Avl.run_ok hc TreeSet.cfg (TreeSet.fits h1)
  rw [show run (TreeSet.step cmp) Avl.Map.new os = some (m', rs') from h3] at h2
  cases h2
  rw [hR.list]

end

/-! ### What can be read off the text -/

theorem split_inj {sep : UInt8} : ∀ {a b : Text} {r s : Text}, sep ∉ a → sep ∉ b →
    a ++ sep :: r = b ++ sep :: s → a = b ∧ r = s
  | [], [], r, s, _, _, h => by simpa using h
  | [], y :: b, r, s, _, hb, h => by simp at h; simp [h.1] at hb
  | x :: a, [], r, s, ha, _, h => by simp at h; simp [h.1] at ha
  | x :: a, y :: b, r, s, ha, hb, h => by
    simp only [List.cons_append, List.cons.injEq] at h
    obtain ⟨rfl, h⟩ := h
    obtain ⟨rfl, rfl⟩ := split_inj (by simp_all) (by simp_all) h
    exact ⟨rfl, rfl⟩

theorem flat_inj {sep : UInt8} : ∀ {xs ys : List Text}, (∀ x ∈ xs, sep ∉ x) → (∀ y ∈ ys, sep ∉ y) →
    (xs.map (· ++ [sep])).flatten = (ys.map (· ++ [sep])).flatten → xs = ys
  | [], [], _, _, _ => rfl
  | [], y :: ys, _, _, h => by simp at h
  | x :: xs, [], _, _, h => by simp at h
  | x :: xs, y :: ys, hx, hy, h => by
    simp only [List.map_cons, List.flatten_cons, List.append_assoc, List.cons_append,
      List.nil_append] at h
    obtain ⟨rfl, h2⟩ := split_inj (hx x (by simp)) (hy y (by simp)) h
    rw [flat_inj (fun z hz => hx z (by simp [hz])) (fun z hz => hy z (by simp [hz])) h2]

/-- C97: if different elements have different texts, which are not empty and do not contain the
separator, then the text of `String` determines the elements and their order. -/
theorem C97_readable {α : Type} {sh : α → Text} (hinj : ∀ a b, sh a = sh b → a = b) {sep : UInt8}
    (hsep : ∀ a, sep ∉ sh a) (hne : ∀ a, sh a ≠ []) {xs ys : List α}
    (h : brackets sep (xs.map sh) = brackets sep (ys.map sh)) : xs = ys := by
  have h1 : List.intercalate [sep] (xs.map sh) = List.intercalate [sep] (ys.map sh) := by
    simpa [brackets] using h
  have empty : ∀ (z : α) (zs : List α), List.intercalate [sep] ((z :: zs).map sh) ≠ [] := by
    intro z zs
    cases zs <;> simp [List.intercalate, List.intersperse, hne]
  have key : xs.map sh = ys.map sh := by
    cases xs with
    | nil =>
      cases ys with
      | nil => rfl
      | cons y ys => exact absurd h1.symm (by simpa [List.intercalate] using empty y ys)
    | cons x xs =>
      cases ys with
      | nil => exact absurd h1 (by simpa [List.intercalate] using empty x xs)
      | cons y ys =>
        refine flat_inj (sep := sep) (by simp [hsep]) (by simp [hsep]) ?_
        simp only [List.map_cons] at h1 ⊢
        rw [← List.map_cons (f := (· ++ [sep])), ← List.map_cons (f := (· ++ [sep])), trail, trail, h1]
  exact (List.map_injective_iff.2 fun a b => hinj a b) key

/-! ### Examples -/

/-- The text of a number below 10. -/
def digit (n : Nat) : Text := [48 + UInt8.ofNat n]

/-- `[1 2]` -/
example : ∃ s rs, run Stack.LStack.step (Stack.LStack.new : Stack.LStack Nat)
    [.push 1, .push 3, .pop, .push 2] = some (s, rs) ∧
    listStack digit s = some [91, 49, 32, 50, 93] := C97_list_stack digit _

example : ∃ s rs, run Stack.AStack.step (Stack.AStack.new : Stack.AStack Nat)
    [.push 1, .push 3, .pop, .push 2] = some (s, rs) ∧
    arrayStack digit s = [91, 49, 32, 50, 93] := C97_array_stack digit _

example : ∃ s rs, run Stack.GStack.step (Stack.GStack.newWithCap 1 : Stack.GStack Nat)
    [.push 1, .push 3, .pop, .push 2] = some (s, rs) ∧
    segStack digit s = some [91, 49, 32, 50, 93] := C97_listarray_stack digit 1 (by decide) _

example : ∃ l rs, runE (AList.AL.step 100) (AList.AL.new : AList.AL Nat) [.pushFront [1, 2]] =
    .ok (l, rs) ∧ arrayList digit 100 l = .ok [91, 50, 32, 49, 93] := by
  have hl : LegalRun AList.spec AList.legal [] [AList.Op.pushFront [1, 2]] := by
    simp [LegalRun, AList.legal]
  obtain ⟨l, h⟩ := AList.C18_pushes_fit (M := 100) (by decide) _ hl (by simp [AList.keeps])
    (by simp [AList.pushed])
  exact ⟨l, _, h, C97_array_list digit (by decide) (by decide) hl h⟩

example : ∃ s rs, run LList.step (LList.St.new : LList.St Nat) [.pushFront [1, 2], .popBack] =
    some (s, rs) ∧ linkedList digit s.l = some [91, 50, 93] := by
  obtain ⟨s, h1, h2⟩ := C97_linked_list digit [.pushFront [1, 2], .popBack]
    ⟨by simp [LList.legal], trivial, trivial⟩
  exact ⟨s, _, h1, h2⟩

/-- `[{2:7} {1:4}]` -/
example : ∃ m rs, run Map.Linked.LHM.step (Map.Linked.LHM.new : Map.Linked.LHM Nat Nat)
    [.pushBack 1 3, .pushFront 2 7, .set 1 4] = some (m, rs) ∧ linkedHashMap digit digit m =
      some [91, 123, 50, 58, 55, 125, 32, 123, 49, 58, 52, 125, 93] := C97_linked_hash_map digit digit _

/-- `[4 7]`, and `[]` -/
example : ∃ m : Avl.Map Int Nat, TreeSet.Reached Compare.anyEx m [(1, 4), (2, 7)] ∧
    treeSet digit m = some [91, 52, 32, 55, 93] := by
  obtain ⟨m, h1, -⟩ := TreeSet.C33_sorted_set (V := Nat) Avl.anyEx_lawful
    [.put 2 7, .put 1 4] (by decide) (TreeSet.short_fits (by decide))
  have h : TreeSet.Reached Compare.anyEx m [(1, 4), (2, 7)] :=
    ⟨_, _, TreeSet.short_fits (by decide), h1, rfl⟩
  exact ⟨m, h, C97_tree_set Avl.anyEx_lawful digit h⟩

example : treeSet digit (Avl.Map.new : Avl.Map Int Nat) = some [91, 93] := rfl

/-- `[1,2]` or `[2,1]` -/
example (ro : Map.RangeOrder (Nat × Unit)) : ∃ m rs p, ∃ ks : List Nat, run (Map.HS.step ro) ([] : GoMap Nat Unit)
    [.add [1, 2, 1]] = some (m, rs) ∧ Trace Map.SSpec (fun _ => False) [.add [1, 2, 1]] rs p ∧
    ks.Nodup ∧ (∀ k, k ∈ ks ↔ p k) ∧ hashSet digit ro m = brackets 44 (ks.map digit) :=
  C97_hash_set digit ro _

/-- The three conditions of `C97_readable`. -/
example : ∀ xs ys : List Bool, brackets 32 (xs.map fun b => if b then [49] else [48]) =
    brackets 32 (ys.map fun b => if b then [49] else [48]) → xs = ys := fun _ _ h =>
  C97_readable (by decide) (by decide) (by decide) h

end Verif.Print
