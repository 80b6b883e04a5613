import Verif.Tree.TraverseWithListProps
import Verif.Tree.AvlCallbackLemmas

/-! What the ideal walk hands to a callback that adds and takes out nothing: property C106. -/

namespace Verif
open AvlHeap (SameKeys)
variable {K V τ ω ρ : Type} {o : K → K → Ordering}

theorem prog_keys {α : Type} [Std.TransCmp o] {spec : List (K × V) → ω → List (K × V) × ρ}
    {legal : List (K × V) → ω → Prop} (h : ∀ l op, legal l op → SameKeys o l (spec l op).1) :
    ∀ (p : Prog ω ρ α) {l : List (K × V)}, p.Legal spec legal l → SameKeys o l (p.runSpec spec l).1
  | .ret _, _, _ => .refl _
  | .call op next, _, hl => (h _ _ hl.1).trans (prog_keys h (next _) hl.2)

/-- Every key once and in order; when the callback says stop, the keys up to there. -/
theorem visitWith_seen [Std.TransCmp o] {spec : List (K × V) → ω → List (K × V) × ρ}
    {legal : List (K × V) → ω → Prop} (h : ∀ l op, legal l op → SameKeys o l (spec l op).1)
    {every : τ → K × V → Prog ω ρ (τ × Bool)} {xs : List (K × V)} :
    ∀ (n i : Nat) (l : List (K × V)) (t : τ), i + n = l.length → SameKeys o xs l →
      LegalVisit spec legal every n i l t →
      SameKeys o ((xs.drop i).take (visitWith spec every n i l t).seen.length)
        (visitWith spec every n i l t).seen ∧
      ((visitWith spec every n i l t).go = true → (visitWith spec every n i l t).seen.length = n)
  | 0, _, _, _, _, _, _ => ⟨by simp [visitWith, SameKeys], fun _ => rfl⟩
  | n + 1, i, l, t, hi, hs, hl => by
    have h1 : i < l.length := by omega
    have h2 : i < xs.length := by rw [hs.length_eq]; exact h1
    have h3 : o xs[i].1 l[i].1 = .eq := (List.forall₂_iff_get.1 hs).2 i h2 h1
    obtain ⟨hc, hr⟩ := hl _ (List.getElem?_eq_getElem h1)
    simp only [visitWith, List.getElem?_eq_getElem h1]
    rw [List.drop_eq_getElem_cons h2]
    split
    · next hg =>
      have h4 := prog_keys h (every t l[i]) hc
      have h5 := visitWith_seen h n (i + 1) _ _ (by rw [← h4.length_eq]; omega) (hs.trans h4) (hr hg)
      refine ⟨?_, fun h6 => ?_⟩
      · simp only [Walked.after, List.singleton_append, List.length_cons, List.take_succ_cons]
        exact .cons h3 h5.1
      · simp only [Walked.after, List.singleton_append, List.length_cons]
        rw [h5.2 h6]
    · next hg =>
      refine ⟨?_, fun h6 => absurd h6 hg⟩
      simp only [List.length_singleton, List.take_succ_cons, List.take_zero]
      exact .cons h3 .nil

theorem filter_same [Std.TransCmp o] {p : K × V → Bool} {l : List (K × V)}
    (h : (l.filter p).length = l.length) : SameKeys o l (l.filter p) := by
  rw [List.filter_eq_self.2 (List.length_filter_eq_length_iff.1 h)]
  exact .refl _

theorem insert_length {e : K × V} {l : List (K × V)} (hh : Avl.has o e.1 l = false) :
    (Avl.insertEntry o e l).length = l.length + 1 := by
  have e1 : ∀ l : List (K × V), Avl.has o e.1 l = false →
      (l.filter fun x => o x.1 e.1 == .lt).length + (l.filter fun x => o x.1 e.1 == .gt).length = l.length := by
    intro l
    induction l with
    | nil => intro _; rfl
    | cons y ys ih =>
      intro hy
      simp only [Avl.has, List.any_cons, Bool.or_eq_false_iff] at hy ih
      have := ih hy.2
      simp only [List.filter_cons, List.length_cons]
      cases hz : o y.1 e.1 <;> simp [hz] at hy ⊢ <;> omega
  have := e1 l hh
  simp only [Avl.insertEntry, List.length_append, List.length_cons]
  omega

theorem eraseP_same [Std.TransCmp o] {p : K × V → Bool} {l : List (K × V)}
    (h : (l.eraseP p).length = l.length) : SameKeys o l (l.eraseP p) := by
  rw [List.eraseP_of_forall_not]
  · exact .refl _
  · intro a ha hp
    have := List.length_eraseP_of_mem ha hp
    have := List.length_pos_of_mem ha
    omega

theorem setFirst_same [Std.TransCmp o] {k : K} {v : V} : ∀ l : List (K × V),
    SameKeys o l (Avls.setFirst o k v l)
  | [] => .refl _
  | e :: es => by
    simp only [Avls.setFirst]
    split
    · exact .cons (Ord.refl _) (SameKeys.refl es)
    · exact .cons (Ord.refl _) (setFirst_same es)

/-! ### Quiet calls keep the keys -/

theorem index_keys {W : Type} {cmp : K → K → Int} (hc : Lawful cmp) {l : List (K × Option W)}
    {op : IndexTree.Op K W} (hq : IndexHeap.quiet cmp l op) :
    SameKeys (Size.ord cmp) l (IndexTree.spec (Size.ord cmp) l op).1 := by
  have : Std.TransCmp (Size.ord cmp) := hc
  obtain ⟨hg, -, hz⟩ := hq
  cases op with
  | put k v =>
    simp only [IndexTree.spec] at hz ⊢
    cases h : Avl.has (Size.ord cmp) k l
    · simp only [h, Bool.false_eq_true, if_false, insert_length (e := (k, v)) h] at hz; omega
    · exact .refl _
  | insertIfAbsent k v =>
    simp only [IndexTree.spec] at hz ⊢
    cases h : Avl.has (Size.ord cmp) k l
    · simp only [h, Bool.false_eq_true, if_false, insert_length (e := (k, v)) h] at hz; omega
    · exact .refl _
  | set k v =>
    simp only [IndexTree.spec] at hz ⊢
    cases h : Avl.has (Size.ord cmp) k l
    · simp only [h, Bool.false_eq_true, if_false, insert_length (e := (k, v)) h] at hz; omega
    · exact AvlHeap.sameKeys_map (f := fun _ => (k, v)) (fun e h => h) l
  | upsert k v =>
    simp only [IndexTree.spec] at hz ⊢
    cases h : Avl.has (Size.ord cmp) k l
    · simp only [h, Bool.false_eq_true, if_false, insert_length (e := (k, v)) h] at hz; omega
    · exact AvlHeap.sameKeys_map (f := fun e => (e.1, v)) (fun e h => Ord.refl _) l
  | remove k => exact filter_same hz
  | delete k => exact filter_same hz
  | removeIndex i =>
    simp only [IndexTree.spec] at hz ⊢
    split
    · exact .refl _
    · next e he =>
      simp only [he] at hz
      unfold Size.at? at he
      split at he
      · cases he
      · have := (List.getElem?_eq_some_iff.1 he).1
        rw [List.length_eraseIdx] at hz
        simp only [this, if_true] at hz
        omega
  | removeRange _ _ => cases hg
  | removeRangeByIndex _ _ => cases hg
  | trim _ _ => cases hg
  | trimByIndex _ _ => cases hg
  | split _ _ _ => cases hg
  | clear => cases hg
  | _ => exact .refl _

theorem list_keys {cmp : K → K → Int} (hc : Lawful cmp) {l : List (K × V)} {op : TreeList.Op K V}
    (hq : ListHeap.quiet cmp l op) : SameKeys (Size.ord cmp) l (TreeList.spec (Size.ord cmp) l op).1 := by
  have : Std.TransCmp (Size.ord cmp) := hc
  have hh : ∀ k, (∃ e ∈ l, cmp e.1 k = 0) → Avl.has (Size.ord cmp) k l = true := by
    rintro k ⟨e, he, h⟩
    simp only [Avl.has, List.any_eq_true, beq_iff_eq]
    exact ⟨e, he, Size.ord_eq.2 h⟩
  cases op with
  | put k v => simp only [TreeList.spec, hh k hq, if_true]; exact .refl _
  | set k v =>
    simp only [TreeList.spec, hh k hq, if_true]
    exact AvlHeap.sameKeys_map (f := fun e => (e.1, v)) (fun e h => Ord.refl _) l
  | putDup k v f =>
    simp only [TreeList.spec, hh k hq, if_true]
    exact AvlHeap.sameKeys_map (f := fun e => (e.1, f e.2)) (fun e h => Ord.refl _) l
  | remove k =>
    simp only [TreeList.spec]
    rw [List.filter_eq_self.2]
    · exact .refl _
    · intro e he
      have := hq e he
      simpa [Size.ord_eq] using this
  | get _ | head | tail | size | index _ | indexOf _ | slices | traverse _ => exact .refl _
  | _ => exact absurd hq id

theorem avls_keys [Std.TransCmp o] {l : List (K × V)} {op : Avls.Op K V} (hq : AvlsHeap.quiet o l op) :
    SameKeys o l (Avls.spec o l op).1 := by
  obtain ⟨-, hz⟩ := hq
  cases op with
  | put k v => simp only [Avls.spec, Avls.length_insertAfter] at hz; omega
  | insertIfAbsent k v =>
    simp only [Avls.spec] at hz ⊢
    cases h : l.any fun e => o e.1 k == .eq
    · simp only [h, Bool.false_eq_true, if_false, Avls.length_insertAfter] at hz; omega
    · exact .refl _
  | set k v =>
    simp only [Avls.spec] at hz ⊢
    cases h : l.any fun e => o e.1 k == .eq
    · simp only [h, Bool.false_eq_true, if_false, Avls.length_insertAfter] at hz; omega
    · exact setFirst_same l
  | upsert k v =>
    simp only [Avls.spec] at hz ⊢
    cases h : l.any fun e => o e.1 k == .eq
    · simp only [h, Bool.false_eq_true, if_false, Avls.length_insertAfter] at hz; omega
    · exact setFirst_same l
  | remove k => exact eraseP_same hz
  | delete k => exact eraseP_same hz
  | clear =>
    cases l with
    | nil => exact .nil
    | cons _ _ => simp [Avls.spec] at hz
  | _ => exact .refl _

theorem priority_keys [Std.TransCmp o] {l : List (K × V)} {op : Priority.Op K V}
    (hq : PriorityHeap.quiet o l op) : SameKeys o l (Priority.spec o l op).1 := by
  obtain ⟨hl, hz⟩ := hq
  cases op with
  | put k v => simp only [Priority.spec, Avls.length_insertAfter] at hz; omega
  | insertIfAbsent k v =>
    simp only [Priority.spec] at hz ⊢
    cases h : l.any fun e => o e.1 k == .eq
    · simp only [h, Bool.false_eq_true, if_false, Avls.length_insertAfter] at hz; omega
    · exact .refl _
  | upsert k v =>
    simp only [Priority.spec] at hz ⊢
    cases h : l.any fun e => o e.1 k == .eq
    · simp only [h, Bool.false_eq_true, if_false, Avls.length_insertAfter] at hz; omega
    · exact setFirst_same l
  | remove k => exact eraseP_same hz
  | delete k => exact eraseP_same hz
  | removeIndex i =>
    obtain ⟨h1, h2⟩ := hl
    have hr : Priority.rank l i = some i.toNat := by
      simp only [Priority.rank]
      rw [if_neg (show ¬i < 0 by omega), if_pos ⟨h1, h2⟩]
    simp only [Priority.spec, hr, List.length_eraseIdx] at hz
    rw [if_pos (by omega)] at hz
    omega
  | popHead =>
    cases l with
    | nil => exact .nil
    | cons _ _ => simp [Priority.spec] at hz
  | popTail =>
    cases l with
    | nil => exact .nil
    | cons _ _ => simp [Priority.spec] at hz
  | clear =>
    cases l with
    | nil => exact .nil
    | cons _ _ => simp [Priority.spec] at hz
  | _ => exact .refl _

/-! ### C106 -/

/-- C106, tree/indextree: such a callback gets every key once and in order; if it says stop, the keys up
to there. -/
theorem IndexHeap.C106_index_all_seen_partial {W : Type} {cmp : K → K → Int} (hc : Lawful cmp)
    {every : τ → K × Option W → Prog (IndexTree.Op K W) (IndexTree.Res K W) (τ × Bool)}
    {xs : List (K × Option W)} {t : τ}
    (hq : LegalVisit (IndexTree.spec (Size.ord cmp)) (IndexHeap.quiet cmp) every xs.length 0 xs t)
    {w} (hw : visitWith (IndexTree.spec (Size.ord cmp)) every xs.length 0 xs t = w) :
    List.Forall₂ (fun e e' => Size.ord cmp e.1 e'.1 = .eq) (xs.take w.seen.length) w.seen ∧
    (w.go = true → w.seen.length = xs.length) := by
  have : Std.TransCmp (Size.ord cmp) := hc
  subst hw
  exact visitWith_seen (fun _ _ h => index_keys hc h) xs.length 0 xs t (by omega) (.refl _) hq

/-- C106, tree/treelist: the same. -/
theorem ListHeap.C106_list_all_seen_partial {cmp : K → K → Int} (hc : Lawful cmp)
    {every : τ → K × V → Prog (TreeList.Op K V) (TreeList.Res K V) (τ × Bool)} {xs : List (K × V)} {t : τ}
    (hq : LegalVisit (TreeList.spec (Size.ord cmp)) (ListHeap.quiet cmp) every xs.length 0 xs t)
    {w} (hw : visitWith (TreeList.spec (Size.ord cmp)) every xs.length 0 xs t = w) :
    List.Forall₂ (fun e e' => Size.ord cmp e.1 e'.1 = .eq) (xs.take w.seen.length) w.seen ∧
    (w.go = true → w.seen.length = xs.length) := by
  have : Std.TransCmp (Size.ord cmp) := hc
  subst hw
  exact visitWith_seen (fun _ _ h => list_keys hc h) xs.length 0 xs t (by omega) (.refl _) hq

/-- C106, tree/avls: the same. -/
theorem AvlsHeap.C106_avls_all_seen_partial [Std.TransCmp o]
    {every : τ → K × V → Prog (Avls.Op K V) (Avl.Res K V) (τ × Bool)} {xs : List (K × V)} {t : τ}
    (hq : LegalVisit (Avls.spec o) (AvlsHeap.quiet o) every xs.length 0 xs t)
    {w} (hw : visitWith (Avls.spec o) every xs.length 0 xs t = w) :
    List.Forall₂ (fun e e' => o e.1 e'.1 = .eq) (xs.take w.seen.length) w.seen ∧
    (w.go = true → w.seen.length = xs.length) := by
  subst hw
  exact visitWith_seen (fun _ _ h => avls_keys h) xs.length 0 xs t (by omega) (.refl _) hq

/-- C106, queue/priority: the same. -/
theorem PriorityHeap.C106_priority_all_seen_partial [Std.TransCmp o]
    {every : τ → K × V → Prog (Priority.Op K V) (Priority.Res K V) (τ × Bool)} {xs : List (K × V)} {t : τ}
    (hq : LegalVisit (Priority.spec o) (PriorityHeap.quiet o) every xs.length 0 xs t)
    {w} (hw : visitWith (Priority.spec o) every xs.length 0 xs t = w) :
    List.Forall₂ (fun e e' => o e.1 e'.1 = .eq) (xs.take w.seen.length) w.seen ∧
    (w.go = true → w.seen.length = xs.length) := by
  subst hw
  exact visitWith_seen (fun _ _ h => priority_keys h) xs.length 0 xs t (by omega) (.refl _) hq

example : List.Forall₂ (fun e e' : Int × Int => Avl.ord Compare.anyEx e.1 e'.1 = .eq)
    [(1, 10), (1, 11), (2, 20)] [(1, 10), (1, 11), (2, 11)] := by
  have := Avl.anyEx_lawful.trans
  exact (AvlsHeap.C106_avls_all_seen_partial (o := Avl.ord Compare.anyEx) (every := AvlsHeap.pass)
    (xs := [(1, 10), (1, 11), (2, 20)])
    AvlsHeap.pass_quiet rfl).1

example : List.Forall₂ (fun e e' : Int × Int => Avl.ord Compare.anyEx e.1 e'.1 = .eq)
    [(1, 10), (1, 11), (2, 20)] [(1, 10), (1, 11), (2, 11)] := by
  have := Avl.anyEx_lawful.trans
  exact (PriorityHeap.C106_priority_all_seen_partial (o := Avl.ord Compare.anyEx) (every := PriorityHeap.passOn)
    (xs := [(1, 10), (1, 11), (2, 20)])
    PriorityHeap.passOn_quiet rfl).1

example : List.Forall₂ (fun e e' : Int × Option Int => Size.ord Compare.any e.1 e'.1 = .eq)
    [(1, some 1), (2, some 2), (3, some 3)] [(1, some 1), (2, some 2), (3, some 3)] :=
  (IndexHeap.C106_index_all_seen_partial IndexTree.any_lawful (every := IndexHeap.mark) (t := 0)
    (xs := [(1, some 1), (2, some 2), (3, some 3)])
    IndexHeap.mark_quiet rfl).1

example : List.Forall₂ (fun e e' : Int × Int => Size.ord Compare.any e.1 e'.1 = .eq)
    [(1, 10), (2, 20), (3, 30)] [(1, 10), (2, 20), (3, 21)] :=
  (ListHeap.C106_list_all_seen_partial IndexTree.any_lawful (every := ListHeap.pass) (t := 0)
    (xs := [(1, 10), (2, 20), (3, 30)])
    ListHeap.pass_quiet rfl).1

end Verif
