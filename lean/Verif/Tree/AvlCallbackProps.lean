import Verif.Tree.AvlCallbackLemmas
import Verif.Tree.AvlHeapProps

/-! `Traverse` with a callback that uses the tree, and set operations of a set with itself: property
C104. -/

namespace Verif.AvlHeap
open Avl (Op Res Fits ord spec has)
open Verif.Tree
variable {K V τ : Type} {cmp : K → K → Int} {one : Bool} {d : Int}

/-- The entries that a plain `Traverse` shows. -/
def contents (s : PMap K V) : Option (List (K × V)) :=
  (traverse (fun _ _ => true) s.mem s.free s.root).map (·.1)

theorem At.contents {t₀ : P K V} {s : PMap K V} {l : List (K × V)} (h : At cmp d t₀ s l) :
    contents s = some l := by
  obtain ⟨⟨m, ⟨-, t, ht, hH, -⟩, -, hR⟩, -, -, -⟩ := h
  have hroot : s.root = ptr t := hH.root
  rw [AvlHeap.contents, hroot, traverse_ok hH.rep hH.height, ht, Tree.traverse_eq, hR.list]
  simp [seen_true]

/-- A map that is reached by a history. -/
theorem at_run (hc : LawfulEx cmp) (cfg : Avl.Cfg one d) (zero : V) (junk : K × V)
    {os : List (Op K V)} (hf : Fits (ord cmp) d os) {s : PMap K V} {rs : List (Res K V)}
    (h : run (step cmp one d zero) (PMap.new junk) os = some (s, rs)) :
    ∃ t₀ : P K V, At cmp d t₀ s (runSpec (spec (ord cmp)) [] os).1 ∧ t₀.height < s.free ∧
      s.root = ptr t₀ := by
  obtain ⟨m, rs', h1, h2, h3⟩ := Avl.run_ok hc cfg hf
  have h4 := run_sim (cmp := cmp) (one := one) (d := d) (zero := zero) os (MRel.new junk)
  rw [h, h1] at h4
  obtain ⟨-, h5⟩ := h4
  have h6 := h5
  obtain ⟨-, t, -, hH, -⟩ := h5
  exact ⟨t, ⟨⟨m, h6, h2, h3⟩, hf os (List.prefix_refl _), hH.rep.lk, hH.root⟩, hH.height, hH.root⟩

/-! ### C104 -/

/-- C104, callbacks that add and take out nothing: reads, updates of entries that are there, removals
of keys that are not. `Traverse` then does what the ideal walk does: the callback gets entry after
entry in the order of the keys, each with the value it has at that moment; the calls of the callback
are answered as by the ideal map; afterwards the tree is a tree and holds what the ideal map holds.
What the callback calls may depend on all answers so far. -/
theorem C104_quiet_callback_partial (hc : LawfulEx cmp) (cfg : Avl.Cfg one d) (zero : V) (junk : K × V)
    {os : List (Op K V)} (hf : Fits (ord cmp) d os) {s : PMap K V} {rs : List (Res K V)}
    (h : run (step cmp one d zero) (PMap.new junk) os = some (s, rs))
    (every : τ → K → V → Prog (Op K V) (Res K V) (τ × Bool)) (t : τ) {xs : List (K × V)}
    (hx : xs = (runSpec (spec (ord cmp)) [] os).1)
    (hq : ∀ c ∈ (visit (spec (ord cmp)) every xs.length 0 xs t).calls,
      c.1.abstract = true ∧ quiet c.1 c.2 = true) {n : Nat} (hn : s.free ≤ n) :
    ∃ s', traverseWith cmp one d zero every n s t =
        some { visit (spec (ord cmp)) every xs.length 0 xs t with state := s' } ∧
      IsTree s' ∧ contents s' = some (visit (spec (ord cmp)) every xs.length 0 xs t).state := by
  obtain ⟨t₀, h1, h2, h3⟩ := at_run hc cfg zero junk hf h
  subst hx
  have hlen : (ino t₀).length = (runSpec (spec (ord cmp)) [] os).1.length := by
    conv_rhs => rw [h1.entries]
    simp
  rw [← hlen] at hq ⊢
  obtain ⟨s', h4, h5⟩ := visitA_visit (zero := zero) hc cfg (ino t₀) 0 rfl h1 hq
  refine ⟨s', ?_, ?_, h5.contents⟩
  · rw [traverseWith, h3]
    exact (walk_visitA (by omega) h1.lk h4 fun c hc' => (hq c hc').2).1
  · obtain ⟨m, h6, -⟩ := h5.holds
    exact h6.isTree

/-- What the ideal walk hands to such a callback: every key once and in order; when the callback says
stop, the keys up to there. -/
theorem C104_quiet_all_seen_partial {o : K → K → Ordering} [Std.TransCmp o]
    {every : τ → K → V → Prog (Op K V) (Res K V) (τ × Bool)} {xs : List (K × V)} {t : τ}
    (hq : ∀ c ∈ (visit (spec o) every xs.length 0 xs t).calls, quiet c.1 c.2 = true) :
    List.Forall₂ (fun e e' => o e.1 e'.1 = .eq)
      (xs.take (visit (spec o) every xs.length 0 xs t).seen.length)
      (visit (spec o) every xs.length 0 xs t).seen ∧
    ((visit (spec o) every xs.length 0 xs t).go = true →
      (visit (spec o) every xs.length 0 xs t).seen.length = xs.length) := by
  have key : ∀ (n i : Nat) (l : List (K × V)) (t : τ), i + n = l.length → SameKeys o xs l →
      (∀ c ∈ (visit (spec o) every n i l t).calls, quiet c.1 c.2 = true) →
      SameKeys o ((xs.drop i).take (visit (spec o) every n i l t).seen.length)
        (visit (spec o) every n i l t).seen ∧
      ((visit (spec o) every n i l t).go = true →
        (visit (spec o) every n i l t).seen.length = n) := by
    intro n
    induction n with
    | zero => intro i l t _ _ _; exact ⟨by simp [visit, SameKeys], fun _ => rfl⟩
    | succ n ih =>
      intro i l t hi hs hq
      have h1 : i < l.length := by omega
      have h2 : i < xs.length := by rw [hs.length_eq]; exact h1
      have h3 : o xs[i].1 l[i].1 = .eq := by
        have := List.forall₂_iff_get.1 hs
        exact this.2 i h2 h1
      simp only [visit, List.getElem?_eq_getElem h1] at hq ⊢
      rw [List.drop_eq_getElem_cons h2]
      split at hq
      · next hg =>
        rw [if_pos hg]
        have h4 := prog_sameKeys (o := o) (every t l[i].1 l[i].2) (l := l)
          fun c hc => hq c (List.mem_append_left _ hc)
        have h5 := ih (i + 1) _ _ (by rw [← h4.length_eq]; omega) (hs.trans h4)
          fun c hc => hq c (List.mem_append_right _ hc)
        refine ⟨?_, fun h6 => ?_⟩
        · simp only [Walk.after, List.singleton_append, List.length_cons, List.take_succ_cons]
          exact .cons h3 h5.1
        · simp only [Walk.after, List.singleton_append, List.length_cons]
          rw [h5.2 h6]
      · next hg =>
        rw [if_neg hg]
        refine ⟨?_, fun h6 => absurd h6 hg⟩
        simp only [List.length_singleton, List.take_succ_cons, List.take_zero]
        exact .cons h3 .nil
  exact key xs.length 0 xs t (by omega) (.refl _) hq

/-- The callback of the examples: it counts, reads the size, and writes a new value for each key. -/
def mark : Nat → Int → String → Prog (Op Int String) (Res Int String) (Nat × Bool) := fun c k v =>
  .call .size fun r => .call (.set k (v ++ if r matches .nat 3 then "!" else "?")) fun _ =>
    .call (.remove (k + 100)) fun _ => .ret (c + 1, true)

example : ∃ s s' : PMap Int String, traverseWith Compare.anyEx false 1 "" mark 4 s 0 =
    some ⟨s', 3, true, [(1, "a"), (2, "b"), (3, "c")],
      [(.size, .nat 3), (.set 1 "a!", .bool false), (.remove 101, .val none),
       (.size, .nat 3), (.set 2 "b!", .bool false), (.remove 102, .val none),
       (.size, .nat 3), (.set 3 "c!", .bool false), (.remove 103, .val none)]⟩ ∧ IsTree s' ∧
    contents s' = some [(1, "a!"), (2, "b!"), (3, "c!")] := by
  have e : run (step Compare.anyEx false 1 "") (PMap.new blank) [.put 1 "a", .put 2 "b", .put 3 "c"] =
    some ((run (step Compare.anyEx false 1 "") (PMap.new blank)
      [.put 1 "a", .put 2 "b", .put 3 "c"]).get rfl) := rfl
  obtain ⟨s', h1, h2, h3⟩ := C104_quiet_callback_partial Avl.anyEx_lawful
    (Avl.cfg_avl (d := 1) (by decide) (by decide)) "" blank (Avl.fits_of_short (by decide)) e mark 0
    (xs := [(1, "a"), (2, "b"), (3, "c")]) rfl (by
      have : List.all (visit (spec (ord Compare.anyEx)) mark 3 0 [(1, "a"), (2, "b"), (3, "c")] 0).calls
        (fun c => c.1.abstract && quiet c.1 c.2) = true := rfl
      simpa using this) (n := 4) (by decide)
  exact ⟨_, s', h1, h2, h3⟩

example : List.Forall₂ (fun e e' : Int × String => ord Compare.anyEx e.1 e'.1 = .eq)
    [(1, "a"), (2, "b"), (3, "c")]
    (visit (spec (ord Compare.anyEx)) mark 3 0 [(1, "a"), (2, "b"), (3, "c")] 0).seen := by
  have := Avl.anyEx_lawful.trans
  exact (C104_quiet_all_seen_partial (o := ord Compare.anyEx) (every := mark) (t := 0)
    (xs := [(1, "a"), (2, "b"), (3, "c")]) (by
      have : List.all (visit (spec (ord Compare.anyEx)) mark 3 0 [(1, "a"), (2, "b"), (3, "c")] 0).calls
        (fun c => quiet c.1 c.2) = true := rfl
      simpa using this)).1

/-- C104 is false for callbacks that add: an entry that was there before and after the walk is not
seen. In tree/avl (threshold 1) the map is {1, 2} and the callback puts 3 when it gets 1; -/
theorem C104_put_misses_avl : ∃ s s' : PMap Int Unit, ∃ cs,
    (run (step Compare.anyEx false 1 ()) (PMap.new (0, ())) [.put 2 (), .put 1 ()]).map (·.1) = some s ∧
    contents s = some [(1, ()), (2, ())] ∧
    traverseWith Compare.anyEx false 1 () (fun _ k _ => if k = 1 then .call (.put 3 ()) fun _ =>
      .ret ((), true) else .ret ((), true)) s.free s () = some ⟨s', (), true, [(1, ())], cs⟩ ∧
    contents s' = some [(1, ()), (2, ()), (3, ())] := ⟨_, _, _, rfl, rfl, rfl, rfl⟩

/-- and the same in set/treeset. -/
theorem C104_add_misses_treeset : ∃ s s' : PMap Int Unit, ∃ cs,
    (run (step Compare.anyEx true 2 ()) (PMap.new (0, ())) [.put 1 (), .put 2 ()]).map (·.1) = some s ∧
    contents s = some [(1, ()), (2, ())] ∧
    traverseWith Compare.anyEx true 2 () (fun _ k _ => if k = 1 then .call (.put 3 ()) fun _ =>
      .ret ((), true) else .ret ((), true)) s.free s () = some ⟨s', (), true, [(1, ())], cs⟩ ∧
    contents s' = some [(1, ()), (2, ()), (3, ())] := ⟨_, _, _, rfl, rfl, rfl, rfl⟩

/-! ### Set operations of a set with itself -/

theorem sorted_eq {o : K → K → Ordering} [Std.TransCmp o] : ∀ {xs : List (K × V)}, Sorted o xs →
    ∀ {e e'}, e ∈ xs → e' ∈ xs → o e.1 e'.1 = .eq → e = e'
  | x :: xs, hs, e, e', he, he', h => by
    obtain ⟨h1, h2⟩ := List.pairwise_cons.1 hs
    rcases List.mem_cons.1 he with rfl | he <;> rcases List.mem_cons.1 he' with rfl | he'
    · rfl
    · have := h1 _ he'; rw [this] at h; cases h
    · have := h1 _ ‹e ∈ xs›; have h' := Ord.eq_symm (o := o) h; rw [this] at h'; cases h'
    · exact sorted_eq h2 he he' h

theorem spec_set_self {o : K → K → Ordering} [Std.TransCmp o] {xs : List (K × V)} (hs : Sorted o xs)
    {e : K × V} (he : e ∈ xs) : spec o xs (.set e.1 e.2) = (xs, .bool false) := by
  have h1 : has o e.1 xs = true := by
    simp only [has, List.any_eq_true, beq_iff_eq]
    exact ⟨e, he, Ord.refl _⟩
  simp only [spec, h1, if_true, Prod.mk.injEq, and_true]
  conv_rhs => rw [← List.map_id xs]
  refine List.map_congr_left fun x hx => ?_
  by_cases h : o x.1 e.1 = .eq
  · simp [sorted_eq hs hx he h]
  · simp [h]

/-- C104: the union of a set with itself changes nothing. -/
theorem C104_union_self (hc : LawfulEx cmp) (zero : V) (junk : K × V) {os : List (Op K V)}
    (hf : Fits (ord cmp) 2 os) {s : PMap K V} {rs : List (Res K V)}
    (h : run (step cmp true 2 zero) (PMap.new junk) os = some (s, rs)) {n : Nat} (hn : s.free ≤ n) :
    ∃ s', unionSelf cmp zero n s = some s' ∧ IsTree s' ∧
      contents s' = some (runSpec (spec (ord cmp)) [] os).1 := by
  have := hc.trans
  obtain ⟨t₀, hA, -, -⟩ := at_run hc TreeSet.cfg zero junk hf h
  have hs : Sorted (ord cmp) (runSpec (spec (ord cmp)) [] os).1 := by
    obtain ⟨m, -, -, hR⟩ := hA.holds
    exact hR.sorted
  have key : ∀ (n i : Nat) (xs : List (K × V)), Sorted (ord cmp) xs →
      (visit (spec (ord cmp)) (fun _ k v => .call (.set k v) fun _ => .ret ((), true)) n i xs ()).state =
        xs ∧
      ∀ c ∈ (visit (spec (ord cmp)) (fun _ k v => .call (.set k v) fun _ => .ret ((), true)) n i xs
        ()).calls, c.1.abstract = true ∧ quiet c.1 c.2 = true := by
    intro n
    induction n with
    | zero => intro i xs _; exact ⟨rfl, by simp [visit]⟩
    | succ n ih =>
      intro i xs hs
      simp only [visit]
      split
      · exact ⟨rfl, by simp⟩
      · next e he =>
        have hm := List.mem_of_getElem? he
        simp only [Prog.runSpec, spec_set_self hs hm, if_true, Walk.after, List.singleton_append,
          List.mem_cons]
        refine ⟨(ih _ _ hs).1, ?_⟩
        rintro c (rfl | hc)
        · exact ⟨rfl, rfl⟩
        · exact (ih _ _ hs).2 c hc
  obtain ⟨s', h1, h2, h3⟩ := C104_quiet_callback_partial hc TreeSet.cfg zero junk hf h
    (fun _ k v => .call (.set k v) fun _ => .ret ((), true)) () rfl (key _ _ _ hs).2 hn
  rw [(key _ _ _ hs).1] at h3
  exact ⟨s', by rw [unionSelf, h1]; rfl, h2, h3⟩

/-- C104: the intersection of a set with itself changes nothing. -/
theorem C104_intersection_self (hc : LawfulEx cmp) (zero : V) (junk : K × V) {os : List (Op K V)}
    (hf : Fits (ord cmp) 2 os) {s : PMap K V} {rs : List (Res K V)}
    (h : run (step cmp true 2 zero) (PMap.new junk) os = some (s, rs)) {n : Nat} (hn : s.free ≤ n) :
    ∃ s', intersectionSelf cmp zero n s = some s' ∧ IsTree s' ∧
      contents s' = some (runSpec (spec (ord cmp)) [] os).1 := by
  have := hc.trans
  have key : ∀ (n i : Nat) (xs : List (K × V)),
      (visit (spec (ord cmp)) keepMissing n i xs []).state = xs ∧
      (visit (spec (ord cmp)) keepMissing n i xs []).own = [] ∧
      ∀ c ∈ (visit (spec (ord cmp)) keepMissing n i xs []).calls,
        c.1.abstract = true ∧ quiet c.1 c.2 = true := by
    intro n
    induction n with
    | zero => intro i xs; exact ⟨rfl, rfl, by simp [visit]⟩
    | succ n ih =>
      intro i xs
      simp only [visit]
      split
      · exact ⟨rfl, rfl, by simp⟩
      · next e he =>
        have hm : has (ord cmp) e.1 xs = true := by
          simp only [has, List.any_eq_true, beq_iff_eq]
          exact ⟨e, List.mem_of_getElem? he, Ord.refl _⟩
        simp only [keepMissing, Prog.runSpec, spec, hm, if_true, Walk.after, List.singleton_append,
          List.mem_cons]
        refine ⟨(ih _ _).1, (ih _ _).2.1, ?_⟩
        rintro c (rfl | hc)
        · exact ⟨rfl, rfl⟩
        · exact (ih _ _).2.2 c hc
  obtain ⟨s', h1, h2, h3⟩ := C104_quiet_callback_partial hc TreeSet.cfg zero junk hf h
    keepMissing [] rfl (key _ _ _).2.2 hn
  rw [(key _ _ _).1] at h3
  refine ⟨s', ?_, h2, h3⟩
  rw [intersectionSelf, h1]
  simp only [Option.bind_some, (key _ _ _).2.1]
  rfl

example : ∃ s s₁ s₂ : PMap Int String, unionSelf Compare.anyEx "" 4 s = some s₁ ∧
    contents s₁ = some [(1, "a"), (2, "b"), (3, "c")] ∧
    intersectionSelf Compare.anyEx "" 4 s = some s₂ ∧
    contents s₂ = some [(1, "a"), (2, "b"), (3, "c")] := by
  have e : run (step Compare.anyEx true 2 "") (PMap.new blank) [.put 1 "a", .put 2 "b", .put 3 "c"] =
    some ((run (step Compare.anyEx true 2 "") (PMap.new blank)
      [.put 1 "a", .put 2 "b", .put 3 "c"]).get rfl) := rfl
  obtain ⟨s₁, h1, -, h2⟩ := C104_union_self Avl.anyEx_lawful "" blank
    (Avl.fits_of_short (by decide)) e (n := 4) (by decide)
  obtain ⟨s₂, h3, -, h4⟩ := C104_intersection_self Avl.anyEx_lawful "" blank
    (Avl.fits_of_short (by decide)) e (n := 4) (by decide)
  exact ⟨_, s₁, s₂, h1, h2, h3, h4⟩

/-- C104 is false for the difference: that of {1, 2, 3, 4} with itself is {3, 4}, not empty. The
removal of 1 turns the tree, and the walk returns from node 2, which is not the root any more. -/
theorem C104_difference_self_leaves : ∃ s s' : PMap Int Unit,
    (run (step Compare.anyEx true 2 ()) (PMap.new (0, ()))
      [.put 1 (), .put 2 (), .put 3 (), .put 4 ()]).map (·.1) = some s ∧
    contents s = some [(1, ()), (2, ()), (3, ()), (4, ())] ∧
    differenceSelf Compare.anyEx () s.free s = some s' ∧
    contents s' = some [(3, ()), (4, ())] := ⟨_, _, rfl, rfl, rfl, rfl⟩

end Verif.AvlHeap
