import Verif.Tree.TreeSetModel
import Verif.Tree.AvlProps

/-! Properties C33 to C36: the tree set `set/treeset` with its default threshold 2. The bound 2^63 on the
number of entries is that of `Len`, an `int`; no Go program holds as many. -/

namespace Verif.TreeSet

open Verif.Tree Verif.Avl

variable {K V : Type} {cmp : K → K → Int}

theorem cfg : Cfg true 2 := ⟨by decide, by decide, fun _ => rfl⟩

/-- `m` is a set reached by a history whose sets had fewer than 2^63 items, `xs` its items. -/
def Reached (cmp : K → K → Int) (m : Map K V) (xs : List (K × V)) : Prop :=
  ∃ os rs, (∀ os₁, os₁ <+: os → (runSpec (spec (ord cmp)) [] os₁).1.length < 2 ^ 63) ∧
    run (step cmp) Map.new os = some (m, rs) ∧ xs = (runSpec (spec (ord cmp)) [] os).1

theorem fits {os : List (Op K V)} {o : K → K → Ordering}
    (h : ∀ os₁, os₁ <+: os → (runSpec (spec o) [] os₁).1.length < 2 ^ 63) : Fits o 2 os :=
  fun os₁ hp => Nat.lt_of_lt_of_le (h os₁ hp) room_two

theorem Reached.avl {m : Map K V} {xs : List (K × V)} (h : Reached cmp m xs) :
    Avl.Reached cmp true 2 m xs := by
  obtain ⟨os, rs, h1, h2, h3⟩ := h
  exact ⟨os, rs, fits h1, h2, h3⟩

/-- Further calls. -/
theorem Reached.more (hc : LawfulEx cmp) {m : Map K V} {xs : List (K × V)} (h : Reached cmp m xs)
    (os : List (Op K V)) (hlen : xs.length + os.length < 2 ^ 63) :
    ∃ m' rs, run (step cmp) m os = some (m', rs) ∧
      Reached cmp m' (runSpec (spec (ord cmp)) xs os).1 := by
  obtain ⟨m', rs, h1, -⟩ := Avl.Reached.more hc cfg h.avl os (Nat.lt_of_lt_of_le hlen room_two)
  obtain ⟨os0, rs0, h2, h3, rfl⟩ := h
  refine ⟨m', rs, h1, os0 ++ os, rs0 ++ rs, ?_, ?_, ?_⟩
  · intro os₁ hp
    rcases List.prefix_or_prefix_of_prefix hp (List.prefix_append os0 os) with hp' | ⟨t, rfl⟩
    · exact h2 _ hp'
    · have h4 := (List.prefix_append_right_inj os0).1 hp
      have h5 := h4.length_le
      rw [runSpec_append]
      have h6 := runSpec_length (o := ord cmp) t (runSpec (spec (ord cmp)) [] os0).1
      simp only at h6 ⊢
      omega
  · rw [run_append, h3]
    simp [h1]
  · rw [runSpec_append]

/-! ### C33 -/

/-- C33: every history on sets of fewer than 2^63 items answers as the ideal set. -/
theorem C33_sorted_set (hc : LawfulEx cmp) (os : List (Op K V))
    (ha : ∀ op ∈ os, op.abstract = true)
    (hf : ∀ os₁, os₁ <+: os → (runSpec (spec (ord cmp)) [] os₁).1.length < 2 ^ 63) :
    ∃ m, run (step cmp) Map.new os = some (m, (runSpec (spec (ord cmp)) [] os).2) ∧
      (runSpec (spec (ord cmp)) [] os).1.Pairwise (fun a b => exOrd (cmp a.1 b.1) = .lt) := by
  obtain ⟨m, rs, h3, -, hR⟩ := run_ok hc cfg (fits hf)
  have h4 := (run_partial (step := step cmp) (spec := spec (ord cmp)) (Rel cmp)
    (fun op => op.abstract = true) (fun _ _ _ _ _ ha hR h => step_partial hc ha hR h) os ha _ _ _ _
    Rel.new h3).1
  rw [h4] at h3
  exact ⟨m, h3, hR.sorted⟩

theorem short_fits {os : List (Op K V)} {o : K → K → Ordering} (h : os.length < 2 ^ 63) :
    ∀ os₁, os₁ <+: os → (runSpec (spec o) [] os₁).1.length < 2 ^ 63 := by
  intro os₁ hp
  have h1 := runSpec_length (o := o) os₁ []
  have h2 := hp.length_le
  simp only [List.length_nil] at h1
  omega

example : ∃ m, run (step Compare.anyEx) Map.new demo =
    some (m, [.bool true, .bool true, .bool true, .bool false, .bool true, .val (some "c"),
      .val (some "b"), .val none, .nat 2, .list ["A", "c"]]) := by
  obtain ⟨m, h, -⟩ := C33_sorted_set anyEx_lawful demo (by decide) (short_fits (by decide))
  exact ⟨m, h.trans rfl⟩

/-! ### C34 -/

/-- C34, union: an item of the other set replaces an equal one of the receiver. -/
theorem C34_union (hc : LawfulEx cmp) {m other : Map K V} {xs ys : List (K × V)}
    (hm : Reached cmp m xs) (ho : Reached cmp other ys) (hlen : xs.length + ys.length < 2 ^ 62) :
    ∃ m' zs, union cmp m other = some m' ∧ Reached cmp m' zs ∧
      (∀ e, e ∈ zs ↔ e ∈ ys ∨ (e ∈ xs ∧ ∀ y ∈ ys, exOrd (cmp y.1 e.1) ≠ .eq)) ∧
      ∀ k, has (ord cmp) k zs = (has (ord cmp) k xs || has (ord cmp) k ys) := by
  have := hc.trans
  have ro := (ho.avl.inv hc cfg).2
  obtain ⟨m', rs, h1, h2⟩ := hm.more hc (ys.map fun e => Op.set e.1 e.2) (by simp; omega)
  have hmem := runSpec_set (o := ord cmp) ro.sorted xs
  have hmem' : ∀ e, e ∈ (runSpec (spec (ord cmp)) xs (ys.map fun e => Op.set e.1 e.2)).1 ↔
      e ∈ ys ∨ (e ∈ xs ∧ ∀ y ∈ ys, exOrd (cmp y.1 e.1) ≠ .eq) := by
    intro e
    rw [hmem]
    simp [has]
  refine ⟨m', _, ?_, h2, hmem', ?_⟩
  · unfold union
    rw [traverse_all, ro.list, each_run (cmp := cmp) (g := fun e => Op.set e.1 e.2), h1]
    · rfl
    · intro m b
      simp [Avl.step, Option.map_map, Function.comp_def]
  · intro k
    rw [Bool.eq_iff_iff]
    simp only [has, List.any_eq_true, Bool.or_eq_true, beq_iff_eq]
    constructor
    · rintro ⟨e, he, hk⟩
      rcases (hmem' e).1 he with h | h
      · exact .inr ⟨e, h, hk⟩
      · exact .inl ⟨e, h.1, hk⟩
    · rintro (⟨e, he, hk⟩ | ⟨e, he, hk⟩)
      · by_cases h : ∀ y ∈ ys, exOrd (cmp y.1 e.1) ≠ .eq
        · exact ⟨e, (hmem' e).2 (.inr ⟨he, h⟩), hk⟩
        · push Not at h
          obtain ⟨y, hy, hy'⟩ := h
          exact ⟨y, (hmem' y).2 (.inl hy), Ord.eq_trans (o := ord cmp) hy' hk⟩
      · exact ⟨e, (hmem' e).2 (.inl he), hk⟩

/-- C34, intersection: the items of the receiver with an equal one in the other set. -/
theorem C34_intersection (hc : LawfulEx cmp) {m other : Map K V} {xs ys : List (K × V)}
    (hm : Reached cmp m xs) (ho : Reached cmp other ys) (hlen : xs.length + ys.length < 2 ^ 62) :
    ∃ m', intersection cmp m other = some m' ∧
      Reached cmp m' (xs.filter fun e => ys.any fun y => exOrd (cmp y.1 e.1) == .eq) := by
  have := hc.trans
  have rm := (hm.avl.inv hc cfg).2
  have ro := (ho.avl.inv hc cfg).2
  have hl := List.length_filter_le (fun e => !has (ord cmp) e.1 ys) xs
  obtain ⟨m', rs, h1, h2⟩ := hm.more hc
    (((xs.filter fun e => !has (ord cmp) e.1 ys).map (·.1)).map Op.remove) (by simp only [List.length_map]; omega)
  refine ⟨m', ?_, ?_⟩
  · unfold intersection
    rw [traverse_all, rm.list, missing_ok hc ro, Option.bind_some,
      each_run (cmp := cmp) (g := Op.remove), h1]
    · rfl
    · intro m b
      simp [Avl.step, Option.map_map, Function.comp_def]
  · rw [runSpec_remove] at h2
    convert h2 using 1
    apply List.filter_congr
    intro e he
    rw [Bool.eq_iff_iff, Bool.not_eq_true', List.any_eq_false]
    simp only [List.mem_map, List.mem_filter, Bool.not_eq_true', beq_iff_eq]
    constructor
    · rintro h k ⟨x, ⟨hx, hx'⟩, rfl⟩ hk
      have : has (ord cmp) x.1 ys = true := by
        simp only [List.any_eq_true, beq_iff_eq] at h
        obtain ⟨y, hy, hy'⟩ := h
        simp only [has, List.any_eq_true, beq_iff_eq]
        exact ⟨y, hy, Ord.eq_trans (o := ord cmp) hy' hk⟩
      rw [this] at hx'
      cases hx'
    · intro h
      by_contra hn
      refine h e.1 ⟨e, ⟨he, ?_⟩, rfl⟩ (Ord.refl (o := ord cmp) _)
      simpa [has] using hn

/-- C34, difference: the items of the receiver without an equal one in the other set. -/
theorem C34_difference (hc : LawfulEx cmp) {m other : Map K V} {xs ys : List (K × V)}
    (hm : Reached cmp m xs) (ho : Reached cmp other ys) (hlen : xs.length + ys.length < 2 ^ 62) :
    ∃ m', difference cmp m other = some m' ∧
      Reached cmp m' (xs.filter fun e => !ys.any fun y => exOrd (cmp y.1 e.1) == .eq) := by
  have := hc.trans
  have ro := (ho.avl.inv hc cfg).2
  obtain ⟨m', rs, h1, h2⟩ := hm.more hc ((ys.map (·.1)).map Op.remove)
    (by simp only [List.length_map]; omega)
  refine ⟨m', ?_, ?_⟩
  · unfold difference
    rw [traverse_all, ro.list, each_run (cmp := cmp) (g := fun e => Op.remove e.1)]
    · rw [List.map_map] at h1
      rw [show (fun e : K × V => Op.remove (V := V) e.1) = Op.remove ∘ (·.1) from rfl, h1]
      rfl
    · intro m b
      simp [Avl.step, Option.map_map, Function.comp_def]
  · rw [runSpec_remove] at h2
    convert h2 using 1
    apply List.filter_congr
    intro e _
    congr 1
    rw [Bool.eq_iff_iff]
    simp only [List.any_eq_true, List.mem_map, beq_iff_eq]
    constructor
    · rintro ⟨y, hy, h⟩
      exact ⟨y.1, ⟨y, hy, rfl⟩, Ord.eq_symm (o := ord cmp) h⟩
    · rintro ⟨k, ⟨y, hy, rfl⟩, h⟩
      exact ⟨y, hy, Ord.eq_symm (o := ord cmp) h⟩

/-- For the examples: the sets {1, 2, 3} and {2, 4}. -/
theorem demo_sets : ∃ m other, Reached Compare.anyEx m [((1 : Int), "a"), (2, "b"), (3, "c")] ∧
    Reached Compare.anyEx other [((2 : Int), "B"), (4, "D")] := by
  obtain ⟨m, h, -⟩ := C33_sorted_set anyEx_lawful [Op.put 3 "c", .put 1 "a", .put 2 "b"]
    (by decide) (short_fits (by decide))
  obtain ⟨m', h', -⟩ := C33_sorted_set anyEx_lawful [Op.put 2 "B", .put 4 "D"]
    (by decide) (short_fits (by decide))
  exact ⟨m, m', ⟨_, _, short_fits (by decide), h, rfl⟩, ⟨_, _, short_fits (by decide), h', rfl⟩⟩

example : ∃ m other m' m'' : Map Int String, intersection Compare.anyEx m other = some m' ∧
    Reached Compare.anyEx m' [(2, "b")] ∧ difference Compare.anyEx m other = some m'' ∧
    Reached Compare.anyEx m'' [(1, "a"), (3, "c")] := by
  obtain ⟨m, other, h1, h2⟩ := demo_sets
  obtain ⟨m', h3, h4⟩ := C34_intersection anyEx_lawful h1 h2 (by decide)
  obtain ⟨m'', h5, h6⟩ := C34_difference anyEx_lawful h1 h2 (by decide)
  exact ⟨m, other, m', m'', h3, h4, h5, h6⟩

example : ∃ m other m' : Map Int String, ∃ zs, union Compare.anyEx m other = some m' ∧
    Reached Compare.anyEx m' zs ∧ (2, "B") ∈ zs ∧ (2, "b") ∉ zs ∧ (1, "a") ∈ zs := by
  obtain ⟨m, other, h1, h2⟩ := demo_sets
  obtain ⟨m', zs, h3, h4, h5, -⟩ := C34_union anyEx_lawful h1 h2 (by decide)
  exact ⟨m, other, m', zs, h3, h4, by rw [h5]; decide, by rw [h5]; decide, by rw [h5]; decide⟩

/-! ### C35 -/

/-- C35: heights are exact, siblings differ by at most one, the height is logarithmic in the size
(`2^(h/2) ≤ size + 1`), and at most 126, so that `int8` does not overflow. -/
theorem C35_balanced (hc : LawfulEx cmp) {m : Map K V} {xs : List (K × V)} (h : Reached cmp m xs) :
    m.height = some (m.root.height : Int) ∧ Exact m.root ∧ Bal 2 m.root ∧
      2 ^ (m.root.height / 2) ≤ xs.length + 1 ∧ m.root.height ≤ 126 := by
  obtain ⟨hI, hR⟩ := h.avl.inv hc cfg
  have h3 := step_height (one := true) (d := 2) hR
  simp only [Avl.step, Option.map_eq_some_iff] at h3
  obtain ⟨hh, h4, h5⟩ := h3
  cases h5
  have hb := hI.good.2 (by decide)
  refine ⟨by rw [h4, hI.good.1.hgt], hI.good.1, hb, ?_, height_of_room hR hI.good h.avl.size⟩
  have h6 := minNodes_le_count (by decide) hb
  rw [count_eq, hR.list] at h6
  have h7 := minNodes_two (m.root.height / 2)
  have h8 := minNodes_mono 1 (show 2 * (m.root.height / 2) ≤ m.root.height by omega)
  exact Nat.le_trans h7 (Nat.succ_le_succ (Nat.le_trans h8 h6))

example : ∃ m : Map Int String, 2 ^ (m.root.height / 2) ≤ 3 + 1 := by
  obtain ⟨m, _, h, -⟩ := demo_sets
  exact ⟨m, (C35_balanced anyEx_lawful h).2.2.2.1⟩

/-! ### C36 -/

/-- C36: every history of calls on an iterator answers as the cursor `ispec` and never panics; `Key`
and `Value` only when valid; afterwards every seek goes to the entry it documents. `Seek*Exact` are
the seeks with their answer, `Seek*` without. -/
theorem C36_iterator (hc : LawfulEx cmp) {m : Map K V} {xs : List (K × V)} (h : Reached cmp m xs)
    (ops : List (IOp K)) (hl : LegalRun (ispec (ord cmp) false xs) (ilegal xs) none ops) :
    ∃ it it', m.iterator = some it ∧ run (istep cmp false m.root) it ops =
      some (it', (runSpec (ispec (ord cmp) false xs) none ops).2) ∧
      ∀ key, Seeks cmp false m.root xs it' key := by
  obtain ⟨hI, hR⟩ := h.avl.inv hc cfg
  obtain ⟨it, h3, h4⟩ := iterator_ok hI
  have hx := hR.list
  subst hx
  obtain ⟨it', h5, -, h6⟩ := iter_run hc false hR.sorted h4 ops hl
  exact ⟨it, it', h3, h5, h6⟩

/-- C36, scans: forwards and backwards exactly the items. -/
theorem C36_scan (hc : LawfulEx cmp) {m : Map K V} {xs : List (K × V)} (h : Reached cmp m xs) :
    ∃ it it' it'', m.iterator = some it ∧
      run (istep cmp false m.root) it (scan false xs.length) = some (it', sees xs) ∧
      run (istep cmp false m.root) it (scan true xs.length) = some (it'', sees xs.reverse) := by
  obtain ⟨f1, f2⟩ := scan_forward_spec (o := ord cmp) (b := false) xs
  obtain ⟨b1, b2⟩ := scan_backward_spec (o := ord cmp) (b := false) xs
  obtain ⟨it, it', g1, g2, -⟩ := C36_iterator hc h _ f1
  obtain ⟨it2, it'', g3, g4, -⟩ := C36_iterator hc h _ b1
  rw [g1] at g3
  cases g3
  exact ⟨it, it', it'', g1, by rw [g2, f2], by rw [g4, b2]⟩

example : ∃ (m : Map Int String) (it it' : Iter Int Int String), m.iterator = some it ∧
    run (istep Compare.anyEx false m.root) it [.seekLT 3, .entry, .next, .entry, .next, .valid] =
    some (it', [.bool true, .entry (2, "b"), .unit, .entry (3, "c"), .unit, .bool false]) := by
  obtain ⟨m, _, h, -⟩ := demo_sets
  obtain ⟨it, it', h1, h2, -⟩ := C36_iterator anyEx_lawful h
    [.seekLT 3, .entry, .next, .entry, .next, .valid]
    ⟨trivial, ⟨1, rfl, by decide, by decide⟩, trivial, ⟨2, rfl, by decide, by decide⟩, trivial,
      trivial, trivial⟩
  exact ⟨m, it, it', h1, h2.trans rfl⟩

end Verif.TreeSet
