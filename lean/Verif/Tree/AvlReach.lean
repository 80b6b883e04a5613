import Verif.Tree.AvlSpec
import Verif.Tree.AvlIter

/-! Maps reached by histories that keep the tree within the range of the 8-bit heights. -/

namespace Verif.Avl

open Tree

variable {K V : Type}

/-- Number of entries below which the 8-bit heights of a tree with threshold `d` are large enough. -/
def room (d : Int) : Nat := if d ≤ 1 then 127 else minNodes (d - 1).toNat 127

/-- No prefix of the history holds as many entries as `room d`. -/
def Fits (o : K → K → Ordering) (d : Int) (os : List (Op K V)) : Prop :=
  ∀ os₁, os₁ <+: os → (runSpec (spec o) [] os₁).1.length < room d

/-- `m` is reached by a history that fits, and `xs` is the ideal map after that history. -/
def Reached (cmp : K → K → Int) (one : Bool) (d : Int) (m : Map K V) (xs : List (K × V)) : Prop :=
  ∃ os rs, Fits (ord cmp) d os ∧ run (step cmp one d) Map.new os = some (m, rs) ∧
    xs = (runSpec (spec (ord cmp)) [] os).1

variable {cmp : K → K → Int}

theorem step_state (hc : LawfulEx cmp) {one : Bool} {d : Int} {m m' : Map K V}
    {xs : List (K × V)} {op : Op K V} {r : Res K V} (hR : Rel cmp m xs)
    (h : step cmp one d m op = some (m', r)) : Rel cmp m' (spec (ord cmp) xs op).1 := by
  by_cases ha : op.abstract = true
  · exact (step_partial hc ha hR h).2
  · cases op <;> simp [Op.abstract] at ha
    rw [step_height hR] at h
    cases h
    exact hR

theorem Rel.new : Rel cmp (Map.new : Map K V) [] := ⟨rfl, List.Pairwise.nil, rfl⟩

theorem height_of_room {d : Int} {m : Map K V} {xs : List (K × V)}
    (hR : Rel cmp m xs) (hg : Good d m.root) (hx : xs.length < room d) : m.root.height ≤ 126 := by
  have h1 : m.root.count = xs.length := by rw [count_eq, hR.list]
  unfold room at hx
  split at hx
  · have := height_le_count m.root; omega
  · next h2 =>
    have h3 := minNodes_le_count (by omega) (hg.2 (by omega))
    by_contra h4
    have := minNodes_mono (d - 1).toNat (show 127 ≤ m.root.height by omega)
    omega

/-- A history that fits succeeds and keeps the invariant. -/
theorem run_ok (hc : LawfulEx cmp) {one : Bool} {d : Int} (cfg : Cfg one d) {os : List (Op K V)}
    (hf : Fits (ord cmp) d os) : ∃ m rs, run (step cmp one d) Map.new os = some (m, rs) ∧
      Inv cmp d m ∧ Rel cmp m (runSpec (spec (ord cmp)) [] os).1 := by
  suffices h : ∃ m rs, run (step cmp one d) Map.new os = some (m, rs) ∧ Inv cmp d m by
    obtain ⟨m, rs, h1, h2⟩ := h
    exact ⟨m, rs, h1, h2, run_state (step := step cmp one d) (spec := spec (ord cmp)) (Rel cmp) (fun s t o s' r hR h => step_state hc hR h) os _ _ _ _
      Rel.new h1⟩
  refine run_guard (Inv cmp d) (fun m => m.root.height ≤ 126) (fun m op hI hG => ?_) os Map.new
    Inv.new (fun os₁ os₂ m rs he _ hr hI => ?_)
  · obtain ⟨m', r, h1, h2, -⟩ := step_ok hc cfg hI hG op
    exact ⟨m', r, h1, h2⟩
  · have hR := run_state (step := step cmp one d) (spec := spec (ord cmp)) (Rel cmp) (fun s t o s' r hR h => step_state hc hR h) os₁ _ _ _ _
      Rel.new hr
    exact height_of_room hR hI.good (hf os₁ ⟨os₂, he.symm⟩)

theorem Reached.inv (hc : LawfulEx cmp) {one : Bool} {d : Int} (cfg : Cfg one d) {m : Map K V}
    {xs : List (K × V)} (h : Reached cmp one d m xs) : Inv cmp d m ∧ Rel cmp m xs := by
  obtain ⟨os, rs, h1, h2, rfl⟩ := h
  obtain ⟨m', rs', h3, h4, h5⟩ := run_ok hc cfg h1
  rw [h3] at h2
  cases h2
  exact ⟨h4, h5⟩

theorem Reached.size {one : Bool} {d : Int} {m : Map K V}
    {xs : List (K × V)} (h : Reached cmp one d m xs) : xs.length < room d := by
  obtain ⟨os, rs, h1, h2, rfl⟩ := h
  exact h1 os (List.prefix_refl _)

/-! ### Sizes -/

theorem room_ge {d : Int} : 127 ≤ room d := by
  unfold room
  split
  · omega
  · exact minNodes_ge _ _

theorem minNodes_odd (h : Nat) : 2 ^ h ≤ minNodes 1 (2 * h + 1) := by
  have h1 := minNodes_two h
  have h2 : minNodes 1 (2 * h + 1) = minNodes 1 (2 * h) + minNodes 1 (2 * h - 1) + 1 := by
    rw [minNodes]
  rw [h2]
  exact Nat.le_trans h1 (Nat.succ_le_succ (Nat.le_add_right _ _))

theorem room_two_ge (n : Nat) (h : 2 * n + 1 ≤ 127) : 2 ^ n ≤ room 2 := by
  have e : room 2 = minNodes (2 - 1 : Int).toNat 127 := if_neg (by decide)
  rw [e]
  exact Nat.le_trans (minNodes_odd n) (minNodes_mono 1 h)

theorem room_two : 2 ^ 63 ≤ room 2 := room_two_ge 63 (by decide)

/-- One call adds at most one entry. -/
theorem spec_length {o : K → K → Ordering} (xs : List (K × V)) (op : Op K V) :
    (spec o xs op).1.length ≤ xs.length + 1 := by
  have ins : ∀ e : K × V, (insertEntry o e xs).length ≤ xs.length + 1 := by
    intro e
    have h : ∀ ys : List (K × V), (ys.filter (fun x => o x.1 e.1 == .lt)).length +
        (ys.filter (fun x => o x.1 e.1 == .gt)).length ≤ ys.length := by
      intro ys
      induction ys with
      | nil => simp
      | cons y ys ih =>
        simp only [List.filter_cons, List.length_cons]
        cases o y.1 e.1 <;> simp <;> omega
    have := h xs
    simp only [insertEntry, List.length_append, List.length_cons]
    omega
  cases op <;> simp only [spec] <;> (try split) <;> simp_all
  all_goals exact Nat.le_trans (List.length_filter_le _ _) (by omega)

theorem runSpec_length {o : K → K → Ordering} (os : List (Op K V)) : ∀ xs : List (K × V),
    (runSpec (spec o) xs os).1.length ≤ xs.length + os.length := by
  induction os with
  | nil => intro xs; simp [runSpec]
  | cons op os ih =>
    intro xs
    have h1 := spec_length (o := o) xs op
    have h2 := ih (spec o xs op).1
    simp only [runSpec, List.length_cons]
    omega

/-- More calls on a map reached. -/
theorem Reached.more {one : Bool} {d : Int} {m : Map K V} {xs : List (K × V)} (hc : LawfulEx cmp)
    (cfg : Cfg one d) (h : Reached cmp one d m xs) (os : List (Op K V))
    (hlen : xs.length + os.length < room d) :
    ∃ m' rs, run (step cmp one d) m os = some (m', rs) ∧
      Reached cmp one d m' (runSpec (spec (ord cmp)) xs os).1 := by
  obtain ⟨os0, rs0, h1, h2, rfl⟩ := h
  have hf : Fits (ord cmp) d (os0 ++ os) := by
    intro os₁ hp
    rcases List.prefix_or_prefix_of_prefix hp (List.prefix_append os0 os) with h | h
    · exact h1 os₁ h
    · obtain ⟨t, rfl⟩ := h
      have ht : t <+: os := (List.prefix_append_right_inj os0).1 hp
      rw [runSpec_append]
      have := runSpec_length (o := ord cmp) t (runSpec (spec (ord cmp)) [] os0).1
      have := ht.length_le
      show (runSpec (spec (ord cmp)) _ t).1.length < _
      omega
  obtain ⟨m', rs', h3, -, -⟩ := run_ok hc cfg hf
  have h4 := run_append (step cmp one d) os0 os Map.new
  rw [h2] at h4
  simp only at h4
  cases h5 : run (step cmp one d) m os with
  | none => rw [h5] at h4; simp only at h4; rw [h3] at h4; cases h4
  | some p =>
    obtain ⟨m2, rs2⟩ := p
    rw [h5] at h4
    simp only at h4
    refine ⟨m2, rs2, rfl, os0 ++ os, rs0 ++ rs2, hf, h4, ?_⟩
    rw [runSpec_append]

/-! ### Iterators -/

/-- tree/avl/tree.go:154-156 `Iterator`, tree/avl/iterator_hide.go:5-14 `newIterator` (set/treeset and
tree/avls alike). -/
def Map.iterator (m : Map K V) : Option (Iter Int K V) :=
  m.height.bind fun h => if h < 0 then none else some ⟨h.toNat, nil, []⟩

theorem iterator_ok {d : Int} {m : Map K V} (h : Inv cmp d m) :
    ∃ it, m.iterator = some it ∧ Place m.root it none := by
  have h1 := step_height (one := false) (d := d) h.rel
  simp only [step, Option.map_eq_some_iff] at h1
  obtain ⟨hh, h2, h3⟩ := h1
  have h4 : hh = m.root.height := by
    have := h.good.1.hgt
    cases h3
    exact this
  refine ⟨⟨hh.toNat, nil, []⟩, ?_, .unset ?_ rfl rfl⟩
  · simp only [Map.iterator, h2, Option.bind_some]
    rw [if_neg (by omega)]
  · show m.root.height ≤ hh.toNat
    omega

end Verif.Avl
