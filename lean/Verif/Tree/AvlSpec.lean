import Verif.Tree.AvlLemmas
import Verif.Common.Guard

/-! The ideal sorted map, and the relation of the tree to it. -/

namespace Verif.Avl

open Tree

variable {K V : Type}

section
variable (o : K → K → Ordering)

/-- Is there an entry with this key? -/
def has (k : K) (xs : List (K × V)) : Bool := xs.any fun e => o e.1 k == .eq

/-- The ideal map is the list of its entries; a new entry goes after the smaller and before the
greater ones. -/
def insertEntry (e : K × V) (xs : List (K × V)) : List (K × V) :=
  xs.filter (fun x => o x.1 e.1 == .lt) ++ e :: xs.filter (fun x => o x.1 e.1 == .gt)

/-- The ideal map. -/
def spec (xs : List (K × V)) : Op K V → List (K × V) × Res K V
  | .put k v => if has o k xs then (xs, .bool false) else (insertEntry o (k, v) xs, .bool true)
  | .insertIfAbsent k v =>
    if has o k xs then (xs, .bool false) else (insertEntry o (k, v) xs, .bool true)
  | .set k v =>
    if has o k xs then (xs.map fun e => if o e.1 k == .eq then (k, v) else e, .bool false)
    else (insertEntry o (k, v) xs, .bool true)
  | .upsert k v =>
    if has o k xs then (xs.map fun e => if o e.1 k == .eq then (e.1, v) else e, .bool true)
    else (insertEntry o (k, v) xs, .bool false)
  | .get k => (xs, .val ((xs.find? fun e => o e.1 k == .eq).map (·.2)))
  | .contains k => (xs, .bool (has o k xs))
  | .remove k => (xs.filter fun e => o e.1 k != .eq,
      .val ((xs.find? fun e => o e.1 k == .eq).map (·.2)))
  | .delete k => (xs.filter fun e => o e.1 k != .eq,
      .val ((xs.find? fun e => o e.1 k == .eq).map (·.2)))
  | .clear => ([], .unit)
  | .size => (xs, .nat xs.length)
  | .len => (xs, .nat xs.length)
  | .empty => (xs, .bool (xs.length = 0))
  | .height => (xs, .unit)
  | .values => (xs, .list (xs.map (·.2)))
  | .traverse every => (xs, .entries (seen (fun e => every e.1 e.2) xs))

end

/-- Calls other than `Height`, whose answer the ideal map does not know. -/
def Op.abstract : Op K V → Bool
  | .height => false
  | _ => true

section
variable {o : K → K → Ordering}

theorem has_iff {k : K} {xs : List (K × V)} : has o k xs = !(same o k xs).isEmpty := by
  rw [Bool.eq_iff_iff]
  simp only [has, List.any_eq_true, same, Bool.not_eq_true', List.isEmpty_eq_false_iff,
    ne_eq, List.filter_eq_nil_iff]
  push Not
  simp

theorem find_same {k : K} {xs : List (K × V)} :
    xs.find? (fun e => o e.1 k == .eq) = (same o k xs).head? := by
  rw [same, List.head?_filter]

theorem filter_ne {k : K} {xs : List (K × V)} [Std.TransCmp o] (h : SortedLE o xs) :
    xs.filter (fun e => o e.1 k != .eq) = below o k xs ++ above o k xs := by
  conv_lhs => rw [parts k h]
  rw [List.filter_append, List.filter_append, List.filter_eq_self.2, List.filter_eq_nil_iff.2,
    List.filter_eq_self.2]
  · simp
  · intro e he; simp [(mem_above.1 he).2]
  · intro e he; simp [(mem_same.1 he).2]
  · intro e he; simp [(mem_below.1 he).2]

theorem map_same {k : K} {xs : List (K × V)} [Std.TransCmp o] (h : SortedLE o xs)
    (f : K × V → K × V) :
    (xs.map fun e => if o e.1 k == .eq then f e else e) =
      below o k xs ++ (same o k xs).map f ++ above o k xs := by
  conv_lhs => rw [parts k h]
  rw [List.map_append, List.map_append]
  congr 1
  · congr 1
    · conv_rhs => rw [← List.map_id (below o k xs)]
      refine List.map_congr_left fun e he => ?_
      simp [(mem_below.1 he).2]
    · refine List.map_congr_left fun e he => ?_
      simp [(mem_same.1 he).2]
  · conv_rhs => rw [← List.map_id (above o k xs)]
    refine List.map_congr_left fun e he => ?_
    simp [(mem_above.1 he).2]

theorem sorted_mapSame {k : K} {xs : List (K × V)} [Std.TransCmp o] (h : Sorted o xs)
    {f : K × V → K × V} (hf : ∀ e, o e.1 k = .eq → o (f e).1 k = .eq) :
    Sorted o (below o k xs ++ (same o k xs).map f ++ above o k xs) := by
  rcases h.same_le k with e | ⟨e, e', he⟩
  · rw [e]; simpa using h.erase k
  · rw [e']; simpa using h.put (hf e he)

end

/-- The tree holds the entries `xs`. -/
structure Rel (cmp : K → K → Int) (m : Map K V) (xs : List (K × V)) : Prop where
  list : m.root.toList = xs
  sorted : Sorted (ord cmp) xs
  size : m.size = xs.length

section
variable {cmp : K → K → Int}

theorem length_of_parts (hc : LawfulEx cmp) {xs : List (K × V)} (h : Sorted (ord cmp) xs) (k : K) :
    xs.length = (below (ord cmp) k xs).length + (same (ord cmp) k xs).length +
      (above (ord cmp) k xs).length := by
  have := hc.trans
  conv_lhs => rw [parts k h.le]
  simp [Nat.add_assoc]

/-- The entries and the size after a successful `Set`-like call. -/
theorem put_rel (hc : LawfulEx cmp) {one : Bool} {d : Int} {m : Map K V} {xs : List (K × V)}
    (hR : Rel cmp m xs) {k : K} {v : V} {upd : K × V → K × V} {p : T K V × Bool × Bool}
    (hu : ∀ e, ord cmp e.1 k = .eq → ord cmp (upd e).1 k = .eq)
    (h : put cmp one d k v upd m.root false = some p) :
    p.2.1 = has (ord cmp) k xs ∧
    Rel cmp ⟨p.1, if p.2.1 then m.size else m.size + 1⟩
      (if has (ord cmp) k xs then xs.map fun e => if ord cmp e.1 k == .eq then upd e else e
        else insertEntry (ord cmp) (k, v) xs) := by
  have := hc.trans
  obtain ⟨h1, h2, h3⟩ := hR
  obtain ⟨e1, e2⟩ := put_list hc (by rw [h1]; exact h2) h
  rw [h1] at e1 e2
  rw [← has_iff] at e2
  refine ⟨e2, ?_⟩
  rw [e2]
  by_cases hh : has (ord cmp) k xs = true
  · rw [if_pos hh, if_pos hh]
    rw [has_iff, Bool.not_eq_true'] at hh
    simp only [hh, Bool.false_eq_true, if_false] at e1
    refine ⟨?_, ?_, ?_⟩
    · rw [e1, map_same h2.le]
    · rw [map_same h2.le]; exact sorted_mapSame h2 hu
    · simp [h3]
  · rw [if_neg hh, if_neg hh]
    rw [has_iff, Bool.not_eq_true', Bool.not_eq_false] at hh
    simp only [hh, if_true] at e1
    refine ⟨?_, ?_, ?_⟩
    · rw [e1]; simp [insertEntry, below, above]
    · exact h2.put (Ord.refl _)
    · have := length_of_parts hc h2 k
      rw [List.isEmpty_iff] at hh
      rw [hh] at this
      simp only [List.length_nil] at this
      simp only [insertEntry, List.length_append, List.length_cons, h3]
      rw [this]
      simp [below, above]
      omega

theorem remove_rel (hc : LawfulEx cmp) {one : Bool} {d : Int} {m : Map K V} {xs : List (K × V)}
    (hR : Rel cmp m xs) {k : K} {p : T K V × Option V × Bool}
    (h : remove one d cmp k m.root true = some p) :
    p.2.1 = (xs.find? fun e => ord cmp e.1 k == .eq).map (·.2) ∧
    Rel cmp ⟨p.1, if p.2.1.isSome then m.size - 1 else m.size⟩
      (xs.filter fun e => ord cmp e.1 k != .eq) := by
  have := hc.trans
  obtain ⟨h1, h2, h3⟩ := hR
  obtain ⟨e1, e2⟩ := remove_list hc (by rw [h1]; exact h2) h
  rw [h1] at e1 e2
  rw [find_same, e2]
  refine ⟨rfl, ?_, ?_, ?_⟩
  · rw [filter_ne h2.le]; exact e1
  · rw [filter_ne h2.le]; exact h2.erase k
  · rw [filter_ne h2.le, h3, length_of_parts hc h2 k]
    rcases h2.same_le k with e | ⟨e, e', -⟩
    · simp [e]
    · simp [e']

theorem map_id' {o : K → K → Ordering} {k : K} (xs : List (K × V)) :
    (xs.map fun e => if o e.1 k == .eq then id e else e) = xs := by
  simp

/-- Every call that succeeds answers as the ideal map. -/
theorem step_partial (hc : LawfulEx cmp) {one : Bool} {d : Int} {m m' : Map K V}
    {xs : List (K × V)} {op : Op K V} {r : Res K V} (ha : op.abstract = true) (hR : Rel cmp m xs)
    (h : step cmp one d m op = some (m', r)) :
    r = (spec (ord cmp) xs op).2 ∧ Rel cmp m' (spec (ord cmp) xs op).1 := by
  have := hc.trans
  have hput : ∀ (k : K) (v : V) (p : Map K V × Bool), m.put cmp one d k v = some p →
      p.2 = !has (ord cmp) k xs ∧
      Rel cmp p.1 (if has (ord cmp) k xs then xs else insertEntry (ord cmp) (k, v) xs) := by
    intro k v p hp
    simp only [Map.put, Option.map_eq_some_iff] at hp
    obtain ⟨q, h1, rfl⟩ := hp
    obtain ⟨h2, h3⟩ := put_rel hc hR (upd := id) (fun _ => id) h1
    rw [map_id'] at h3
    exact ⟨by rw [h2], h3⟩
  have hset : ∀ (k : K) (v : V) (p : Map K V × Bool), m.set cmp one d k v = some p →
      p.2 = !has (ord cmp) k xs ∧
      Rel cmp p.1 (if has (ord cmp) k xs then
        xs.map fun e => if ord cmp e.1 k == .eq then (k, v) else e
        else insertEntry (ord cmp) (k, v) xs) := by
    intro k v p hp
    simp only [Map.set, Option.map_eq_some_iff] at hp
    obtain ⟨q, h1, rfl⟩ := hp
    obtain ⟨h2, h3⟩ := put_rel hc hR (upd := fun _ => (k, v)) (fun _ _ => Ord.refl _) h1
    exact ⟨by rw [h2], h3⟩
  have hrem : ∀ (k : K) (p : Map K V × Option V), m.remove cmp one d k = some p →
      p.2 = (xs.find? fun e => ord cmp e.1 k == .eq).map (·.2) ∧
      Rel cmp p.1 (xs.filter fun e => ord cmp e.1 k != .eq) := by
    intro k p hp
    simp only [Map.remove, Option.map_eq_some_iff] at hp
    obtain ⟨q, h1, rfl⟩ := hp
    exact remove_rel hc hR h1
  have hget : ∀ k : K, Avl.get cmp k m.root = some (same (ord cmp) k xs).head? := by
    intro k
    rw [get_eq hc (by rw [hR.list]; exact hR.sorted), hR.list]
  have hhas : ∀ k : K, has (ord cmp) k xs = (same (ord cmp) k xs).head?.isSome := by
    intro k
    rw [has_iff]
    cases same (ord cmp) k xs <;> rfl
  cases op with
  | put k v =>
    simp only [step, Option.map_eq_some_iff] at h
    obtain ⟨p, hp, h⟩ := h
    cases h
    obtain ⟨h1, h2⟩ := hput k v p hp
    simp only [spec, h1]
    by_cases hh : has (ord cmp) k xs = true
    · simp_all
    · rw [Bool.not_eq_true] at hh; simp_all
  | insertIfAbsent k v =>
    simp only [step, Option.map_eq_some_iff] at h
    obtain ⟨p, hp, h⟩ := h
    cases h
    obtain ⟨h1, h2⟩ := hput k v p hp
    simp only [spec, h1]
    by_cases hh : has (ord cmp) k xs = true
    · simp_all
    · rw [Bool.not_eq_true] at hh; simp_all
  | set k v =>
    simp only [step, Option.map_eq_some_iff] at h
    obtain ⟨p, hp, h⟩ := h
    cases h
    obtain ⟨h1, h2⟩ := hset k v p hp
    simp only [spec, h1]
    by_cases hh : has (ord cmp) k xs = true
    · rw [if_pos hh] at h2 ⊢; exact ⟨by simp [hh], h2⟩
    · rw [if_neg hh] at h2 ⊢; exact ⟨by simp [hh], h2⟩
  | upsert k v =>
    simp only [step, Map.upsert, Option.map_eq_some_iff, hget, Option.bind_some] at h
    obtain ⟨p, hp, h⟩ := h
    cases h
    simp only [spec]
    by_cases hh : has (ord cmp) k xs = true
    · rw [if_pos (by rw [← hhas]; exact hh)] at hp
      rw [if_pos hh]
      obtain ⟨t, h1, rfl⟩ := Option.map_eq_some_iff.1 hp
      obtain ⟨t', h2, h3, -⟩ := setVal_ok hc (key := k) (val := v) (t := m.root)
        (by rw [hR.list]; exact hR.sorted)
      rw [h2] at h1
      cases h1
      rw [hR.list] at h3
      refine ⟨rfl, ?_, ?_, ?_⟩
      · rw [h3, ← map_same hR.sorted.le]
      · rw [map_same hR.sorted.le]; exact sorted_mapSame hR.sorted fun _ => id
      · simp [hR.size]
    · rw [if_neg (by rw [← hhas]; exact hh)] at hp
      rw [if_neg hh]
      obtain ⟨q, h1, rfl⟩ := Option.map_eq_some_iff.1 hp
      obtain ⟨h2, h3⟩ := hset k v q h1
      rw [if_neg hh] at h3
      exact ⟨rfl, h3⟩
  | get k =>
    simp only [step, Map.get, hget, Option.map_some] at h
    cases h
    exact ⟨by rw [spec, find_same], hR⟩
  | contains k =>
    simp only [step, Map.get, hget, Option.map_some] at h
    cases h
    exact ⟨by rw [spec, hhas]; simp, hR⟩
  | remove k =>
    simp only [step, Option.map_eq_some_iff] at h
    obtain ⟨p, hp, h⟩ := h
    cases h
    obtain ⟨h1, h2⟩ := hrem k p hp
    exact ⟨by rw [spec, h1], h2⟩
  | delete k =>
    simp only [step, Option.map_eq_some_iff] at h
    obtain ⟨p, hp, h⟩ := h
    cases h
    obtain ⟨h1, h2⟩ := hrem k p hp
    exact ⟨by rw [spec, h1], h2⟩
  | clear => cases h; exact ⟨rfl, rfl, List.Pairwise.nil, rfl⟩
  | size => cases h; exact ⟨by rw [spec, hR.size], hR⟩
  | len => cases h; exact ⟨by rw [spec, hR.size], hR⟩
  | empty => cases h; exact ⟨by rw [spec, hR.size], hR⟩
  | height => exact absurd ha (by simp [Op.abstract])
  | values =>
    cases h
    refine ⟨?_, hR⟩
    rw [spec, Tree.traverse_eq, hR.list, hR.size]
    simp only [seen_true]
    cases xs <;> simp
  | traverse every =>
    cases h
    exact ⟨by rw [spec, Tree.traverse_eq, hR.list], hR⟩

/-- `Height` never fails and changes nothing. -/
theorem step_height {one : Bool} {d : Int} {m : Map K V} {xs : List (K × V)} (hR : Rel cmp m xs) :
    step cmp one d m .height = some (m, .int (hgt m.root)) := by
  obtain ⟨h1, -, h3⟩ := hR
  simp only [step, Map.height]
  cases hm : m.root with
  | nil =>
    rw [hm] at h1
    rw [if_pos (by rw [h3, ← h1]; rfl)]; rfl
  | node h k v l r =>
    rw [hm] at h1
    rw [if_neg (by rw [h3, ← h1]; simp)]; rfl

/-- The invariant: entries sorted, size right, heights exact, tree balanced. -/
structure Inv (cmp : K → K → Int) (d : Int) (m : Map K V) : Prop where
  rel : Rel cmp m m.root.toList
  good : Good d m.root

theorem Inv.new {d : Int} : Inv cmp d (Map.new : Map K V) :=
  ⟨⟨rfl, List.Pairwise.nil, rfl⟩, trivial, fun _ => trivial⟩

/-- One call on a tree of height at most 126. -/
theorem step_ok (hc : LawfulEx cmp) {one : Bool} {d : Int} (cfg : Cfg one d) {m : Map K V}
    (hI : Inv cmp d m) (hb : m.root.height ≤ 126) (op : Op K V) :
    ∃ m' r, step cmp one d m op = some (m', r) ∧ Inv cmp d m' ∧ m'.root.height ≤ m.root.height + 1 := by
  have key : (∃ m' r, step cmp one d m op = some (m', r) ∧ Good d m'.root ∧
      m'.root.height ≤ m.root.height + 1) →
      ∃ m' r, step cmp one d m op = some (m', r) ∧ Inv cmp d m' ∧
        m'.root.height ≤ m.root.height + 1 := by
    rintro ⟨m', r, h1, h2, h3⟩
    refine ⟨m', r, h1, ⟨?_, h2⟩, h3⟩
    by_cases ha : op.abstract = true
    · have := (step_partial hc ha hI.rel h1).2
      exact this.list ▸ this
    · cases op <;> simp [Op.abstract] at ha
      rw [step_height hI.rel] at h1
      cases h1
      exact hI.rel
  refine key ?_
  have hsort : Sorted (ord cmp) m.root.toList := hI.rel.sorted
  have hget : ∀ k : K, Avl.get cmp k m.root = some (same (ord cmp) k m.root.toList).head? := by
    intro k
    exact get_eq hc hsort
  have hput : ∀ k v upd, ∃ t' ex rb, put cmp one d k v upd m.root false = some (t', ex, rb) ∧
      Good d t' ∧ t'.height ≤ m.root.height + 1 := by
    intro k v upd
    obtain ⟨t', ex, rb, h1, h2, -, h3, -⟩ := put_ok hc cfg (key := k) (val := v) (upd := upd)
      (sib := false) hI.good hb
    exact ⟨t', ex, rb, h1, h2, h3⟩
  have hrem : ∀ k, ∃ t' x b, remove one d cmp k m.root true = some (t', x, b) ∧
      Good d t' ∧ t'.height ≤ m.root.height + 1 := by
    intro k
    obtain ⟨t', x, b, h1, h2, h3, -⟩ := remove_ok hc cfg (key := k) (right := true) hI.good
      (Nat.le_trans hb (by omega))
    exact ⟨t', x, b, h1, h2, by omega⟩
  cases op with
  | put k v =>
    obtain ⟨t', ex, rb, h1, h2, h3⟩ := hput k v id
    simp only [step, Map.put, h1, Option.map_some]
    exact ⟨_, _, rfl, h2, h3⟩
  | insertIfAbsent k v =>
    obtain ⟨t', ex, rb, h1, h2, h3⟩ := hput k v id
    simp only [step, Map.put, h1, Option.map_some]
    exact ⟨_, _, rfl, h2, h3⟩
  | set k v =>
    obtain ⟨t', ex, rb, h1, h2, h3⟩ := hput k v fun _ => (k, v)
    simp only [step, Map.set, h1, Option.map_some]
    exact ⟨_, _, rfl, h2, h3⟩
  | upsert k v =>
    simp only [step, Map.upsert, hget, Option.bind_some]
    by_cases hh : (same (ord cmp) k m.root.toList).head?.isSome = true
    · rw [if_pos hh]
      obtain ⟨t', h2, h3, h4, h5, h6⟩ := setVal_ok hc (key := k) (val := v) (t := m.root) hsort
      rw [h2]
      exact ⟨_, _, rfl, ⟨h5 hI.good.1, fun hd => h6 d (hI.good.2 hd)⟩, by
        show t'.height ≤ _; omega⟩
    · rw [if_neg hh]
      obtain ⟨t', ex, rb, h1, h2, h3⟩ := hput k v fun _ => (k, v)
      simp only [Map.set, h1, Option.map_some]
      exact ⟨_, _, rfl, h2, h3⟩
  | get k =>
    simp only [step, Map.get, hget, Option.map_some]
    exact ⟨m, _, rfl, hI.good, by omega⟩
  | contains k =>
    simp only [step, Map.get, hget, Option.map_some]
    exact ⟨m, _, rfl, hI.good, by omega⟩
  | remove k =>
    obtain ⟨t', x, b, h1, h2, h3⟩ := hrem k
    simp only [step, Map.remove, h1, Option.map_some]
    exact ⟨_, _, rfl, h2, h3⟩
  | delete k =>
    obtain ⟨t', x, b, h1, h2, h3⟩ := hrem k
    simp only [step, Map.remove, h1, Option.map_some]
    exact ⟨_, _, rfl, h2, h3⟩
  | clear => exact ⟨_, _, rfl, ⟨trivial, fun _ => trivial⟩, by simp [height]⟩
  | size => exact ⟨m, _, rfl, hI.good, by omega⟩
  | len => exact ⟨m, _, rfl, hI.good, by omega⟩
  | empty => exact ⟨m, _, rfl, hI.good, by omega⟩
  | height => exact ⟨m, _, step_height hI.rel, hI.good, by omega⟩
  | values => exact ⟨m, _, rfl, hI.good, by omega⟩
  | traverse every => exact ⟨m, _, rfl, hI.good, by omega⟩

end

/-! ### Heights and sizes -/

/-- The least number of nodes of a tree of a given height whose siblings differ by less than
`e + 1`. -/
def minNodes (e : Nat) : Nat → Nat
  | 0 => 0
  | h + 1 => minNodes e h + minNodes e (h - e) + 1
decreasing_by all_goals omega

theorem minNodes_mono (e : Nat) {a b : Nat} (h : a ≤ b) : minNodes e a ≤ minNodes e b := by
  induction b with
  | zero => rw [Nat.le_zero.1 h]
  | succ b ih =>
    rcases Nat.lt_or_ge b a with h' | h'
    · rw [show a = b + 1 by omega]
    · have := ih h'
      rw [minNodes]; omega

theorem minNodes_le_count {d : Int} {t : T K V} (hd : 2 ≤ d) (h : Bal d t) :
    minNodes (d - 1).toNat t.height ≤ t.count := by
  induction t with
  | nil => simp [height, minNodes]
  | node a k v l r ihl ihr =>
    obtain ⟨b1, b2, b3, b4⟩ := h
    have h1 := ihl b3
    have h2 := ihr b4
    simp only [height, count, minNodes]
    rcases Nat.le_total l.height r.height with hh | hh
    · rw [Nat.max_eq_right hh]
      have := minNodes_mono (d - 1).toNat (show r.height - (d - 1).toNat ≤ l.height by omega)
      omega
    · rw [Nat.max_eq_left hh]
      have := minNodes_mono (d - 1).toNat (show l.height - (d - 1).toNat ≤ r.height by omega)
      omega

theorem minNodes_ge (e h : Nat) : h ≤ minNodes e h := by
  induction h with
  | zero => omega
  | succ h ih => rw [minNodes]; omega

theorem minNodes_two (h : Nat) : 2 ^ h ≤ minNodes 1 (2 * h) + 1 := by
  induction h with
  | zero => decide
  | succ h ih =>
    have e : minNodes 1 (2 * (h + 1)) = minNodes 1 (2 * h) + minNodes 1 (2 * h - 1) + 1 +
        minNodes 1 (2 * h) + 1 := by
      show minNodes 1 (2 * h + 1 + 1) = _
      rw [minNodes, minNodes, show 2 * h + 1 - 1 = 2 * h by omega]
    rw [e, Nat.pow_succ]
    omega

end Verif.Avl
