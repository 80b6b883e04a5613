import Verif.Graph.Model
import Verif.Heap.Weak

/-! The states of a search, apart from the order of the heap. -/

namespace Verif.Astar

open Verif.Heap (PQ)
open Verif.Heap.Wk (Weak Rep)

/-! ### Positions -/

theorem inBounds_iff {g : Graph} {p : Pos} :
    inBounds g p = true ↔ 0 ≤ p.1 ∧ 0 ≤ p.2 ∧ p.1 < g.dimX ∧ p.2 < g.dimY := by
  simp [inBounds, and_assoc]

theorem mem_cells {g : Graph} {p : Pos} : p ∈ cells g ↔ inBounds g p = true := by
  rw [inBounds_iff]
  obtain ⟨x, y⟩ := p
  simp only [cells, List.mem_flatMap, List.mem_range, List.mem_map, Prod.mk.injEq]
  constructor
  · rintro ⟨b, hb, a, ha, rfl, rfl⟩; omega
  · rintro ⟨h1, h2, h3, h4⟩
    exact ⟨y.toNat, by omega, x.toNat, by omega, by omega, by omega⟩

theorem cells_length (g : Graph) : (cells g).length = g.dimX * g.dimY := by
  simp [cells, List.length_flatMap, Nat.mul_comm]

theorem cells_nodup (g : Graph) : (cells g).Nodup := by
  unfold cells
  rw [List.Nodup, List.pairwise_flatMap]
  refine ⟨fun y _ => ?_, ?_⟩
  · rw [List.pairwise_map]
    refine List.Pairwise.imp ?_ List.nodup_range
    intro a b hab h
    simp at h
    omega
  · refine List.Pairwise.imp ?_ List.nodup_range
    intro a b hab p hp q hq h
    simp only [List.mem_map] at hp hq
    obtain ⟨x, _, rfl⟩ := hp
    obtain ⟨z, _, rfl⟩ := hq
    simp at h
    omega

theorem mem_neighbors {g : Graph} {p q : Pos} :
    q ∈ neighbors g p ↔ (∃ d ∈ g.dirs, q = (p.1 + d.1, p.2 + d.2)) ∧ inBounds g q = true := by
  simp only [neighbors, List.mem_filter, List.mem_map]
  constructor
  · rintro ⟨⟨d, hd, rfl⟩, h⟩; exact ⟨⟨d, hd, rfl⟩, h⟩
  · rintro ⟨⟨d, hd, rfl⟩, h⟩; exact ⟨⟨d, hd, rfl⟩, h⟩

/-- What a search does not change. -/
structure Same (g g' : Graph) : Prop where
  dimX : g'.dimX = g.dimX
  dimY : g'.dimY = g.dimY
  dirs : g'.dirs = g.dirs
  start : g'.start = g.start
  fin : g'.fin = g.fin
  pathlist : g'.pathlist = g.pathlist
  attr : ∀ p, (g'.tiles p).attr = (g.tiles p).attr

theorem Same.refl (g : Graph) : Same g g := ⟨rfl, rfl, rfl, rfl, rfl, rfl, fun _ => rfl⟩

theorem Same.trans {a b c : Graph} (h : Same a b) (h' : Same b c) : Same a c :=
  ⟨h'.dimX.trans h.dimX, h'.dimY.trans h.dimY, h'.dirs.trans h.dirs, h'.start.trans h.start, h'.fin.trans h.fin,
    h'.pathlist.trans h.pathlist, fun p => (h'.attr p).trans (h.attr p)⟩

theorem Same.inBounds {g g' : Graph} (h : Same g g') (p : Pos) : inBounds g' p = inBounds g p := by
  simp [Astar.inBounds, h.dimX, h.dimY]

theorem Same.neighbors {g g' : Graph} (h : Same g g') (p : Pos) : neighbors g' p = neighbors g p := by
  unfold Astar.neighbors
  rw [h.dirs]
  congr 1
  funext q
  exact h.inBounds q

theorem Same.cells {g g' : Graph} (h : Same g g') : cells g' = cells g := by
  simp [Astar.cells, h.dimX, h.dimY]

/-! ### Transitions -/

section
variable (cost weight : Count)

/-- A look at the neighbour `n` of `t`; `m` is the content of the heap. -/
inductive Vis (t : Pos) : Graph → List Pos → Pos → Graph → List Pos → Prop
  | skip {g : Graph} {m : List Pos} {n : Pos} (h : ¬ ((g.tiles n).isCount = false ∧ (g.tiles n).attr ≠ BLOCK)) :
      Vis t g m n g m
  | add {g g' : Graph} {m : List Pos} {n : Pos} (hc : (g.tiles n).isCount = false) (hb : (g.tiles n).attr ≠ BLOCK)
      (same : Same g g')
      (tn : g'.tiles n = ⟨cost g n t, weight (g.set n { g.tiles n with cost := cost g n t }) n t, true,
        (g.tiles n).attr⟩)
      (tp : ∀ p, p ≠ n → g'.tiles p = g.tiles p) : Vis t g m n g' (n :: m)

inductive Exp (t : Pos) : Graph → List Pos → List Pos → Graph → List Pos → Prop
  | nil {g : Graph} {m : List Pos} : Exp t g m [] g m
  | cons {g g1 g2 : Graph} {m m1 m2 : List Pos} {n : Pos} {ns : List Pos} (h : Vis cost weight t g m n g1 m1)
      (hs : Exp t g1 m1 ns g2 m2) : Exp t g m (n :: ns) g2 m2

/-- The tiles at the top of the loop: what is in the heap and what has been taken from it. -/
inductive At (g0 : Graph) (s e : Pos) : Graph → List Pos → List Pos → Prop
  | init {h : PQ Pos} : At g0 s e { g0 with heap := h } [s] []
  | round {g g' : Graph} {m m1 m' P : List Pos} {t : Pos} {h : PQ Pos} (ha : At g0 s e g m P) (hp : m.Perm (t :: m1))
      (hmax : ∀ y ∈ m, (g.tiles y).weight ≤ (g.tiles t).weight) (hne : t ≠ e)
      (hx : Exp cost weight t { g with heap := h } m1 (neighbors g t) g' m') : At g0 s e g' m' (t :: P)

variable {cost weight}

theorem Vis.same {t n : Pos} {g g' : Graph} {m m' : List Pos} (h : Vis cost weight t g m n g' m') : Same g g' := by
  cases h with
  | skip => exact Same.refl _
  | add _ _ h => exact h

theorem Exp.same {t : Pos} {ns : List Pos} {g g' : Graph} {m m' : List Pos} (h : Exp cost weight t g m ns g' m') :
    Same g g' := by
  induction h with
  | nil => exact Same.refl _
  | cons h _ ih => exact h.same.trans ih

theorem same_heap (g : Graph) (h : PQ Pos) : Same g { g with heap := h } := ⟨rfl, rfl, rfl, rfl, rfl, rfl, fun _ => rfl⟩

theorem At.same {g0 : Graph} {s e : Pos} {g : Graph} {m P : List Pos} (h : At cost weight g0 s e g m P) :
    Same g0 g := by
  induction h with
  | init => exact same_heap _ _
  | round _ _ _ _ hx ih => exact (ih.trans (same_heap _ _)).trans hx.same

/-! ### The heap -/

/-- A greater weight comes first. -/
abbrev heavier (tiles : Pos → Tile) (a b : Pos) : Prop := (tiles b).weight ≤ (tiles a).weight

theorem weak (tiles : Pos → Tile) : Weak (weightCompare tiles) (heavier tiles) := by
  constructor
  · intro a; exact Int.le_refl _
  · intro a b c h h'; exact Int.le_trans h' h
  · intro a b h; unfold weightCompare at h; split at h <;> (simp [heavier] at *; try omega)
  · intro a b h; unfold weightCompare at h; split at h <;> (simp [heavier] at *; try omega)
  · intro a b h; unfold weightCompare at h; split at h <;> (simp [heavier] at *; try omega)

theorem rep_congr {α : Type} [Inhabited α] {le le' : α → α → Prop} {h : PQ α} {m : List α} (hr : Rep le h m)
    (he : ∀ a ∈ m, ∀ b ∈ m, le a b → le' a b) : Rep le' h m := by
  have hm : ∀ i, i < h.size → Heap.g h.elements i ∈ m := by
    intro i hi
    have hle := hr.size_le
    refine hr.perm.subset ?_
    rw [List.mem_iff_getElem?]
    exact ⟨i, by rw [List.getElem?_take, if_pos hi, Heap.g_some (by omega)]⟩
  refine ⟨hr.cap, hr.size_le, ?_, hr.perm⟩
  intro i hi hin
  exact he _ (hm _ (by omega)) _ (hm _ hin) (hr.heap i hi hin)

/-- What is in the heap is counted. -/
def Counted (g : Graph) (m : List Pos) : Prop := ∀ p ∈ m, (g.tiles p).isCount = true

/-- What a tile is when it is found. -/
def found (cost weight : Count) (t : Pos) (g : Graph) (n : Pos) : Tile :=
  ⟨cost g n t, weight (g.set n { g.tiles n with cost := cost g n t }) n t, true, (g.tiles n).attr⟩

theorem visit_eq (t n : Pos) (g : Graph) : visit cost weight t g n =
    if (g.tiles n).isCount = false ∧ (g.tiles n).attr ≠ BLOCK then
      (g.heap.put (weightCompare (g.set n (found cost weight t g n)).tiles) n).map fun h =>
        { g.set n (found cost weight t g n) with heap := h }
    else some g := by
  unfold visit
  by_cases h : (g.tiles n).isCount = false ∧ (g.tiles n).attr ≠ BLOCK
  · rw [if_pos h, if_pos h]
    set w := weight (g.set n { g.tiles n with cost := cost g n t }) n t with hw
    have htiles : (((g.set n { g.tiles n with cost := cost g n t }).set n
        { (g.set n { g.tiles n with cost := cost g n t }).tiles n with weight := w }).set n
        { ((g.set n { g.tiles n with cost := cost g n t }).set n
          { (g.set n { g.tiles n with cost := cost g n t }).tiles n with weight := w }).tiles n with
          isCount := true }) = g.set n (found cost weight t g n) := by
      unfold Graph.set
      simp only [↓reduceIte, Graph.mk.injEq, true_and, and_true]
      funext q
      by_cases hq : q = n
      · simp [hq, found, hw, Graph.set]
      · simp [hq]
    simp only
    rw [← hw, htiles]
    rfl
  · rw [if_neg h, if_neg h]

theorem visit_ok {t n : Pos} {g : Graph} {m : List Pos} (hr : Rep (heavier g.tiles) g.heap m) (hc : Counted g m) :
    ∃ g' m', visit cost weight t g n = some g' ∧ Vis cost weight t g m n g' m' ∧ Rep (heavier g'.tiles) g'.heap m' ∧
      Counted g' m' := by
  rw [visit_eq]
  by_cases h : (g.tiles n).isCount = false ∧ (g.tiles n).attr ≠ BLOCK
  · have hnm : n ∉ m := by
      intro hm; have := hc n hm; rw [h.1] at this; simp at this
    set T := found cost weight t g n with hT
    have hr' : Rep (heavier (g.set n T).tiles) g.heap m := by
      refine rep_congr hr ?_
      intro a ha b hb hab
      have hna : a ≠ n := by rintro rfl; exact hnm ha
      have hnb : b ≠ n := by rintro rfl; exact hnm hb
      simpa [heavier, Graph.set, hna, hnb] using hab
    obtain ⟨h', hp, hrep⟩ := Heap.Wk.put_ok (weak (g.set n T).tiles) g.heap m n hr'
    refine ⟨{ g.set n T with heap := h' }, n :: m, ?_, Vis.add h.1 h.2 ⟨rfl, rfl, rfl, rfl, rfl, rfl, ?_⟩ ?_ ?_, hrep, ?_⟩
    · rw [if_pos h, hp]; rfl
    · intro p
      by_cases hq : p = n
      · simp [Graph.set, hq, hT, found]
      · simp [Graph.set, hq]
    · simp [Graph.set, hT, found]
    · intro p hp; simp [Graph.set, hp]
    · intro p hp
      by_cases hq : p = n
      · simp [Graph.set, hq, hT, found]
      · simp only [Graph.set, hq, if_false]
        exact hc p (by simpa [hq] using hp)
  · exact ⟨g, m, by rw [if_neg h], Vis.skip h, hr, hc⟩

theorem expand_ok {t : Pos} : ∀ (ns : List Pos) (g : Graph) (m : List Pos), Rep (heavier g.tiles) g.heap m →
    Counted g m → ∃ g' m', expand cost weight t ns g = some g' ∧ Exp cost weight t g m ns g' m' ∧
      Rep (heavier g'.tiles) g'.heap m' ∧ Counted g' m' := by
  intro ns
  induction ns with
  | nil => intro g m hr hc; exact ⟨g, m, rfl, .nil, hr, hc⟩
  | cons n ns ih =>
    intro g m hr hc
    obtain ⟨g1, m1, h1, h2, h3, h4⟩ := visit_ok (cost := cost) (weight := weight) (t := t) (n := n) hr hc
    obtain ⟨g2, m2, h5, h6, h7, h8⟩ := ih g1 m1 h3 h4
    exact ⟨g2, m2, by simp [expand, h1, h5], .cons h2 h6, h7, h8⟩

/-! ### Rounds -/

/-- The tiles that are not counted. -/
def left (g : Graph) : Nat := ((cells g).filter fun p => !(g.tiles p).isCount).length

theorem Vis.left {t n : Pos} {g g' : Graph} {m m' : List Pos} (h : Vis cost weight t g m n g' m')
    (hn : inBounds g n = true) : left g' + m'.length = left g + m.length := by
  cases h with
  | skip => rfl
  | add hc hb same tn tp =>
    unfold Astar.left
    rw [same.cells]
    have h1 := cells_nodup g
    have h2 := mem_cells.2 hn
    revert h1 h2
    generalize cells g = l
    intro h1 h2
    simp only [List.length_cons]
    suffices h : (l.filter fun p => !(g'.tiles p).isCount).length + 1 = (l.filter fun p => !(g.tiles p).isCount).length by
      omega
    induction l with
    | nil => simp at h2
    | cons a l ih =>
      rw [List.nodup_cons] at h1
      by_cases ha : a = n
      · subst ha
        have : l.filter (fun p => !(g'.tiles p).isCount) = l.filter fun p => !(g.tiles p).isCount := by
          refine List.filter_congr ?_
          intro p hp
          rw [tp p (by rintro rfl; exact h1.1 hp)]
        simp [tn, hc, this]
      · have := ih h1.2 (by simpa [Ne.symm ha] using h2)
        simp only [List.filter_cons, tp a ha]
        split <;> (try simp only [List.length_cons]) <;> omega

theorem Exp.left {t : Pos} {ns : List Pos} {g g' : Graph} {m m' : List Pos} (h : Exp cost weight t g m ns g' m')
    (hn : ∀ n ∈ ns, inBounds g n = true) : left g' + m'.length = left g + m.length := by
  induction h with
  | nil => rfl
  | cons h _ ih =>
    rw [ih (fun n hm => by rw [h.same.inBounds]; exact hn n (by simp [hm])), h.left (hn _ (by simp))]

/-- The outcomes of the loop. -/
theorem loop_ok {g0 : Graph} {multi : Bool} {s e : Pos} : ∀ (n : Nat) (g : Graph) (m P : List Pos),
    At cost weight g0 s e g m P → Rep (heavier g.tiles) g.heap m → Counted g m → left g + m.length < n →
    ∃ g' m' P' h, At cost weight g0 s e g' m' P' ∧
      ((m' = [] ∧ loop cost weight multi s e n g = some ({ g' with heap := h }, false)) ∨
       (e ∈ m' ∧ (∀ y ∈ m', (g'.tiles y).weight ≤ (g'.tiles e).weight) ∧
        loop cost weight multi s e n g = finish multi s e { g' with heap := h })) := by
  intro n
  induction n with
  | zero => intro g m P _ _ _ h; omega
  | succ n ih =>
    intro g m P ha hr hc hl
    rcases List.eq_nil_or_concat m with rfl | hm
    · refine ⟨g, [], P, g.heap, ha, Or.inl ⟨rfl, ?_⟩⟩
      simp [loop, Heap.Wk.pop_empty g.heap hr]
    · have hm : m ≠ [] := by obtain ⟨a, b, rfl⟩ := hm; simp
      obtain ⟨h1, m1, hp, hr1, hperm⟩ := Heap.Wk.pop_ok (weak g.tiles) g.heap m hr hm
      obtain ⟨_, htm, hmax⟩ := Heap.Wk.top_min (weak g.tiles) g.heap m hr hm
      generalize Heap.g g.heap.elements 0 = t at hp hperm htm hmax
      by_cases hte : t = e
      · subst hte
        refine ⟨g, m, P, h1, ha, Or.inr ⟨htm, hmax, ?_⟩⟩
        simp [loop, hp]
      · have hc1 : Counted { g with heap := h1 } m1 := fun p hp => hc p (hperm.symm.subset (by simp [hp]))
        obtain ⟨g', m', e1, e2, e3, e4⟩ := expand_ok (cost := cost) (weight := weight) (t := t) (neighbors g t)
          { g with heap := h1 } m1 hr1 hc1
        have hlen : m.length = m1.length + 1 := by rw [hperm.length_eq]; simp
        have hleft := e2.left (fun n hn => (mem_neighbors.1 hn).2)
        have hl0 : left { g with heap := h1 } = left g := rfl
        obtain ⟨g2, m2, P2, h2, a2, r2⟩ := ih g' m' (t :: P) (.round ha hperm hmax hte e2) e3 e4 (by omega)
        refine ⟨g2, m2, P2, h2, a2, ?_⟩
        have : loop cost weight multi s e (n + 1) g = loop cost weight multi s e n g' := by
          simp [loop, hp, hte, e1]
        rw [this]
        exact r2

end

end Verif.Astar
