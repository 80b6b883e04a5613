import Verif.Graph.Reach
import Verif.Heap.Prefix

/-! A search after `Clear`. -/

namespace Verif.Astar

open Verif.Heap (PQ)
open Verif.Heap.Wk (SameHeap)

/-- The count does not look at the heap, which is not exported, nor at the paths of earlier searches. -/
def Local (c : Count) : Prop :=
  ∀ (g : Graph) (h : PQ Pos) (pl : List (List Pos)) (t p : Pos), c { g with heap := h, pathlist := pl } t p = c g t p

/-- Another heap and other paths. -/
abbrev Graph.with (g : Graph) (h : PQ Pos) (pl : List (List Pos)) : Graph := { g with heap := h, pathlist := pl }

variable {cost weight : Count}

theorem visit_same (hc : Local cost) (hw : Local weight) {t n : Pos} {g r : Graph} {h : PQ Pos} {pl : List (List Pos)}
    (hs : SameHeap g.heap h) (hv : visit cost weight t g n = some r) :
    ∃ h', visit cost weight t (g.with h pl) n = some (r.with h' pl) ∧ SameHeap r.heap h' ∧ r.pathlist = g.pathlist := by
  rw [visit_eq] at hv ⊢
  by_cases hcond : (g.tiles n).isCount = false ∧ (g.tiles n).attr ≠ BLOCK
  · rw [if_pos hcond] at hv
    rw [if_pos hcond]
    simp only [Option.map_eq_some_iff] at hv
    obtain ⟨k, hk, rfl⟩ := hv
    have ef : found cost weight t (g.with h pl) n = found cost weight t g n := by
      have e1 : cost (g.with h pl) n t = cost g n t := hc g h pl n t
      have e2 := hw (g.set n { g.tiles n with cost := cost g n t }) h pl n t
      unfold found
      rw [e1, ← e2]
      rfl
    obtain ⟨h1, k1, p1, p2, p3⟩ := Heap.Wk.put_same (cmp := weightCompare (g.set n (found cost weight t g n)).tiles) hs n
    have : h1 = k := by rw [hk] at p1; exact (Option.some.inj p1).symm
    subst this
    refine ⟨k1, ?_, p3, rfl⟩
    rw [ef]
    have p2' : PQ.put (weightCompare ((g.with h pl).set n (found cost weight t g n)).tiles) (g.with h pl).heap n = some k1 := p2
    rw [p2']
    rfl
  · rw [if_neg hcond] at hv
    rw [if_neg hcond]
    simp at hv; subst hv
    exact ⟨h, rfl, hs, rfl⟩

theorem expand_same (hc : Local cost) (hw : Local weight) {t : Pos} {pl : List (List Pos)} : ∀ (ns : List Pos)
    {g r : Graph} {h : PQ Pos}, SameHeap g.heap h → expand cost weight t ns g = some r →
    ∃ h', expand cost weight t ns (g.with h pl) = some (r.with h' pl) ∧ SameHeap r.heap h' ∧ r.pathlist = g.pathlist := by
  intro ns
  induction ns with
  | nil => intro g r h hs hv; simp [expand] at hv; subst hv; exact ⟨h, rfl, hs, rfl⟩
  | cons n ns ih =>
    intro g r h hs hv
    simp only [expand, Option.bind_eq_some_iff] at hv
    obtain ⟨g1, h1, h2⟩ := hv
    obtain ⟨k1, e1, e2, e3⟩ := visit_same hc hw (pl := pl) hs h1
    obtain ⟨k2, e4, e5, e6⟩ := ih e2 h2
    exact ⟨k2, by simp only [expand, e1, Option.bind_some]; exact e4, e5, e6.trans e3⟩

theorem singlePath_same (g : Graph) (h : PQ Pos) (pl : List (List Pos)) (s : Pos) : ∀ (n : Nat) (t : Pos)
    (path : List Pos), singlePath (g.with h pl) s n t path = singlePath g s n t path := by
  intro n
  induction n with
  | zero => intro t path; unfold singlePath; rfl
  | succ n ih =>
    intro t path
    unfold singlePath
    split
    · rfl
    · exact ih _ _

theorem multiPath_same (g : Graph) (h : PQ Pos) (pl : List (List Pos)) (s : Pos) : ∀ (n : Nat) (t : Pos)
    (path : List Pos), multiPath (g.with h pl) s n t path = multiPath g s n t path := by
  intro n
  induction n with
  | zero => intro t path; unfold multiPath; rfl
  | succ n ih =>
    intro t path
    unfold multiPath
    split
    · rfl
    · simp only
      have : (fun r => multiPath (g.with h pl) s n r (path ++ [t])) = fun r => multiPath g s n r (path ++ [t]) := by
        funext r; exact ih r _
      rw [this]
      rfl

theorem finish_same {multi b : Bool} {s t : Pos} {g r : Graph} {h : PQ Pos} {pl : List (List Pos)}
    (hv : finish multi s t g = some (r, b)) :
    finish multi s t (g.with h pl) = some (r.with h r.pathlist, b) ∧ b = true := by
  cases multi
  · simp only [finish, Bool.false_eq_true, if_false, Option.map_eq_some_iff, Prod.mk.injEq] at hv ⊢
    obtain ⟨p, hp, rfl, rfl⟩ := hv
    exact ⟨⟨p, (singlePath_same ..).trans hp, rfl, rfl⟩, rfl⟩
  · simp only [finish, if_true, Option.map_eq_some_iff, Prod.mk.injEq] at hv ⊢
    obtain ⟨p, hp, rfl, rfl⟩ := hv
    exact ⟨⟨p, (multiPath_same ..).trans hp, rfl, rfl⟩, rfl⟩

theorem loop_same (hc : Local cost) (hw : Local weight) {multi b : Bool} {s e : Pos} {pl : List (List Pos)} :
    ∀ (n : Nat) {g r : Graph} {h : PQ Pos}, SameHeap g.heap h → loop cost weight multi s e n g = some (r, b) →
    ∃ h', loop cost weight multi s e n (g.with h pl) = some (r.with h' (if b then r.pathlist else pl), b) ∧
      (b = false → r.pathlist = g.pathlist) := by
  intro n
  induction n with
  | zero => intro g r h _ hv; simp [loop] at hv
  | succ n ih =>
    intro g r h hs hv
    obtain ⟨h1, k1, x, p1, p2, p3⟩ := Heap.Wk.pop_same (cmp := weightCompare g.tiles) hs
    have p2' : PQ.pop (weightCompare (g.with h pl).tiles) (g.with h pl).heap = some (k1, x) := p2
    simp only [loop, p1, Option.bind_some] at hv
    simp only [loop, p2', Option.bind_some]
    split at hv
    · rename_i t
      split at hv
      · rename_i hte
        rw [if_pos hte]
        obtain ⟨f1, f2⟩ := finish_same (h := k1) (pl := pl) hv
        subst f2
        exact ⟨k1, f1, by simp⟩
      · rename_i hte
        rw [if_neg hte]
        simp only [Option.bind_eq_some_iff] at hv
        obtain ⟨g1, e1, e2⟩ := hv
        obtain ⟨k2, e3, e4, e5⟩ := expand_same hc hw (pl := pl) (neighbors g t) (g := { g with heap := h1 }) (h := k1) p3 e1
        obtain ⟨k3, e6, e7⟩ := ih e4 e2
        refine ⟨k3, ?_, fun hb => (e7 hb).trans e5⟩
        have e3' : expand cost weight t (neighbors (g.with h pl) t) { g.with h pl with heap := k1 } = some (g1.with k2 pl) := e3
        rw [e3']
        exact e6
    · simp only [Option.some.injEq, Prod.mk.injEq] at hv
      obtain ⟨rfl, rfl⟩ := hv
      exact ⟨k1, rfl, by simp⟩

/-- What the search has written besides the tiles. -/
theorem finish_keeps {multi b : Bool} {s t : Pos} {g r : Graph} (hv : finish multi s t g = some (r, b)) :
    r = { g with pathlist := r.pathlist } ∧ b = true := by
  cases multi
  · simp only [finish, Bool.false_eq_true, if_false, Option.map_eq_some_iff, Prod.mk.injEq] at hv
    obtain ⟨p, hp, rfl, rfl⟩ := hv
    exact ⟨rfl, rfl⟩
  · simp only [finish, if_true, Option.map_eq_some_iff, Prod.mk.injEq] at hv
    obtain ⟨p, hp, rfl, rfl⟩ := hv
    exact ⟨rfl, rfl⟩

/-- No attribute has a meaning for `Clear`. -/
def Plain (g : Graph) : Prop :=
  ∀ p, Inside g p → (g.tiles p).attr ≠ PATH ∧ (g.tiles p).attr ≠ START ∧ (g.tiles p).attr ≠ END

/-- The graph after the search, but for the tiles' counts. -/
theorem search_after {multi b : Bool} {g g1 : Graph} {s e : Pos} (hf : Fresh g) (ht : Target g s e) (hs : Inside g s)
    (he : Inside g e) (hne : s ≠ e) (h : search cost weight multi g = some (g1, b)) :
    g1.dimX = g.dimX ∧ g1.dimY = g.dimY ∧ g1.dirs = g.dirs ∧ g1.start = some ⟨s, (g.tiles s).attr⟩ ∧
      g1.fin = some ⟨e, (g.tiles e).attr⟩ ∧
      (∀ p, (g1.tiles p).attr = if p = e then END else if p = s then START else (g.tiles p).attr) ∧
      (b = false → g1.pathlist = g.pathlist) := by
  obtain ⟨g', m, P, hq, ha, hr⟩ := search_cases (cost := cost) (weight := weight) (multi := multi) hf ht hs he hne
  have hsame := ha.same
  have hfin : (prepared g s e).fin = some ⟨e, (g.tiles e).attr⟩ := by
    simp [prepared, Graph.set, Ne.symm hne]
  have hstart : (prepared g s e).start = some ⟨s, (g.tiles s).attr⟩ := rfl
  have base : g'.dimX = g.dimX ∧ g'.dimY = g.dimY ∧ g'.dirs = g.dirs ∧ g'.start = some ⟨s, (g.tiles s).attr⟩ ∧
      g'.fin = some ⟨e, (g.tiles e).attr⟩ ∧
      (∀ p, (g'.tiles p).attr = if p = e then END else if p = s then START else (g.tiles p).attr) :=
    ⟨hsame.dimX, hsame.dimY, hsame.dirs, hsame.start.trans hstart, hsame.fin.trans hfin,
      fun p => (hsame.attr p).trans (prepared_attr p)⟩
  obtain ⟨b1, b2, b3, b4, b5, b6⟩ := base
  rcases hr with ⟨_, hr⟩ | ⟨_, _, hr⟩
  · rw [hr] at h
    simp only [Option.some.injEq, Prod.mk.injEq] at h
    obtain ⟨rfl, rfl⟩ := h
    exact ⟨b1, b2, b3, b4, b5, b6, fun _ => hsame.pathlist⟩
  · rw [hr] at h
    simp only [Option.map_eq_some_iff, Prod.mk.injEq] at h
    obtain ⟨⟨r, b'⟩, h1, rfl, rfl⟩ := h
    obtain ⟨k1, k2⟩ := finish_keeps h1
    subst k2
    rw [k1]
    exact ⟨b1, b2, b3, b4, b5, b6, by simp⟩

/-- `Clear` gives back the tiles. -/
theorem clear_after {multi b : Bool} {g g1 : Graph} {s e : Pos} (hf : Fresh g) (hpl : Plain g) (ht : Target g s e)
    (hs : Inside g s) (he : Inside g e) (hne : s ≠ e) (h : search cost weight multi g = some (g1, b)) :
    clear g1 = some { g with
      heap := g1.heap, pathlist := g1.pathlist, start := some ⟨s, (g.tiles s).attr⟩, fin := some ⟨e, (g.tiles e).attr⟩ } := by
  obtain ⟨b1, b2, b3, b4, b5, b6, _⟩ := search_after hf ht hs he hne h
  have hin : ∀ p, inBounds g1 p = inBounds g p := by intro p; simp [inBounds, b1, b2]
  have hct : ∀ p, inBounds g p = true → clearTile g1 (g1.tiles p) = some (g.tiles p) := by
    intro p hp
    have h6 := b6 p
    obtain ⟨a1, a2, a3⟩ := hpl p (inside_iff.2 hp)
    unfold clearTile
    simp only [h6]
    by_cases hpe : p = e
    · subst hpe
      simp only [if_true, b5]
      rw [if_neg (by decide), if_neg (by decide)]
      rw [hf.tiles p]; rfl
    · rw [if_neg hpe]
      by_cases hps : p = s
      · subst hps
        simp only [if_true, b4]
        rw [if_neg (by decide)]
        rw [hf.tiles p]; rfl
      · rw [if_neg hps, if_neg a1, if_neg a2, if_neg a3, ← hf.tiles p]
  unfold clear
  rw [if_pos]
  · congr 1
    have htiles : (fun p => if inBounds g1 p then (clearTile g1 (g1.tiles p)).getD (g1.tiles p) else ⟨0, 0, false, PLAIN⟩) =
        g.tiles := by
      funext p
      rw [hin]
      by_cases hp : inBounds g p = true
      · rw [if_pos hp, hct p hp]; rfl
      · rw [if_neg hp, hf.tiles p, hf.outside p (by simpa using hp)]
    rw [htiles]
    obtain ⟨d1, d2, d3, d4, d5, d6, d7, d8⟩ := g1
    simp only at b1 b2 b3 b4 b5
    subst b1; subst b2; subst b3; subst b4; subst b5
    rfl
  · rw [List.all_eq_true]
    intro p hp
    have : inBounds g p = true := by rw [← hin]; exact mem_cells.1 hp
    rw [hct p this]; rfl

/-- The second search. -/
theorem search_again (hc : Local cost) (hw : Local weight) {multi b : Bool} {g g1 : Graph} {s e : Pos} {h : PQ Pos}
    {pl : List (List Pos)} {a a' : Nat} (hf : Fresh g) (ht : Target g s e) (hs : Inside g s) (he : Inside g e)
    (hh : h.size = 0) (hcap : 16 ≤ h.elements.length)
    (hv : search cost weight multi g = some (g1, b)) :
    ∃ h', search cost weight multi { g with heap := h, pathlist := pl, start := some ⟨s, a⟩, fin := some ⟨e, a'⟩ } =
      some (g1.with h' (if b then g1.pathlist else pl), b) := by
  rw [search_eq ht hs he] at hv
  rw [search_eq (g := { g with heap := h, pathlist := pl, start := some ⟨s, a⟩, fin := some ⟨e, a'⟩ }) (s := s) (e := e)
    ⟨rfl, rfl⟩ hs he]
  have hprep : prepared { g with heap := h, pathlist := pl, start := some ⟨s, a⟩, fin := some ⟨e, a'⟩ } s e =
      (prepared g s e).with h pl := rfl
  rw [hprep]
  have hsh : SameHeap (prepared g s e).heap h :=
    ⟨hh.trans hf.size.symm, hf.cap, hcap, by have := hf.size; show g.heap.size ≤ _; omega,
      by have := hf.size; show g.heap.size ≤ _; omega, by intro i hi; have := hf.size; change i < g.heap.size at hi; omega⟩
  obtain ⟨h1, k1, p1, p2, p3⟩ := Heap.Wk.put_same (cmp := weightCompare (prepared g s e).tiles) hsh s
  have p2' : PQ.put (weightCompare ((prepared g s e).with h pl).tiles) ((prepared g s e).with h pl).heap s = some k1 := p2
  rw [p2']
  rw [p1] at hv
  simp only [Option.bind_some, Option.map_eq_some_iff, Prod.mk.injEq] at hv ⊢
  obtain ⟨⟨r, b'⟩, hl, rfl, rfl⟩ := hv
  obtain ⟨k2, hl2, _⟩ := loop_same hc hw (pl := pl) _ (g := { prepared g s e with heap := h1 }) p3 hl
  exact ⟨{ k2 with size := 0 }, _, hl2, rfl, rfl⟩

end Verif.Astar
