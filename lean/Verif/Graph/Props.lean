import Verif.Graph.Repeat
import Verif.Graph.Short

/-! C62 to C66. -/

namespace Verif.Astar

open Verif.Heap (PQ)

variable {g : Graph} {s e : Pos}

/-- The two neighbourhoods of the package are symmetric. -/
theorem symmetric_four (h : g.dirs = four) : Symmetric g := by
  unfold Symmetric; rw [h]; decide

theorem symmetric_eight (h : g.dirs = eight) : Symmetric g := by
  unfold Symmetric; rw [h]; decide

/-! ### C62 -/

theorem search_decides (weight : Count) (multi : Bool) (hf : Fresh g) (hsym : Symmetric g) (ht : Target g s e)
    (hs : Inside g s) (he : Inside g e) :
    ∃ g' b, search simpleCost weight multi g = some (g', b) ∧ (b = true ↔ ∃ n, Walk g s e n e) := by
  by_cases hne : s = e
  · subst hne
    obtain ⟨h, hr⟩ := search_same (cost := simpleCost) (weight := weight) (multi := multi) hf ht hs
    exact ⟨_, _, hr, by simpa using ⟨0, Walk.here⟩⟩
  · have hp := prepared_prep hf hs he hne
    obtain ⟨g', m, P, h, ha, hr⟩ := search_cases (cost := simpleCost) (weight := weight) (multi := multi) hf ht hs he hne
    rcases hr with ⟨rfl, hr⟩ | ⟨hem, _, hr⟩
    · refine ⟨_, _, hr, ?_⟩
      constructor
      · intro hb; simp at hb
      · rintro ⟨n, hw⟩
        exact absurd (ha.exhausted hp hw) (ha.inv hp).notend
    · have hw : ∃ n, Walk g s e n e := by
        obtain ⟨n, hn, _⟩ := ha.walks hp e (((ha.inv hp).counted e).2 (Or.inr hem))
        exact ⟨n, hn⟩
      cases multi
      · obtain ⟨l, hl, _⟩ := finish_single hp hsym ha hem h
        rw [hl] at hr
        exact ⟨_, _, hr, by simpa using hw⟩
      · obtain ⟨l, hl, _⟩ := finish_multi hp hsym ha hem h
        rw [hl] at hr
        exact ⟨_, _, hr, by simpa using hw⟩

/-- C62. With the default cost and any weight, `Search` and `SearchMulti` end without a panic, and their answer is
whether there is a walk from start to end. -/
theorem C62_search_decides (weight : Count) (multi : Bool) (hg : Ready g) (hsym : Symmetric g) (ht : Target g s e)
    (hs : Inside g s) (he : Inside g e) :
    ∃ g' b, search simpleCost weight multi g = some (g', b) ∧ (b = true ↔ ∃ n, Walk g s e n e) :=
  search_decides weight multi (fresh_of_ready hg) hsym ht hs he

/-- C62, whatever the cost and the directions are: if the search returns, it returns the right answer. -/
theorem C62_answer (cost weight : Count) (multi : Bool) (hg : Ready g) (ht : Target g s e) (hs : Inside g s)
    (he : Inside g e) {g' : Graph} {b : Bool} (h : search cost weight multi g = some (g', b)) :
    b = true ↔ ∃ n, Walk g s e n e := by
  have hf := fresh_of_ready hg
  by_cases hne : s = e
  · subst hne
    obtain ⟨h', hr⟩ := search_same (cost := cost) (weight := weight) (multi := multi) hf ht hs
    rw [h] at hr
    simp only [Option.some.injEq, Prod.mk.injEq] at hr
    rw [hr.2]
    simpa using ⟨0, Walk.here⟩
  · have hp := prepared_prep hf hs he hne
    obtain ⟨g1, m, P, h', ha, hr⟩ := search_cases (cost := cost) (weight := weight) (multi := multi) hf ht hs he hne
    rcases hr with ⟨rfl, hr⟩ | ⟨hem, _, hr⟩
    · rw [h] at hr
      simp only [Option.some.injEq, Prod.mk.injEq] at hr
      rw [hr.2]
      constructor
      · intro hb; simp at hb
      · rintro ⟨n, hw⟩
        exact absurd (ha.exhausted hp hw) (ha.inv hp).notend
    · obtain ⟨n, hn, _⟩ := ha.walks hp e (((ha.inv hp).counted e).2 (Or.inr hem))
      rw [h] at hr
      have hr := hr.symm
      simp only [Option.map_eq_some_iff, Prod.mk.injEq] at hr
      obtain ⟨⟨r, b'⟩, h1, _, rfl⟩ := hr
      have := (finish_keeps h1).2
      subst this
      simpa using ⟨n, hn⟩

/-- C62, whatever the cost and the directions are: a search for what cannot be reached ends. -/
theorem C62_unreachable (cost weight : Count) (multi : Bool) (hg : Ready g) (ht : Target g s e) (hs : Inside g s)
    (he : Inside g e) (h : ¬ ∃ n, Walk g s e n e) : ∃ g', search cost weight multi g = some (g', false) := by
  have hf := fresh_of_ready hg
  have hne : s ≠ e := by rintro rfl; exact h ⟨0, .here⟩
  have hp := prepared_prep hf hs he hne
  obtain ⟨g1, m, P, h', ha, hr⟩ := search_cases (cost := cost) (weight := weight) (multi := multi) hf ht hs he hne
  rcases hr with ⟨rfl, hr⟩ | ⟨hem, _, hr⟩
  · exact ⟨_, hr⟩
  · obtain ⟨n, hn, _⟩ := ha.walks hp e (((ha.inv hp).counted e).2 (Or.inr hem))
    exact absurd ⟨n, hn⟩ h

/-- A map of the tests. -/
def demo (w h : Nat) (blocks : List Pos) (s e : Pos) : Graph :=
  setTarget (blocks.foldl (fun g p => (setAttr g p BLOCK).getD g) (new w h)) s e

theorem demo_ready (w h : Nat) (blocks : List Pos) (s e : Pos) : Ready (demo w h blocks s e) := by
  unfold demo
  refine .setTarget _ _ ?_
  suffices ∀ (g : Graph), Ready g → Ready (blocks.foldl (fun g p => (setAttr g p BLOCK).getD g) g) from this _ (.new _ _)
  induction blocks with
  | nil => intro g hg; exact hg
  | cons p l ih =>
    intro g hg
    rw [List.foldl_cons]
    refine ih _ ?_
    cases h : setAttr g p BLOCK with
    | none => exact hg
    | some g' => exact .setAttr hg h

example : Ready (demo 3 2 [(1, 0)] (0, 0) (2, 0)) ∧ Symmetric (demo 3 2 [(1, 0)] (0, 0) (2, 0)) ∧
    Target (demo 3 2 [(1, 0)] (0, 0) (2, 0)) (0, 0) (2, 0) ∧ Inside (demo 3 2 [(1, 0)] (0, 0) (2, 0)) (0, 0) ∧
    Inside (demo 3 2 [(1, 0)] (0, 0) (2, 0)) (2, 0) ∧
    (search simpleCost simpleWeight false (demo 3 2 [(1, 0)] (0, 0) (2, 0))).map (·.2) = some true :=
  ⟨demo_ready .., symmetric_four rfl, ⟨rfl, rfl⟩, by unfold Inside; decide, by unfold Inside; decide, by decide +kernel⟩

/-- The answer may be no, and then there is no walk. -/
example : (search simpleCost simpleWeight false (demo 3 1 [(1, 0)] (0, 0) (2, 0))).map (·.2) = some false := by
  decide +kernel

/-- With a cost that does not grow, going back may never come to the start (here it goes back and forth). -/
theorem C62_cost_zero_hangs : search (fun _ _ _ => 0) simpleWeight false (demo 3 1 [] (2, 0) (0, 0)) = none := by
  have : (search (fun _ _ _ => 0) simpleWeight false (demo 3 1 [] (2, 0) (0, 0))).isNone = true := by decide +kernel
  simpa using this

/-! ### C63 -/

/-- C63. -/
theorem C63_valid_path (weight : Count) (hg : Ready g) (hsym : Symmetric g) (ht : Target g s e) (hs : Inside g s)
    (he : Inside g e) {g' : Graph} (h : search simpleCost weight false g = some (g', true)) :
    ∃ l, g'.pathlist = [l] ∧ ValidPath g s e l := by
  have hf := fresh_of_ready hg
  by_cases hne : s = e
  · subst hne
    obtain ⟨h', hr⟩ := search_same (cost := simpleCost) (weight := weight) (multi := false) hf ht hs
    rw [h] at hr
    simp only [Option.some.injEq, Prod.mk.injEq, and_true] at hr
    subst hr
    exact ⟨[s], rfl, rfl, rfl, by simp, by intro p hp; simp at hp; subst hp; exact ⟨hs, Or.inl rfl⟩, by simp⟩
  · have hp := prepared_prep hf hs he hne
    obtain ⟨g1, m, P, h', ha, hr⟩ := search_cases (cost := simpleCost) (weight := weight) (multi := false) hf ht hs he hne
    rcases hr with ⟨rfl, hr⟩ | ⟨hem, _, hr⟩
    · rw [h] at hr; simp at hr
    · obtain ⟨l, hl, hw, _⟩ := finish_single hp hsym ha hem h'
      rw [h, hl] at hr
      simp only [Option.map_some, Option.some.injEq, Prod.mk.injEq, and_true] at hr
      subst hr
      exact ⟨e :: l, rfl, way_valid hp ha hem hw⟩

example : (search simpleCost simpleWeight false (demo 3 2 [(1, 0)] (0, 0) (2, 0))).map (fun r => (r.1.pathlist, r.2)) =
    some ([[(2, 0), (2, 1), (1, 1), (0, 1), (0, 0)]], true) := by
  decide +kernel

/-! ### C64 -/

/-- The path has no more steps than any walk. -/
def Shortest (g : Graph) (s e : Pos) (l : List Pos) : Prop := ∀ n, Walk g s e n e → getSteps l ≤ n

/-- The single path, whose length is bounded by the cost of the end tile. -/
theorem single_cost (weight : Count) (hg : Ready g) (hsym : Symmetric g) (ht : Target g s e) (hs : Inside g s)
    (he : Inside g e) (hne : s ≠ e) {g' : Graph} (h : search simpleCost weight false g = some (g', true)) :
    ∃ g1 m P l, At simpleCost weight (prepared g s e) s e g1 m P ∧ e ∈ m ∧
      (∀ y ∈ m, (g1.tiles y).weight ≤ (g1.tiles e).weight) ∧ g'.pathlist = [e :: l] ∧
      (l.length : Int) ≤ (g1.tiles e).cost := by
  have hf := fresh_of_ready hg
  have hp := prepared_prep hf hs he hne
  obtain ⟨g1, m, P, h', ha, hr⟩ := search_cases (cost := simpleCost) (weight := weight) (multi := false) hf ht hs he hne
  rcases hr with ⟨rfl, hr⟩ | ⟨hem, hmax, hr⟩
  · rw [h] at hr; simp at hr
  · obtain ⟨l, hl, hw, hlen⟩ := finish_single hp hsym ha hem h'
    rw [h, hl] at hr
    simp only [Option.map_some, Option.some.injEq, Prod.mk.injEq, and_true] at hr
    subst hr
    exact ⟨g1, m, P, l, ha, hem, hmax, rfl, hlen⟩

theorem same_path (weight : Count) (hg : Ready g) (ht : Target g s s) (hs : Inside g s) {g' : Graph}
    (h : search simpleCost weight false g = some (g', true)) : g'.pathlist = [[s]] := by
  obtain ⟨h', hr⟩ := search_same (cost := simpleCost) (weight := weight) (multi := false) (fresh_of_ready hg) ht hs
  rw [h] at hr
  simp only [Option.some.injEq, Prod.mk.injEq, and_true] at hr
  subst hr
  rfl

/-- C64 does not hold: a tile is not looked at again when a shorter way to it is found, and the path goes back over
these costs. Here the path has eleven steps, nine are enough. -/
theorem C64_not_shortest :
    (search simpleCost simpleWeight false (demo 7 3 [(1, 1), (2, 2)] (6, 0) (1, 2))).map
        (fun r => (r.1.pathlist.map getSteps, r.2)) = some ([11], true) ∧
      ValidPath (demo 7 3 [(1, 1), (2, 2)] (6, 0) (1, 2)) (6, 0) (1, 2)
        [(1, 2), (0, 2), (0, 1), (0, 0), (1, 0), (2, 0), (3, 0), (4, 0), (5, 0), (6, 0)] := by
  refine ⟨by decide +kernel, rfl, rfl, ?_, ?_, by decide⟩
  · simp only [List.isChain_cons_cons, List.IsChain.singleton, Adjacent, and_true]
    decide
  · intro p hp
    simp only [List.mem_cons, List.not_mem_nil, or_false] at hp
    rcases hp with rfl | rfl | rfl | rfl | rfl | rfl | rfl | rfl | rfl | rfl <;> (unfold Open Inside; decide)

/-- The same with eight directions: four steps instead of three. -/
theorem C64_not_shortest8 :
    (search simpleCost simpleWeight false { demo 4 4 [(1, 1), (3, 3)] (0, 0) (2, 3) with dirs := eight }).map
        (fun r => (r.1.pathlist.map getSteps, r.2)) = some ([4], true) ∧
      ValidPath { demo 4 4 [(1, 1), (3, 3)] (0, 0) (2, 3) with dirs := eight } (0, 0) (2, 3)
        [(2, 3), (1, 2), (0, 1), (0, 0)] := by
  refine ⟨by decide +kernel, rfl, rfl, ?_, ?_, by decide⟩
  · simp only [List.isChain_cons_cons, List.IsChain.singleton, Adjacent, and_true]
    decide
  · intro p hp
    simp only [List.mem_cons, List.not_mem_nil, or_false] at hp
    rcases hp with rfl | rfl | rfl | rfl <;> (unfold Open Inside; decide)

/-- C64 for maps without a block in the rectangle between start and end, four directions. (The bound on the
dimensions is that of `abs`.) -/
theorem C64_free_rectangle_partial (hg : Ready g) (hd : g.dirs = four) (ht : Target g s e) (hs : Inside g s)
    (he : Inside g e) (hx : g.dimX ≤ 2147483648) (hy : g.dimY ≤ 2147483648)
    (hfree : ∀ p, Between s e p → (g.tiles p).attr ≠ BLOCK) {g' : Graph}
    (h : search simpleCost simpleWeight false g = some (g', true)) :
    ∃ l, g'.pathlist = [l] ∧ ValidPath g s e l ∧ Shortest g s e l := by
  obtain ⟨l, hl, hv⟩ := C63_valid_path simpleWeight hg (symmetric_four hd) ht hs he h
  refine ⟨l, hl, hv, ?_⟩
  intro n hw
  by_cases hne : s = e
  · subst hne
    rw [same_path simpleWeight hg ht hs h] at hl
    simp at hl; subst hl
    simp [getSteps]
  · obtain ⟨g1, m, P, l', ha, hem, hmax, hl', hlen⟩ := single_cost simpleWeight hg (symmetric_four hd) ht hs he hne h
    rw [hl] at hl'
    simp at hl'; subst hl'
    have hp := prepared_prep (fresh_of_ready hg) hs he hne
    have h1 := top4 hs he hx hy hfree hp hd ha (popped4 hs he hx hy hfree hp hd ha) hem hmax
    have h2 := walk4 hd hw
    have h3 : man e e = 0 := by simp [man]
    simp only [getSteps, List.length_cons]
    push_cast
    omega

example : Ready (demo 4 3 [(3, 0)] (0, 0) (2, 1)) ∧
    (∀ p, Between (0, 0) (2, 1) p → ((demo 4 3 [(3, 0)] (0, 0) (2, 1)).tiles p).attr ≠ BLOCK) := by
  refine ⟨demo_ready .., ?_⟩
  intro p hp
  simp only [Between] at hp
  have : p ≠ (3, 0) := by rintro rfl; simp only at hp; omega
  simp [demo, setTarget, setAttr, Graph.at?, inBounds, new, Graph.set, this, PLAIN, BLOCK]

/-- C64 for maps without a block in the rectangle between start and end, eight directions. -/
theorem C64_free_rectangle8_partial (hg : Ready g) (hd : g.dirs = eight) (ht : Target g s e) (hs : Inside g s)
    (he : Inside g e) (hx : g.dimX ≤ 2147483648) (hy : g.dimY ≤ 2147483648)
    (hfree : ∀ p, Between s e p → (g.tiles p).attr ≠ BLOCK) {g' : Graph}
    (h : search simpleCost simpleWeight false g = some (g', true)) :
    ∃ l, g'.pathlist = [l] ∧ ValidPath g s e l ∧ Shortest g s e l := by
  obtain ⟨l, hl, hv⟩ := C63_valid_path simpleWeight hg (symmetric_eight hd) ht hs he h
  refine ⟨l, hl, hv, ?_⟩
  intro n hw
  by_cases hne : s = e
  · subst hne
    rw [same_path simpleWeight hg ht hs h] at hl
    simp at hl; subst hl
    simp [getSteps]
  · obtain ⟨g1, m, P, l', ha, hem, hmax, hl', hlen⟩ := single_cost simpleWeight hg (symmetric_eight hd) ht hs he hne h
    rw [hl] at hl'
    simp at hl'; subst hl'
    have hp := prepared_prep (fresh_of_ready hg) hs he hne
    obtain ⟨x, hline⟩ := line8 hs he hx hy hfree hp hd ha
    have hex := hline.top hx hy hp (ha.inv hp) hem hmax
    subst hex
    have h1 := hline.cost
    have h2 := hline.rest
    have h3 := walk8 hd hw
    simp only [getSteps, List.length_cons]
    push_cast
    omega

example : Ready { demo 4 3 [(3, 0)] (0, 0) (2, 1) with dirs := eight } ∧
    (search simpleCost simpleWeight false { demo 4 3 [(3, 0)] (0, 0) (2, 1) with dirs := eight }).map
      (fun r => (r.1.pathlist.map getSteps, r.2)) = some ([2], true) :=
  ⟨.setNeighbor _ (demo_ready ..), by decide +kernel⟩

/-- C64 on all maps, with a weight that prefers tiles near the start instead of the default one. -/
theorem C64_breadth_first_partial (hg : Ready g) (hsym : Symmetric g) (ht : Target g s e) (hs : Inside g s)
    (he : Inside g e) {g' : Graph} (h : search simpleCost nearWeight false g = some (g', true)) :
    ∃ l, g'.pathlist = [l] ∧ ValidPath g s e l ∧ Shortest g s e l := by
  obtain ⟨l, hl, hv⟩ := C63_valid_path nearWeight hg hsym ht hs he h
  refine ⟨l, hl, hv, ?_⟩
  intro n hw
  by_cases hne : s = e
  · subst hne
    rw [same_path nearWeight hg ht hs h] at hl
    simp at hl; subst hl
    simp [getSteps]
  · obtain ⟨g1, m, P, l', ha, hem, hmax, hl', hlen⟩ := single_cost nearWeight hg hsym ht hs he hne h
    rw [hl] at hl'
    simp at hl'; subst hl'
    have hp := prepared_prep (fresh_of_ready hg) hs he hne
    have h1 := near_shortest hp ha hem hmax hw
    simp only [getSteps, List.length_cons]
    push_cast
    omega

example : (search simpleCost nearWeight false (demo 7 3 [(1, 1), (2, 2)] (6, 0) (1, 2))).map
    (fun r => (r.1.pathlist.map getSteps, r.2)) = some ([9], true) := by
  decide +kernel

/-! ### C65 -/

/-- C65 as far as it holds: there is a path, they come by length, and each is a valid path with the end tile once
more in front. -/
theorem C65_multi_partial (weight : Count) (hg : Ready g) (hsym : Symmetric g) (ht : Target g s e) (hs : Inside g s)
    (he : Inside g e) {g' : Graph} (h : search simpleCost weight true g = some (g', true)) :
    g'.pathlist ≠ [] ∧ g'.pathlist.Pairwise (fun p q => getSteps p ≤ getSteps q) ∧
      ∀ p ∈ g'.pathlist, ∃ l, p = e :: l ∧ ValidPath g s e l := by
  have hf := fresh_of_ready hg
  by_cases hne : s = e
  · subst hne
    obtain ⟨h', hr⟩ := search_same (cost := simpleCost) (weight := weight) (multi := true) hf ht hs
    rw [h] at hr
    simp only [Option.some.injEq, Prod.mk.injEq, and_true] at hr
    subst hr
    refine ⟨by simp, by simp, ?_⟩
    intro p hp
    simp at hp
    exact ⟨[s], hp, rfl, rfl, by simp, by intro p hp; simp at hp; subst hp; exact ⟨hs, Or.inl rfl⟩, by simp⟩
  · have hp := prepared_prep hf hs he hne
    obtain ⟨g1, m, P, h', ha, hr⟩ := search_cases (cost := simpleCost) (weight := weight) (multi := true) hf ht hs he hne
    rcases hr with ⟨rfl, hr⟩ | ⟨hem, _, hr⟩
    · rw [h] at hr; simp at hr
    · obtain ⟨ps, hl, hnil, hsort, hall⟩ := finish_multi hp hsym ha hem h'
      rw [h, hl] at hr
      simp only [Option.map_some, Option.some.injEq, Prod.mk.injEq, and_true] at hr
      subst hr
      refine ⟨hnil, hsort.imp ?_, ?_⟩
      · intro a b hab; simp only [getSteps]; omega
      · intro p hp'
        obtain ⟨l, rfl, hw⟩ := hall p hp'
        exact ⟨e :: l, rfl, way_valid hp ha hem hw⟩

/-- C65 never holds: no path of `SearchMulti` is a valid one, and `GetSteps` is one too many. -/
theorem C65_multi_wrong (weight : Count) (hg : Ready g) (hsym : Symmetric g) (ht : Target g s e) (hs : Inside g s)
    (he : Inside g e) {g' : Graph} (h : search simpleCost weight true g = some (g', true)) :
    ∀ p ∈ g'.pathlist, ¬ ValidPath g s e p ∧ ∃ l, p = e :: l ∧ ValidPath g s e l ∧ getSteps p = getSteps l + 1 := by
  intro p hp
  obtain ⟨l, rfl, hv⟩ := (C65_multi_partial weight hg hsym ht hs he h).2.2 p hp
  refine ⟨?_, l, rfl, hv, by simp only [getSteps, List.length_cons]; push_cast; omega⟩
  intro hv'
  have hf := hv.first
  cases l with
  | nil => simp at hf
  | cons a l =>
    simp at hf
    subst hf
    have := hv'.nodup
    simp at this

example : (search simpleCost simpleWeight true (demo 2 2 [] (0, 0) (1, 1))).map (fun r => (r.1.pathlist, r.2)) =
    some ([[(1, 1), (1, 1), (0, 1), (0, 0)], [(1, 1), (1, 1), (1, 0), (0, 0)]], true) := by
  decide +kernel

/-! ### C66 -/

/-- C66 for targets that differ and maps on which no tile has an attribute that `Clear` takes for its own: after
`Search` (any of the two, with counts that look at the tiles and targets only) `Clear` gives back every tile as it
was, and a second search has the same answer and the same paths. -/
theorem C66_clear_partial {cost weight : Count} (hc : Local cost) (hw : Local weight) (multi : Bool) (hg : Ready g)
    (hpl : Plain g) (ht : Target g s e) (hs : Inside g s) (he : Inside g e) (hne : s ≠ e) {g1 : Graph} {b : Bool}
    (h : search cost weight multi g = some (g1, b)) :
    ∃ g2, clear g1 = some g2 ∧ g2.dimX = g.dimX ∧ g2.dimY = g.dimY ∧ (∀ p, Inside g p → g2.tiles p = g.tiles p) ∧
      ∃ g3, search cost weight multi g2 = some (g3, b) ∧ g3.pathlist = g1.pathlist ∧ g3.tiles = g1.tiles := by
  have hf := fresh_of_ready hg
  have hidle := search_idle ⟨hf.size, hf.cap⟩ h
  refine ⟨_, clear_after hf hpl ht hs he hne h, rfl, rfl, fun _ _ => rfl, ?_⟩
  obtain ⟨h', hr⟩ := search_again (a := (g.tiles s).attr) (a' := (g.tiles e).attr) (pl := g1.pathlist) hc hw hf ht hs he
    hidle.size hidle.cap h
  exact ⟨_, hr, by cases b <;> rfl, rfl⟩

example : Local simpleCost ∧ Local simpleWeight ∧ Plain (demo 3 2 [(1, 0)] (0, 0) (2, 0)) := by
  refine ⟨fun _ _ _ _ _ => rfl, fun _ _ _ _ _ => rfl, ?_⟩
  intro p _
  by_cases h : p = (1, 0)
  · subst h; decide
  · simp [demo, setTarget, setAttr, Graph.at?, inBounds, new, Graph.set, h, PLAIN, START, END, PATH]

/-- C66 does not hold when start and end are the same tile: it keeps the attribute of a start. -/
theorem C66_same_target : ((search simpleCost simpleWeight false (demo 2 1 [] (0, 0) (0, 0))).bind fun r =>
    (clear r.1).map fun g => (g.tiles (0, 0)).attr) = some START ∧
    ((demo 2 1 [] (0, 0) (0, 0)).tiles (0, 0)).attr = PLAIN := by
  decide +kernel

/-- Nor when a tile had the attribute of a path. -/
theorem C66_path_attribute : (((setAttr (demo 3 1 [] (0, 0) (2, 0)) (1, 0) PATH).bind fun g =>
    search simpleCost simpleWeight false g).bind fun r =>
    (clear r.1).map fun g => (g.tiles (1, 0)).attr) = some PLAIN := by
  decide +kernel

/-- Nor when new targets are set before `Clear`: the old ones get the attribute 0, which no tile of a map has. -/
theorem C66_new_target : ((search simpleCost simpleWeight false (demo 3 1 [] (0, 0) (2, 0))).bind fun r =>
    (clear (setTarget r.1 (1, 0) (1, 0))).map fun g => (r.2, (g.tiles (0, 0)).attr, (g.tiles (2, 0)).attr)) =
      some (true, 0, 0) := by
  decide +kernel

/-- Without `Clear` a second search fails: all tiles but the end are counted already. -/
theorem C66_needed : ((search simpleCost simpleWeight false (demo 3 1 [] (0, 0) (2, 0))).bind fun r =>
    (search simpleCost simpleWeight false r.1).map fun r' => (r.2, r'.2)) = some (true, false) := by
  decide +kernel

end Verif.Astar
