import Verif.Graph.Inv
import Verif.Graph.Spec

/-! Going back from the end tile. -/

namespace Verif.Astar

open Verif.Heap (PQ)

variable {weight : Count}

theorem neighbors_symm {g : Graph} (hs : Symmetric g) {p q : Pos} (hp : inBounds g p = true) (h : q ∈ neighbors g p) :
    p ∈ neighbors g q := by
  rw [mem_neighbors] at h ⊢
  obtain ⟨⟨d, hd, rfl⟩, _⟩ := h
  refine ⟨⟨_, hs d hd, ?_⟩, hp⟩
  obtain ⟨x, y⟩ := p
  simp only [Prod.mk.injEq]
  omega

/-- One step back. -/
def Back (g : Graph) (p q : Pos) : Prop :=
  q ∈ neighbors g p ∧ (g.tiles q).isCount = true ∧ (g.tiles q).cost < (g.tiles p).cost

/-- Every counted tile but the start has a counted neighbour that is cheaper. -/
structure Ctx (g : Graph) (s : Pos) : Prop where
  start : (g.tiles s).cost = 0
  nonneg : ∀ p, (g.tiles p).isCount = true → 0 ≤ (g.tiles p).cost
  par : ∀ p, (g.tiles p).isCount = true → p ≠ s → ∃ q, Back g p q

theorem Inv.ctx {g0 : Graph} {s e : Pos} (hs : Symmetric g0) {g : Graph} {m P : List Pos}
    (hi : Inv simpleCost weight g0 s e g m P) : Ctx g s := by
  refine ⟨hi.costS, fun p h => (hi.costs rfl p h).1, ?_⟩
  intro p h hp
  obtain ⟨q, h1, h2, h3⟩ := hi.par p h hp
  have hq : (g.tiles q).isCount = true := (hi.counted q).2 (Or.inl h1)
  refine ⟨q, ?_, hq, ?_⟩
  · rw [hi.same.neighbors]
    exact neighbors_symm hs (hi.inb q hq) h2
  · have := h3 rfl; omega

theorem back_fold (g : Graph) : ∀ (ns : List Pos) (r : Pos),
    let x := ns.foldl (fun r n => if (g.tiles n).isCount = true ∧ (g.tiles r).cost ≥ (g.tiles n).cost then n else r) r
    (x = r ∨ x ∈ ns ∧ (g.tiles x).isCount = true) ∧ (g.tiles x).cost ≤ (g.tiles r).cost ∧
      ∀ n ∈ ns, (g.tiles n).isCount = true → (g.tiles x).cost ≤ (g.tiles n).cost := by
  intro ns
  induction ns with
  | nil => intro r; simp
  | cons n ns ih =>
    intro r
    simp only [List.foldl_cons]
    by_cases h : (g.tiles n).isCount = true ∧ (g.tiles r).cost ≥ (g.tiles n).cost
    · rw [if_pos h]
      obtain ⟨h1, h2, h3⟩ := ih n
      refine ⟨?_, by omega, ?_⟩
      · right
        rcases h1 with h1 | h1
        · rw [h1]; exact ⟨by simp, h.1⟩
        · exact ⟨by simp [h1.1], h1.2⟩
      · intro k hk hc
        rcases List.mem_cons.1 hk with rfl | hk
        · exact h2
        · exact h3 k hk hc
    · rw [if_neg h]
      obtain ⟨h1, h2, h3⟩ := ih r
      refine ⟨?_, h2, ?_⟩
      · rcases h1 with h1 | h1
        · exact Or.inl h1
        · exact Or.inr ⟨by simp [h1.1], h1.2⟩
      · intro k hk hc
        rcases List.mem_cons.1 hk with rfl | hk
        · have : ¬ (g.tiles r).cost ≥ (g.tiles k).cost := fun h' => h ⟨hc, h'⟩
          omega
        · exact h3 k hk hc

theorem Ctx.back {g : Graph} {s t : Pos} (hc : Ctx g s) (ht : (g.tiles t).isCount = true) (hne : t ≠ s) :
    Back g t (back g t) := by
  obtain ⟨q, h1, h2, h3⟩ := hc.par t ht hne
  obtain ⟨f1, f2, f3⟩ := back_fold g (neighbors g t) t
  have h4 := f3 q h1 h2
  unfold Back Astar.back
  rcases f1 with f1 | f1
  · rw [f1] at h4; omega
  · exact ⟨f1.1, f1.2, by omega⟩

theorem min_fold (g : Graph) (t : Pos) : ∀ (ns : List Pos) (r : Pos × List Pos), (g.tiles r.1).cost ≤ (g.tiles t).cost →
    (∀ x ∈ r.2, x ∈ neighbors g t ∧ (g.tiles x).isCount = true ∧ (g.tiles x).cost = (g.tiles r.1).cost) →
    ((g.tiles r.1).cost < (g.tiles t).cost → r.2 ≠ []) → (∀ n ∈ ns, n ∈ neighbors g t) →
    let y := ns.foldl (fun (r : Pos × List Pos) n =>
      if (g.tiles n).isCount = true then
        if (g.tiles r.1).cost > (g.tiles n).cost then (n, [n])
        else if (g.tiles r.1).cost = (g.tiles n).cost then (r.1, r.2 ++ [n])
        else r
      else r) r
    (g.tiles y.1).cost ≤ (g.tiles r.1).cost ∧
    (∀ x ∈ y.2, x ∈ neighbors g t ∧ (g.tiles x).isCount = true ∧ (g.tiles x).cost = (g.tiles y.1).cost) ∧
    ((g.tiles y.1).cost < (g.tiles t).cost → y.2 ≠ []) ∧
    (∀ n ∈ ns, (g.tiles n).isCount = true → (g.tiles y.1).cost ≤ (g.tiles n).cost) := by
  intro ns
  induction ns with
  | nil => intro r h1 h2 h3 _; exact ⟨Int.le_refl _, h2, h3, by simp⟩
  | cons n ns ih =>
    intro r h1 h2 h3 h4
    simp only [List.foldl_cons]
    have hns : ∀ k ∈ ns, k ∈ neighbors g t := fun k hk => h4 k (by simp [hk])
    have hn := h4 n (by simp)
    by_cases hc : (g.tiles n).isCount = true
    · rw [if_pos hc]
      by_cases hgt : (g.tiles r.1).cost > (g.tiles n).cost
      · rw [if_pos hgt]
        obtain ⟨i1, i2, i3, i4⟩ := ih (n, [n]) (by simp only; omega) (by simp [hn, hc]) (by simp) hns
        refine ⟨by simp only at i1; omega, i2, i3, ?_⟩
        intro k hk hck
        rcases List.mem_cons.1 hk with rfl | hk
        · exact i1
        · exact i4 k hk hck
      · rw [if_neg hgt]
        by_cases he : (g.tiles r.1).cost = (g.tiles n).cost
        · rw [if_pos he]
          obtain ⟨i1, i2, i3, i4⟩ := ih (r.1, r.2 ++ [n]) h1 (by
            intro x hx
            rcases List.mem_append.1 hx with hx | hx
            · exact h2 x hx
            · have : x = n := by simpa using hx
              subst this
              exact ⟨hn, hc, he.symm⟩) (by simp) hns
          refine ⟨i1, i2, i3, ?_⟩
          intro k hk hck
          rcases List.mem_cons.1 hk with rfl | hk
          · simp only at i1; omega
          · exact i4 k hk hck
        · rw [if_neg he]
          obtain ⟨i1, i2, i3, i4⟩ := ih r h1 h2 h3 hns
          refine ⟨i1, i2, i3, ?_⟩
          intro k hk hck
          rcases List.mem_cons.1 hk with rfl | hk
          · omega
          · exact i4 k hk hck
    · rw [if_neg hc]
      obtain ⟨i1, i2, i3, i4⟩ := ih r h1 h2 h3 hns
      refine ⟨i1, i2, i3, ?_⟩
      intro k hk hck
      rcases List.mem_cons.1 hk with rfl | hk
      · exact absurd hck hc
      · exact i4 k hk hck

theorem Ctx.minTiles {g : Graph} {s t : Pos} (hc : Ctx g s) (ht : (g.tiles t).isCount = true) (hne : t ≠ s) :
    (minTiles g t).2 ≠ [] ∧ ∀ x ∈ (minTiles g t).2, Back g t x := by
  obtain ⟨q, h1, h2, h3⟩ := hc.par t ht hne
  obtain ⟨f1, f2, f3, f4⟩ := min_fold g t (neighbors g t) (t, []) (Int.le_refl _) (by simp) (by simp) (fun _ h => h)
  have h4 := f4 q h1 h2
  refine ⟨f3 (by omega), ?_⟩
  intro x hx
  have h5 := f2 x hx
  exact ⟨h5.1, h5.2.1, by omega⟩

/-- A way back from `t` to `s`, without `t`. -/
structure Way (g : Graph) (s t : Pos) (l : List Pos) : Prop where
  chain : (t :: l).IsChain (Back g)
  last : (t :: l).getLast? = some s

theorem Way.nil {g : Graph} {s : Pos} : Way g s s [] := ⟨by simp, by simp⟩

theorem Way.cons {g : Graph} {s t r : Pos} {l : List Pos} (h : Back g t r) (hw : Way g s r l) : Way g s t (r :: l) :=
  ⟨List.isChain_cons_cons.2 ⟨h, hw.chain⟩, by rw [List.getLast?_cons_cons]; exact hw.last⟩

theorem Ctx.singlePath {g : Graph} {s : Pos} (hc : Ctx g s) : ∀ (n : Nat) (t : Pos) (path : List Pos),
    (g.tiles t).isCount = true → (g.tiles t).cost ≤ n →
    ∃ l, singlePath g s n t path = some (path ++ l) ∧ Way g s t l := by
  intro n
  induction n with
  | zero =>
    intro t path ht hn
    have hts : t = s := by
      by_contra hne
      obtain ⟨q, _, h2, h3⟩ := hc.par t ht hne
      have := hc.nonneg q h2
      simp at hn; omega
    subst hts
    exact ⟨[], by simp [Astar.singlePath], .nil⟩
  | succ n ih =>
    intro t path ht hn
    by_cases hts : t = s
    · subst hts
      exact ⟨[], by simp [Astar.singlePath], .nil⟩
    · have hb := hc.back ht hts
      obtain ⟨l, h1, h2⟩ := ih (Astar.back g t) (path ++ [Astar.back g t]) hb.2.1 (by
        have := hb.2.2; push_cast at hn; omega)
      refine ⟨Astar.back g t :: l, ?_, .cons hb h2⟩
      rw [Astar.singlePath, if_neg hts]
      simp [h1]

theorem Ctx.multiPath {g : Graph} {s : Pos} (hc : Ctx g s) : ∀ (n : Nat) (t : Pos) (path : List Pos),
    (g.tiles t).isCount = true → (g.tiles t).cost ≤ n →
    ∃ ps, multiPath g s n t path = some ps ∧ ps ≠ [] ∧ ∀ p ∈ ps, ∃ l, p = path ++ t :: l ∧ Way g s t l := by
  intro n
  induction n with
  | zero =>
    intro t path ht hn
    have hts : t = s := by
      by_contra hne
      obtain ⟨q, _, h2, h3⟩ := hc.par t ht hne
      have := hc.nonneg q h2
      simp at hn; omega
    subst hts
    exact ⟨[path ++ [t]], by simp [Astar.multiPath], by simp, by
      intro p hp; simp at hp; exact ⟨[], hp, .nil⟩⟩
  | succ n ih =>
    intro t path ht hn
    by_cases hts : t = s
    · subst hts
      exact ⟨[path ++ [t]], by simp [Astar.multiPath], by simp, by
        intro p hp; simp at hp; exact ⟨[], hp, .nil⟩⟩
    · obtain ⟨hm1, hm2⟩ := hc.minTiles ht hts
      have key : ∀ (L : List Pos), (∀ x ∈ L, Back g t x) →
          ∃ pss : List (List (List Pos)), L.mapM (fun r => Astar.multiPath g s n r (path ++ [t])) = some pss ∧
            (L ≠ [] → pss.flatten ≠ []) ∧ ∀ p ∈ pss.flatten, ∃ l, p = path ++ t :: l ∧ Way g s t l := by
        intro L
        induction L with
        | nil => intro _; exact ⟨[], by simp, by simp, by simp⟩
        | cons x L ihL =>
          intro hL
          have hx := hL x (by simp)
          obtain ⟨ps, p1, p2, p3⟩ := ih x (path ++ [t]) hx.2.1 (by
            have := hx.2.2; push_cast at hn; omega)
          obtain ⟨pss, q1, q2, q3⟩ := ihL (fun y hy => hL y (by simp [hy]))
          refine ⟨ps :: pss, by simp [p1, q1], ?_, ?_⟩
          · intro _ h
            simp only [List.flatten_cons, List.append_eq_nil_iff] at h
            exact p2 h.1
          · intro p hp
            simp only [List.flatten_cons, List.mem_append] at hp
            rcases hp with hp | hp
            · obtain ⟨l, hl, hw⟩ := p3 p hp
              exact ⟨x :: l, by simp [hl], .cons hx hw⟩
            · exact q3 p hp
      obtain ⟨pss, k1, k2, k3⟩ := key _ hm2
      refine ⟨pss.flatten, ?_, k2 hm1, k3⟩
      rw [Astar.multiPath, if_neg hts]
      simp [k1]

/-- The cost falls along a way. -/
theorem chain_lt {g : Graph} : ∀ {l : List Pos} {t : Pos}, (t :: l).IsChain (Back g) →
    ∀ p ∈ l, (g.tiles p).cost < (g.tiles t).cost := by
  intro l
  induction l with
  | nil => simp
  | cons a l ih =>
    intro t h p hp
    rw [List.isChain_cons_cons] at h
    have := h.1.2.2
    rcases List.mem_cons.1 hp with rfl | hp
    · exact this
    · have := ih h.2 p hp; omega

theorem chain_nodup {g : Graph} : ∀ {l : List Pos} {t : Pos}, (t :: l).IsChain (Back g) → (t :: l).Nodup := by
  intro l
  induction l with
  | nil => simp
  | cons a l ih =>
    intro t h
    rw [List.nodup_cons]
    refine ⟨?_, ih (List.isChain_cons_cons.1 h).2⟩
    intro hm
    have := chain_lt h t hm
    omega

theorem chain_counted {g : Graph} : ∀ {l : List Pos} {t : Pos}, (t :: l).IsChain (Back g) →
    ∀ p ∈ l, (g.tiles p).isCount = true := by
  intro l
  induction l with
  | nil => simp
  | cons a l ih =>
    intro t h p hp
    rw [List.isChain_cons_cons] at h
    rcases List.mem_cons.1 hp with rfl | hp
    · exact h.1.2.1
    · exact ih h.2 p hp

theorem chain_length {g : Graph} {s : Pos} : ∀ {l : List Pos} {t : Pos}, (t :: l).IsChain (Back g) →
    (t :: l).getLast? = some s → (g.tiles s).cost + l.length ≤ (g.tiles t).cost := by
  intro l
  induction l with
  | nil => intro t _ h; simp at h; subst h; simp
  | cons a l ih =>
    intro t h hl
    rw [List.isChain_cons_cons] at h
    rw [List.getLast?_cons_cons] at hl
    have h1 := ih h.2 hl
    have h2 := h.1.2.2
    simp only [List.length_cons]
    push_cast
    omega

end Verif.Astar
