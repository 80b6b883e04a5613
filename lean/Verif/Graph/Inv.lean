import Verif.Graph.Search

/-! Invariants of a search. -/

namespace Verif.Astar

open Verif.Heap (PQ)

variable {cost weight : Count}

/-- The graph when the loop begins, with different start and end. -/
structure Prep (g0 : Graph) (s e : Pos) : Prop where
  ne : s ≠ e
  inS : inBounds g0 s = true
  inE : inBounds g0 e = true
  cnt : ∀ p, (g0.tiles p).isCount = true ↔ p = s
  cost : (g0.tiles s).cost = 0
  attrS : (g0.tiles s).attr ≠ BLOCK
  attrE : (g0.tiles e).attr ≠ BLOCK

/-- `m` is in the heap, `P` has been taken from it. -/
structure Inv (cost weight : Count) (g0 : Graph) (s e : Pos) (g : Graph) (m P : List Pos) : Prop where
  same : Same g0 g
  counted : ∀ p, (g.tiles p).isCount = true ↔ p ∈ P ∨ p ∈ m
  inb : ∀ p, (g.tiles p).isCount = true → inBounds g0 p = true
  nb : ∀ p, (g.tiles p).isCount = true → (g0.tiles p).attr ≠ BLOCK
  nodup : (P ++ m).Nodup
  notend : e ∉ P
  cntS : (g.tiles s).isCount = true
  first : s ∈ m → m = [s] ∧ P = []
  par : ∀ p, (g.tiles p).isCount = true → p ≠ s → ∃ q ∈ P, p ∈ neighbors g0 q ∧
    (cost = simpleCost → (g.tiles p).cost = (g.tiles q).cost + 1)
  costS : (g.tiles s).cost = 0
  costs : cost = simpleCost → ∀ p, (g.tiles p).isCount = true →
    0 ≤ (g.tiles p).cost ∧ (g.tiles p).cost + left g < g0.dimX * g0.dimY
  wt : ∀ p, (g.tiles p).isCount = true → p ≠ s → ∃ g1 q, (g.tiles p).weight = weight g1 p q ∧
    (g1.tiles p).cost = (g.tiles p).cost ∧ g1.fin = g0.fin

/-- A tile that is not counted is among those left. -/
theorem left_lt {g : Graph} {p : Pos} (hi : inBounds g p = true) (hc : (g.tiles p).isCount = true) :
    left g < g.dimX * g.dimY := by
  rw [← cells_length g]
  unfold left
  refine Nat.lt_of_le_of_ne (List.length_filter_le _ _) ?_
  intro h
  rw [List.length_filter_eq_length_iff] at h
  have := h p (mem_cells.2 hi)
  simp [hc] at this

theorem Inv.init {g0 : Graph} {s e : Pos} (hp : Prep g0 s e) (h : PQ Pos) :
    Inv cost weight g0 s e { g0 with heap := h } [s] [] where
  same := same_heap _ _
  counted := by intro p; simp [hp.cnt]
  inb := by intro p h; rw [(hp.cnt p).1 h]; exact hp.inS
  nb := by intro p h; rw [(hp.cnt p).1 h]; exact hp.attrS
  nodup := by simp
  notend := by simp
  cntS := (hp.cnt s).2 rfl
  first := by intro _; simp
  par := by intro p h h'; exact absurd ((hp.cnt p).1 h) h'
  costS := hp.cost
  costs := by
    intro _ p hc
    rw [(hp.cnt p).1 hc]
    have h1 : left { g0 with heap := h } < g0.dimX * g0.dimY := left_lt hp.inS ((hp.cnt s).2 rfl)
    have h2 := hp.cost
    show 0 ≤ (g0.tiles s).cost ∧ (g0.tiles s).cost + left { g0 with heap := h } < _
    rw [h2]
    exact ⟨Int.le_refl _, by rw [Int.zero_add]; exact_mod_cast h1⟩
  wt := by intro p h h'; exact absurd ((hp.cnt p).1 h) h'

theorem Inv.pop {g0 : Graph} {s e : Pos} {g : Graph} {m m1 P : List Pos} {t : Pos} (hi : Inv cost weight g0 s e g m P)
    (hp : m.Perm (t :: m1)) (hne : t ≠ e) (h : PQ Pos) :
    Inv cost weight g0 s e { g with heap := h } m1 (t :: P) where
  same := hi.same.trans (same_heap _ _)
  counted := by
    intro p
    show (g.tiles p).isCount = true ↔ _
    rw [hi.counted, hp.mem_iff]
    simp; tauto
  inb := hi.inb
  nb := hi.nb
  nodup := by
    have h1 : (P ++ m).Perm (t :: P ++ m1) :=
      ((List.Perm.refl P).append hp).trans List.perm_middle
    exact h1.nodup_iff.1 hi.nodup
  notend := by simp [Ne.symm hne, hi.notend]
  cntS := hi.cntS
  first := by
    intro hs
    have h1 := hi.first (hp.symm.subset (by simp [hs]))
    rw [h1.1] at hp
    have := hp.length_eq
    simp at this
    rw [this] at hs
    simp at hs
  par := by
    intro p h h'
    obtain ⟨q, h1, h2⟩ := hi.par p h h'
    exact ⟨q, by simp [h1], h2⟩
  costS := hi.costS
  costs := hi.costs
  wt := hi.wt

/-- Counted tiles do not change. -/
theorem Vis.mono {t n : Pos} {g g' : Graph} {m m' : List Pos} (h : Vis cost weight t g m n g' m') {p : Pos}
    (hp : (g.tiles p).isCount = true) : g'.tiles p = g.tiles p := by
  cases h with
  | skip => rfl
  | add hc _ _ _ tp => exact tp p (by rintro rfl; rw [hc] at hp; simp at hp)

theorem Exp.mono {t : Pos} {ns : List Pos} {g g' : Graph} {m m' : List Pos} (h : Exp cost weight t g m ns g' m')
    {p : Pos} (hp : (g.tiles p).isCount = true) : g'.tiles p = g.tiles p := by
  induction h with
  | nil => rfl
  | cons h _ ih =>
    have := h.mono hp
    rw [ih (by rw [this]; exact hp), this]

theorem Vis.now {t n : Pos} {g g' : Graph} {m m' : List Pos} (h : Vis cost weight t g m n g' m')
    (hb : (g.tiles n).attr ≠ BLOCK) : (g'.tiles n).isCount = true := by
  cases h with
  | skip h =>
    by_contra hc
    exact h ⟨by simpa using hc, hb⟩
  | add _ _ _ tn _ => rw [tn]

theorem Exp.now {t : Pos} {ns : List Pos} {g g' : Graph} {m m' : List Pos} (h : Exp cost weight t g m ns g' m') :
    ∀ n ∈ ns, (g.tiles n).attr ≠ BLOCK → (g'.tiles n).isCount = true := by
  induction h with
  | nil => simp
  | @cons g g1 g2 m m1 m2 n ns h hs ih =>
    intro k hk hb
    rcases List.mem_cons.1 hk with rfl | hk
    · have := h.now hb
      rw [hs.mono this]; exact this
    · exact ih k hk (by rw [h.same.attr]; exact hb)

theorem Inv.vis {g0 : Graph} {s e : Pos} {g g' : Graph} {m m' P : List Pos} {t n : Pos}
    (hi : Inv cost weight g0 s e g m P) (ht : t ∈ P) (hn : n ∈ neighbors g0 t)
    (h : Vis cost weight t g m n g' m') : Inv cost weight g0 s e g' m' P := by
  have hin : inBounds g0 n = true := (mem_neighbors.1 hn).2
  have hleft := h.left (by rw [hi.same.inBounds]; exact hin)
  cases h with
  | skip => exact hi
  | add hc hb same tn tp =>
    have hns : n ≠ s := by rintro rfl; rw [hi.cntS] at hc; simp at hc
    have hnot : ¬ (n ∈ P ∨ n ∈ m) := by rw [← hi.counted, hc]; simp
    have ht' : (g.tiles t).isCount = true := (hi.counted t).2 (Or.inl ht)
    have htn : t ≠ n := by rintro rfl; rw [hc] at ht'; simp at ht'
    have hcase : ∀ p, (g'.tiles p).isCount = true ↔ p = n ∨ (g.tiles p).isCount = true := by
      intro p
      by_cases hp : p = n
      · simp [hp, tn]
      · simp [hp, tp p hp]
    simp only [List.length_cons] at hleft
    refine ⟨hi.same.trans same, ?_, ?_, ?_, ?_, hi.notend, ?_, ?_, ?_, ?_, ?_, ?_⟩
    · intro p; rw [hcase, hi.counted]; simp; tauto
    · intro p h; rw [hcase] at h; rcases h with rfl | h
      · exact hin
      · exact hi.inb p h
    · intro p h; rw [hcase] at h; rcases h with rfl | h
      · rw [← hi.same.attr]; exact hb
      · exact hi.nb p h
    · rw [List.perm_middle.nodup_iff, List.nodup_cons]
      exact ⟨by simpa using hnot, hi.nodup⟩
    · rw [hcase]; exact Or.inr hi.cntS
    · intro hs
      have : s ∈ m := by simpa [Ne.symm hns] using hs
      have h1 := hi.first this
      rw [h1.2] at ht; simp at ht
    · intro p h hps
      rw [hcase] at h
      by_cases hp : p = n
      · subst hp
        refine ⟨t, ht, hn, ?_⟩
        intro hcs
        rw [tn, tp t htn]
        subst hcs
        rfl
      · have h : (g.tiles p).isCount = true := by simpa [hp] using h
        obtain ⟨q, h1, h2, h3⟩ := hi.par p h hps
        refine ⟨q, h1, h2, ?_⟩
        intro hcs
        have hq : (g.tiles q).isCount = true := (hi.counted q).2 (Or.inl h1)
        rw [tp p hp, tp q (by rintro rfl; rw [hc] at hq; simp at hq)]
        exact h3 hcs
    · rw [tp s (Ne.symm hns)]; exact hi.costS
    · intro hcs p h
      rw [hcase] at h
      by_cases hp : p = n
      · subst hp
        have h1 := hi.costs hcs t ht'
        have : (g'.tiles p).cost = (g.tiles t).cost + 1 := by rw [tn]; subst hcs; rfl
        rw [this]
        omega
      · have h : (g.tiles p).isCount = true := by simpa [hp] using h
        have h1 := hi.costs hcs p h
        rw [tp p hp]
        omega
    · intro p h hps
      rw [hcase] at h
      by_cases hp : p = n
      · subst hp
        refine ⟨_, t, by rw [tn], ?_, ?_⟩
        · rw [tn]; simp [Graph.set]
        · show g.fin = _; exact hi.same.fin
      · have h : (g.tiles p).isCount = true := by simpa [hp] using h
        rw [tp p hp]
        exact hi.wt p h hps

theorem Inv.exp {g0 : Graph} {s e : Pos} {g g' : Graph} {m m' P ns : List Pos} {t : Pos}
    (hi : Inv cost weight g0 s e g m P) (ht : t ∈ P) (hn : ∀ n ∈ ns, n ∈ neighbors g0 t)
    (h : Exp cost weight t g m ns g' m') : Inv cost weight g0 s e g' m' P := by
  induction h with
  | nil => exact hi
  | cons h _ ih => exact ih (hi.vis ht (hn _ (by simp)) h) (fun n hm => hn n (by simp [hm]))

theorem At.inv {g0 : Graph} {s e : Pos} (hp : Prep g0 s e) {g : Graph} {m P : List Pos}
    (h : At cost weight g0 s e g m P) : Inv cost weight g0 s e g m P := by
  induction h with
  | init => exact Inv.init hp _
  | round ha hperm _ hne hx ih =>
    refine (ih.pop hperm hne _).exp (by simp) ?_ hx
    intro n hn
    rw [← ha.same.neighbors]; exact hn

/-- All free neighbours of a tile that has been taken are counted. -/
theorem At.closed {g0 : Graph} {s e : Pos} {g : Graph} {m P : List Pos}
    (h : At cost weight g0 s e g m P) :
    ∀ p ∈ P, ∀ q ∈ neighbors g0 p, (g0.tiles q).attr ≠ BLOCK → (g.tiles q).isCount = true := by
  induction h with
  | init => simp
  | @round g g' m m1 m' P t h ha hperm _ hne hx ih =>
    intro p hp' q hq hb
    rcases List.mem_cons.1 hp' with rfl | hp'
    · refine hx.now q ?_ ?_
      · rw [ha.same.neighbors]; exact hq
      · show (g.tiles q).attr ≠ _
        rw [ha.same.attr]; exact hb
    · have := ih p hp' q hq hb
      rw [hx.mono (p := q) this]; exact this

end Verif.Astar
