import Verif.Graph.Reach

/-! When the cost of the end tile is the least possible. -/

namespace Verif.Astar

open Verif.Heap (PQ)

variable {weight : Count}

/-- `abs` is the absolute value, within 31 bit. -/
theorem abs_eq {v : Int} (h1 : -2147483648 ≤ v) (h2 : v < 2147483648) : abs v = if v < 0 then -v else v := by
  have hb : (BitVec.ofInt 64 v).toInt = v := by
    rw [BitVec.toInt_ofInt]; exact Int.bmod_eq_of_le (by omega) (by omega)
  have hs : ((BitVec.ofInt 64 v).sshiftRight 31).toInt = v / 2147483648 := by
    rw [BitVec.toInt_sshiftRight, hb, Int.shiftRight_eq_div_pow]; rfl
  unfold abs
  simp only
  by_cases hv : v < 0
  · have h3 : (BitVec.ofInt 64 v).sshiftRight 31 = BitVec.allOnes 64 := by
      apply BitVec.eq_of_toInt_eq
      rw [hs, BitVec.toInt_allOnes]
      simp; omega
    rw [h3, BitVec.xor_allOnes, if_pos hv]
    have : ~~~ (BitVec.ofInt 64 v) - BitVec.allOnes 64 = - BitVec.ofInt 64 v := by
      rw [BitVec.neg_eq_not_add, BitVec.sub_eq_add_neg]
      congr 1
    rw [this, BitVec.toInt_neg, hb]
    exact Int.bmod_eq_of_le (by omega) (by omega)
  · have h3 : (BitVec.ofInt 64 v).sshiftRight 31 = 0#64 := by
      apply BitVec.eq_of_toInt_eq
      rw [hs]; simp; omega
    rw [h3, if_neg hv]
    simp [hb]

/-! ### Breadth first -/

/-- The weight that prefers tiles near the start. -/
def nearWeight : Count := fun g t _ => -(g.tiles t).cost

structure Bfs (g : Graph) (m P : List Pos) : Prop where
  popped : ∀ p ∈ P, ∀ q ∈ m, (g.tiles p).cost ≤ (g.tiles q).cost
  close : ∀ p ∈ m, ∀ q ∈ m, (g.tiles p).cost ≤ (g.tiles q).cost + 1

theorem Exp.bfs {g g' : Graph} {t : Pos} {m m' P ns : List Pos} (h : Exp simpleCost weight t g m ns g' m')
    (hb : Bfs g m P) (ht : (g.tiles t).isCount = true) (hm : ∀ p ∈ m, (g.tiles p).isCount = true)
    (hP : ∀ p ∈ P, (g.tiles p).isCount = true)
    (h1 : ∀ p ∈ m, (g.tiles t).cost ≤ (g.tiles p).cost ∧ (g.tiles p).cost ≤ (g.tiles t).cost + 1)
    (h2 : ∀ p ∈ P, (g.tiles p).cost ≤ (g.tiles t).cost) : Bfs g' m' P := by
  induction h with
  | nil => exact hb
  | @cons g g1 g2 m m1 m2 n ns h hs ih =>
    cases h with
    | skip => exact ih hb ht hm hP h1 h2
    | add hc _ _ tn tp =>
      have hne : ∀ p, (g.tiles p).isCount = true → p ≠ n := by
        rintro p hp rfl; rw [hc] at hp; simp at hp
      have hcost : (g1.tiles n).cost = (g.tiles t).cost + 1 := by rw [tn]; rfl
      have etm : ∀ p ∈ m, g1.tiles p = g.tiles p := fun p hp => tp p (hne p (hm p hp))
      have etP : ∀ p ∈ P, g1.tiles p = g.tiles p := fun p hp => tp p (hne p (hP p hp))
      have ett : g1.tiles t = g.tiles t := tp t (hne t ht)
      refine ih ⟨?_, ?_⟩ (by rw [ett]; exact ht) ?_ (fun p hp => by rw [etP p hp]; exact hP p hp) ?_
        (fun p hp => by rw [etP p hp, ett]; exact h2 p hp)
      · intro p hp q hq
        rw [etP p hp]
        have := h2 p hp
        rcases List.mem_cons.1 hq with rfl | hq
        · omega
        · rw [etm q hq]; exact hb.popped p hp q hq
      · intro p hp q hq
        rcases List.mem_cons.1 hp with hp' | hp' <;> rcases List.mem_cons.1 hq with hq' | hq'
        · subst hp'; subst hq'; omega
        · subst hp'; rw [etm q hq']; have := h1 q hq'; omega
        · subst hq'; rw [etm p hp']; have := h1 p hp'; omega
        · rw [etm p hp', etm q hq']; exact hb.close p hp' q hq'
      · intro p hp
        rcases List.mem_cons.1 hp with rfl | hp
        · rw [tn]
        · rw [etm p hp]; exact hm p hp
      · intro p hp
        rcases List.mem_cons.1 hp with rfl | hp
        · rw [ett]; omega
        · rw [etm p hp, ett]; exact h1 p hp

/-- The weight in the heap is the cost, but for the start, which is alone. -/
theorem near_weight {g0 g : Graph} {s e : Pos} {m P : List Pos} (hi : Inv simpleCost nearWeight g0 s e g m P)
    {p : Pos} (hp : (g.tiles p).isCount = true) (hs : p ≠ s) : (g.tiles p).weight = -(g.tiles p).cost := by
  obtain ⟨g1, q, h1, h2, _⟩ := hi.wt p hp hs
  rw [h1, ← h2]; rfl

theorem near_min {g0 g : Graph} {s e t : Pos} {m P : List Pos} (hi : Inv simpleCost nearWeight g0 s e g m P)
    (ht : t ∈ m) (hmax : ∀ y ∈ m, (g.tiles y).weight ≤ (g.tiles t).weight) :
    ∀ y ∈ m, (g.tiles t).cost ≤ (g.tiles y).cost := by
  intro y hy
  by_cases hs : s ∈ m
  · have := (hi.first hs).1
    rw [this] at ht hy
    have h1 : t = s := by simpa using ht
    have h2 : y = s := by simpa using hy
    rw [h1, h2]
    exact Int.le_refl _
  · have h1 := near_weight hi ((hi.counted t).2 (Or.inr ht)) (by rintro rfl; exact hs ht)
    have h2 := near_weight hi ((hi.counted y).2 (Or.inr hy)) (by rintro rfl; exact hs hy)
    have := hmax y hy
    omega

theorem At.bfs {g0 g : Graph} {s e : Pos} {m P : List Pos} (hp : Prep g0 s e)
    (h : At simpleCost nearWeight g0 s e g m P) : Bfs g m P ∧
      ∀ p ∈ P, ∀ q ∈ neighbors g0 p, (g0.tiles q).attr ≠ BLOCK → (g.tiles q).cost ≤ (g.tiles p).cost + 1 := by
  induction h with
  | init => exact ⟨⟨by simp, by simp; omega⟩, by simp⟩
  | @round g g' m m1 m' P t h ha hperm hmax hne hx ih =>
    have hi := ha.inv hp
    have htm : t ∈ m := hperm.symm.subset (by simp)
    have hsub : ∀ p ∈ m1, p ∈ m := fun p hp => hperm.symm.subset (by simp [hp])
    have ht : (g.tiles t).isCount = true := (hi.counted t).2 (Or.inr htm)
    have hmin := near_min hi htm hmax
    have hb : Bfs { g with heap := h } m1 (t :: P) := by
      refine ⟨?_, ?_⟩
      · intro p hp' q hq
        rcases List.mem_cons.1 hp' with rfl | hp'
        · exact hmin q (hsub q hq)
        · exact ih.1.popped p hp' q (hsub q hq)
      · intro p hp' q hq
        exact ih.1.close p (hsub p hp') q (hsub q hq)
    have hcm : ∀ p ∈ m1, (g.tiles p).isCount = true := fun p hp' => (hi.counted p).2 (Or.inr (hsub p hp'))
    have hcP : ∀ p ∈ t :: P, (g.tiles p).isCount = true := by
      intro p hp'
      rcases List.mem_cons.1 hp' with rfl | hp'
      · exact ht
      · exact (hi.counted p).2 (Or.inl hp')
    have hle : ∀ p ∈ t :: P, (g.tiles p).cost ≤ (g.tiles t).cost := by
      intro p hp'
      rcases List.mem_cons.1 hp' with rfl | hp'
      · exact Int.le_refl _
      · exact ih.1.popped p hp' t htm
    have hnow : Bfs g' m' (t :: P) := hx.bfs hb ht hcm hcP
      (fun p hp' => ⟨hmin p (hsub p hp'), ih.1.close p (hsub p hp') t htm⟩) hle
    refine ⟨hnow, ?_⟩
    intro p hp' q hq hbl
    have hatt : At simpleCost nearWeight g0 s e g' m' (t :: P) := .round ha hperm hmax hne hx
    have hi' := hatt.inv hp
    have hmonoP : ∀ p ∈ t :: P, g'.tiles p = g.tiles p := fun p hp'' => hx.mono (p := p) (hcP p hp'')
    rcases List.mem_cons.1 hp' with rfl | hp'
    · rw [hmonoP p (by simp)]
      by_cases hcq : (g.tiles q).isCount = true
      · rw [hx.mono (p := q) hcq]
        rcases (hi.counted q).1 hcq with h1 | h1
        · have := ih.1.popped q h1 p htm
          show (g.tiles q).cost ≤ _
          omega
        · exact ih.1.close q h1 p htm
      · -- found now
        have hcq' : (g'.tiles q).isCount = true := hatt.closed p (by simp) q hq hbl
        have hqs : q ≠ s := by rintro rfl; exact hcq hi.cntS
        obtain ⟨r, hr1, _, hr3⟩ := hi'.par q hcq' hqs
        have h3 := hr3 rfl
        rw [h3, hmonoP r hr1]
        have := hle r hr1
        omega
    · have hcq := ha.closed p hp' q hq hbl
      rw [hx.mono (p := q) hcq, hmonoP p (by simp [hp'])]
      exact ih.2 p hp' q hq hbl

/-- With that weight the cost of the end tile is the least number of steps. -/
theorem near_shortest {g0 g : Graph} {s e : Pos} {m P : List Pos} (hp : Prep (prepared g0 s e) s e)
    (h : At simpleCost nearWeight (prepared g0 s e) s e g m P) (he : e ∈ m)
    (hmax : ∀ y ∈ m, (g.tiles y).weight ≤ (g.tiles e).weight) {n : Nat} (hw : Walk g0 s e n e) :
    (g.tiles e).cost ≤ n := by
  have hi := h.inv hp
  have hb := h.bfs hp
  have key : ∀ (n : Nat) (p : Pos), Walk g0 s e n p →
      (p ∈ P ∧ (g.tiles p).cost ≤ n) ∨ ∃ x ∈ m, (g.tiles x).cost ≤ n := by
    intro n p hw
    induction hw with
    | here =>
      rcases (hi.counted s).1 hi.cntS with h1 | h1
      · exact Or.inl ⟨h1, by rw [hi.costS]; simp⟩
      · exact Or.inr ⟨s, h1, by rw [hi.costS]; simp⟩
    | @step n p q _ ha ho ih =>
      rcases ih with ⟨h1, h2⟩ | ⟨x, h1, h2⟩
      · have ho' := open_iff.1 ho
        have hn := (mem_neighbors_prepared (s := s) (e := e)).2 ⟨ha, ho'.1⟩
        have hq := h.closed p h1 q hn ho'.2
        have hc := hb.2 p h1 q hn ho'.2
        rcases (hi.counted q).1 hq with h3 | h3
        · exact Or.inl ⟨h3, by push_cast; omega⟩
        · exact Or.inr ⟨q, h3, by push_cast; omega⟩
      · exact Or.inr ⟨x, h1, by push_cast; omega⟩
  rcases key n e hw with ⟨h1, _⟩ | ⟨x, h1, h2⟩
  · exact absurd h1 hi.notend
  · have := near_min hi he hmax x h1
    omega

/-! ### Free rectangles -/

/-- Steps in four directions. -/
def man (a b : Pos) : Nat := (a.1 - b.1).natAbs + (a.2 - b.2).natAbs

/-- Steps in eight directions. -/
def cheb (a b : Pos) : Nat := max (a.1 - b.1).natAbs (a.2 - b.2).natAbs

/-- In the rectangle that the two positions span. -/
def Between (s e p : Pos) : Prop :=
  min s.1 e.1 ≤ p.1 ∧ p.1 ≤ max s.1 e.1 ∧ min s.2 e.2 ≤ p.2 ∧ p.2 ≤ max s.2 e.2

theorem simple_weight {g0 g : Graph} {s e : Pos} {m P : List Pos} (hx : g0.dimX ≤ 2147483648)
    (hy : g0.dimY ≤ 2147483648) (hin : inBounds (prepared g0 s e) e = true)
    (hi : Inv simpleCost simpleWeight (prepared g0 s e) s e g m P) {p : Pos} (hp : (g.tiles p).isCount = true)
    (hs : p ≠ s) : (g.tiles p).weight = -((man p e : Int) + (g.tiles p).cost) := by
  obtain ⟨g1, q, h1, h2, h3⟩ := hi.wt p hp hs
  have hf : (g1.fin.getD ⟨(0, 0), 0⟩).pos = e := by rw [h3]; rfl
  have hb := inBounds_iff.1 (hi.inb p hp)
  have he := inBounds_iff.1 hin
  have e1 : (prepared g0 s e).dimX = g0.dimX := rfl
  have e2 : (prepared g0 s e).dimY = g0.dimY := rfl
  rw [e1, e2] at hb he
  rw [h1, ← h2]
  simp only [simpleWeight, hf, man]
  rw [abs_eq (by omega) (by omega), abs_eq (by omega) (by omega)]
  split <;> split <;> omega

theorem step4 {g : Graph} (hd : g.dirs = four) {p q : Pos} (h : Adjacent g p q) (e : Pos) :
    (man q e : Int) = man p e + 1 ∨ (man q e : Int) = man p e - 1 := by
  obtain ⟨d, hd', rfl⟩ := h
  rw [hd] at hd'
  simp only [four, List.mem_cons, List.not_mem_nil, or_false] at hd'
  rcases hd' with rfl | rfl | rfl | rfl <;> simp only [man] <;> omega

theorem walk4 {g : Graph} {s e : Pos} (hd : g.dirs = four) {n : Nat} {p : Pos} (h : Walk g s e n p) : man s p ≤ n := by
  induction h with
  | here => simp [man]
  | @step n p q _ ha _ ih =>
    obtain ⟨d, hd', rfl⟩ := ha
    rw [hd] at hd'
    simp only [four, List.mem_cons, List.not_mem_nil, or_false] at hd'
    rcases hd' with rfl | rfl | rfl | rfl <;> simp only [man] at * <;> omega

/-- A neighbour that is nearer. -/
theorem near4 {g : Graph} (hd : g.dirs = four) {s e p : Pos} (hb : Between s e p) (hne : p ≠ e) :
    ∃ q, Adjacent g p q ∧ Between s e q ∧ man q e + 1 = man p e := by
  obtain ⟨x, y⟩ := p
  obtain ⟨ex, ey⟩ := e
  simp only [Between] at hb
  have hxy : x < ex ∨ ex < x ∨ y < ey ∨ ey < y := by
    by_contra h
    exact hne (by simp only [Prod.mk.injEq]; omega)
  rcases hxy with h | h | h | h
  · exact ⟨(x + 1, y), ⟨(1, 0), by simp [hd, four], by simp⟩, by simp only [Between]; omega, by simp only [man]; omega⟩
  · exact ⟨(x + -1, y), ⟨(-1, 0), by simp [hd, four], by simp⟩, by simp only [Between]; omega, by simp only [man]; omega⟩
  · exact ⟨(x, y + 1), ⟨(0, 1), by simp [hd, four], by simp⟩, by simp only [Between]; omega, by simp only [man]; omega⟩
  · exact ⟨(x, y + -1), ⟨(0, -1), by simp [hd, four], by simp⟩, by simp only [Between]; omega, by simp only [man]; omega⟩

theorem between_inside {g : Graph} {s e p : Pos} (hs : Inside g s) (he : Inside g e) (hb : Between s e p) :
    Inside g p := by
  obtain ⟨s1, s2, s3, s4⟩ := hs
  obtain ⟨e1, e2, e3, e4⟩ := he
  obtain ⟨b1, b2, b3, b4⟩ := hb
  refine ⟨by omega, by omega, by omega, by omega⟩

section
variable {g0 : Graph} {s e : Pos} (hs : Inside g0 s) (he : Inside g0 e) (hx : g0.dimX ≤ 2147483648)
  (hy : g0.dimY ≤ 2147483648) (hfree : ∀ p, Between s e p → (g0.tiles p).attr ≠ BLOCK)
  (hp : Prep (prepared g0 s e) s e)
include hs he hfree hp

/-- As long as only tiles on shortest ways have been taken, there is another in the heap. -/
theorem good4 (hd : g0.dirs = four) {g : Graph} {m P : List Pos}
    (h : At simpleCost simpleWeight (prepared g0 s e) s e g m P)
    (hP : ∀ p ∈ P, (g.tiles p).cost + man p e = man s e) : ∃ y ∈ m, (g.tiles y).cost + man y e = man s e := by
  have hi := h.inv hp
  have hw := h.walks hp
  suffices key : ∀ (k : Nat) (x : Pos), man x e ≤ k → x ∈ P → ∃ y ∈ m, (g.tiles y).cost + man y e = man s e by
    rcases (hi.counted s).1 hi.cntS with h1 | h1
    · exact key _ s (Nat.le_refl _) h1
    · exact ⟨s, h1, by rw [hi.costS]; simp⟩
  intro k
  induction k with
  | zero =>
    intro x hk hxP
    exfalso
    have : x = e := by
      obtain ⟨a, b⟩ := x; obtain ⟨c, d⟩ := e
      simp only [man] at hk
      simp only [Prod.mk.injEq]; omega
    subst this
    exact hi.notend hxP
  | succ k ih =>
    intro x hk hxP
    have hxc : (g.tiles x).isCount = true := (hi.counted x).2 (Or.inl hxP)
    have hxe : x ≠ e := by rintro rfl; exact hi.notend hxP
    obtain ⟨j, hj, hjc⟩ := hw x hxc
    have h1 := walk4 hd hj
    have h2 := hP x hxP
    have h3 := hjc rfl
    have hb : Between s e x := by
      simp only [man, Between] at *
      omega
    obtain ⟨q, hq1, hq2, hq3⟩ := near4 hd hb hxe
    have hqi := between_inside hs he hq2
    have hqo : ((prepared g0 s e).tiles q).attr ≠ BLOCK := (open_iff.1 ⟨hqi, Or.inr (Or.inr (hfree q hq2))⟩).2
    have hqc := h.closed x hxP q (mem_neighbors_prepared.2 ⟨hq1, hqi⟩) hqo
    rcases (hi.counted q).1 hqc with h4 | h4
    · exact ih q (by omega) h4
    · by_cases hqs : q = s
      · subst hqs; exact ⟨q, h4, by rw [hi.costS]; simp⟩
      · obtain ⟨u, hu1, hu2, hu3⟩ := hi.par q hqc hqs
        have hu4 := hu3 rfl
        have hu5 := hP u hu1
        rcases step4 hd (mem_neighbors_prepared.1 hu2).1 e with h5 | h5
        · exact ih u (by omega) hu1
        · exact ⟨q, h4, by omega⟩

include hx hy in
/-- What is taken next is on a shortest way. -/
theorem top4 (hd : g0.dirs = four) {g : Graph} {m P : List Pos} {t : Pos}
    (h : At simpleCost simpleWeight (prepared g0 s e) s e g m P)
    (hP : ∀ p ∈ P, (g.tiles p).cost + man p e = man s e) (ht : t ∈ m)
    (hmax : ∀ y ∈ m, (g.tiles y).weight ≤ (g.tiles t).weight) : (g.tiles t).cost + man t e = man s e := by
  have hi := h.inv hp
  by_cases hsm : s ∈ m
  · have := (hi.first hsm).1
    rw [this] at ht
    have : t = s := by simpa using ht
    subst this
    rw [hi.costS]; simp
  · obtain ⟨y, hy1, hy2⟩ := good4 hs he hfree hp hd h hP
    have htc := (hi.counted t).2 (Or.inr ht)
    have hyc := (hi.counted y).2 (Or.inr hy1)
    have h1 := simple_weight hx hy hp.inE hi htc (by rintro rfl; exact hsm ht)
    have h2 := simple_weight hx hy hp.inE hi hyc (by rintro rfl; exact hsm hy1)
    have h3 := hmax y hy1
    obtain ⟨j, hj, hjc⟩ := h.walks hp t htc
    have h4 := walk4 hd hj
    have h5 := hjc rfl
    have h6 : man s e ≤ man s t + man t e := by simp only [man]; omega
    omega

include hx hy in
theorem popped4 (hd : g0.dirs = four) {g : Graph} {m P : List Pos}
    (h : At simpleCost simpleWeight (prepared g0 s e) s e g m P) :
    ∀ p ∈ P, (g.tiles p).cost + man p e = man s e := by
  induction h with
  | init => simp
  | @round g g' m m1 m' P t hq ha hperm hmax hne hx' ih =>
    have hi := ha.inv hp
    have htm : t ∈ m := hperm.symm.subset (by simp)
    intro p hp'
    rcases List.mem_cons.1 hp' with rfl | hp'
    · rw [hx'.mono (p := p) ((hi.counted p).2 (Or.inr htm))]
      exact (show (g.tiles p).cost + man p e = man s e from top4 hs he hx hy hfree hp hd ha ih htm hmax)
    · rw [hx'.mono (p := p) ((hi.counted p).2 (Or.inl hp'))]
      exact ih p hp'

end

/-- A tile that was found now. -/
theorem Exp.added {cost : Count} {g g' : Graph} {t p : Pos} {m m' ns : List Pos} (h : Exp cost weight t g m ns g' m')
    (hcs : cost = simpleCost) (ht : (g.tiles t).isCount = true) (h0 : (g.tiles p).isCount = false)
    (h1 : (g'.tiles p).isCount = true) : p ∈ ns ∧ (g'.tiles p).cost = (g.tiles t).cost + 1 := by
  induction h with
  | nil => rw [h0] at h1; simp at h1
  | @cons g g1 g2 m m1 m2 n ns h hs ih =>
    by_cases hp : (g1.tiles p).isCount = true
    · rw [hs.mono hp]
      cases h with
      | skip => rw [h0] at hp; simp at hp
      | add _ _ _ tn tp =>
        have : p = n := by
          by_contra hne
          rw [tp p hne, h0] at hp; simp at hp
        subst this
        exact ⟨by simp, by rw [tn]; subst hcs; rfl⟩
    · obtain ⟨i1, i2⟩ := ih (by rw [h.mono ht]; exact ht) (by simpa using hp) h1
      exact ⟨by simp [i1], by rw [i2, h.mono ht]⟩

theorem walk8 {g : Graph} {s e : Pos} (hd : g.dirs = eight) {n : Nat} {p : Pos} (h : Walk g s e n p) :
    cheb s p ≤ n := by
  induction h with
  | here => simp [cheb]
  | @step n p q _ ha _ ih =>
    obtain ⟨d, hd', rfl⟩ := ha
    rw [hd] at hd'
    simp only [eight, List.mem_cons, List.not_mem_nil, or_false] at hd'
    rcases hd' with rfl | rfl | rfl | rfl | rfl | rfl | rfl | rfl <;> simp only [cheb] at * <;> omega

theorem step8 {g : Graph} (hd : g.dirs = eight) {p q : Pos} (h : Adjacent g p q) (e : Pos) :
    cheb p e ≤ cheb q e + 1 := by
  obtain ⟨d, hd', rfl⟩ := h
  rw [hd] at hd'
  simp only [eight, List.mem_cons, List.not_mem_nil, or_false] at hd'
  rcases hd' with rfl | rfl | rfl | rfl | rfl | rfl | rfl | rfl <;> simp only [cheb] <;> omega

def toward (a b : Int) : Int := if a < b then 1 else if b < a then -1 else 0

theorem toward_cases (a b : Int) :
    (a < b ∧ toward a b = 1) ∨ (b < a ∧ toward a b = -1) ∨ (a = b ∧ toward a b = 0) := by
  unfold toward
  split
  · omega
  · split <;> omega

/-- The nearest neighbour. -/
theorem near8 {g : Graph} (hd : g.dirs = eight) {s e p : Pos} (hb : Between s e p) (hne : p ≠ e) :
    ∃ q, Adjacent g p q ∧ Between s e q ∧ cheb q e + 1 = cheb p e ∧ man q e + 1 ≤ man p e ∧
      ∀ r, Adjacent g p r → r ≠ q → man q e + 1 ≤ man r e := by
  obtain ⟨x, y⟩ := p
  obtain ⟨ex, ey⟩ := e
  simp only [Between] at hb
  have hxy : ¬ (x = ex ∧ y = ey) := by rintro ⟨rfl, rfl⟩; exact hne rfl
  have hX := toward_cases x ex
  have hY := toward_cases y ey
  refine ⟨(x + toward x ex, y + toward y ey), ⟨(toward x ex, toward y ey), ?_, rfl⟩, ?_, ?_, ?_, ?_⟩
  · rw [hd]
    unfold eight
    rcases hX with ⟨h1, h2⟩ | ⟨h1, h2⟩ | ⟨h1, h2⟩ <;> rcases hY with ⟨h3, h4⟩ | ⟨h3, h4⟩ | ⟨h3, h4⟩ <;>
      first
      | (exfalso; omega)
      | (rw [h2, h4]; simp)
  · simp only [Between]
    omega
  · simp only [cheb]
    omega
  · simp only [man]
    omega
  · rintro r ⟨d, hd', rfl⟩ hr
    rw [hd] at hd'
    simp only [eight, List.mem_cons, List.not_mem_nil, or_false] at hd'
    simp only [man]
    rcases hd' with rfl | rfl | rfl | rfl | rfl | rfl | rfl | rfl <;>
      simp only [ne_eq, Prod.mk.injEq] at hr ⊢ <;> omega

/-- The one tile that counts when all is free in the rectangle: the next on the way. -/
structure Line (g : Graph) (s e : Pos) (m P : List Pos) (x : Pos) : Prop where
  mem : x ∈ m
  cost : (g.tiles x).cost = P.length
  rest : cheb x e + P.length = cheb s e
  between : Between s e x
  others : ∀ y ∈ m, y ≠ x → (g.tiles x).cost + man x e + 1 ≤ (g.tiles y).cost + man y e
  far : ∀ p ∈ P, cheb x e + 1 ≤ cheb p e

section
variable {g0 : Graph} {s e : Pos} (hs : Inside g0 s) (he : Inside g0 e) (hx : g0.dimX ≤ 2147483648)
  (hy : g0.dimY ≤ 2147483648) (hfree : ∀ p, Between s e p → (g0.tiles p).attr ≠ BLOCK)
  (hp : Prep (prepared g0 s e) s e)
include hx hy hp

theorem Line.top {g : Graph} {m P : List Pos} {x t : Pos}
    (hi : Inv simpleCost simpleWeight (prepared g0 s e) s e g m P) (hl : Line g s e m P x) (ht : t ∈ m)
    (hmax : ∀ y ∈ m, (g.tiles y).weight ≤ (g.tiles t).weight) : t = x := by
  by_cases hsm : s ∈ m
  · have h1 := (hi.first hsm).1
    have hm := hl.mem
    rw [h1] at ht hm
    have h2 : t = s := by simpa using ht
    have h3 : x = s := by simpa using hm
    rw [h2, h3]
  · by_contra hne
    have h1 := hl.others t ht hne
    have h2 := simple_weight hx hy hp.inE hi ((hi.counted t).2 (Or.inr ht)) (by rintro rfl; exact hsm ht)
    have h3 := simple_weight hx hy hp.inE hi ((hi.counted x).2 (Or.inr hl.mem)) (by rintro rfl; exact hsm hl.mem)
    have h4 := hmax x hl.mem
    omega

include hs he hfree

theorem line8 (hd : g0.dirs = eight) {g : Graph} {m P : List Pos}
    (h : At simpleCost simpleWeight (prepared g0 s e) s e g m P) : ∃ x, Line g s e m P x := by
  induction h with
  | init =>
    refine ⟨s, by simp, by simpa using hp.cost, by simp, ?_, ?_, by simp⟩
    · simp only [Between]; omega
    · intro y hy' hne; exact absurd (by simpa using hy') hne
  | @round g g' m m1 m' P t hq ha hperm hmax hne hx' ih =>
    have hi := ha.inv hp
    have htm : t ∈ m := hperm.symm.subset (by simp)
    obtain ⟨x, hl⟩ := ih
    have htx := hl.top hx hy hp hi htm hmax
    subst htx
    have htc : (g.tiles t).isCount = true := (hi.counted t).2 (Or.inr htm)
    have hatt : At simpleCost simpleWeight (prepared g0 s e) s e g' m' (t :: P) := .round ha hperm hmax hne hx'
    have hi' := hatt.inv hp
    obtain ⟨q, hq1, hq2, hq3, hq4, hq5⟩ := near8 hd hl.between hne
    have hqi := between_inside hs he hq2
    have hqo : ((prepared g0 s e).tiles q).attr ≠ BLOCK := (open_iff.1 ⟨hqi, Or.inr (Or.inr (hfree q hq2))⟩).2
    have hqc : (g'.tiles q).isCount = true :=
      hatt.closed t (by simp) q (mem_neighbors_prepared.2 ⟨hq1, hqi⟩) hqo
    -- it was not found before
    have hq0 : (g.tiles q).isCount = false := by
      by_contra hc
      have hc : (g.tiles q).isCount = true := by simpa using hc
      rcases (hi.counted q).1 hc with h1 | h1
      · have := hl.far q h1; omega
      · by_cases hqs : q = s
        · subst hqs
          have := (hi.first h1).1
          rw [this] at htm
          have : t = q := by simpa using htm
          subst this
          omega
        · obtain ⟨u, hu1, hu2, _⟩ := hi.par q hc hqs
          have h2 := hl.far u hu1
          have h3 := step8 hd (mem_neighbors_prepared.1 hu2).1 e
          omega
    have hcost := (hx'.added rfl htc hq0 hqc).2
    have hcost : (g'.tiles q).cost = (g.tiles t).cost + 1 := hcost
    have hfar : ∀ p ∈ t :: P, cheb q e + 1 ≤ cheb p e := by
      intro p hp'
      rcases List.mem_cons.1 hp' with rfl | hp'
      · omega
      · have := hl.far p hp'; omega
    have hlc := hl.cost
    refine ⟨q, ?_, ?_, ?_, hq2, ?_, hfar⟩
    · rcases (hi'.counted q).1 hqc with h1 | h1
      · have := hfar q h1; omega
      · exact h1
    · rw [hcost, hl.cost]; simp
    · have := hl.rest; simp only [List.length_cons]; omega
    · intro y hy' hyq
      have hyc' : (g'.tiles y).isCount = true := (hi'.counted y).2 (Or.inr hy')
      have hyt : y ∉ t :: P := fun h1 => (List.nodup_append.1 hi'.nodup).2.2 y h1 y hy' rfl
      by_cases hyc : (g.tiles y).isCount = true
      · have hyg : g'.tiles y = g.tiles y := hx'.mono (p := y) hyc
        have hym : y ∈ m := by
          rcases (hi.counted y).1 hyc with h1 | h1
          · exact absurd (by simp [h1]) hyt
          · exact h1
        have := hl.others y hym (by rintro rfl; exact hyt (by simp))
        rw [hyg, hcost]
        omega
      · obtain ⟨h1, h2⟩ := hx'.added rfl htc (by simpa using hyc) hyc'
        have h2 : (g'.tiles y).cost = (g.tiles t).cost + 1 := h2
        rw [hi.same.neighbors] at h1
        have := hq5 y (mem_neighbors_prepared.1 h1).1 hyq
        rw [h2, hcost]
        omega

end

end Verif.Astar
