import Verif.Graph.Run

/-! What is counted and what can be reached. -/

namespace Verif.Astar

open Verif.Heap (PQ)

variable {cost weight : Count}

theorem mem_neighbors_prepared {g : Graph} {s e p q : Pos} :
    q ∈ neighbors (prepared g s e) p ↔ Adjacent g p q ∧ Inside g q := by
  rw [mem_neighbors, inside_iff]
  exact Iff.rfl

theorem open_iff {g : Graph} {s e p : Pos} :
    Open g s e p ↔ Inside g p ∧ ((prepared g s e).tiles p).attr ≠ BLOCK := by
  rw [prepared_attr]
  unfold Open
  by_cases h1 : p = e
  · simp [h1, END, BLOCK]
  · by_cases h2 : p = s
    · subst h2; simp [h1, START, BLOCK]
    · simp [h1, h2]

/-- Whatever is counted can be reached, with the default cost in so many steps. -/
def Walks (cost : Count) (g0 : Graph) (s e : Pos) (g : Graph) : Prop :=
  ∀ p, (g.tiles p).isCount = true → ∃ n, Walk g0 s e n p ∧ (cost = simpleCost → (g.tiles p).cost = n)

theorem Exp.walks {g0 g g' : Graph} {s e t : Pos} {m m' ns : List Pos} (h : Exp cost weight t g m ns g' m')
    (hw : Walks cost g0 s e g) (ht : (g.tiles t).isCount = true) (hn : ∀ n ∈ ns, n ∈ neighbors (prepared g0 s e) t)
    (ha : ∀ p, (g.tiles p).attr = ((prepared g0 s e).tiles p).attr) : Walks cost g0 s e g' := by
  induction h with
  | nil => exact hw
  | @cons g g1 g2 m m1 m2 n ns h hs ih =>
    have h1 : Walks cost g0 s e g1 := by
      intro p hp
      by_cases hc : (g.tiles p).isCount = true
      · rw [h.mono hc]; exact hw p hc
      · cases h with
        | skip => exact absurd hp hc
        | add h1 h2 h3 tn tp =>
          have : p = n := by
            by_contra hne
            rw [tp p hne] at hp; exact hc hp
          subst this
          obtain ⟨k, hk, hkc⟩ := hw t ht
          have hnb := mem_neighbors_prepared.1 (hn p (by simp))
          refine ⟨k + 1, .step hk hnb.1 (open_iff.2 ⟨hnb.2, by rw [← ha]; exact h2⟩), ?_⟩
          intro hcs
          have := hkc hcs
          rw [tn]
          subst hcs
          show (g.tiles t).cost + 1 = _
          push_cast; omega
    refine ih h1 (by rw [h.mono ht]; exact ht) (fun n hm => hn n (by simp [hm])) ?_
    intro p; rw [h.same.attr]; exact ha p

theorem At.walks {g0 g : Graph} {s e : Pos} {m P : List Pos} (hp : Prep (prepared g0 s e) s e)
    (h : At cost weight (prepared g0 s e) s e g m P) : Walks cost g0 s e g := by
  induction h with
  | init =>
    intro p hc
    have : p = s := (hp.cnt p).1 hc
    subst this
    exact ⟨0, .here, fun _ => hp.cost⟩
  | @round g g' m m1 m' P t h ha hperm hmax hne hx ih =>
    have hi := ha.inv hp
    have ht : (g.tiles t).isCount = true := (hi.counted t).2 (Or.inr (hperm.symm.subset (by simp)))
    refine hx.walks (by exact ih) ht ?_ (fun p => hi.same.attr p)
    intro n hn
    rw [← hi.same.neighbors]; exact hn

/-- Nothing else can be reached when the heap is empty. -/
theorem At.exhausted {g0 g : Graph} {s e : Pos} {P : List Pos} (hp : Prep (prepared g0 s e) s e)
    (h : At cost weight (prepared g0 s e) s e g [] P) {n : Nat} {p : Pos} (hw : Walk g0 s e n p) : p ∈ P := by
  have hi := h.inv hp
  have hc := h.closed
  induction hw with
  | here =>
    have := (hi.counted s).1 hi.cntS
    simpa using this
  | @step n p q _ ha ho ih =>
    have h1 := open_iff.1 ho
    have := (hi.counted q).1 (hc p ih q (mem_neighbors_prepared.2 ⟨ha, h1.1⟩) h1.2)
    simpa using this

theorem way_valid {g0 g : Graph} {s e : Pos} {m P l : List Pos} (hp : Prep (prepared g0 s e) s e)
    (h : At cost weight (prepared g0 s e) s e g m P) (he : e ∈ m) (hw : Way g s e l) : ValidPath g0 s e (e :: l) := by
  have hi := h.inv hp
  refine ⟨rfl, hw.last, ?_, ?_, chain_nodup hw.chain⟩
  · refine List.IsChain.imp ?_ hw.chain
    intro a b hab
    have := hab.1
    rw [hi.same.neighbors] at this
    exact (mem_neighbors_prepared.1 this).1
  · intro p hp'
    have hc : (g.tiles p).isCount = true := by
      rcases List.mem_cons.1 hp' with rfl | hp'
      · exact (hi.counted p).2 (Or.inr he)
      · exact chain_counted hw.chain p hp'
    exact open_iff.2 ⟨inside_iff.2 (hi.inb p hc), hi.nb p hc⟩

/-- What `Search` has got when it comes to the end tile, with the default cost. -/
theorem finish_single {g0 g : Graph} {s e : Pos} {m P : List Pos} (hp : Prep (prepared g0 s e) s e)
    (hsym : Symmetric g0) (h : At simpleCost weight (prepared g0 s e) s e g m P) (he : e ∈ m) (hq : PQ Pos) :
    ∃ l, finish false s e { g with heap := hq } = some ({ g with heap := hq, pathlist := [e :: l] }, true) ∧
      Way g s e l ∧ (l.length : Int) ≤ (g.tiles e).cost := by
  have hi := h.inv hp
  have hctx : Ctx g s := hi.ctx (by exact hsym)
  have hctx' : Ctx { g with heap := hq } s := ⟨hctx.start, hctx.nonneg, hctx.par⟩
  have hce : (g.tiles e).isCount = true := (hi.counted e).2 (Or.inr he)
  have hcost := (hi.costs rfl e hce).2
  obtain ⟨l, h1, h2⟩ := hctx'.singlePath (g.dimX * g.dimY) e [e] hce (by
    show (g.tiles e).cost ≤ _
    rw [hi.same.dimX, hi.same.dimY]
    push_cast; omega)
  have hw : Way g s e l := ⟨h2.chain, h2.last⟩
  refine ⟨l, ?_, hw, ?_⟩
  · simp only [finish, Bool.false_eq_true, if_false]
    rw [h1]; rfl
  · have := chain_length hw.chain hw.last
    rw [hctx.start] at this; omega

theorem insertPath_perm (p : List Pos) (l : List (List Pos)) : (insertPath p l).Perm (p :: l) := by
  induction l with
  | nil => exact List.Perm.refl _
  | cons q l ih =>
    unfold insertPath
    split
    · exact List.Perm.refl _
    · exact (ih.cons q).trans (List.Perm.swap p q l)

theorem insertPath_sorted (p : List Pos) (l : List (List Pos)) (h : l.Pairwise (fun p q => p.length ≤ q.length)) :
    (insertPath p l).Pairwise (fun p q => p.length ≤ q.length) := by
  induction l with
  | nil => simp [insertPath]
  | cons q l ih =>
    rw [List.pairwise_cons] at h
    unfold insertPath
    split
    · rw [List.pairwise_cons, List.pairwise_cons]
      refine ⟨?_, h⟩
      intro r hr
      rcases List.mem_cons.1 hr with rfl | hr
      · omega
      · have := h.1 r hr; omega
    · rw [List.pairwise_cons]
      refine ⟨?_, ih h.2⟩
      intro r hr
      rw [(insertPath_perm p l).mem_iff] at hr
      rcases List.mem_cons.1 hr with rfl | hr
      · omega
      · exact h.1 r hr

theorem sortPaths_perm (ps : List (List Pos)) : (sortPaths ps).Perm ps := by
  have : ∀ (ps acc : List (List Pos)), (ps.foldl (fun acc p => insertPath p acc) acc).Perm (ps ++ acc) := by
    intro ps
    induction ps with
    | nil => intro acc; exact List.Perm.refl _
    | cons p ps ih =>
      intro acc
      refine (ih _).trans ?_
      exact ((List.Perm.refl ps).append (insertPath_perm p acc)).trans List.perm_middle
  simpa [sortPaths] using this ps []

theorem sortPaths_sorted (ps : List (List Pos)) : (sortPaths ps).Pairwise (fun p q => p.length ≤ q.length) := by
  have : ∀ (ps acc : List (List Pos)), acc.Pairwise (fun p q => p.length ≤ q.length) →
      (ps.foldl (fun acc p => insertPath p acc) acc).Pairwise (fun p q => p.length ≤ q.length) := by
    intro ps
    induction ps with
    | nil => intro acc h; exact h
    | cons p ps ih => intro acc h; exact ih _ (insertPath_sorted p acc h)
  exact this ps [] .nil

theorem finish_multi {g0 g : Graph} {s e : Pos} {m P : List Pos} (hp : Prep (prepared g0 s e) s e)
    (hsym : Symmetric g0) (h : At simpleCost weight (prepared g0 s e) s e g m P) (he : e ∈ m) (hq : PQ Pos) :
    ∃ ps, finish true s e { g with heap := hq } = some ({ g with heap := hq, pathlist := ps }, true) ∧ ps ≠ [] ∧
      ps.Pairwise (fun p q => p.length ≤ q.length) ∧ ∀ p ∈ ps, ∃ l, p = e :: e :: l ∧ Way g s e l := by
  have hi := h.inv hp
  have hctx : Ctx g s := hi.ctx (by exact hsym)
  have hctx' : Ctx { g with heap := hq } s := ⟨hctx.start, hctx.nonneg, hctx.par⟩
  have hce : (g.tiles e).isCount = true := (hi.counted e).2 (Or.inr he)
  have hcost := (hi.costs rfl e hce).2
  obtain ⟨ps, h1, h2, h3⟩ := hctx'.multiPath (g.dimX * g.dimY) e [e] hce (by
    show (g.tiles e).cost ≤ _
    rw [hi.same.dimX, hi.same.dimY]
    push_cast; omega)
  refine ⟨sortPaths ps, ?_, ?_, sortPaths_sorted ps, ?_⟩
  · simp only [finish, if_true]
    rw [h1]; rfl
  · intro hn
    have := (sortPaths_perm ps).length_eq
    rw [hn] at this
    exact h2 (List.length_eq_zero_iff.1 this.symm)
  · intro p hp'
    rw [(sortPaths_perm ps).mem_iff] at hp'
    obtain ⟨l, hl, hw⟩ := h3 p hp'
    exact ⟨l, by simpa using hl, ⟨hw.chain, hw.last⟩⟩

end Verif.Astar
