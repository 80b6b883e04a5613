import Verif.Tree.TraverseWith

/-! A walk whose callback keeps the pointers of the tree is the ideal walk. -/

namespace Verif

/-- The nodes of a tree. -/
inductive Shape where
  | nil
  | node (a : Nat) (l r : Shape)

namespace Shape

def ptr : Shape → Option Nat
  | nil => none
  | node a _ _ => some a

/-- The nodes in order. -/
def ino : Shape → List Nat
  | nil => []
  | node a l r => ino l ++ a :: ino r

def height : Shape → Nat
  | nil => 0
  | node _ l r => max l.height r.height + 1

/-- The pointers are those of the shape. -/
def Lk (lo hi : Nat → Option Nat) : Shape → Prop
  | nil => True
  | node a l r => lo a = l.ptr ∧ hi a = r.ptr ∧ Lk lo hi l ∧ Lk lo hi r

end Shape

section
variable {S E τ ω ρ : Type}

theorem Walked.after_assoc (w w' w'' : Walked S E τ ω ρ) :
    (w.after w').after w'' = w.after (w'.after w'') := by
  simp only [Walked.after, List.append_assoc]

theorem Walked.after_nil (w : Walked S E τ ω ρ) : w.after ⟨w.state, w.own, w.go, [], []⟩ = w := by
  simp only [Walked.after, List.append_nil]

variable {spec : List E → ω → List E × ρ} {legal : List E → ω → Prop}
variable {every : τ → E → Prog ω ρ (τ × Bool)}

theorem visitWith_end {i : Nat} {l : List E} (h : l[i]? = none) (n : Nat) (t : τ) :
    visitWith spec every n i l t = ⟨l, t, true, [], []⟩ := by
  cases n with
  | zero => rfl
  | succ n => simp only [visitWith, h]

theorem legalVisit_end {i : Nat} {l : List E} (h : l[i]? = none) (n : Nat) (t : τ) :
    LegalVisit spec legal every n i l t := by
  cases n with
  | zero => trivial
  | succ n => intro e he; rw [h] at he; cases he

theorem none_add {l : List E} {i : Nat} (h : l[i]? = none) (j : Nat) : l[i + j]? = none := by
  simp only [List.getElem?_eq_none_iff] at h ⊢; omega

/-- The ideal walk in two parts. -/
theorem visitWith_add (b : Nat) : ∀ (a i : Nat) (l : List E) (t : τ),
    visitWith spec every (a + b) i l t =
      if (visitWith spec every a i l t).go then
        (visitWith spec every a i l t).after (visitWith spec every b (i + a)
          (visitWith spec every a i l t).state (visitWith spec every a i l t).own)
      else visitWith spec every a i l t
  | 0, i, l, t => by simp only [Nat.zero_add, visitWith, if_true, Walked.after, List.nil_append, Nat.add_zero]
  | a + 1, i, l, t => by
    cases h : l[i]? with
    | none =>
      rw [visitWith_end h, visitWith_end h, visitWith_end (none_add h _)]
      rfl
    | some e =>
      rw [show a + 1 + b = a + b + 1 by omega]
      simp only [visitWith, h]
      cases hg : ((every t e).runSpec spec l).2.1.2 with
      | false => simp [hg]
      | true =>
        simp only [if_true]
        rw [visitWith_add b a, show i + 1 + a = i + (a + 1) by omega]
        split
        · next h2 =>
          have h2' := h2
          rw [if_pos (by simpa only [Walked.after] using h2'), Walked.after_assoc]
          rfl
        · next h2 =>
          have h2' := h2
          rw [if_neg (by simpa only [Walked.after] using h2')]

theorem legalVisit_add (b : Nat) : ∀ (a i : Nat) (l : List E) (t : τ),
    LegalVisit spec legal every (a + b) i l t → LegalVisit spec legal every a i l t ∧
      ((visitWith spec every a i l t).go = true → LegalVisit spec legal every b (i + a)
        (visitWith spec every a i l t).state (visitWith spec every a i l t).own)
  | 0, i, l, t, h => ⟨trivial, fun _ => by simpa only [Nat.zero_add, Nat.add_zero, visitWith] using h⟩
  | a + 1, i, l, t, h => by
    cases he : l[i]? with
    | none =>
      refine ⟨legalVisit_end he _ _, fun _ => ?_⟩
      rw [visitWith_end he]
      exact legalVisit_end (none_add he _) _ _
    | some e =>
      rw [show a + 1 + b = a + b + 1 by omega] at h
      obtain ⟨h1, h2⟩ := h e he
      refine ⟨fun e' he' => ?_, fun hg => ?_⟩
      · rw [he] at he'
        cases he'
        exact ⟨h1, fun h3 => (legalVisit_add b a _ _ _ (h2 h3)).1⟩
      · simp only [visitWith, he] at hg ⊢
        split at hg
        · next h3 =>
          rw [if_pos h3]
          have h4 := (legalVisit_add b a _ _ _ (h2 h3)).2 hg
          rw [show i + 1 + a = i + (a + 1) by omega] at h4
          exact h4
        · next h3 => exact absurd hg h3

variable {step : S → ω → Option (S × ρ)} {lo hi : S → Nat → Option Nat} {ent : S → Nat → E}

/-- If every legal call is answered as specified and keeps the pointers, then the walk is the ideal
walk. `A` relates the container and the list of its entries. -/
theorem walkWith_ok {A : S → List E → Prop}
    (hstep : ∀ s l o, legal l o → A s l → ∃ s', step s o = some (s', (spec l o).2) ∧ A s' (spec l o).1) :
    ∀ (sh : Shape) {n i : Nat} {s : S} {l : List E} {t : τ}, sh.height < n →
      (∀ s l, A s l → sh.Lk (lo s) (hi s)) →
      (∀ s l, A s l → ∀ j a, sh.ino[j]? = some a → l[i + j]? = some (ent s a)) → A s l →
      LegalVisit spec legal every sh.ino.length i l t →
      ∃ s', walkWith step lo hi ent every n s t sh.ptr =
          some { visitWith spec every sh.ino.length i l t with state := s' } ∧
        A s' (visitWith spec every sh.ino.length i l t).state
  | .nil, n + 1, i, s, l, t, _, _, _, hA, _ => ⟨s, rfl, hA⟩
  | .node a lf rt, n + 1, i, s, l, t, hn, hk, he, hA, hl => by
    simp only [Shape.height] at hn
    have hlen : (Shape.node a lf rt).ino.length = lf.ino.length + (1 + rt.ino.length) := by
      simp only [Shape.ino, List.length_append, List.length_cons]; omega
    rw [hlen] at hl ⊢
    obtain ⟨hl1, hl2⟩ := legalVisit_add _ _ _ _ _ hl
    obtain ⟨s1, h1, hA1⟩ := walkWith_ok hstep lf (n := n) (by omega) (fun s l h => (hk s l h).2.2.1)
      (fun s l h j b hb => he s l h j b (by
        simp only [Shape.ino]
        rw [List.getElem?_append_left (List.getElem?_eq_some_iff.1 hb).1, hb])) hA hl1
    rw [visitWith_add]
    simp only [Shape.ptr, walkWith]
    rw [(hk s l hA).1, h1]
    simp only [Option.bind_some, Walked.andThen]
    generalize hw : visitWith spec every lf.ino.length i l t = w at hl2 h1 hA1 ⊢
    cases hg : w.go with
    | false => exact ⟨s1, by simp [hg], by simpa [hg] using hA1⟩
    | true =>
      simp only [hg, if_true]
      replace hl2 := hl2 hg
      obtain ⟨hl3, hl4⟩ := legalVisit_add _ 1 _ _ _ hl2
      have hx : w.state[i + lf.ino.length]? = some (ent s1 a) := he s1 _ hA1 lf.ino.length a (by
        simp only [Shape.ino]; rw [List.getElem?_append_right (by omega)]; simp)
      obtain ⟨hc1, hc2⟩ := hl3 _ hx
      obtain ⟨s2, h2, hA2⟩ := Prog.run_refines_legal A hstep (every w.own (ent s1 a)) hA1 hc1
      rw [visitWith_add]
      have hv : visitWith spec every 1 (i + lf.ino.length) w.state w.own =
          ⟨((every w.own (ent s1 a)).runSpec spec w.state).1,
           ((every w.own (ent s1 a)).runSpec spec w.state).2.1.1,
           ((every w.own (ent s1 a)).runSpec spec w.state).2.1.2, [ent s1 a],
           ((every w.own (ent s1 a)).runSpec spec w.state).2.2⟩ := by
        simp only [visitWith, hx, Walked.after, List.append_nil]
        split <;> simp_all
      rw [hv] at hl4 ⊢
      simp only [handOver, h2, Option.map_some, Option.bind_some]
      cases hg2 : ((every w.own (ent s1 a)).runSpec spec w.state).2.1.2 with
      | false =>
        refine ⟨s2, ?_, ?_⟩
        · simp [Walked.after, hg2]
        · simpa [Walked.after, hg2] using hA2
      | true =>
        simp only [hg2, if_true, Walked.after]
        replace hl4 := hl4 hg2
        simp only at hl4
        obtain ⟨s3, h3, hA3⟩ := walkWith_ok hstep rt (n := n) (i := i + lf.ino.length + 1) (by omega)
          (fun s l h => (hk s l h).2.2.2)
          (fun s l h j b hb => by
            have := he s l h (lf.ino.length + 1 + j) b (by
              simp only [Shape.ino]
              rw [List.getElem?_append_right (by omega)]
              simpa [show lf.ino.length + 1 + j - lf.ino.length = j + 1 by omega] using hb)
            rwa [show i + (lf.ino.length + 1 + j) = i + lf.ino.length + 1 + j by omega] at this) hA2 hl4
        refine ⟨s3, ?_, hA3⟩
        rw [(hk s2 _ hA2).2.1, h3]
        simp [Walked.after]

end
end Verif
