import Verif.Map.LinkedModel

/-! Helper lemmas for C13 and C14. -/

set_option linter.unusedSectionVars false

namespace Verif.Map.Linked
open DLL
variable {K V : Type} [DecidableEq K] [Inhabited K] [Inhabited V]

/-- Representation invariant: `ids` are the live nodes in order. -/
structure LHM.Inv (m : LHM K V) (ids : List Nat) : Prop where
  linked : Linked m.h (m.head :: ids ++ [m.tail])
  nodup : (m.head :: ids ++ [m.tail]).Nodup
  lt : ∀ a ∈ m.head :: ids ++ [m.tail], a < m.fresh
  keys : (ids.map fun a => (m.h a).val.1).Nodup
  map : m.hmap.Perm (ids.map fun a => ((m.h a).val.1, a))

theorem LHM.new_inv : (LHM.new : LHM K V).Inv [] := by
  constructor
  · simp [LHM.new, linked_cons_cons, Link, linked_single]
  · simp [LHM.new]
  · intro a ha; simp [LHM.new] at ha ⊢; omega
  · simp
  · simp [LHM.new]

theorem LHM.Inv.wf {m : LHM K V} {ids : List Nat} (hi : m.Inv ids) : m.hmap.WF := by
  unfold GoMap.WF
  rw [(hi.map.map _).nodup_iff]
  simpa [Function.comp_def] using hi.keys

theorem LHM.Inv.get_some {m : LHM K V} {ids : List Nat} (hi : m.Inv ids) {k : K} {a : Nat} :
    m.hmap.get k = some a ↔ a ∈ ids ∧ (m.h a).val.1 = k := by
  rw [← GoMap.mem_iff _ hi.wf, hi.map.mem_iff]
  simp only [List.mem_map, Prod.mk.injEq]
  constructor
  · rintro ⟨b, h1, h2, rfl⟩; exact ⟨h1, h2⟩
  · rintro ⟨h1, h2⟩; exact ⟨a, h1, h2, rfl⟩

theorem LHM.Inv.get_none {m : LHM K V} {ids : List Nat} (hi : m.Inv ids) {k : K} :
    m.hmap.get k = none ↔ k ∉ (vals m.h ids).map (·.1) := by
  rw [← Option.not_isSome_iff_eq_none, ← GoMap.mem_keys_iff, (hi.map.map _).mem_iff]
  simp [vals]

theorem LHM.newBack_inv {m : LHM K V} {ids : List Nat} (hi : m.Inv ids) (k : K) (v : V)
    (hk : m.hmap.get k = none) :
    (m.newBack k v).Inv (ids ++ [m.tail]) ∧
    vals (m.newBack k v).h (ids ++ [m.tail]) = vals m.h ids ++ [(k, v)] := by
  have hf : ∀ a ∈ m.head :: ids ++ [m.tail], a ≠ m.fresh := fun a ha e => by
    have := hi.lt a ha; omega
  have htf : m.tail ≠ m.fresh := hf _ (by simp)
  have nd := hi.nodup
  have hti : ∀ a ∈ ids, a ≠ m.tail := by
    intro a ha e
    rw [List.nodup_append] at nd
    exact nd.2.2 a (by simp [ha]) m.tail (by simp) e
  have hth : m.head ≠ m.tail := by
    intro e
    rw [List.nodup_append] at nd
    exact nd.2.2 m.head (by simp) m.tail (by simp) e
  have hval : ∀ a ∈ ids, ((m.newBack k v).h a).val = (m.h a).val := by
    intro a ha
    have h1 := hf a (by simp [ha])
    have h2 := hti a ha
    simp [newBack, val_setNext, val_setPrev, val_setVal, val_put, h1, h2]
  have hvt : ((m.newBack k v).h m.tail).val = (k, v) := by
    simp [newBack, val_setNext, val_setPrev, val_setVal]
  refine ⟨⟨?_, ?_, ?_, ?_, ?_⟩, ?_⟩
  · show Linked (m.newBack k v).h (m.head :: (ids ++ [m.tail]) ++ [m.fresh])
    have e : m.head :: (ids ++ [m.tail]) ++ [m.fresh] = (m.head :: ids) ++ m.tail :: [m.fresh] := by
      simp
    rw [e, linked_mid]
    refine ⟨hi.linked.congr ?_ ?_, ?_⟩
    · intro a ha
      have ha' : a ∈ m.head :: ids := by
        rw [List.dropLast_concat] at ha; exact ha
      have h1 := hf a (by simp at ha' ⊢; tauto)
      have h2 : a ≠ m.tail := by
        rcases List.mem_cons.1 ha' with rfl | h
        · exact hth
        · exact hti a h
      simp [newBack, next_setNext, next_setPrev, next_setVal, next_put, h1, h2]
    · intro a ha
      have h1 := hf a (List.mem_of_mem_tail ha)
      simp [newBack, prev_setNext, prev_setPrev, prev_setVal, prev_put, h1]
    · rw [linked_cons_cons]
      refine ⟨⟨?_, ?_⟩, linked_single _ _⟩
      · simp [newBack, next_setNext]
      · simp [newBack, prev_setNext, prev_setPrev]
  · show (m.head :: (ids ++ [m.tail]) ++ [m.fresh]).Nodup
    rw [List.nodup_append]
    refine ⟨by simpa using nd, by simp, ?_⟩
    intro a ha b hb
    simp at hb; subst hb
    exact hf a (by simpa using ha)
  · intro a ha
    show a < m.fresh + 1
    have : a ∈ m.head :: ids ++ [m.tail] ∨ a = m.fresh := by
      have : a ∈ m.head :: (ids ++ [m.tail]) ++ [m.fresh] := ha
      simp at this ⊢; tauto
    rcases this with h | h
    · have := hi.lt a h; omega
    · omega
  · rw [List.map_append, List.map_congr_left fun a ha => by rw [hval a ha], List.nodup_append]
    refine ⟨hi.keys, by simp, ?_⟩
    intro x hx y hy
    simp [hvt] at hy; subst hy
    rintro rfl
    exact (hi.get_none.1 hk) (by simpa [vals] using hx)
  · show (m.hmap.set k m.tail).Perm _
    rw [GoMap.set_absent hk, List.map_append,
      List.map_congr_left fun a ha => by rw [hval a ha]]
    simp only [List.map_cons, List.map_nil, hvt]
    exact hi.map.append_right _
  · simp only [vals, List.map_append, List.map_cons, List.map_nil, hvt]
    rw [List.map_congr_left hval]

theorem LHM.newFront_inv {m : LHM K V} {ids : List Nat} (hi : m.Inv ids) (k : K) (v : V)
    (hk : m.hmap.get k = none) :
    (m.newFront k v).Inv (m.head :: ids) ∧
    vals (m.newFront k v).h (m.head :: ids) = (k, v) :: vals m.h ids := by
  have hf : ∀ a ∈ m.head :: ids ++ [m.tail], a ≠ m.fresh := fun a ha e => by
    have := hi.lt a ha; omega
  have hhf : m.head ≠ m.fresh := hf _ (by simp)
  have nd := hi.nodup
  rw [List.cons_append, List.nodup_cons] at nd
  have hhi : ∀ a ∈ ids, a ≠ m.head := by
    rintro a ha rfl
    exact nd.1 (by simp [ha])
  have hval : ∀ a ∈ ids, ((m.newFront k v).h a).val = (m.h a).val := by
    intro a ha
    have h1 := hf a (by simp [ha])
    have h2 := hhi a ha
    simp [newFront, val_setNext, val_setPrev, val_setVal, val_put, h1, h2]
  have hvt : ((m.newFront k v).h m.head).val = (k, v) := by
    simp [newFront, val_setNext, val_setPrev, val_setVal]
  refine ⟨⟨?_, ?_, ?_, ?_, ?_⟩, ?_⟩
  · show Linked (m.newFront k v).h (m.fresh :: m.head :: (ids ++ [m.tail]))
    rw [linked_cons_cons]
    refine ⟨⟨?_, ?_⟩, hi.linked.congr ?_ ?_⟩
    · simp [newFront, next_setNext, next_setPrev]
    · simp [newFront, prev_setPrev]
    · intro a ha
      have h1 := hf a (List.dropLast_subset _ ha)
      simp [newFront, next_setNext, next_setPrev, next_setVal, next_put, h1]
    · intro a ha
      have h1 := hf a (List.mem_of_mem_tail ha)
      have h2 : a ≠ m.head := by
        rintro rfl; exact nd.1 (by simpa using ha)
      simp [newFront, prev_setNext, prev_setPrev, prev_setVal, prev_put, h1, h2]
  · show (m.fresh :: (m.head :: ids) ++ [m.tail]).Nodup
    rw [List.cons_append, List.nodup_cons]
    refine ⟨fun h => hf _ h rfl, hi.nodup⟩
  · intro a ha
    show a < m.fresh + 1
    have : a ∈ m.head :: ids ++ [m.tail] ∨ a = m.fresh := by
      have : a ∈ m.fresh :: (m.head :: ids) ++ [m.tail] := ha
      simp at this ⊢; tauto
    rcases this with h | h
    · have := hi.lt a h; omega
    · omega
  · rw [List.map_cons, List.map_congr_left fun a ha => by rw [hval a ha], List.nodup_cons, hvt]
    exact ⟨fun h => (hi.get_none.1 hk) (by simpa [vals] using h), hi.keys⟩
  · show (m.hmap.set k m.head).Perm _
    rw [GoMap.set_absent hk, List.map_cons,
      List.map_congr_left fun a ha => by rw [hval a ha], hvt]
    exact (List.perm_append_singleton _ _).trans (hi.map.cons _)
  · simp only [vals, List.map_cons, hvt]
    rw [List.map_congr_left hval]

/-- Position of a key. -/
theorem LHM.Inv.split {m : LHM K V} {ids : List Nat} (hi : m.Inv ids) {k : K} {a : Nat}
    (hg : m.hmap.get k = some a) : ∃ l₁ l₂, ids = l₁ ++ a :: l₂ ∧ (m.h a).val.1 = k := by
  obtain ⟨h1, h2⟩ := hi.get_some.1 hg
  obtain ⟨l₁, l₂, e⟩ := List.append_of_mem h1
  exact ⟨l₁, l₂, e, h2⟩

/-- Overwriting the value of a live node. -/
theorem LHM.setVal_inv {m : LHM K V} {ids : List Nat} (hi : m.Inv ids) {k : K} {a : Nat} (v : V)
    (hg : m.hmap.get k = some a) : LHM.Inv { m with h := m.h.setVal a (k, v) } ids := by
  obtain ⟨h1, h2⟩ := hi.get_some.1 hg
  have hkey : ∀ b, (m.h.setVal a (k, v) b).val.1 = (m.h b).val.1 := by
    intro b
    by_cases e : b = a
    · subst e; simp [val_setVal, h2]
    · simp [val_setVal, e]
  refine ⟨?_, hi.nodup, hi.lt, ?_, ?_⟩
  · exact hi.linked.congr (fun b _ => next_setVal _ _ _ _) (fun b _ => prev_setVal _ _ _ _)
  · simp only [hkey]; exact hi.keys
  · simp only [hkey]; exact hi.map

/-- Unlinking a live node keeps the other nodes linked. -/
theorem unlink_linked {h : Store (K × V)} {hd tl a : Nat} {l₁ l₂ : List Nat}
    (hl : Linked h (hd :: (l₁ ++ a :: l₂) ++ [tl])) (nd : (hd :: (l₁ ++ a :: l₂) ++ [tl]).Nodup) :
    ∃ p n, (h a).prev = some p ∧ (h a).next = some n ∧
      p ≠ a ∧ n ≠ a ∧ p ≠ n ∧
      Linked ((h.setNext p (some n)).setPrev n (some p)) (hd :: (l₁ ++ l₂) ++ [tl]) := by
  obtain ⟨L, p, hL⟩ : ∃ L p, hd :: l₁ = L ++ [p] := by
    rcases nil_or_snoc (hd :: l₁) with h | ⟨L, p, h⟩
    · simp at h
    · exact ⟨L, p, h⟩
  obtain ⟨n, R, hR⟩ : ∃ n R, l₂ ++ [tl] = n :: R := by
    cases l₂ with
    | nil => exact ⟨tl, [], rfl⟩
    | cons b l => exact ⟨b, l ++ [tl], rfl⟩
  have e1 : hd :: (l₁ ++ a :: l₂) ++ [tl] = L ++ p :: a :: n :: R := by
    have : hd :: (l₁ ++ a :: l₂) ++ [tl] = (hd :: l₁) ++ a :: (l₂ ++ [tl]) := by simp
    rw [this, hL, hR]; simp
  have e2 : hd :: (l₁ ++ l₂) ++ [tl] = L ++ p :: n :: R := by
    have : hd :: (l₁ ++ l₂) ++ [tl] = (hd :: l₁) ++ (l₂ ++ [tl]) := by simp
    rw [this, hL, hR]; simp
  rw [e1] at hl nd
  obtain ⟨a1, a2, a3, a4⟩ := linked_around hl
  have hd3 : p ≠ a ∧ n ≠ a ∧ p ≠ n := by
    simp only [List.nodup_append, List.nodup_cons, List.mem_cons, not_or] at nd
    exact ⟨nd.2.1.1.1, Ne.symm nd.2.1.2.1.1, nd.2.1.1.2.1⟩
  refine ⟨p, n, a2, a3, hd3.1, hd3.2.1, hd3.2.2, ?_⟩
  rw [e2]
  refine linked_unlink hl nd ?_ ?_ ?_ ?_
  · simp [next_setNext, next_setPrev]
  · simp [prev_setPrev]
  · intro y h1 h2; simp [next_setNext, next_setPrev, h1]
  · intro y h1 h2; simp [prev_setNext, prev_setPrev, h1]

theorem nodup_drop {hd tl a : Nat} {l₁ l₂ : List Nat} (nd : (hd :: (l₁ ++ a :: l₂) ++ [tl]).Nodup) :
    (hd :: (l₁ ++ l₂) ++ [tl]).Nodup ∧ a ∉ hd :: (l₁ ++ l₂) ++ [tl] := by
  have hp : (hd :: (l₁ ++ a :: l₂) ++ [tl]).Perm (a :: (hd :: (l₁ ++ l₂) ++ [tl])) := by
    have h1 : hd :: (l₁ ++ a :: l₂) ++ [tl] = (hd :: l₁) ++ a :: (l₂ ++ [tl]) := by simp
    have h2 : hd :: (l₁ ++ l₂) ++ [tl] = (hd :: l₁) ++ (l₂ ++ [tl]) := by simp
    rw [h1, h2]
    exact List.perm_middle
  rw [hp.nodup_iff, List.nodup_cons] at nd
  exact ⟨nd.2, nd.1⟩

theorem delete_split (m : GoMap K Nat) (ks : List (K × Nat)) (k : K) (a : Nat)
    (l₁ l₂ : List (K × Nat)) (hp : m.Perm ks) (e : ks = l₁ ++ (k, a) :: l₂)
    (nd : (ks.map (·.1)).Nodup) : (m.delete k).Perm (l₁ ++ l₂) := by
  have h1 : (m.delete k).Perm (ks.filter fun e => e.1 ≠ k) := hp.filter _
  refine h1.trans ?_
  subst e
  rw [List.filter_append]
  simp only [List.map_append, List.map_cons, List.nodup_append, List.nodup_cons, List.mem_map,
    List.mem_cons] at nd
  rw [List.filter_eq_self.2, List.filter_cons_of_neg (by simp), List.filter_eq_self.2]
  · intro x hx
    simp only [ne_eq, decide_eq_true_eq]
    rintro e
    exact nd.2.1.1 ⟨x, hx, e⟩
  · intro x hx
    simp only [ne_eq, decide_eq_true_eq]
    rintro e
    exact nd.2.2 x.1 ⟨x, hx, rfl⟩ k (Or.inl rfl) e

theorem LHM.remove_some {m : LHM K V} {l₁ l₂ : List Nat} {a : Nat} {k : K}
    (hi : m.Inv (l₁ ++ a :: l₂)) (hk : (m.h a).val.1 = k) :
    ∃ m', m.remove k = some (m', some (m.h a).val.2) ∧ m'.Inv (l₁ ++ l₂) ∧
      vals m'.h (l₁ ++ l₂) = vals m.h (l₁ ++ l₂) := by
  have hg : m.hmap.get k = some a := hi.get_some.2 ⟨by simp, hk⟩
  obtain ⟨p, n, h1, h2, h3, h4, h5, h6⟩ := unlink_linked hi.linked hi.nodup
  obtain ⟨nd, -⟩ := nodup_drop hi.nodup
  have hv : ∀ b, ((m.h.setNext p (some n)).setPrev n (some p) b).val = (m.h b).val := by
    intro b; rw [val_setPrev, val_setNext]
  refine ⟨{ m with h := (m.h.setNext p (some n)).setPrev n (some p), hmap := m.hmap.delete k },
    ?_, ⟨h6, nd, ?_, ?_, ?_⟩, ?_⟩
  · simp [remove, hg, h1, h2, hv]
  · intro b hb; exact hi.lt b (by simp at hb ⊢; tauto)
  · simp only [hv]
    have := hi.keys
    rw [List.map_append, List.map_cons] at this
    rw [List.map_append]
    exact this.sublist ((List.Sublist.refl _).append (List.sublist_cons_self _ _))
  · simp only [hv]
    rw [List.map_append]
    refine delete_split m.hmap _ k a _ _ hi.map (by simp [hk]) ?_
    simpa [Function.comp_def] using hi.keys
  · simp [vals, hv]

theorem LHM.setBack_some {m : LHM K V} {l₁ l₂ : List Nat} {a : Nat} {k : K} (v : V)
    (hi : m.Inv (l₁ ++ a :: l₂)) (hk : (m.h a).val.1 = k) :
    ∃ m', m.setBack k v = some (m', true) ∧ m'.Inv (l₁ ++ l₂ ++ [a]) ∧
      vals m'.h (l₁ ++ l₂ ++ [a]) = vals m.h (l₁ ++ l₂) ++ [(k, v)] := by
  have hg : m.hmap.get k = some a := hi.get_some.2 ⟨by simp, hk⟩
  have hi1 := LHM.setVal_inv hi v hg
  have hk' : ((m.h a).val.1, v) = (k, v) := by rw [hk]
  obtain ⟨hnd, hna⟩ := nodup_drop hi.nodup
  have hvals : ∀ l : List Nat, a ∉ l → vals (m.h.setVal a (k, v)) l = vals m.h l := by
    intro l hl
    apply vals_congr
    intro b hb
    have hba : b ≠ a := by rintro rfl; exact hl hb
    simp [val_setVal, hba]
  have hna' : a ∉ l₁ ++ l₂ := fun h => hna (by simp at h ⊢; tauto)
  rcases nil_or_snoc l₂ with rfl | ⟨l₂, t, rfl⟩
  · -- already last
    have hp : (m.h.setVal a (k, v) m.tail).prev = some a := by
      have : m.head :: (l₁ ++ [a]) ++ [m.tail] = (m.head :: l₁) ++ a :: m.tail :: [] := by simp
      have hl := hi1.linked
      simp only [this] at hl
      exact (linked_pair hl).2
    refine ⟨{ m with h := m.h.setVal a (k, v) }, ?_, by simpa using hi1, ?_⟩
    · simp [setBack, hg, hk', hp]
    · have h3 := hvals l₁ (by simpa using hna')
      simp only [List.append_nil]
      unfold vals at h3 ⊢
      rw [List.map_append, h3]
      simp [val_setVal]
  · have htail : (m.h.setVal a (k, v) m.tail).prev = some t := by
      have : m.head :: (l₁ ++ a :: (l₂ ++ [t])) ++ [m.tail]
          = (m.head :: (l₁ ++ a :: l₂)) ++ t :: m.tail :: [] := by simp
      have hl := hi1.linked
      simp only [this] at hl
      exact (linked_pair hl).2
    have hta : t ≠ a := by
      rintro rfl; exact hna (by simp)
    obtain ⟨p, n, h1, h2, h3, h4, h5, h6⟩ := unlink_linked hi1.linked hi.nodup
    simp only at h1 h2 h6
    have htl : a ≠ m.tail := by rintro e; exact hna (by simp [e])
    have hs : m.head :: (l₁ ++ (l₂ ++ [t])) ++ [m.tail]
        = (m.head :: (l₁ ++ l₂)) ++ t :: m.tail :: [] := by simp
    rw [hs] at h6
    have hprev := (linked_pair h6).2
    have htt : t ≠ m.tail := by
      have := hnd
      rw [hs] at this
      simp only [List.nodup_append, List.nodup_cons, List.mem_cons] at this
      intro e; exact this.2.1.1 (Or.inl e)
    generalize hH : ((m.h.setVal a (k, v)).setNext p (some n)).setPrev n (some p) = H at h6 hprev
    have hHv : ∀ b, (H b).val = (m.h.setVal a (k, v) b).val := by
      intro b; rw [← hH, val_setPrev, val_setNext]
    let H' := (((H.setNext t (some a)).setPrev a (some t)).setNext a (some m.tail)).setPrev m.tail
      (some a)
    have hH'v : ∀ b, (H' b).val = (m.h.setVal a (k, v) b).val := by
      intro b
      simp only [H']
      rw [val_setPrev, val_setNext, val_setPrev, val_setNext, hHv]
    have hlk : Linked H' ((m.head :: (l₁ ++ l₂)) ++ t :: a :: m.tail :: []) := by
      refine linked_insert h6 (by rw [← hs]; exact hnd) (by rw [← hs]; exact hna) ?_ ?_ ?_ ?_ ?_ ?_
      · simp [H', next_setPrev, next_setNext, hta]
      · simp [H', prev_setPrev, prev_setNext, htl]
      · simp [H', next_setPrev, next_setNext]
      · simp [H', prev_setPrev]
      · intro y hy1 hy2; simp [H', next_setPrev, next_setNext, hy1, hy2]
      · intro y hy1 hy2; simp [H', prev_setPrev, prev_setNext, hy1, hy2]
    have hperm : (l₁ ++ (l₂ ++ [t]) ++ [a]).Perm (l₁ ++ a :: (l₂ ++ [t])) := by
      refine (List.perm_append_singleton _ _).trans ?_
      exact (List.perm_middle).symm
    refine ⟨{ m with h := H' }, ?_, ⟨?_, ?_, ?_, ?_, ?_⟩, ?_⟩
    · simp only [setBack, hg, hk', htail, Option.some.injEq, if_neg (Ne.symm hta)]
      rw [h1, h2]
      simp [hH, hprev, H']
    · simpa using hlk
    · have : (m.head :: (l₁ ++ (l₂ ++ [t]) ++ [a]) ++ [m.tail]).Perm
          (m.head :: (l₁ ++ a :: (l₂ ++ [t])) ++ [m.tail]) := (hperm.cons _).append_right _
      exact this.nodup_iff.2 hi.nodup
    · intro b hb; exact hi.lt b (by simp at hb ⊢; tauto)
    · simp only [hH'v]
      exact (hperm.map _).nodup_iff.2 hi1.keys
    · simp only [hH'v]
      exact hi1.map.trans (hperm.map _).symm
    · have h3 := hvals _ hna'
      unfold vals at h3 ⊢
      simp only [hH'v]
      rw [List.map_append, h3]
      simp [val_setVal]

theorem LHM.setFront_some {m : LHM K V} {l₁ l₂ : List Nat} {a : Nat} {k : K} (v : V)
    (hi : m.Inv (l₁ ++ a :: l₂)) (hk : (m.h a).val.1 = k) :
    ∃ m', m.setFront k v = some (m', true) ∧ m'.Inv (a :: (l₁ ++ l₂)) ∧
      vals m'.h (a :: (l₁ ++ l₂)) = (k, v) :: vals m.h (l₁ ++ l₂) := by
  have hg : m.hmap.get k = some a := hi.get_some.2 ⟨by simp, hk⟩
  have hi1 := LHM.setVal_inv hi v hg
  have hk' : ((m.h a).val.1, v) = (k, v) := by rw [hk]
  obtain ⟨hnd, hna⟩ := nodup_drop hi.nodup
  have hvals : ∀ l : List Nat, a ∉ l → vals (m.h.setVal a (k, v)) l = vals m.h l := by
    intro l hl
    apply vals_congr
    intro b hb
    have hba : b ≠ a := by rintro rfl; exact hl hb
    simp [val_setVal, hba]
  have hna' : a ∉ l₁ ++ l₂ := fun h => hna (by simp at h ⊢; tauto)
  cases l₁ with
  | nil =>
    have hp : (m.h.setVal a (k, v) m.head).next = some a := by
      have : m.head :: ([] ++ a :: l₂) ++ [m.tail] = [] ++ m.head :: a :: (l₂ ++ [m.tail]) := by simp
      have hl := hi1.linked
      simp only [this] at hl
      exact (linked_pair hl).1
    refine ⟨{ m with h := m.h.setVal a (k, v) }, ?_, by simpa using hi1, ?_⟩
    · simp [setFront, hg, hk', hp]
    · have h3 := hvals l₂ (by simpa using hna')
      unfold vals at h3 ⊢
      simp only [List.nil_append, List.map_cons, h3]
      simp [val_setVal]
  | cons t l₁ =>
    have hhead : (m.h.setVal a (k, v) m.head).next = some t := by
      have : m.head :: (t :: l₁ ++ a :: l₂) ++ [m.tail]
          = [] ++ m.head :: t :: (l₁ ++ a :: l₂ ++ [m.tail]) := by simp
      have hl := hi1.linked
      simp only [this] at hl
      exact (linked_pair hl).1
    have hta : t ≠ a := by
      rintro rfl; exact hna (by simp)
    obtain ⟨p, n, h1, h2, h3, h4, h5, h6⟩ := unlink_linked hi1.linked hi.nodup
    simp only at h1 h2 h6
    have htl : a ≠ m.head := by rintro e; exact hna (by simp [e])
    have hs : m.head :: (t :: l₁ ++ l₂) ++ [m.tail]
        = [] ++ m.head :: t :: (l₁ ++ l₂ ++ [m.tail]) := by simp
    rw [hs] at h6
    have hnext := (linked_pair h6).1
    have htt : t ≠ m.head := by
      have := hnd
      rw [hs] at this
      simp only [List.nil_append, List.nodup_cons, List.mem_cons, not_or] at this
      exact Ne.symm this.1.1
    generalize hH : ((m.h.setVal a (k, v)).setNext p (some n)).setPrev n (some p) = H at h6 hnext
    have hHv : ∀ b, (H b).val = (m.h.setVal a (k, v) b).val := by
      intro b; rw [← hH, val_setPrev, val_setNext]
    let H' := (((H.setPrev t (some a)).setNext a (some t)).setPrev a (some m.head)).setNext m.head
      (some a)
    have hH'v : ∀ b, (H' b).val = (m.h.setVal a (k, v) b).val := by
      intro b
      simp only [H']
      rw [val_setNext, val_setPrev, val_setNext, val_setPrev, hHv]
    have hlk : Linked H' ([] ++ m.head :: a :: t :: (l₁ ++ l₂ ++ [m.tail])) := by
      refine linked_insert h6 (by rw [← hs]; exact hnd) (by rw [← hs]; exact hna) ?_ ?_ ?_ ?_ ?_ ?_
      · simp [H', next_setNext]
      · simp [H', prev_setPrev, prev_setNext]
      · simp [H', next_setPrev, next_setNext, htl]
      · simp [H', prev_setPrev, prev_setNext, hta]
      · intro y hy1 hy2; simp [H', next_setPrev, next_setNext, hy1, hy2]
      · intro y hy1 hy2; simp [H', prev_setPrev, prev_setNext, hy1, hy2]
    have hperm : (a :: (t :: l₁ ++ l₂)).Perm (t :: l₁ ++ a :: l₂) := (List.perm_middle).symm
    refine ⟨{ m with h := H' }, ?_, ⟨?_, ?_, ?_, ?_, ?_⟩, ?_⟩
    · simp only [setFront, hg, hk', hhead, Option.some.injEq, if_neg (Ne.symm hta)]
      rw [h1, h2]
      simp [hH, hnext, H']
    · simpa using hlk
    · have : (m.head :: (a :: (t :: l₁ ++ l₂)) ++ [m.tail]).Perm
          (m.head :: (t :: l₁ ++ a :: l₂) ++ [m.tail]) := (hperm.cons _).append_right _
      exact this.nodup_iff.2 hi.nodup
    · intro b hb; exact hi.lt b (by simp at hb ⊢; tauto)
    · simp only [hH'v]
      exact (hperm.map _).nodup_iff.2 hi1.keys
    · simp only [hH'v]
      exact hi1.map.trans (hperm.map _).symm
    · have h3 := hvals _ hna'
      unfold vals at h3 ⊢
      simp only [hH'v]
      rw [List.map_cons, h3]
      simp [val_setVal]

theorem LHM.clear_inv {m : LHM K V} {ids : List Nat} (hi : m.Inv ids) : m.clear.Inv [] := by
  have nd := hi.nodup
  have hth : m.head ≠ m.tail := by
    intro e
    rw [List.nodup_append] at nd
    exact nd.2.2 m.head (by simp) m.tail (by simp) e
  refine ⟨?_, ?_, ?_, by simp, by simp [clear]⟩
  · show Linked m.clear.h (m.head :: m.tail :: [])
    rw [linked_cons_cons]
    refine ⟨⟨?_, ?_⟩, linked_single _ _⟩
    · simp [clear, next_setPrev, next_setNext]
    · simp [clear, prev_setPrev]
  · show (m.head :: m.tail :: []).Nodup
    simp [hth]
  · intro a ha
    have ha' : a ∈ m.head :: m.tail :: [] := ha
    exact hi.lt a (by simp at ha' ⊢; tauto)

theorem LHM.entries_eq {m : LHM K V} {ids : List Nat} (hi : m.Inv ids) :
    m.entries = some (vals m.h ids) := by
  have hl := hi.linked
  have nd := hi.nodup
  unfold entries
  have h1 : (m.h m.head).next = (ids ++ [m.tail]).head? := by
    cases ids with
    | nil => exact (linked_cons_cons.1 hl).1.1
    | cons b l => exact (linked_cons_cons.1 hl).1.1
  have h2 : Linked m.h (ids ++ [m.tail]) := by
    cases ids with
    | nil => exact linked_single _ _
    | cons b l => exact (linked_cons_cons.1 hl).2
  have h3 : m.tail ∉ ids := by
    intro h
    rw [List.nodup_append] at nd
    exact nd.2.2 m.tail (by simp [h]) m.tail (by simp) rfl
  have h4 : ids.length ≤ m.fresh := by
    have h5 : ids.Nodup := by
      rw [List.nodup_append, List.nodup_cons] at nd
      exact nd.1.2
    exact length_le_of_nodup_lt h5 fun a ha => hi.lt a (by simp [ha])
  rw [h1]
  exact walkTo_of_linked ids m.fresh h2 h3 h4

end Verif.Map.Linked
