import Verif.Tree.TreeListModel

/-! The thread through the nodes of a tree list: segments of a doubly linked list, and how the
statements on `Direct` change them. -/

namespace Verif.TreeList

open Tree Size DLL

variable {α K V : Type}

/-- The nodes are linked in this order, `p` stands before the first and `q` after the last one. -/
def Seg (h : Store α) : Option Nat → List Nat → Option Nat → Prop
  | _, [], _ => True
  | p, a :: as, q => (h a).prev = p ∧ (h a).next = as.head?.or q ∧ Seg h (some a) as q

theorem seg_append {h : Store α} {as bs : List Nat} {p q : Option Nat} :
    Seg h p (as ++ bs) q ↔ Seg h p as (bs.head?.or q) ∧ Seg h (as.getLast?.or p) bs q := by
  induction as generalizing p with
  | nil => simp [Seg]
  | cons a as ih =>
    simp only [List.cons_append, Seg, ih]
    have e1 : (as ++ bs).head?.or q = as.head?.or (bs.head?.or q) := by cases as <;> simp
    have e2 : (a :: as).getLast?.or p = as.getLast?.or (some a) := by
      cases as with
      | nil => simp
      | cons b as =>
        rw [List.getLast?_cons_cons]
        cases h : (b :: as).getLast? with
        | none => simp at h
        | some c => simp
    rw [e1, e2]
    simp only [and_assoc]

theorem seg_congr {h h' : Store α} {as : List Nat} {p q : Option Nat} (hs : Seg h p as q)
    (hc : ∀ a ∈ as, (h' a).prev = (h a).prev ∧ (h' a).next = (h a).next) : Seg h' p as q := by
  induction as generalizing p with
  | nil => trivial
  | cons a as ih =>
    obtain ⟨h1, h2, h3⟩ := hs
    obtain ⟨c1, c2⟩ := hc a (by simp)
    exact ⟨c1.trans h1, c2.trans h2, ih h3 fun b hb => hc b (by simp [hb])⟩

/-- Another node after the last one. -/
theorem seg_right {h h' : Store α} {as : List Nat} {p q x : Option Nat} (hs : Seg h p as q)
    (nd : as.Nodup) (hc : ∀ a ∈ as, (h' a).prev = (h a).prev ∧
      (h' a).next = if as.getLast? = some a then x else (h a).next) : Seg h' p as x := by
  rcases List.eq_nil_or_concat as with rfl | ⟨bs, a, rfl⟩
  · trivial
  · rw [List.concat_eq_append] at *
    rw [seg_append] at hs ⊢
    obtain ⟨h1, h2, -, -⟩ := hs
    have ha := hc a (by simp)
    rw [List.getLast?_concat, if_pos rfl] at ha
    refine ⟨seg_congr h1 fun b hb => ?_, ha.1.trans h2, by simpa using ha.2, trivial⟩
    have hb' := hc b (by simp [hb])
    rw [List.getLast?_concat, if_neg] at hb'
    · exact hb'
    · intro e
      cases e
      simp [List.nodup_append] at nd
      exact nd.2 a hb rfl

/-- Another node before the first one. -/
theorem seg_left {h h' : Store α} {as : List Nat} {p q y : Option Nat} (hs : Seg h p as q)
    (nd : as.Nodup) (hc : ∀ a ∈ as, (h' a).next = (h a).next ∧
      (h' a).prev = if as.head? = some a then y else (h a).prev) : Seg h' y as q := by
  cases as with
  | nil => trivial
  | cons a as =>
    obtain ⟨h1, h2, h3⟩ := hs
    have ha := hc a (by simp)
    rw [List.head?_cons, if_pos rfl] at ha
    refine ⟨ha.2, ha.1.trans h2, seg_congr h3 fun b hb => ?_⟩
    have hb' := hc b (by simp [hb])
    rw [List.head?_cons, if_neg] at hb'
    · exact ⟨hb'.2, hb'.1⟩
    · rintro ⟨⟩
      simp [List.nodup_cons] at nd
      exact nd.1 hb

/-- What is left of a segment when its middle part is replaced. -/
theorem seg_splice {h h' : Store α} {L M R : List Nat} {p q x y : Option Nat}
    (hs : Seg h p (L ++ (M ++ R)) q) (nd : (L ++ (M ++ R)).Nodup)
    (hL : ∀ a ∈ L, (h' a).prev = (h a).prev ∧
      (h' a).next = if L.getLast? = some a then x else (h a).next)
    (hR : ∀ a ∈ R, (h' a).next = (h a).next ∧
      (h' a).prev = if R.head? = some a then y else (h a).prev) :
    Seg h' p L x ∧ Seg h' y R q := by
  rw [seg_append, seg_append] at hs
  rw [List.nodup_append, List.nodup_append] at nd
  exact ⟨seg_right hs.1 nd.1 hL, seg_left hs.2.2 nd.2.1.2.1 hR⟩

/-- The list of nodes that the links give. -/
structure Thread (s : TL K V) (as : List Nat) : Prop where
  head : s.head = as.head?
  tail : s.tail = as.getLast?
  seg : Seg s.heap none as none

section
variable (s : TL K V) (p q : Option Nat)

theorem setR_next (a : Nat) :
    ((s.setR p q).heap a).next = if p = some a then q else (s.heap a).next := by
  cases p with
  | none => simp [TL.setR]
  | some b =>
    simp only [TL.setR, next_setNext, Option.some.injEq]
    by_cases h : a = b
    · simp [h]
    · rw [if_neg h, if_neg (Ne.symm h)]
theorem setR_prev (a : Nat) : ((s.setR p q).heap a).prev = (s.heap a).prev := by
  cases p <;> simp [TL.setR, prev_setNext]
theorem setR_val (a : Nat) : ((s.setR p q).heap a).val = (s.heap a).val := by
  cases p <;> simp [TL.setR, val_setNext]
theorem setR_tree : (s.setR p q).tree = s.tree := by cases p <;> rfl
theorem setR_free : (s.setR p q).free = s.free := by cases p <;> rfl
theorem setR_tail : (s.setR p q).tail = s.tail := by cases p <;> rfl
theorem setR_head : (s.setR p q).head = if p = none then q else s.head := by cases p <;> simp [TL.setR]

theorem setL_prev (a : Nat) :
    ((s.setL p q).heap a).prev = if p = some a then q else (s.heap a).prev := by
  cases p with
  | none => simp [TL.setL]
  | some b =>
    simp only [TL.setL, prev_setPrev, Option.some.injEq]
    by_cases h : a = b
    · simp [h]
    · rw [if_neg h, if_neg (Ne.symm h)]
theorem setL_next (a : Nat) : ((s.setL p q).heap a).next = (s.heap a).next := by
  cases p <;> simp [TL.setL, next_setPrev]
theorem setL_val (a : Nat) : ((s.setL p q).heap a).val = (s.heap a).val := by
  cases p <;> simp [TL.setL, val_setPrev]
theorem setL_tree : (s.setL p q).tree = s.tree := by cases p <;> rfl
theorem setL_free : (s.setL p q).free = s.free := by cases p <;> rfl
theorem setL_head : (s.setL p q).head = s.head := by cases p <;> rfl
theorem setL_tail : (s.setL p q).tail = if p = none then q else s.tail := by cases p <;> simp [TL.setL]

end

theorem head?_append_some {as bs : List Nat} (h : as ≠ []) : (as ++ bs).head? = as.head? := by
  cases as with
  | nil => exact absurd rfl h
  | cons => rfl

theorem getLast?_append_some {as bs : List Nat} (h : bs ≠ []) : (as ++ bs).getLast? = bs.getLast? := by
  rw [List.getLast?_append]
  cases hb : bs.getLast? with
  | none => simp at hb; exact absurd hb h
  | some b => simp

theorem head?_or (as bs : List Nat) : (as ++ bs).head? = as.head?.or bs.head? := by cases as <;> simp
theorem getLast?_or (as bs : List Nat) : (as ++ bs).getLast? = bs.getLast?.or as.getLast? := by
  rw [List.getLast?_append]

/-- Taking out a part. -/
theorem Thread.unlink {s : TL K V} {L M R : List Nat} (h : Thread s (L ++ (M ++ R)))
    (nd : (L ++ (M ++ R)).Nodup) : Thread (s.unlink L.getLast? R.head?) (L ++ R) := by
  have nd' := nd
  rw [List.nodup_append, List.nodup_append] at nd
  obtain ⟨-, ⟨-, -, nMR⟩, nL⟩ := nd
  obtain ⟨hh, ht, hs⟩ := h
  refine ⟨?_, ?_, ?_⟩
  · rw [TL.unlink, setL_head, setR_head]
    cases L with
    | nil => simp
    | cons a L => rw [if_neg (by simp), hh]; simp
  · rw [TL.unlink, setL_tail, setR_tail]
    rcases List.eq_nil_or_concat R with rfl | ⟨R', b, rfl⟩
    · simp
    · rw [List.concat_eq_append] at *
      rw [if_neg (by simp), ht]
      simp only [getLast?_or]
      simp
  · obtain ⟨h1, h2⟩ := seg_splice (h' := (s.unlink L.getLast? R.head?).heap) (x := R.head?)
      (y := L.getLast?) hs nd'
      (fun a ha => ⟨by
        rw [TL.unlink, setL_prev, setR_prev, if_neg]
        intro e
        exact nL a ha a (by simp [List.mem_of_mem_head? e]) rfl, by
        rw [TL.unlink, setL_next, setR_next]⟩)
      (fun a ha => ⟨by
        rw [TL.unlink, setL_next, setR_next, if_neg]
        intro e
        exact nL a (List.mem_of_mem_getLast? e) a (by simp [ha]) rfl, by
        rw [TL.unlink, setL_prev, setR_prev]⟩)
    rw [seg_append]
    exact ⟨by simpa using h1, by simpa using h2⟩

/-- Putting a new node in. -/
theorem Thread.insert {s : TL K V} {L R : List Nat} (h : Thread s (L ++ R)) (nd : (L ++ R).Nodup)
    {x : Nat} (hx : x ∉ L ++ R) {sl : K × V} {s' : TL K V}
    (h1 : s'.heap = ((s.setR L.getLast? (some x)).setL R.head? (some x)).heap.put x
      ⟨L.getLast?, R.head?, sl⟩)
    (h2 : s'.head = ((s.setR L.getLast? (some x)).setL R.head? (some x)).head)
    (h3 : s'.tail = ((s.setR L.getLast? (some x)).setL R.head? (some x)).tail) :
    Thread s' (L ++ x :: R) := by
  have nd' := nd
  rw [List.nodup_append] at nd
  obtain ⟨-, -, nL⟩ := nd
  obtain ⟨hh, ht, hs⟩ := h
  simp only [List.mem_append, not_or] at hx
  refine ⟨?_, ?_, ?_⟩
  · rw [h2, setL_head, setR_head]
    cases L with
    | nil => simp
    | cons a L => rw [if_neg (by simp), hh]; simp
  · rw [h3, setL_tail, setR_tail]
    rcases List.eq_nil_or_concat R with rfl | ⟨R', b, rfl⟩
    · simp
    · rw [List.concat_eq_append] at *
      rw [if_neg (by simp), ht]
      rw [show L ++ (R' ++ [b]) = (L ++ R') ++ [b] by simp,
        show L ++ x :: (R' ++ [b]) = (L ++ x :: R') ++ [b] by simp, List.getLast?_concat,
        List.getLast?_concat]
  · obtain ⟨g1, g2⟩ := seg_splice (M := []) (h' := s'.heap) (x := some x) (y := some x)
      (p := none) (q := none) (L := L) (R := R) (by simpa using hs) (by simpa using nd')
      (fun a ha => by
        have hax : a ≠ x := fun e => hx.1 (e ▸ ha)
        rw [h1, put_ne _ _ hax]
        refine ⟨?_, by rw [setL_next, setR_next]⟩
        rw [setL_prev, setR_prev, if_neg]
        intro e
        exact nL a ha a (List.mem_of_mem_head? e) rfl)
      (fun a ha => by
        have hax : a ≠ x := fun e => hx.2 (e ▸ ha)
        rw [h1, put_ne _ _ hax]
        refine ⟨?_, by rw [setL_prev, setR_prev]⟩
        rw [setL_next, setR_next, if_neg]
        intro e
        exact nL a (List.mem_of_mem_getLast? e) a ha rfl)
    rw [seg_append]
    refine ⟨by simpa using g1, ?_, ?_, g2⟩
    · rw [h1, put_self]; simp
    · rw [h1, put_self]; simp

/-- Keeping only a part. -/
theorem Thread.fence {s : TL K V} {L M R : List Nat} (h : Thread s (L ++ (M ++ R)))
    (nd : (L ++ (M ++ R)).Nodup) {a b : Nat} (ha : M.head? = some a) (hb : M.getLast? = some b)
    {s' : TL K V} (h1 : s'.heap = (s.heap.setPrev a none).setNext b none) (h2 : s'.head = some a)
    (h3 : s'.tail = some b) : Thread s' M := by
  obtain ⟨-, -, hs⟩ := h
  rw [seg_append, seg_append] at hs
  rw [List.nodup_append, List.nodup_append] at nd
  refine ⟨h2.trans ha.symm, h3.trans hb.symm, ?_⟩
  have g1 : Seg (s.heap.setPrev a none) none M _ := seg_left hs.2.1 nd.2.1.1 (fun c hc => by
    refine ⟨next_setPrev .., ?_⟩
    rw [prev_setPrev, ha]
    by_cases e : c = a
    · simp [e]
    · rw [if_neg e, if_neg (by simpa using Ne.symm e)])
  rw [h1]
  refine seg_right g1 nd.2.1.1 (fun c hc => ?_)
  refine ⟨prev_setNext .., ?_⟩
  rw [next_setNext, hb]
  by_cases e : c = b
  · simp [e]
  · rw [if_neg e, if_neg (by simpa using Ne.symm e)]

/-- Walking along the links. -/
theorem walk_next {h : Store (K × V)} : ∀ (n : Nat) {as : List Nat} {p : Option Nat},
    Seg h p as none → as.length ≤ n →
    walk h false n as.head? = some (as.map fun a => (h a).val) := by
  intro n
  induction n with
  | zero =>
    intro as p _ hl
    rw [List.length_eq_zero_iff.1 (show as.length = 0 by omega)]
    rfl
  | succ n ih =>
    intro as p hs hl
    cases as with
    | nil => rfl
    | cons a as =>
      obtain ⟨-, h2, h3⟩ := hs
      simp only [walk, List.head?_cons, Bool.false_eq_true, if_false, h2, Option.or_none]
      rw [ih h3 (by simpa using hl)]
      rfl

theorem walk_prev {h : Store (K × V)} : ∀ (n : Nat) {as : List Nat} {q : Option Nat},
    Seg h none as q → as.length ≤ n →
    walk h true n as.getLast? = some (as.reverse.map fun a => (h a).val) := by
  intro n
  induction n with
  | zero =>
    intro as q _ hl
    rw [List.length_eq_zero_iff.1 (show as.length = 0 by omega)]
    rfl
  | succ n ih =>
    intro as q hs hl
    rcases List.eq_nil_or_concat as with rfl | ⟨bs, a, rfl⟩
    · rfl
    · rw [List.concat_eq_append] at *
      rw [seg_append] at hs
      obtain ⟨h1, h2, -, -⟩ := hs
      rw [List.getLast?_concat]
      simp only [walk, if_true, h2, Option.or_none]
      rw [ih h1 (by simpa using hl)]
      simp

end Verif.TreeList
