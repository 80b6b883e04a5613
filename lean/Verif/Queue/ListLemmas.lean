import Verif.Queue.ListModel

/-! Helper lemmas for C06. -/

namespace Verif.Queue
open DLL
variable {α : Type}

/-- Representation invariant: `ids` are the live elements, first to last. -/
structure LQ.Inv (q : LQ α) (ids : List Nat) : Prop where
  linked : Linked q.h ids
  nodup : ids.Nodup
  lt : ∀ a ∈ ids, a < q.fresh
  head : q.head = ids.head?
  tail : q.tail = ids.getLast?
  first : ∀ a ∈ ids.head?, (q.h a).prev = none
  last : ∀ a ∈ ids.getLast?, (q.h a).next = none
  size : q.size = ids.length

def LQ.Rep (q : LQ α) (l : List α) : Prop := ∃ ids, q.Inv ids ∧ vals q.h ids = l

theorem LQ.new_rep (h : Store α) : (LQ.new h).Rep [] :=
  ⟨[], by constructor <;> simp [LQ.new, linked_nil], rfl⟩

theorem LQ.pushBack_ok (q : LQ α) (l : List α) (v : α) (hr : q.Rep l) :
    ∃ q', q.pushBack v = some q' ∧ q'.Rep (l ++ [v]) := by
  obtain ⟨ids, hi, rfl⟩ := hr
  have hf : q.fresh ∉ ids := fun hm => absurd (hi.lt _ hm) (by omega)
  have hlt : ∀ a ∈ ids, a ≠ q.fresh := fun a ha e => hf (e ▸ ha)
  rcases nil_or_snoc ids with rfl | ⟨xs, t, rfl⟩
  · have hs : q.size = 0 := by simpa using hi.size
    refine ⟨_, by simp [pushBack, hs]; rfl, [q.fresh], ?_, by simp [vals]⟩
    constructor <;> simp [linked_single]
  · have hs : q.size + 1 ≠ 1 := by have := hi.size; simp at this; omega
    have ht : q.tail = some t := by simpa using hi.tail
    have htf : t ≠ q.fresh := hlt t (by simp)
    refine ⟨_, by simp [pushBack, hs, ht]; rfl, xs ++ [t] ++ [q.fresh], ?_, ?_⟩
    · constructor
      · simp only
        rw [List.append_assoc]
        refine linked_append.2 ⟨?_, ?_, ?_⟩
        · refine (linked_append.1 hi.linked).1.congr ?_ ?_
          · intro a ha
            have ham : a ∈ xs := List.dropLast_subset _ ha
            have h1 : a ≠ t := by
              rintro rfl
              have := hi.nodup; simp [List.nodup_append] at this
              exact this.2 _ ham rfl
            have h2 := hlt a (by simp [ham])
            simp [next_setNext, next_setPrev, next_put, h1, h2]
          · intro a ha
            have ham : a ∈ xs := List.mem_of_mem_tail ha
            have h2 := hlt a (by simp [ham])
            simp [prev_setNext, prev_setPrev, prev_put, h2]
        · rw [List.singleton_append, linked_cons_cons]
          refine ⟨⟨?_, ?_⟩, linked_single _ _⟩
          · simp [next_setNext]
          · simp [prev_setNext, prev_setPrev]
        · intro a ha b hb
          simp at hb; subst hb
          have hl := (linked_append.1 hi.linked).2.2 a ha t (by simp)
          have ham : a ∈ xs := List.mem_of_mem_getLast? ha
          have h1 : a ≠ t := by
            rintro rfl
            have := hi.nodup; simp [List.nodup_append] at this
            exact this.2 _ ham rfl
          have h2 := hlt a (by simp [ham])
          refine ⟨?_, ?_⟩
          · simp [next_setNext, next_setPrev, next_put, h1, h2, hl.1]
          · simp [prev_setNext, prev_setPrev, prev_put, htf, hl.2]
      · rw [List.nodup_append]
        refine ⟨hi.nodup, by simp, ?_⟩
        intro a ha b hb
        simp at hb; subst hb
        exact hlt a ha
      · intro a ha
        simp only [List.mem_append, List.mem_singleton] at ha
        rcases ha with (ha | ha) | ha
        · have := hi.lt a (by simp [ha]); simp only; omega
        · have := hi.lt a (by simp [ha]); simp only; omega
        · simp only; omega
      · have := hi.head; simp only [this]; cases xs <;> simp
      · simp
      · intro a ha
        have hah : a ∈ (xs ++ [t]).head? := by cases xs <;> simpa using ha
        have h2 := hlt a (List.mem_of_mem_head? hah)
        simp [prev_setNext, prev_setPrev, prev_put, h2, hi.first a hah]
      · intro a ha
        simp at ha; subst ha
        simp [next_setNext, next_setPrev, Ne.symm htf]
      · simp only [hi.size]; simp; try omega
    · simp only [vals, List.map_append]
      congr 1
      · congr 1
        · apply List.map_congr_left
          intro a ha
          have h2 := hlt a (by simp [ha])
          simp [val_setNext, val_setPrev, val_put, h2]
        · simp [val_setNext, val_setPrev, val_put, htf]
      · simp [val_setNext, val_setPrev]

theorem LQ.pushFront_ok (q : LQ α) (l : List α) (v : α) (hr : q.Rep l) :
    ∃ q', q.pushFront v = some q' ∧ q'.Rep (v :: l) := by
  obtain ⟨ids, hi, rfl⟩ := hr
  have hf : q.fresh ∉ ids := fun hm => absurd (hi.lt _ hm) (by omega)
  have hlt : ∀ a ∈ ids, a ≠ q.fresh := fun a ha e => hf (e ▸ ha)
  cases ids with
  | nil =>
    have hs : q.size = 0 := by simpa using hi.size
    refine ⟨_, by simp [pushFront, hs]; rfl, [q.fresh], ?_, by simp [vals]⟩
    constructor <;> simp [linked_single]
  | cons t xs =>
    have hs : q.size + 1 ≠ 1 := by have := hi.size; simp at this; omega
    have ht : q.head = some t := by simpa using hi.head
    have htf : t ≠ q.fresh := hlt t (by simp)
    have hnd := hi.nodup
    rw [List.nodup_cons] at hnd
    refine ⟨_, by simp [pushFront, hs, ht]; rfl, q.fresh :: t :: xs, ?_, ?_⟩
    · constructor
      · simp only
        rw [linked_cons_cons]
        refine ⟨⟨?_, ?_⟩, ?_⟩
        · simp [next_setPrev, next_setNext]
        · simp [prev_setPrev]
        · refine hi.linked.congr ?_ ?_
          · intro a ha
            have h2 := hlt a (List.dropLast_subset _ ha)
            simp [next_setNext, next_setPrev, next_put, h2]
          · intro a ha
            simp only [List.tail_cons] at ha
            have h1 : a ≠ t := fun e => hnd.1 (e ▸ ha)
            have h2 := hlt a (by simp [ha])
            simp [prev_setNext, prev_setPrev, prev_put, h2, h1]
      · rw [List.nodup_cons]; exact ⟨hf, hi.nodup⟩
      · intro a ha
        rw [List.mem_cons] at ha
        rcases ha with ha | ha
        · simp only; omega
        · have := hi.lt a ha; simp only; omega
      · simp
      · have := hi.tail; simp only [this]; simp
      · intro a ha
        simp at ha; subst ha
        simp [prev_setNext, prev_setPrev, Ne.symm htf]
      · intro a ha
        rw [List.getLast?_cons_cons] at ha
        have h2 := hlt a (List.mem_of_mem_getLast? ha)
        simp [next_setNext, next_setPrev, next_put, h2, hi.last a ha]
      · simp only [hi.size]; simp; try omega
    · simp only [vals, List.map_cons]
      congr 1
      · simp [val_setNext, val_setPrev]
      · congr 1
        · simp [val_setNext, val_setPrev, val_put, htf]
        · apply List.map_congr_left
          intro a ha
          have h2 := hlt a (by simp [ha])
          simp [val_setNext, val_setPrev, val_put, h2]

theorem LQ.popFront_nil (q : LQ α) (hr : q.Rep []) : q.popFront = some (q, .val none) := by
  obtain ⟨ids, hi, hv⟩ := hr
  have : ids = [] := by simpa [vals] using hv
  subst this
  have hs : q.size = 0 := by simpa using hi.size
  simp [popFront, hs]

theorem LQ.popBack_nil (q : LQ α) (hr : q.Rep []) : q.popBack = some (q, .val none) := by
  obtain ⟨ids, hi, hv⟩ := hr
  have : ids = [] := by simpa [vals] using hv
  subst this
  have hs : q.size = 0 := by simpa using hi.size
  simp [popBack, hs]

theorem LQ.popFront_cons (q : LQ α) (v : α) (l : List α) (hr : q.Rep (v :: l)) :
    ∃ q', q.popFront = some (q', .val (some v)) ∧ q'.Rep l := by
  obtain ⟨ids, hi, hv⟩ := hr
  cases ids with
  | nil => simp [vals] at hv
  | cons t xs =>
    simp only [vals, List.map_cons, List.cons.injEq] at hv
    obtain ⟨rfl, rfl⟩ := hv
    have ht : q.head = some t := by simpa using hi.head
    have hsz := hi.size
    cases xs with
    | nil =>
      have hs : q.size = 1 := by simpa using hsz
      refine ⟨{ q with head := none, tail := none, size := 0 }, by simp [popFront, hs, ht], [], ?_, rfl⟩
      constructor <;> simp [linked_nil]
    | cons b xs =>
      have hs : q.size ≠ 0 := by simp at hsz; omega
      have hs1 : q.size - 1 ≠ 0 := by simp at hsz; omega
      have hlk := linked_cons_cons.1 hi.linked
      have hnd := hi.nodup
      simp only [List.nodup_cons, List.mem_cons, not_or] at hnd
      refine ⟨_, by simp [popFront, hs, hs1, ht, hlk.1.1, val_setNext, val_setPrev]; rfl,
        b :: xs, ?_, ?_⟩
      · constructor
        · refine hlk.2.congr ?_ ?_
          · intro a ha
            have ham := List.dropLast_subset _ ha
            have h1 : a ≠ t := by
              rintro rfl
              simp at ham; tauto
            simp [next_setNext, next_setPrev, h1]
          · intro a ha
            simp only [List.tail_cons] at ha
            have h1 : a ≠ b := fun e => hnd.2.1 (e ▸ ha)
            simp [prev_setNext, prev_setPrev, h1]
        · simp only [List.nodup_cons]; exact hnd.2
        · intro a ha; exact hi.lt a (by simp at ha ⊢; tauto)
        · simp
        · have := hi.tail; simp only [this]; simp
        · intro a ha
          simp at ha; subst ha
          simp [prev_setNext, prev_setPrev]
        · intro a ha
          have h := hi.last a (by simpa using ha)
          have h1 : a ≠ t := by
            rintro rfl
            have := List.mem_of_mem_getLast? ha
            simp at this; tauto
          simp [next_setNext, next_setPrev, h1, h]
        · simp only [hsz]; simp; try omega
      · simp only [vals]
        apply List.map_congr_left
        intro a _
        simp [val_setNext, val_setPrev]

theorem LQ.popBack_concat (q : LQ α) (v : α) (l : List α) (hr : q.Rep (l ++ [v])) :
    ∃ q', q.popBack = some (q', .val (some v)) ∧ q'.Rep l := by
  obtain ⟨ids, hi, hv⟩ := hr
  rcases nil_or_snoc ids with rfl | ⟨xs, t, rfl⟩
  · simp [vals] at hv
  · simp only [vals, List.map_append, List.map_cons, List.map_nil, List.append_singleton_inj] at hv
    obtain ⟨rfl, rfl⟩ := hv
    have ht : q.tail = some t := by simpa using hi.tail
    have hsz := hi.size
    rcases nil_or_snoc xs with rfl | ⟨ys, b, rfl⟩
    · have hs : q.size = 1 := by simpa using hsz
      refine ⟨{ q with head := none, tail := none, size := 0 }, by simp [popBack, hs, ht], [], ?_, rfl⟩
      constructor <;> simp [linked_nil]
    · have hs : q.size ≠ 0 := by simp at hsz; omega
      have hs1 : q.size - 1 ≠ 0 := by simp at hsz; omega
      have hlk := linked_append.1 hi.linked
      have hbt := hlk.2.2 b (by simp) t (by simp)
      have hnd := hi.nodup
      have htn : t ∉ ys ++ [b] := by
        rw [List.nodup_append] at hnd
        intro hm
        exact hnd.2.2 t hm t (by simp) rfl
      have hbn : b ∉ ys := by
        have := (List.nodup_append.1 hnd).1
        rw [List.nodup_append] at this
        intro hm
        exact this.2.2 b hm b (by simp) rfl
      refine ⟨_, by simp [popBack, hs, hs1, ht, hbt.2, val_setNext, val_setPrev]; rfl,
        ys ++ [b], ?_, ?_⟩
      · constructor
        · refine hlk.1.congr ?_ ?_
          · intro a ha
            have h1 : a ≠ b := by
              rintro rfl
              simp at ha; exact hbn ha
            simp [next_setNext, next_setPrev, h1]
          · intro a ha
            have h1 : a ≠ t := fun e => htn (e ▸ List.mem_of_mem_tail ha)
            simp [prev_setNext, prev_setPrev, h1]
        · exact (List.nodup_append.1 hnd).1
        · intro a ha; exact hi.lt a (by simp at ha ⊢; tauto)
        · have := hi.head; simp only [this]; cases ys <;> simp
        · simp
        · intro a ha
          have hah : a ∈ (ys ++ [b] ++ [t]).head? := by cases ys <;> simpa using ha
          have h1 : a ≠ t := fun e => htn (e ▸ List.mem_of_mem_head? ha)
          simp [prev_setNext, prev_setPrev, h1, hi.first a hah]
        · intro a ha
          simp at ha; subst ha
          simp [next_setNext, next_setPrev]
        · simp only [hsz]; simp; try omega
      · simp only [vals]
        apply List.map_congr_left
        intro a _
        simp [val_setNext, val_setPrev]

end Verif.Queue
