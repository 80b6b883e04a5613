import Verif.Common.Tac
import Mathlib.Data.List.Chain
import Mathlib.Data.List.Nodup
import Mathlib.Data.List.Perm.Subperm

/-!
Doubly linked nodes in a pointer store. Used by the models of queue/list, map/linkedhashmap and
list/linked_list. A store maps node addresses to nodes; `none` is the nil pointer.
-/

namespace Verif.DLL

structure Node (α : Type) where
  prev : Option Nat
  next : Option Nat
  val : α

/-- The store of nodes. Only addresses below the allocation counter of the owning structure are in
use. -/
abbrev Store (α : Type) := Nat → Node α

variable {α : Type}

def Store.put (h : Store α) (a : Nat) (n : Node α) : Store α := fun x => if x = a then n else h x

/-- `a.next = v` -/
def Store.setNext (h : Store α) (a : Nat) (v : Option Nat) : Store α :=
  h.put a { h a with next := v }

/-- `a.prev = v` -/
def Store.setPrev (h : Store α) (a : Nat) (v : Option Nat) : Store α :=
  h.put a { h a with prev := v }

/-- `a.value = v` -/
def Store.setVal (h : Store α) (a : Nat) (v : α) : Store α :=
  h.put a { h a with val := v }

@[simp] theorem put_self (h : Store α) (a : Nat) (n : Node α) : h.put a n a = n := by
  simp [Store.put]

theorem put_ne (h : Store α) {a b : Nat} (n : Node α) (hb : b ≠ a) : h.put a n b = h b := by
  simp [Store.put, hb]

theorem next_setNext (h : Store α) (a b : Nat) (v : Option Nat) :
    (h.setNext a v b).next = if b = a then v else (h b).next := by
  by_cases e : b = a <;> simp [Store.setNext, Store.put, e]

theorem prev_setNext (h : Store α) (a b : Nat) (v : Option Nat) :
    (h.setNext a v b).prev = (h b).prev := by
  by_cases e : b = a <;> simp [Store.setNext, Store.put, e]

theorem val_setNext (h : Store α) (a b : Nat) (v : Option Nat) :
    (h.setNext a v b).val = (h b).val := by
  by_cases e : b = a <;> simp [Store.setNext, Store.put, e]

theorem next_setPrev (h : Store α) (a b : Nat) (v : Option Nat) :
    (h.setPrev a v b).next = (h b).next := by
  by_cases e : b = a <;> simp [Store.setPrev, Store.put, e]

theorem prev_setPrev (h : Store α) (a b : Nat) (v : Option Nat) :
    (h.setPrev a v b).prev = if b = a then v else (h b).prev := by
  by_cases e : b = a <;> simp [Store.setPrev, Store.put, e]

theorem val_setPrev (h : Store α) (a b : Nat) (v : Option Nat) :
    (h.setPrev a v b).val = (h b).val := by
  by_cases e : b = a <;> simp [Store.setPrev, Store.put, e]

theorem next_setVal (h : Store α) (a b : Nat) (v : α) :
    (h.setVal a v b).next = (h b).next := by
  by_cases e : b = a <;> simp [Store.setVal, Store.put, e]

theorem prev_setVal (h : Store α) (a b : Nat) (v : α) :
    (h.setVal a v b).prev = (h b).prev := by
  by_cases e : b = a <;> simp [Store.setVal, Store.put, e]

theorem val_setVal (h : Store α) (a b : Nat) (v : α) :
    (h.setVal a v b).val = if b = a then v else (h b).val := by
  by_cases e : b = a <;> simp [Store.setVal, Store.put, e]

theorem next_put (h : Store α) (a b : Nat) (n : Node α) :
    (h.put a n b).next = if b = a then n.next else (h b).next := by
  by_cases e : b = a <;> simp [Store.put, e]

theorem prev_put (h : Store α) (a b : Nat) (n : Node α) :
    (h.put a n b).prev = if b = a then n.prev else (h b).prev := by
  by_cases e : b = a <;> simp [Store.put, e]

theorem val_put (h : Store α) (a b : Nat) (n : Node α) :
    (h.put a n b).val = if b = a then n.val else (h b).val := by
  by_cases e : b = a <;> simp [Store.put, e]

/-- Both links between two neighbours. -/
def Link (h : Store α) (a b : Nat) : Prop := (h a).next = some b ∧ (h b).prev = some a

/-- Consecutive addresses of `ids` are linked in both directions. -/
def Linked (h : Store α) (ids : List Nat) : Prop := ids.IsChain (Link h)

theorem linked_nil (h : Store α) : Linked h [] := by simp [Linked]
theorem linked_single (h : Store α) (a : Nat) : Linked h [a] := by simp [Linked]

theorem linked_cons_cons {h : Store α} {a b : Nat} {l : List Nat} :
    Linked h (a :: b :: l) ↔ Link h a b ∧ Linked h (b :: l) := by
  simp [Linked, List.isChain_cons_cons]

theorem linked_append {h : Store α} {l₁ l₂ : List Nat} :
    Linked h (l₁ ++ l₂) ↔ Linked h l₁ ∧ Linked h l₂ ∧
      ∀ a ∈ l₁.getLast?, ∀ b ∈ l₂.head?, Link h a b := by
  simp [Linked, List.isChain_append]

/-- Splitting at a shared node. -/
theorem linked_mid {h : Store α} {l₁ l₂ : List Nat} {a : Nat} :
    Linked h (l₁ ++ a :: l₂) ↔ Linked h (l₁ ++ [a]) ∧ Linked h (a :: l₂) := by
  rw [linked_append, linked_append]
  constructor
  · rintro ⟨h1, h2, h3⟩
    exact ⟨⟨h1, linked_single h a, by simpa using h3⟩, h2⟩
  · rintro ⟨⟨h1, -, h3⟩, h2⟩
    exact ⟨h1, h2, by simpa using h3⟩

/-- Frame rule: only the `next` of all but the last and the `prev` of all but the first matter. -/
theorem Linked.congr {h h' : Store α} {ids : List Nat} (hl : Linked h ids)
    (hn : ∀ a ∈ ids.dropLast, (h' a).next = (h a).next)
    (hp : ∀ a ∈ ids.tail, (h' a).prev = (h a).prev) : Linked h' ids := by
  induction ids with
  | nil => exact linked_nil _
  | cons a l ih =>
    cases l with
    | nil => exact linked_single _ _
    | cons b l =>
      rw [linked_cons_cons] at hl ⊢
      refine ⟨⟨?_, ?_⟩, ih hl.2 ?_ ?_⟩
      · rw [hn a (by simp)]; exact hl.1.1
      · rw [hp b (by simp)]; exact hl.1.2
      · intro x hx; exact hn x (by simp [hx])
      · intro x hx; exact hp x (by simp at hx ⊢; exact Or.inr hx)

/-- Values along a list of addresses. -/
def vals (h : Store α) (ids : List Nat) : List α := ids.map fun a => (h a).val

theorem vals_congr {h h' : Store α} {ids : List Nat} (hv : ∀ a ∈ ids, (h' a).val = (h a).val) :
    vals h' ids = vals h ids := by
  simp only [vals]
  exact List.map_congr_left hv

/-- The loop `for e := p; e != nil; e = e.Next()` collecting the values: it ends, having seen
exactly these values. -/
inductive WalkNext (h : Store α) : Option Nat → List α → Prop
  | nil : WalkNext h none []
  | cons (a : Nat) (l : List α) : WalkNext h (h a).next l → WalkNext h (some a) ((h a).val :: l)

/-- The loop `for e := p; e != nil; e = e.Prev()`. -/
inductive WalkPrev (h : Store α) : Option Nat → List α → Prop
  | nil : WalkPrev h none []
  | cons (a : Nat) (l : List α) : WalkPrev h (h a).prev l → WalkPrev h (some a) ((h a).val :: l)

theorem walkNext_of_linked {h : Store α} {ids : List Nat} (hl : Linked h ids)
    (hlast : ∀ a ∈ ids.getLast?, (h a).next = none) : WalkNext h ids.head? (vals h ids) := by
  induction ids with
  | nil => exact .nil
  | cons a l ih =>
    refine .cons a _ ?_
    cases l with
    | nil =>
      have := hlast a (by simp)
      rw [this]; exact .nil
    | cons b l =>
      rw [linked_cons_cons] at hl
      rw [hl.1.1]
      exact ih hl.2 (by intro x hx; exact hlast x (by simpa using hx))

theorem walkPrev_of_linked {h : Store α} {ids : List Nat} (hl : Linked h ids)
    (hfirst : ∀ a ∈ ids.head?, (h a).prev = none) :
    WalkPrev h ids.getLast? (vals h ids).reverse := by
  induction ids using List.reverseRecOn with
  | nil => exact .nil
  | append_singleton l a ih =>
    have : (vals h (l ++ [a])).reverse = (h a).val :: (vals h l).reverse := by simp [vals]
    rw [this, List.getLast?_concat]
    refine .cons a _ ?_
    rw [linked_append] at hl
    cases hg : l.getLast? with
    | none =>
      have hl0 : l = [] := by simpa using hg
      subst hl0
      rw [hfirst a (by simp)]
      exact .nil
    | some b =>
      have hlk := hl.2.2 b (by simp [hg]) a (by simp)
      have ih' := ih hl.1 (by
        intro x hx
        refine hfirst x ?_
        cases l with
        | nil => simp at hx
        | cons c l => simpa using hx)
      rw [hlk.2]
      rw [hg] at ih'
      exact ih'

/-- Inserting `x` between the neighbours `a` and `b`, stated by the effect on the link fields. -/
theorem linked_insert {h h' : Store α} {l₁ l₂ : List Nat} {a b x : Nat}
    (hl : Linked h (l₁ ++ a :: b :: l₂)) (nd : (l₁ ++ a :: b :: l₂).Nodup)
    (hx : x ∉ l₁ ++ a :: b :: l₂)
    (e1 : (h' a).next = some x) (e2 : (h' x).prev = some a)
    (e3 : (h' x).next = some b) (e4 : (h' b).prev = some x)
    (fn : ∀ y, y ≠ a → y ≠ x → (h' y).next = (h y).next)
    (fp : ∀ y, y ≠ b → y ≠ x → (h' y).prev = (h y).prev) :
    Linked h' (l₁ ++ a :: x :: b :: l₂) := by
  rw [linked_mid] at hl ⊢
  simp only [List.nodup_append, List.nodup_cons, List.mem_cons, not_or] at nd
  simp only [List.mem_append, List.mem_cons, not_or] at hx
  refine ⟨hl.1.congr ?_ ?_, ?_⟩
  · intro y hy
    simp only [List.dropLast_concat] at hy
    exact fn y (fun e => nd.2.2 y hy a (Or.inl rfl) e) (fun e => hx.1 (e ▸ hy))
  · intro y hy
    have hy' : y ∈ l₁ ∨ y = a := by
      have := List.mem_of_mem_tail hy
      simpa using this
    refine fp y ?_ ?_
    · rintro rfl
      rcases hy' with hy' | hy'
      · exact nd.2.2 y hy' y (Or.inr (Or.inl rfl)) rfl
      · exact nd.2.1.1.1 hy'.symm
    · rintro rfl
      rcases hy' with hy' | hy'
      · exact hx.1 hy'
      · exact hx.2.1 hy'
  · rw [linked_cons_cons, linked_cons_cons]
    have h2 := (linked_cons_cons.1 hl.2).2
    refine ⟨⟨e1, e2⟩, ⟨e3, e4⟩, h2.congr ?_ ?_⟩
    · intro y hy
      have hy' : y = b ∨ y ∈ l₂ := by
        have := List.dropLast_subset _ hy
        simpa using this
      refine fn y ?_ ?_
      · rintro rfl
        rcases hy' with hy' | hy'
        · exact nd.2.1.1.1 hy'
        · exact nd.2.1.1.2 hy'
      · rintro rfl
        rcases hy' with hy' | hy'
        · exact hx.2.2.1 hy'
        · exact hx.2.2.2 hy'
    · intro y hy
      simp only [List.tail_cons] at hy
      exact fp y (fun e => nd.2.1.2.1 (e ▸ hy)) (fun e => hx.2.2.2 (e ▸ hy))

/-- Unlinking `x` from between `a` and `b`, stated by the effect on the link fields. -/
theorem linked_unlink {h h' : Store α} {l₁ l₂ : List Nat} {a b x : Nat}
    (hl : Linked h (l₁ ++ a :: x :: b :: l₂)) (nd : (l₁ ++ a :: x :: b :: l₂).Nodup)
    (e1 : (h' a).next = some b) (e2 : (h' b).prev = some a)
    (fn : ∀ y, y ≠ a → y ≠ x → (h' y).next = (h y).next)
    (fp : ∀ y, y ≠ b → y ≠ x → (h' y).prev = (h y).prev) :
    Linked h' (l₁ ++ a :: b :: l₂) := by
  rw [linked_mid] at hl ⊢
  simp only [List.nodup_append, List.nodup_cons, List.mem_cons, not_or] at nd
  refine ⟨hl.1.congr ?_ ?_, ?_⟩
  · intro y hy
    simp only [List.dropLast_concat] at hy
    exact fn y (fun e => nd.2.2 y hy a (Or.inl rfl) e)
      (fun e => nd.2.2 y hy x (Or.inr (Or.inl rfl)) e)
  · intro y hy
    have hy' : y ∈ l₁ ∨ y = a := by
      have := List.mem_of_mem_tail hy
      simpa using this
    refine fp y ?_ ?_
    · rintro rfl
      rcases hy' with hy' | hy'
      · exact nd.2.2 y hy' y (Or.inr (Or.inr (Or.inl rfl))) rfl
      · exact nd.2.1.1.2.1 hy'.symm
    · rintro rfl
      rcases hy' with hy' | hy'
      · exact nd.2.2 y hy' y (Or.inr (Or.inl rfl)) rfl
      · exact nd.2.1.1.1 hy'.symm
  · rw [linked_cons_cons]
    have h2 := (linked_cons_cons.1 (linked_cons_cons.1 hl.2).2).2
    refine ⟨⟨e1, e2⟩, h2.congr ?_ ?_⟩
    · intro y hy
      have hy' : y = b ∨ y ∈ l₂ := by
        have := List.dropLast_subset _ hy
        simpa using this
      refine fn y ?_ ?_
      · rintro rfl
        rcases hy' with hy' | hy'
        · exact nd.2.1.1.2.1 hy'
        · exact nd.2.1.1.2.2 hy'
      · rintro rfl
        rcases hy' with hy' | hy'
        · exact nd.2.1.2.1.1 hy'
        · exact nd.2.1.2.1.2 hy'
    · intro y hy
      simp only [List.tail_cons] at hy
      exact fp y (fun e => nd.2.1.2.2.1 (e ▸ hy)) (fun e => nd.2.1.2.1.2 (e ▸ hy))

/-- The link fields around a node. -/
theorem linked_around {h : Store α} {l₁ l₂ : List Nat} {a b x : Nat}
    (hl : Linked h (l₁ ++ a :: x :: b :: l₂)) :
    (h a).next = some x ∧ (h x).prev = some a ∧ (h x).next = some b ∧ (h b).prev = some x := by
  have h1 := (linked_mid.1 hl).2
  rw [linked_cons_cons, linked_cons_cons] at h1
  exact ⟨h1.1.1, h1.1.2, h1.2.1.1, h1.2.1.2⟩

theorem linked_pair {h : Store α} {l₁ l₂ : List Nat} {a b : Nat}
    (hl : Linked h (l₁ ++ a :: b :: l₂)) : (h a).next = some b ∧ (h b).prev = some a := by
  have h1 := (linked_mid.1 hl).2
  rw [linked_cons_cons] at h1
  exact h1.1

/-- The loop `for cur := p; cur != stop; cur = cur.next` collecting node contents. `fuel` bounds the
number of iterations by the number of nodes ever allocated; `none` stands for a nil dereference or
for a loop that would exceed this number (and hence never end). -/
def walkTo (h : Store α) (stop : Nat) : Nat → Option Nat → Option (List α)
  | _, none => none
  | 0, some a => if a = stop then some [] else none
  | fuel + 1, some a =>
    if a = stop then some []
    else match walkTo h stop fuel (h a).next with
      | none => none
      | some l => some ((h a).val :: l)

theorem walkTo_of_linked {h : Store α} {stop : Nat} (ids : List Nat) : ∀ (fuel : Nat),
    Linked h (ids ++ [stop]) → stop ∉ ids → ids.length ≤ fuel →
    walkTo h stop fuel (ids ++ [stop]).head? = some (vals h ids) := by
  induction ids with
  | nil => intro fuel _ _ _; cases fuel <;> simp [walkTo, vals]
  | cons a l ih =>
    intro fuel hl hs hf
    cases fuel with
    | zero => simp at hf
    | succ fuel =>
      have hne : a ≠ stop := by rintro rfl; simp at hs
      simp only [List.cons_append, List.head?_cons, walkTo, if_neg hne]
      have h1 : (h a).next = (l ++ [stop]).head? := by
        cases l with
        | nil => exact (linked_cons_cons.1 hl).1.1
        | cons b l => exact (linked_cons_cons.1 hl).1.1
      have h2 : Linked h (l ++ [stop]) := by
        cases l with
        | nil => exact linked_single _ _
        | cons b l => exact (linked_cons_cons.1 hl).2
      rw [h1, ih fuel h2 (by simp at hs; tauto) (by simpa using hf)]
      rfl

/-- A duplicate-free list of numbers below `n` has at most `n` elements. -/
theorem length_le_of_nodup_lt {ids : List Nat} {n : Nat} (nd : ids.Nodup) (hlt : ∀ a ∈ ids, a < n) :
    ids.length ≤ n := by
  have : ids ⊆ List.range n := fun a ha => List.mem_range.2 (hlt a ha)
  have := (nd.subperm this).length_le
  simpa using this

end Verif.DLL
