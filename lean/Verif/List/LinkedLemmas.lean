import Verif.List.LinkedModel

/-! Lemmas about the linked list. -/

set_option linter.unusedSectionVars false

namespace Verif.LList
open Verif.DLL
variable {T : Type} [Inhabited T]

/-- The nodes of the list with its sentinels. -/
abbrev full (xs : List (Nat × T)) : List Nat := 0 :: (xs.map (·.1) ++ [1])

/-- The list stores the values of `xs` in the nodes of `xs`. -/
structure Inv (l : LL T) (xs : List (Nat × T)) : Prop where
  link : Linked l.heap (full xs)
  nd : (full xs).Nodup
  lt : ∀ a ∈ full xs, a < l.fresh
  sz : l.size = xs.length
  val : ∀ e ∈ xs, (l.heap e.1).val = e.2

theorem new_inv : Inv (LL.new : LL T) [] := by
  refine ⟨?_, by simp, by simp [LL.new], rfl, by simp⟩
  rw [show full ([] : List (Nat × T)) = [0, 1] from rfl, linked_cons_cons]
  exact ⟨⟨by simp [LL.new], by simp [LL.new]⟩, linked_single _ _⟩

theorem clear_inv {l : LL T} {xs : List (Nat × T)} (h : Inv l xs) : Inv l.clear [] := by
  have h0 := h.lt 0 (by simp)
  have h1 := h.lt 1 (by simp)
  refine ⟨?_, by simp, ?_, rfl, by simp⟩
  · rw [show full ([] : List (Nat × T)) = [0, 1] from rfl, linked_cons_cons]
    refine ⟨⟨?_, ?_⟩, linked_single _ _⟩
    · simp [LL.clear, next_setPrev, next_setNext]
    · simp [LL.clear, prev_setPrev]
  · simp [LL.clear]; omega

/-- Putting a chain of nodes between neighbours. -/
theorem linked_splice {h h' : Store T} {A B new : List Nat} {a b s e : Nat}
    (hl : Linked h (A ++ a :: b :: B)) (nd : (A ++ a :: b :: B).Nodup)
    (hx : ∀ x ∈ new, x ∉ A ++ a :: b :: B) (hs : new.head? = some s) (he : new.getLast? = some e)
    (hn : Linked h' new)
    (e1 : (h' a).next = some s) (e2 : (h' s).prev = some a)
    (e3 : (h' e).next = some b) (e4 : (h' b).prev = some e)
    (fn : ∀ y ∈ A ++ a :: b :: B, y ≠ a → (h' y).next = (h y).next)
    (fp : ∀ y ∈ A ++ a :: b :: B, y ≠ b → (h' y).prev = (h y).prev) :
    Linked h' (A ++ a :: (new ++ b :: B)) := by
  rw [linked_mid] at hl ⊢
  have hab : a ≠ b := by
    rintro rfl
    simp [List.nodup_append] at nd
  have hA : ∀ y ∈ A, y ≠ a ∧ y ≠ b := by
    intro y hy
    simp only [List.nodup_append, List.mem_cons] at nd
    exact ⟨nd.2.2 y hy a (.inl rfl), nd.2.2 y hy b (.inr (.inl rfl))⟩
  have hB : ∀ y ∈ B, y ≠ a ∧ y ≠ b := by
    intro y hy
    simp only [List.nodup_append, List.nodup_cons, List.mem_cons, not_or] at nd
    exact ⟨fun e => nd.2.1.1.2 (e ▸ hy), fun e => nd.2.1.2.1 (e ▸ hy)⟩
  refine ⟨hl.1.congr ?_ ?_, ?_⟩
  · intro y hy
    simp only [List.dropLast_concat] at hy
    exact fn y (by simp [hy]) (hA y hy).1
  · intro y hy
    have hy' : y ∈ A ∨ y = a := by simpa using List.mem_of_mem_tail hy
    refine fp y ?_ ?_
    · rcases hy' with hy' | hy' <;> simp [hy']
    · rcases hy' with hy' | rfl
      · exact (hA y hy').2
      · exact hab
  · have h2 : Linked h' (b :: B) := by
      refine (linked_cons_cons.1 hl.2).2.congr ?_ ?_
      · intro y hy
        have hy' := List.dropLast_subset _ hy
        refine fn y ?_ ?_
        · simp only [List.mem_append, List.mem_cons] at hy' ⊢; tauto
        · rcases List.mem_cons.1 hy' with rfl | hy'
          · exact Ne.symm hab
          · exact (hB y hy').1
      · intro y hy
        simp only [List.tail_cons] at hy
        exact fp y (by simp [hy]) (hB y hy).2
    have h3 : Linked h' (new ++ b :: B) := by
      rw [linked_append]
      refine ⟨hn, h2, ?_⟩
      intro x hx y hy
      rw [he] at hx
      simp only [Option.mem_def, Option.some.injEq, List.head?_cons] at hx hy
      subst hx; subst hy
      exact ⟨e3, e4⟩
    cases new with
    | nil => simp at hs
    | cons n new =>
      simp only [List.head?_cons, Option.some.injEq] at hs
      subst hs
      simp only [List.cons_append] at h3 ⊢
      rw [linked_cons_cons]
      exact ⟨⟨e1, e2⟩, h3⟩

theorem chain_ok (vs : List T) : ∀ (h : Store T) (fresh e : Nat), e < fresh →
    ∃ h' e', chain h fresh e vs = (h', fresh + vs.length, e') ∧
      (e :: List.range' fresh vs.length).getLast? = some e' ∧
      Linked h' (e :: List.range' fresh vs.length) ∧
      (∀ x, x < fresh → (h' x).prev = (h x).prev ∧ (h' x).val = (h x).val) ∧
      (∀ x, x < fresh → x ≠ e → (h' x).next = (h x).next) ∧
      (∀ i (hi : i < vs.length), (h' (fresh + i)).val = vs[i]) := by
  induction vs with
  | nil =>
    intro h fresh e _
    exact ⟨h, e, rfl, rfl, linked_single _ _, fun _ _ => ⟨rfl, rfl⟩, fun _ _ _ => rfl, by simp⟩
  | cons v vs ih =>
    intro h fresh e hlt
    obtain ⟨h', e', h1, h2, h3, h4, h5, h6⟩ := ih
      (((h.put fresh ⟨none, none, v⟩).setNext e (some fresh)).setPrev fresh (some e))
      (fresh + 1) fresh (by omega)
    refine ⟨h', e', ?_, ?_, ?_, ?_, ?_, ?_⟩
    · simp only [chain, h1, List.length_cons]
      congr 2; omega
    · rw [List.length_cons, List.range'_succ, List.getLast?_cons_cons]; exact h2
    · rw [List.length_cons, List.range'_succ, linked_cons_cons]
      refine ⟨⟨?_, ?_⟩, h3⟩
      · rw [h5 e (by omega) (by omega)]
        simp [next_setPrev, next_setNext]
      · rw [(h4 fresh (by omega)).1]
        simp [prev_setPrev]
    · intro x hx
      rw [(h4 x (by omega)).1, (h4 x (by omega)).2]
      have : x ≠ fresh := by omega
      simp [prev_setPrev, prev_setNext, prev_put, val_setPrev, val_setNext, val_put, this]
    · intro x hx hne
      rw [h5 x (by omega) (by omega)]
      have : x ≠ fresh := by omega
      simp [next_setPrev, next_setNext, next_put, hne, this]
    · intro i hi
      cases i with
      | zero =>
        rw [Nat.add_zero, (h4 fresh (by omega)).2]
        simp [val_setPrev, val_setNext]
      | succ i =>
        have := h6 i (by simpa using hi)
        rw [show fresh + (i + 1) = fresh + 1 + i by omega, this]
        simp

/-- New nodes with their values, in order of allocation. -/
def tag (fresh : Nat) (vs : List T) : List (Nat × T) := (vs.zipIdx fresh).map fun e => (e.2, e.1)

theorem tag_cons (fresh : Nat) (v : T) (vs : List T) :
    tag fresh (v :: vs) = (fresh, v) :: tag (fresh + 1) vs := by
  simp [tag, List.zipIdx_cons]

theorem tag_fst (vs : List T) : ∀ fresh, (tag fresh vs).map (·.1) = List.range' fresh vs.length := by
  induction vs with
  | nil => intro f; rfl
  | cons v vs ih => intro f; rw [tag_cons, List.map_cons, ih]; simp [List.range'_succ]

theorem tag_length (fresh : Nat) (vs : List T) : (tag fresh vs).length = vs.length := by simp [tag]

/-- The two halves of `InsertBefore` and `InsertAfter` share this: a chain is put between the
neighbours `a` and `b`. -/
theorem insert_ok {l : LL T} {xs ys zs : List (Nat × T)} {a b : Nat} {A B : List Nat}
    (h : Inv l xs) (hxs : xs = ys ++ zs) (ha : 0 :: ys.map (·.1) = A ++ [a])
    (hb : zs.map (·.1) ++ [1] = b :: B) (v : T) (vs : List T) :
    ∃ h1 e h', chain (l.heap.put l.fresh ⟨none, none, v⟩) (l.fresh + 1) l.fresh vs
        = (h1, l.fresh + (v :: vs).length, e) ∧
      (h1 a).next = some b ∧ (h1 b).prev = some a ∧
      h' = (((h1.setNext a (some l.fresh)).setPrev l.fresh (some a)).setNext e (some b)).setPrev
        b (some e) ∧
      Inv { heap := h', fresh := l.fresh + (v :: vs).length, size := l.size + (v :: vs).length }
        (ys ++ tag l.fresh (v :: vs) ++ zs) := by
  have hfull : full xs = A ++ a :: b :: B := by
    have : full xs = (0 :: ys.map (·.1)) ++ (zs.map (·.1) ++ [1]) := by simp [full, hxs]
    rw [this, ha, hb]; simp
  obtain ⟨h1, e, hc, he, hlk, hv, hn, hval⟩ :=
    chain_ok vs (l.heap.put l.fresh ⟨none, none, v⟩) (l.fresh + 1) l.fresh (by omega)
  have hlt := h.lt
  have hnd := h.nd
  have hlink := h.link
  rw [hfull] at hlt hnd hlink
  have la := hlt a (by simp)
  have lb := hlt b (by simp)
  have hab : a ≠ b := by
    rintro rfl
    simp [List.nodup_append] at hnd
  have pair := linked_pair hlink
  have hnew : l.fresh :: List.range' (l.fresh + 1) vs.length = List.range' l.fresh (v :: vs).length := by
    rw [List.length_cons, List.range'_succ]
  rw [hnew] at he hlk
  have memnew : ∀ x, x ∈ List.range' l.fresh (v :: vs).length ↔
      l.fresh ≤ x ∧ x < l.fresh + (v :: vs).length := by
    intro x; rw [List.mem_range'_1]
  have hemem := memnew e |>.1 (List.mem_of_getLast? he)
  have n1 : (h1 a).next = some b := by
    rw [hn a (by omega) (by omega), next_put, if_neg (by omega)]; exact pair.1
  have p1 : (h1 b).prev = some a := by
    rw [(hv b (by omega)).1, prev_put, if_neg (by omega)]; exact pair.2
  refine ⟨h1, e, _, ?_, n1, p1, rfl, ?_⟩
  · rw [hc]; congr 2; simp; omega
  have hsplit : full (ys ++ tag l.fresh (v :: vs) ++ zs)
      = A ++ a :: (List.range' l.fresh (v :: vs).length ++ b :: B) := by
    have : full (ys ++ tag l.fresh (v :: vs) ++ zs) = (0 :: ys.map (·.1)) ++
        ((tag l.fresh (v :: vs)).map (·.1) ++ (zs.map (·.1) ++ [1])) := by simp [full]
    rw [this, ha, hb, tag_fst]; simp
  have disj : ∀ x ∈ List.range' l.fresh (v :: vs).length, x ∉ A ++ a :: b :: B := by
    intro x hx hm
    have := hlt x hm
    have := (memnew x).1 hx
    omega
  refine ⟨?_, ?_, ?_, ?_, ?_⟩
  · rw [hsplit]
    refine linked_splice (s := l.fresh) (e := e) hlink hnd disj ?_ he ?_ ?_ ?_ ?_ ?_ ?_ ?_
    · rw [← hnew]; rfl
    · refine hlk.congr ?_ ?_
      · intro x hx
        have hx' := (memnew x).1 (List.dropLast_subset _ hx)
        have hxe : x ≠ e := by
          rintro rfl
          have hnd' : (List.range' l.fresh (v :: vs).length).Nodup := List.nodup_range'
          have hsp := List.dropLast_append_getLast? x he
          rw [← hsp] at hnd'
          exact (List.nodup_append.1 hnd').2.2 x hx x (by simp) rfl
        have : x ≠ a := by omega
        simp [next_setPrev, next_setNext, hxe, this]
      · intro x hx
        rw [← hnew, List.tail_cons, List.mem_range'_1] at hx
        have : x ≠ b := by omega
        have : x ≠ l.fresh := by omega
        simp [prev_setPrev, prev_setNext, *]
    · have : a ≠ e := by omega
      simp [next_setPrev, next_setNext, this]
    · have : l.fresh ≠ b := by omega
      simp [prev_setPrev, prev_setNext, this]
    · simp [next_setPrev, next_setNext]
    · simp [prev_setPrev]
    · intro y hy hya
      have := hlt y hy
      have h1 : y ≠ e := by omega
      have h2 : y ≠ l.fresh := by omega
      simp only [next_setPrev, next_setNext, if_neg hya, if_neg h1]
      rw [hn y (by omega) h2, next_put, if_neg h2]
    · intro y hy hyb
      have := hlt y hy
      have h2 : y ≠ l.fresh := by omega
      simp only [prev_setPrev, prev_setNext, if_neg hyb, if_neg h2]
      rw [(hv y (by omega)).1, prev_put, if_neg h2]
  · rw [hsplit]
    have : (A ++ a :: (List.range' l.fresh (v :: vs).length ++ b :: B)).Perm
        (List.range' l.fresh (v :: vs).length ++ (A ++ a :: b :: B)) := by
      have e1 : A ++ a :: (List.range' l.fresh (v :: vs).length ++ b :: B)
          = (A ++ [a]) ++ (List.range' l.fresh (v :: vs).length ++ b :: B) := by simp
      have e2 : A ++ a :: b :: B = (A ++ [a]) ++ b :: B := by simp
      rw [e1, e2, ← List.append_assoc, ← List.append_assoc]
      exact List.Perm.append_right _ List.perm_append_comm
    rw [this.nodup_iff, List.nodup_append]
    refine ⟨List.nodup_range', hnd, ?_⟩
    rintro x hx _ hy rfl
    exact disj x hx hy
  · rw [hsplit]
    intro x hx
    have hx' : x ∈ A ++ a :: b :: B ∨ x ∈ List.range' l.fresh (v :: vs).length := by
      simp only [List.mem_append, List.mem_cons] at hx ⊢; tauto
    rcases hx' with hx' | hx'
    · have := hlt x hx'; simp only; omega
    · exact ((memnew x).1 hx').2
  · simp [h.sz, hxs, tag_length]; omega
  · intro x hx
    simp only [val_setPrev, val_setNext]
    have hx' : x ∈ xs ∨ x ∈ tag l.fresh (v :: vs) := by
      rw [hxs]; simp only [List.mem_append] at hx ⊢; tauto
    rcases hx' with hx' | hx'
    · have hm : x.1 < l.fresh := h.lt x.1 (by
        simp only [full, List.mem_cons, List.mem_append, List.mem_map]
        exact .inr (.inl ⟨x, hx', rfl⟩))
      rw [(hv x.1 (by omega)).2, val_put, if_neg (by omega)]
      exact h.val x hx'
    · simp only [tag, List.mem_map] at hx'
      obtain ⟨⟨w, i⟩, hm, rfl⟩ := hx'
      obtain ⟨hi1, hi2, hi3⟩ := List.mem_zipIdx hm
      simp only
      obtain ⟨j, rfl⟩ : ∃ j, i = l.fresh + j := ⟨i - l.fresh, by omega⟩
      simp only [Nat.add_sub_cancel_left] at hi3
      have hw : (v :: vs)[j]? = some w := by
        rw [List.getElem?_eq_getElem (by omega), ← hi3]
      clear hi3
      cases j with
      | zero =>
        rw [Nat.add_zero, (hv l.fresh (by omega)).2]
        simp only [List.getElem?_cons_zero, Option.some.injEq] at hw
        simp [hw]
      | succ j =>
        have hj : j < vs.length := by simp at hi2; omega
        rw [show l.fresh + (j + 1) = l.fresh + 1 + j by omega, hval j hj]
        simp only [List.getElem?_cons_succ, List.getElem?_eq_getElem hj, Option.some.injEq] at hw
        exact hw

theorem snoc_of_cons {α : Type} (x : α) (l : List α) : ∃ A a, x :: l = A ++ [a] :=
  ⟨_, _, (List.dropLast_concat_getLast (List.cons_ne_nil x l)).symm⟩

theorem cons_of_snoc {α : Type} (l : List α) (x : α) : ∃ b B, l ++ [x] = b :: B := by
  cases l with
  | nil => exact ⟨x, [], rfl⟩
  | cons b l => exact ⟨b, l ++ [x], rfl⟩

theorem insertBefore_ok {l : LL T} {xs ys zs : List (Nat × T)} {c : Nat} {B : List Nat}
    (h : Inv l xs) (hxs : xs = ys ++ zs) (hc : zs.map (·.1) ++ [1] = c :: B)
    {vs : List T} (hvs : vs ≠ []) :
    ∃ l', l.insertBefore c vs = some l' ∧ l'.fresh = l.fresh + vs.length ∧
      Inv l' (ys ++ tag l.fresh vs ++ zs) := by
  cases vs with
  | nil => exact absurd rfl hvs
  | cons v vs =>
    obtain ⟨A, a, ha⟩ := snoc_of_cons 0 (ys.map (·.1))
    obtain ⟨h1, e, h', g1, g2, g3, g4, g5⟩ := insert_ok h hxs ha hc v vs
    refine ⟨_, ?_, ?_, g5⟩
    · simp only [LL.insertBefore, g1, g3, Option.bind_eq_bind, Option.bind_some, g4]
    · rfl

theorem insertAfter_ok {l : LL T} {xs ys zs : List (Nat × T)} {c : Nat} {A : List Nat}
    (h : Inv l xs) (hxs : xs = ys ++ zs) (hc : 0 :: ys.map (·.1) = A ++ [c])
    {vs : List T} (hvs : vs ≠ []) :
    ∃ l', l.insertAfter c vs = some l' ∧ l'.fresh = l.fresh + vs.length ∧
      Inv l' (ys ++ tag l.fresh vs ++ zs) := by
  cases vs with
  | nil => exact absurd rfl hvs
  | cons v vs =>
    obtain ⟨b, B, hb⟩ := cons_of_snoc (zs.map (·.1)) 1
    obtain ⟨h1, e, h', g1, g2, g3, g4, g5⟩ := insert_ok h hxs hc hb v vs
    refine ⟨_, ?_, ?_, g5⟩
    · simp only [LL.insertAfter, g1, g2, Option.bind_eq_bind, Option.bind_some, g4]
    · rfl

/-! ### Pushes -/

theorem back1_ok {l : LL T} {xs : List (Nat × T)} (h : Inv { l with size := xs.length } xs) (v : T) :
    ∃ l', l.back1 v = some l' ∧ l'.size = l.size ∧ l'.fresh = l.fresh + 1 ∧
      Inv { l' with size := xs.length + 1 } (xs ++ [(l.fresh, v)]) := by
  obtain ⟨l', h1, h2, h3⟩ := insertBefore_ok (ys := xs) (zs := []) (c := 1) (B := []) h (by simp) rfl
    (vs := [v]) (by simp)
  simp only [LL.insertBefore, chain, Option.bind_eq_bind] at h1
  unfold LL.back1
  cases hp : (l.heap.put l.fresh ⟨none, none, v⟩ 1).prev with
  | none => rw [hp] at h1; simp at h1
  | some tprev =>
    rw [hp] at h1
    simp only [Option.bind_some, Option.some.injEq] at h1
    simp only [hp]
    refine ⟨_, rfl, ?_, ?_, ?_⟩
    · rfl
    · rfl
    rw [← h1] at h3
    simpa [tag] using h3

theorem pushBack_ok (vs : List T) : ∀ {l : LL T} {xs : List (Nat × T)},
    Inv { l with size := xs.length } xs →
    ∃ l', vs.foldlM LL.back1 l = some l' ∧ l'.size = l.size ∧ l'.fresh = l.fresh + vs.length ∧
      Inv { l' with size := xs.length + vs.length } (xs ++ tag l.fresh vs) := by
  induction vs with
  | nil => intro l xs h; exact ⟨l, rfl, rfl, rfl, by simpa [tag] using h⟩
  | cons v vs ih =>
    intro l xs h
    obtain ⟨l1, h1, h2, h3, h4⟩ := back1_ok h v
    obtain ⟨l2, g1, g2, g3, g4⟩ := ih (l := l1) (xs := xs ++ [(l.fresh, v)]) (by simpa using h4)
    refine ⟨l2, ?_, by omega, by simp; omega, ?_⟩
    · simp [List.foldlM_cons, h1, g1]
    · rw [h3] at g4
      rw [tag_cons]
      have e : xs.length + (v :: vs).length = (xs ++ [(l.fresh, v)]).length + vs.length := by
        simp; omega
      rw [e]
      simpa using g4

theorem front1_ok {l : LL T} {xs : List (Nat × T)} (h : Inv { l with size := xs.length } xs) (v : T) :
    ∃ l', l.front1 v = some l' ∧ l'.size = l.size ∧ l'.fresh = l.fresh + 1 ∧
      Inv { l' with size := xs.length + 1 } ((l.fresh, v) :: xs) := by
  obtain ⟨l', h1, h2, h3⟩ := insertAfter_ok (ys := []) (zs := xs) (c := 0) (A := []) h (by simp) rfl
    (vs := [v]) (by simp)
  have h0 : 0 < l.fresh := h.lt 0 (by simp)
  obtain ⟨b, B, hb⟩ := cons_of_snoc (xs.map (·.1)) 1
  have hlink := h.link
  simp only [full, hb] at hlink
  have hbl : b < l.fresh := h.lt b (by simp [full, hb])
  have hbn : (l.heap 0).next = some b := (linked_cons_cons.1 hlink).1.1
  have hp : (l.heap.put l.fresh ⟨none, none, v⟩ 0).next = some b := by
    rw [next_put, if_neg (by omega)]; exact hbn
  simp only [LL.insertAfter, chain, Option.bind_eq_bind, hp, Option.bind_some,
    Option.some.injEq] at h1
  unfold LL.front1
  simp only [hp]
  refine ⟨_, rfl, ?_, ?_, ?_⟩
  · rfl
  · rfl
  rw [← h1] at h3
  have hn0 : l.fresh ≠ 0 := by omega
  have hnb : l.fresh ≠ b := by omega
  have key : ∀ H : Store T, ((((H.setPrev b (some l.fresh)).setNext l.fresh (some b)).setPrev l.fresh
        (some 0)).setNext 0 (some l.fresh))
      = ((((H.setNext 0 (some l.fresh)).setPrev l.fresh (some 0)).setNext l.fresh (some b)).setPrev b
        (some l.fresh)) := by
    intro H
    funext x
    have e1 : ∀ (n m : Node T), n.prev = m.prev → n.next = m.next → n.val = m.val → n = m := by
      rintro ⟨a, b, c⟩ ⟨a', b', c'⟩ rfl rfl rfl; rfl
    apply e1
    · simp only [prev_setPrev, prev_setNext]
      split
      · subst x; rw [if_neg hnb]
      · rfl
    · simp only [next_setPrev, next_setNext]
      split
      · subst x; rw [if_neg (Ne.symm hn0)]
      · rfl
    · simp only [val_setPrev, val_setNext]
  rw [key]
  simpa [tag] using h3

theorem pushFront_ok (vs : List T) : ∀ {l : LL T} {xs : List (Nat × T)},
    Inv { l with size := xs.length } xs →
    ∃ l', vs.foldlM LL.front1 l = some l' ∧ l'.size = l.size ∧ l'.fresh = l.fresh + vs.length ∧
      Inv { l' with size := xs.length + vs.length } ((tag l.fresh vs).reverse ++ xs) := by
  induction vs with
  | nil => intro l xs h; exact ⟨l, rfl, rfl, rfl, by simpa [tag] using h⟩
  | cons v vs ih =>
    intro l xs h
    obtain ⟨l1, h1, h2, h3, h4⟩ := front1_ok h v
    obtain ⟨l2, g1, g2, g3, g4⟩ := ih (l := l1) (xs := (l.fresh, v) :: xs) (by simpa using h4)
    refine ⟨l2, ?_, by omega, by simp; omega, ?_⟩
    · simp [List.foldlM_cons, h1, g1]
    · rw [h3] at g4
      rw [tag_cons]
      have e : xs.length + (v :: vs).length = ((l.fresh, v) :: xs).length + vs.length := by
        simp; omega
      rw [e]
      simpa using g4

/-! ### Removals -/

theorem full_split {ys zs : List (Nat × T)} {c : Nat} {v : T} {A B : List Nat} {a b : Nat}
    (ha : 0 :: ys.map (·.1) = A ++ [a]) (hb : zs.map (·.1) ++ [1] = b :: B) :
    full (ys ++ (c, v) :: zs) = A ++ a :: c :: b :: B ∧ full (ys ++ zs) = A ++ a :: b :: B := by
  constructor
  · have : full (ys ++ (c, v) :: zs) = (0 :: ys.map (·.1)) ++ c :: (zs.map (·.1) ++ [1]) := by
      simp [full]
    rw [this, ha, hb]; simp
  · have : full (ys ++ zs) = (0 :: ys.map (·.1)) ++ (zs.map (·.1) ++ [1]) := by simp [full]
    rw [this, ha, hb]; simp

theorem Inv.unlink {l : LL T} {ys zs : List (Nat × T)} {c : Nat} {v : T} {A B : List Nat} {a b : Nat}
    (h : Inv l (ys ++ (c, v) :: zs)) (ha : 0 :: ys.map (·.1) = A ++ [a])
    (hb : zs.map (·.1) ++ [1] = b :: B) {h' : Store T}
    (e1 : (h' a).next = some b) (e2 : (h' b).prev = some a)
    (fn : ∀ y, y ≠ a → y ≠ c → (h' y).next = (l.heap y).next)
    (fp : ∀ y, y ≠ b → y ≠ c → (h' y).prev = (l.heap y).prev)
    (fv : ∀ y, (h' y).val = (l.heap y).val) :
    Inv { l with heap := h', size := l.size - 1 } (ys ++ zs) := by
  obtain ⟨f1, f2⟩ := full_split (c := c) (v := v) ha hb
  have hlink := h.link
  have hnd := h.nd
  have hlt := h.lt
  rw [f1] at hlink hnd hlt
  refine ⟨?_, ?_, ?_, ?_, ?_⟩
  · rw [f2]; exact linked_unlink hlink hnd e1 e2 fn fp
  · rw [f2]
    refine hnd.sublist ?_
    exact List.Sublist.append_left (List.Sublist.cons_cons _ (List.sublist_cons_self _ _)) _
  · rw [f2]
    intro x hx
    exact hlt x (by simp only [List.mem_append, List.mem_cons] at hx ⊢; tauto)
  · simp [h.sz]
  · intro x hx
    simp only [fv]
    exact h.val x (by simp only [List.mem_append, List.mem_cons] at hx ⊢; tauto)

theorem Inv.around {l : LL T} {ys zs : List (Nat × T)} {c : Nat} {v : T} {A B : List Nat} {a b : Nat}
    (h : Inv l (ys ++ (c, v) :: zs)) (ha : 0 :: ys.map (·.1) = A ++ [a])
    (hb : zs.map (·.1) ++ [1] = b :: B) :
    (l.heap a).next = some c ∧ (l.heap c).prev = some a ∧ (l.heap c).next = some b ∧
      (l.heap b).prev = some c ∧ a ≠ b ∧ a ≠ c ∧ c ≠ b := by
  obtain ⟨f1, f2⟩ := full_split (c := c) (v := v) ha hb
  have hlink := h.link
  have hnd := h.nd
  rw [f1] at hlink hnd
  obtain ⟨h1, h2, h3, h4⟩ := linked_around hlink
  simp only [List.nodup_append, List.nodup_cons, List.mem_cons, not_or] at hnd
  exact ⟨h1, h2, h3, h4, hnd.2.1.1.2.1, hnd.2.1.1.1, hnd.2.1.2.1.1⟩

theorem rm_ok {l : LL T} {ys zs : List (Nat × T)} {c : Nat} {v : T} {A B : List Nat} {a b : Nat}
    (h : Inv l (ys ++ (c, v) :: zs)) (ha : 0 :: ys.map (·.1) = A ++ [a])
    (hb : zs.map (·.1) ++ [1] = b :: B) :
    ∃ h', rm l.heap c = some h' ∧ Inv { l with heap := h', size := l.size - 1 } (ys ++ zs) := by
  obtain ⟨g1, g2, g3, g4, g5, g6, g7⟩ := h.around ha hb
  refine ⟨_, ?_, h.unlink ha hb (h' := (((l.heap.setNext a (some b)).setPrev b (some a)).setPrev c
    none).setNext c none) ?_ ?_ ?_ ?_ ?_⟩
  · simp only [rm, g2, g3, Option.bind_eq_bind, Option.bind_some]
  · simp [next_setPrev, next_setNext, g6]
  · simp [prev_setPrev, prev_setNext, Ne.symm g7]
  · intro y h1 h2; simp [next_setPrev, next_setNext, h1, h2]
  · intro y h1 h2; simp [prev_setPrev, prev_setNext, h1, h2]
  · intro y; simp [val_setPrev, val_setNext]

theorem popFront_ok {l : LL T} {c : Nat} {v : T} {zs : List (Nat × T)} (h : Inv l ((c, v) :: zs)) :
    ∃ l', l.popFront = some (l', some v) ∧ l'.fresh = l.fresh ∧ Inv l' zs := by
  obtain ⟨b, B, hb⟩ := cons_of_snoc (zs.map (·.1)) 1
  have h' : Inv l ([] ++ (c, v) :: zs) := h
  obtain ⟨g1, g2, g3, g4, g5, g6, g7⟩ := h'.around (A := []) rfl hb
  have := h'.unlink (A := []) rfl hb (h' := (l.heap.setPrev b (some 0)).setNext 0 (some b))
    (by simp [next_setNext]) (by simp [prev_setPrev, prev_setNext])
    (by intro y h1 h2; simp [next_setPrev, next_setNext, h1])
    (by intro y h1 h2; simp [prev_setPrev, prev_setNext, h1])
    (by intro y; simp [val_setPrev, val_setNext])
  refine ⟨_, ?_, ?_, this⟩
  rotate_left
  · rfl
  unfold LL.popFront
  rw [if_neg (by simp [h.sz])]
  simp only [g1, g3, Option.bind_eq_bind, Option.bind_some, val_setPrev, val_setNext]
  rw [h.val (c, v) (by simp)]

theorem popBack_ok {l : LL T} {c : Nat} {v : T} {ys : List (Nat × T)} (h : Inv l (ys ++ [(c, v)])) :
    ∃ l', l.popBack = some (l', some v) ∧ l'.fresh = l.fresh ∧ Inv l' ys := by
  obtain ⟨A, a, ha⟩ := snoc_of_cons 0 (ys.map (·.1))
  have hb : ([] : List (Nat × T)).map (·.1) ++ [1] = 1 :: [] := rfl
  obtain ⟨g1, g2, g3, g4, g5, g6, g7⟩ := h.around ha hb
  have := h.unlink ha hb (h' := (l.heap.setNext a (some 1)).setPrev 1 (some a))
    (by simp [next_setPrev, next_setNext]) (by simp [prev_setPrev])
    (by intro y h1 h2; simp [next_setPrev, next_setNext, h1])
    (by intro y h1 h2; simp [prev_setPrev, prev_setNext, h1])
    (by intro y; simp [val_setPrev, val_setNext])
  rw [List.append_nil] at this
  refine ⟨_, ?_, ?_, this⟩
  rotate_left
  · rfl
  unfold LL.popBack
  rw [if_neg (by simp [h.sz])]
  simp only [g4, g2, Option.bind_eq_bind, Option.bind_some, val_setPrev, val_setNext]
  rw [h.val (c, v) (by simp)]

/-! ### Moves of elements -/

/-- Take `c` out and put it back between the neighbours `a` and `b` of the rest. -/
theorem relink {l : LL T} {ys zs us ws : List (Nat × T)} {c : Nat} {v : T} {A B : List Nat}
    {a b p q : Nat} {A' B' : List Nat}
    (h : Inv l (ys ++ (c, v) :: zs)) (hp : 0 :: ys.map (·.1) = A' ++ [p])
    (hq : zs.map (·.1) ++ [1] = q :: B') (huw : ys ++ zs = us ++ ws)
    (ha : 0 :: us.map (·.1) = A ++ [a]) (hb : ws.map (·.1) ++ [1] = b :: B) {h' : Store T}
    (hn : ∀ y, (h' y).next = if y = c then some b else if y = a then some c else
      if y = p then some q else (l.heap y).next)
    (hpv : ∀ y, (h' y).prev = if y = c then some a else if y = b then some c else
      if y = q then some p else (l.heap y).prev)
    (hv : ∀ y, (h' y).val = (l.heap y).val) :
    Inv { l with heap := h' } (us ++ (c, v) :: ws) := by
  obtain ⟨g1, g2, g3, g4, g5, g6, g7⟩ := h.around hp hq
  have h1 := h.unlink hp hq (h' := (l.heap.setNext p (some q)).setPrev q (some p))
    (by simp [next_setPrev, next_setNext]) (by simp [prev_setPrev])
    (by intro y h1 h2; simp [next_setPrev, next_setNext, h1])
    (by intro y h1 h2; simp [prev_setPrev, prev_setNext, h1])
    (by intro y; simp [val_setPrev, val_setNext])
  rw [huw] at h1
  obtain ⟨f1, f2⟩ := full_split (c := c) (v := v) ha hb
  have hlink := h1.link
  have hnd := h1.nd
  have hlt := h1.lt
  rw [f2] at hlink hnd hlt
  have hperm : (full (us ++ (c, v) :: ws)).Perm (full (ys ++ (c, v) :: zs)) := by
    have e1 : (us ++ (c, v) :: ws).Perm (ys ++ (c, v) :: zs) := by
      refine List.perm_middle.trans (List.Perm.trans ?_ List.perm_middle.symm)
      rw [huw]
    exact List.Perm.cons _ ((e1.map _).append_right _)
  have hnd' := hperm.nodup_iff.2 h.nd
  have hc : c ∉ A ++ a :: b :: B := by
    rw [f1] at hnd'
    simp only [List.nodup_append, List.nodup_cons, List.mem_cons, not_or] at hnd'
    simp only [List.mem_append, List.mem_cons, not_or]
    refine ⟨fun hm => hnd'.2.2 c hm c (.inr (.inl rfl)) rfl, fun e => hnd'.2.1.1.1 e.symm,
      hnd'.2.1.2.1.1, hnd'.2.1.2.1.2⟩
  simp only [List.mem_append, List.mem_cons, not_or] at hc
  refine ⟨?_, hnd', ?_, ?_, ?_⟩
  · rw [f1]
    refine linked_insert hlink hnd (by simp only [List.mem_append, List.mem_cons, not_or]; exact hc)
      ?_ ?_ ?_ ?_ ?_ ?_
    · rw [hn, if_neg (Ne.symm hc.2.1), if_pos rfl]
    · rw [hpv, if_pos rfl]
    · rw [hn, if_pos rfl]
    · rw [hpv, if_neg (Ne.symm hc.2.2.1), if_pos rfl]
    · intro y h1 h2
      rw [hn, if_neg h2, if_neg h1]
      simp [next_setPrev, next_setNext]
    · intro y h1 h2
      rw [hpv, if_neg h2, if_neg h1]
      simp [prev_setPrev, prev_setNext]
  · intro x hx
    exact h.lt x (hperm.mem_iff.1 hx)
  · have := h.sz
    have hl := congrArg List.length huw
    simp only [List.length_append, List.length_cons] at this hl ⊢
    omega
  · intro x hx
    simp only [hv]
    refine h.val x ?_
    have : x ∈ ys ++ zs ∨ x = (c, v) := by
      rw [huw]; simp only [List.mem_append, List.mem_cons] at hx ⊢; tauto
    simp only [List.mem_append, List.mem_cons] at this ⊢; tauto

theorem moveBefore_ok {l : LL T} {ys zs us ws : List (Nat × T)} {c m : Nat} {v : T} {B : List Nat}
    (h : Inv l (ys ++ (c, v) :: zs)) (huw : ys ++ zs = us ++ ws)
    (hb : ws.map (·.1) ++ [1] = m :: B) :
    ∃ l', l.moveBefore c m = some l' ∧ l'.fresh = l.fresh ∧ Inv l' (us ++ (c, v) :: ws) := by
  obtain ⟨A', p, hp⟩ := snoc_of_cons 0 (ys.map (·.1))
  obtain ⟨q, B', hq⟩ := cons_of_snoc (zs.map (·.1)) 1
  obtain ⟨A, a, ha⟩ := snoc_of_cons 0 (us.map (·.1))
  obtain ⟨g1, g2, g3, g4, g5, g6, g7⟩ := h.around hp hq
  obtain ⟨f1, f2⟩ := full_split (c := c) (v := v) hp hq
  obtain ⟨f3, f4⟩ := full_split (c := c) (v := v) ha hb
  have hcm : c ≠ m := by
    rintro rfl
    have hnd := h.nd
    rw [f1] at hnd
    have : c ∈ A' ++ p :: q :: B' := by
      rw [← f2, huw, f4]; simp
    simp only [List.nodup_append, List.nodup_cons, List.mem_cons, not_or] at hnd
    simp only [List.mem_append, List.mem_cons] at this
    rcases this with h' | h' | h' | h'
    · exact hnd.2.2 c h' c (.inr (.inl rfl)) rfl
    · exact g6 h'.symm
    · exact g7 h'
    · exact hnd.2.1.2.1.2 h'
  have h1 := h.unlink hp hq (h' := (l.heap.setNext p (some q)).setPrev q (some p))
    (by simp [next_setPrev, next_setNext]) (by simp [prev_setPrev])
    (by intro y h1 h2; simp [next_setPrev, next_setNext, h1])
    (by intro y h1 h2; simp [prev_setPrev, prev_setNext, h1])
    (by intro y; simp [val_setPrev, val_setNext])
  rw [huw] at h1
  have hlink := h1.link
  rw [f4] at hlink
  have pair := linked_pair hlink
  simp only [next_setPrev, next_setNext, prev_setPrev, prev_setNext] at pair
  unfold LL.moveBefore
  rw [if_neg hcm]
  by_cases hmq : m = q
  · -- already there
    subst hmq
    rw [if_pos g4]
    refine ⟨l, rfl, rfl, ?_⟩
    -- us = ys, ws = zs
    have hu : us = ys ∧ ws = zs := by
      have hl2 : full (ys ++ zs) = full (us ++ ws) := by rw [huw]
      rw [f2, f4] at hl2
      have hnd := h1.nd
      rw [f4] at hnd
      have lenA : A'.length = A.length := by
        have e1 : (A' ++ p :: m :: B')[A'.length + 1]? = some m := by simp
        have e2 : (A' ++ p :: m :: B')[A.length + 1]? = some m := by rw [hl2]; simp
        have hlt : A'.length + 1 < (A' ++ p :: m :: B').length := by simp
        rw [← hl2] at hnd
        have := (List.getElem?_inj hlt hnd).1 (e1.trans e2.symm)
        omega
      have hlen : ys.length = us.length := by
        have l1 := congrArg List.length hp
        have l2 := congrArg List.length ha
        simp at l1 l2; omega
      have := List.append_inj huw hlen
      exact ⟨this.1.symm, this.2.symm⟩
    rw [hu.1, hu.2]; exact h
  · rw [if_neg hmq] at pair
    have hmc : (l.heap m).prev ≠ some c := by
      rw [pair.2]
      intro e
      simp only [Option.some.injEq] at e
      subst e
      have : a ∈ A' ++ p :: q :: B' := by rw [← f2, huw, f4]; simp
      have hnd := h.nd
      rw [f1] at hnd
      simp only [List.nodup_append, List.nodup_cons, List.mem_cons, not_or] at hnd
      simp only [List.mem_append, List.mem_cons] at this
      rcases this with h' | h' | h' | h'
      · exact hnd.2.2 a h' a (.inr (.inl rfl)) rfl
      · exact g6 h'.symm
      · exact g7 h'
      · exact hnd.2.1.2.1.2 h'
    rw [if_neg hmc]
    simp only [g2, g3, pair.2, Option.bind_eq_bind, Option.bind_some]
    refine ⟨_, rfl, rfl, relink h hp hq huw ha hb ?_ ?_ ?_⟩
    · intro y; simp [next_setPrev, next_setNext]
    · intro y
      simp only [prev_setPrev, prev_setNext]
      by_cases e1 : y = c
      · subst e1; simp [hcm]
      · simp [e1]
    · intro y; simp [val_setPrev, val_setNext]

theorem moveAfter_ok {l : LL T} {ys zs us ws : List (Nat × T)} {c m : Nat} {v : T} {A : List Nat}
    (h : Inv l (ys ++ (c, v) :: zs)) (huw : ys ++ zs = us ++ ws)
    (ha : 0 :: us.map (·.1) = A ++ [m]) :
    ∃ l', l.moveAfter c m = some l' ∧ l'.fresh = l.fresh ∧ Inv l' (us ++ (c, v) :: ws) := by
  obtain ⟨A', p, hp⟩ := snoc_of_cons 0 (ys.map (·.1))
  obtain ⟨q, B', hq⟩ := cons_of_snoc (zs.map (·.1)) 1
  obtain ⟨b, B, hb⟩ := cons_of_snoc (ws.map (·.1)) 1
  obtain ⟨g1, g2, g3, g4, g5, g6, g7⟩ := h.around hp hq
  obtain ⟨f1, f2⟩ := full_split (c := c) (v := v) hp hq
  obtain ⟨f3, f4⟩ := full_split (c := c) (v := v) ha hb
  have notin : ∀ x, x = c → x ∉ full (us ++ ws) := by
    rintro x rfl hx
    have hnd := h.nd
    rw [f1] at hnd
    rw [← huw, f2] at hx
    simp only [List.nodup_append, List.nodup_cons, List.mem_cons, not_or] at hnd
    simp only [List.mem_append, List.mem_cons] at hx
    rcases hx with h' | h' | h' | h'
    · exact hnd.2.2 x h' x (.inr (.inl rfl)) rfl
    · exact g6 h'.symm
    · exact g7 h'
    · exact hnd.2.1.2.1.2 h'
  have hcm : c ≠ m := by
    intro e
    exact notin m e.symm (by rw [f4]; simp)
  have hcb : c ≠ b := by
    intro e
    exact notin b e.symm (by rw [f4]; simp)
  have h1 := h.unlink hp hq (h' := (l.heap.setNext p (some q)).setPrev q (some p))
    (by simp [next_setPrev, next_setNext]) (by simp [prev_setPrev])
    (by intro y h1 h2; simp [next_setPrev, next_setNext, h1])
    (by intro y h1 h2; simp [prev_setPrev, prev_setNext, h1])
    (by intro y; simp [val_setPrev, val_setNext])
  rw [huw] at h1
  have hlink := h1.link
  rw [f4] at hlink
  have pair := linked_pair hlink
  simp only [next_setPrev, next_setNext, prev_setPrev, prev_setNext] at pair
  unfold LL.moveAfter
  rw [if_neg hcm]
  by_cases hmq : m = p
  · subst hmq
    rw [if_pos g1]
    refine ⟨l, rfl, rfl, ?_⟩
    have hu : us = ys ∧ ws = zs := by
      have hl2 : full (ys ++ zs) = full (us ++ ws) := by rw [huw]
      rw [f2, f4] at hl2
      have hnd := h1.nd
      rw [f4] at hnd
      have lenA : A'.length = A.length := by
        have e1 : (A' ++ m :: q :: B')[A'.length]? = some m := by simp
        have e2 : (A' ++ m :: q :: B')[A.length]? = some m := by rw [hl2]; simp
        have hlt : A'.length < (A' ++ m :: q :: B').length := by simp
        rw [← hl2] at hnd
        exact (List.getElem?_inj hlt hnd).1 (e1.trans e2.symm)
      have hlen : ys.length = us.length := by
        have l1 := congrArg List.length hp
        have l2 := congrArg List.length ha
        simp at l1 l2; omega
      have := List.append_inj huw hlen
      exact ⟨this.1.symm, this.2.symm⟩
    rw [hu.1, hu.2]; exact h
  · rw [if_neg hmq] at pair
    have hmc : (l.heap m).next ≠ some c := by
      rw [pair.1]
      intro e
      simp only [Option.some.injEq] at e
      exact hcb e.symm
    rw [if_neg hmc]
    simp only [g2, g3, pair.1, Option.bind_eq_bind, Option.bind_some]
    refine ⟨_, rfl, rfl, relink h hp hq huw ha hb ?_ ?_ ?_⟩
    · intro y
      simp only [next_setPrev, next_setNext]
      by_cases e1 : y = c
      · subst e1; simp [hcm]
      · simp [e1]
    · intro y; simp [prev_setPrev, prev_setNext]
    · intro y; simp [val_setPrev, val_setNext]

end Verif.LList
