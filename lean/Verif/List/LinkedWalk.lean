import Verif.List.LinkedLemmas
import Mathlib.Data.List.Nodup

/-! Lemmas about walking through the linked list. -/

set_option linter.unusedSectionVars false

namespace Verif.LList
open Verif.DLL
variable {T : Type} [Inhabited T]

/-- The elements handed to a callback that says when to stop. -/
def upTo {α : Type} (p : α → Bool) : List α → List α
  | [] => []
  | a :: l => if p a then a :: upTo p l else [a]

theorem upTo_true {α : Type} (l : List α) : upTo (fun _ => true) l = l := by
  induction l with
  | nil => rfl
  | cons a l ih => simp [upTo, ih]

theorem linked_tail {h : Store T} {a : Nat} {l : List Nat} (hl : Linked h (a :: l)) : Linked h l := by
  cases l with
  | nil => exact linked_nil _
  | cons b l => exact (linked_cons_cons.1 hl).2

theorem linked_head {h : Store T} {a : Nat} {l : List Nat} (hl : Linked h (a :: l)) (hne : l ≠ []) :
    (h a).next = l.head? := by
  cases l with
  | nil => exact absurd rfl hne
  | cons b l => exact (linked_cons_cons.1 hl).1.1

theorem visit_ok {h : Store T} {every : T → Bool} (ids : List Nat) : ∀ fuel,
    Linked h (ids ++ [1]) → 1 ∉ ids → ids.length < fuel →
    visit h every fuel (ids ++ [1]).head? = some (upTo every (vals h ids)) := by
  induction ids with
  | nil =>
    intro fuel _ _ hf
    cases fuel with
    | zero => simp at hf
    | succ f => simp [visit, vals, upTo]
  | cons a ids ih =>
    intro fuel hl h1 hf
    cases fuel with
    | zero => simp at hf
    | succ f =>
      simp only [List.mem_cons, not_or] at h1
      simp only [List.cons_append, List.head?_cons, visit, if_neg (Ne.symm h1.1)]
      have hn := linked_head (l := ids ++ [1]) hl (by simp)
      rw [hn, ih f (linked_tail hl) h1.2 (by simp at hf; omega)]
      simp only [vals, List.map_cons, upTo, Option.map_some]
      split <;> rfl

theorem idxNext_ok {h : Store T} (ids : List Nat) : ∀ fuel k,
    Linked h (ids ++ [1]) → 1 ∉ ids → ids.length < fuel →
    idxNext h fuel k (ids ++ [1]).head? = some (vals h ids)[k]? := by
  induction ids with
  | nil =>
    intro fuel k _ _ hf
    cases fuel with
    | zero => simp at hf
    | succ f => simp [idxNext, vals]
  | cons a ids ih =>
    intro fuel k hl h1 hf
    cases fuel with
    | zero => simp at hf
    | succ f =>
      simp only [List.mem_cons, not_or] at h1
      simp only [List.cons_append, List.head?_cons, idxNext, if_neg (Ne.symm h1.1)]
      have hn := linked_head (l := ids ++ [1]) hl (by simp)
      rw [hn, ih f (k - 1) (linked_tail hl) h1.2 (by simp at hf; omega)]
      cases k with
      | zero => simp [vals]
      | succ k => simp [vals]

theorem idxPrev_ok {h : Store T} (ids : List Nat) : ∀ fuel k,
    Linked h (0 :: ids) → 0 ∉ ids → ids.length < fuel →
    idxPrev h fuel k (0 :: ids).getLast? = some (vals h ids).reverse[k]? := by
  induction ids using List.reverseRecOn with
  | nil =>
    intro fuel k _ _ hf
    cases fuel with
    | zero => simp at hf
    | succ f => simp [idxPrev, vals]
  | append_singleton ids a ih =>
    intro fuel k hl h1 hf
    cases fuel with
    | zero => simp at hf
    | succ f =>
      simp only [List.mem_append, List.mem_singleton, not_or] at h1
      have e : (0 :: (ids ++ [a])).getLast? = some a := by
        rw [← List.cons_append, List.getLast?_concat]
      have hl' : Linked h (0 :: ids) ∧ ∀ x ∈ (0 :: ids).getLast?, Link h x a := by
        rw [← List.cons_append, linked_append] at hl
        exact ⟨hl.1, fun x hx => hl.2.2 x hx a (by simp)⟩
      obtain ⟨A, p, hp⟩ := snoc_of_cons 0 ids
      have hlast : (0 :: ids).getLast? = some p := by rw [hp, List.getLast?_concat]
      have hprev : (h a).prev = (0 :: ids).getLast? := by
        rw [hlast]; exact (hl'.2 p (by simp [hlast])).2
      rw [e]
      simp only [idxPrev, if_neg (Ne.symm h1.2)]
      rw [hprev, ih f (k - 1) hl'.1 h1.1 (by simp at hf; omega)]
      cases k with
      | zero => simp [vals]
      | succ k => simp [vals]

theorem linked_next {h : Store T} {ids : List Nat} (hl : Linked h ids) (p : Nat)
    (hp : p + 1 < ids.length) : (h ids[p]).next = some ids[p + 1] := by
  induction ids generalizing p with
  | nil => simp at hp
  | cons a ids ih =>
    cases p with
    | zero =>
      cases ids with
      | nil => simp at hp
      | cons b ids => exact (linked_cons_cons.1 hl).1.1
    | succ p => exact ih (linked_tail hl) p (by simpa using hp)

theorem linked_prev {h : Store T} {ids : List Nat} (hl : Linked h ids) (p : Nat)
    (hp : p + 1 < ids.length) : (h ids[p + 1]).prev = some ids[p] := by
  induction ids generalizing p with
  | nil => simp at hp
  | cons a ids ih =>
    cases p with
    | zero =>
      cases ids with
      | nil => simp at hp
      | cons b ids => exact (linked_cons_cons.1 hl).1.2
    | succ p => exact ih (linked_tail hl) p (by simpa using hp)

section
variable {l : LL T} {xs : List (Nat × T)}

theorem full_length (xs : List (Nat × T)) : (full xs).length = xs.length + 2 := by simp [full]

theorem Inv.vals (h : Inv l xs) : vals l.heap (xs.map (·.1)) = xs.map (·.2) := by
  simp only [DLL.vals, List.map_map]
  exact List.map_congr_left fun e he => h.val e he

theorem Inv.lenlt (h : Inv l xs) : xs.length + 2 ≤ l.fresh := by
  have := length_le_of_nodup_lt h.nd h.lt
  rwa [full_length] at this

theorem Inv.sent (h : Inv l xs) : (0 : Nat) ∉ xs.map (·.1) ∧ (1 : Nat) ∉ xs.map (·.1) := by
  have := h.nd
  simp only [full, List.nodup_cons, List.nodup_append, List.mem_append, not_or] at this
  exact ⟨this.1.1, fun hm => this.2.2.2 1 hm 1 (by simp) rfl⟩

theorem Inv.traverse (h : Inv l xs) (every : T → Bool) :
    l.traverse every = some (upTo every (xs.map (·.2))) := by
  have hn := linked_head (l := xs.map (·.1) ++ [1]) h.link (by simp)
  rw [LL.traverse, hn, visit_ok _ _ (linked_tail h.link) h.sent.2 (by
    have := h.lenlt; simp; omega), h.vals]

theorem Inv.index (h : Inv l xs) (i : Int) :
    l.index i = some (if 0 ≤ i then (xs.map (·.2))[i.toNat]? else none) := by
  have hlen := h.lenlt
  unfold LL.index
  by_cases h0 : i < 0
  · rw [if_pos h0, if_neg (show ¬ 0 ≤ i by omega)]
  · rw [if_neg h0, if_pos (show 0 ≤ i by omega)]
    simp only [h.sz]
    by_cases h1 : i.toNat ≥ xs.length
    · rw [if_pos h1, List.getElem?_eq_none (by simpa using h1)]
    · rw [if_neg h1]
      by_cases h2 : i.toNat > xs.length / 2
      · rw [if_pos h2]
        have hl0 : Linked l.heap (0 :: xs.map (·.1)) := by
          have := h.link
          rw [full, ← List.cons_append, linked_append] at this
          exact this.1
        obtain ⟨A, p, hp⟩ := snoc_of_cons 0 (xs.map (·.1))
        have hprev : (l.heap 1).prev = (0 :: xs.map (·.1)).getLast? := by
          have := h.link
          rw [full, ← List.cons_append, hp, List.append_assoc] at this
          rw [hp, List.getLast?_concat]
          exact (linked_pair this).2
        rw [hprev, idxPrev_ok _ _ _ hl0 h.sent.1 (by simp; omega), h.vals]
        rw [List.getElem?_reverse (by simp; omega)]
        congr 2
        simp; omega
      · rw [if_neg h2]
        have hn := linked_head (l := xs.map (·.1) ++ [1]) h.link (by simp)
        rw [hn, idxNext_ok _ _ _ (linked_tail h.link) h.sent.2 (by simp; omega), h.vals]

theorem Inv.toHead (h : Inv l xs) : (l.heap 0).next = (xs.map (fun e : Nat × T => e.1) ++ [1]).head? :=
  linked_head (l := xs.map (·.1) ++ [1]) h.link (by simp)

theorem Inv.toTail (h : Inv l xs) : (l.heap 1).prev = (0 :: xs.map (·.1)).getLast? := by
  obtain ⟨A, p, hp⟩ := snoc_of_cons 0 (xs.map (·.1))
  have := h.link
  rw [full, ← List.cons_append, hp, List.append_assoc] at this
  rw [hp, List.getLast?_concat]
  exact (linked_pair this).2

/-- The position of a node. -/
theorem full_pos {c : Nat} (hc : c ∈ full xs) :
    ∃ hp : (full xs).idxOf c < (full xs).length, (full xs)[(full xs).idxOf c] = c :=
  ⟨List.idxOf_lt_length_iff.2 hc, List.getElem_idxOf _⟩

theorem Inv.at0 (h : Inv l xs) {p : Nat} (hp : p < (full xs).length) :
    (full xs)[p] = 0 ↔ p = 0 := by
  constructor
  · intro e
    exact h.nd.getElem_inj_iff.1 (e.trans (show 0 = (full xs)[0] from rfl))
  · rintro rfl; rfl

theorem Inv.at1 (h : Inv l xs) {p : Nat} (hp : p < (full xs).length) :
    (full xs)[p] = 1 ↔ p = xs.length + 1 := by
  have h1 : (full xs)[xs.length + 1]'(by rw [full_length]; omega) = 1 := by simp [full]
  constructor
  · intro e; exact h.nd.getElem_inj_iff.1 (e.trans h1.symm)
  · rintro rfl; exact h1

theorem Inv.moveNext (h : Inv l xs) (n : Nat) : ∀ p (hp : p < xs.length + 1),
    moveNext l.heap n (some ((full xs)[p]'(by rw [full_length]; omega))) =
      some (full xs)[min (p + n) (xs.length + 1)]? := by
  have hlen := full_length xs
  induction n with
  | zero =>
    intro p hp
    rw [LList.moveNext, show min (p + 0) (xs.length + 1) = p by omega, List.getElem?_eq_getElem]
  | succ n ih =>
    intro p hp
    rw [LList.moveNext, linked_next h.link p (by omega)]
    by_cases e : p + 1 = xs.length + 1
    · have h1 := (h.at1 (p := p + 1) (by omega)).2 e
      rw [if_pos (by rw [h1]), show min (p + (n + 1)) (xs.length + 1) = p + 1 by omega,
        List.getElem?_eq_getElem (by omega), h1]
    · rw [if_neg, ih (p + 1) (by omega), show p + 1 + n = p + (n + 1) by omega]
      intro he
      simp only [Option.some.injEq] at he
      exact e ((h.at1 (by omega)).1 he)

theorem Inv.movePrev (h : Inv l xs) (n : Nat) : ∀ p (_ : 0 < p) (hp : p < xs.length + 2),
    movePrev l.heap n (some ((full xs)[p]'(by rw [full_length]; omega))) =
      some (full xs)[p - n]? := by
  have hlen := full_length xs
  induction n with
  | zero =>
    intro p _ hp
    rw [LList.movePrev, Nat.sub_zero, List.getElem?_eq_getElem]
  | succ n ih =>
    intro p h0 hp
    obtain ⟨q, rfl⟩ : ∃ q, p = q + 1 := ⟨p - 1, by omega⟩
    rw [LList.movePrev, linked_prev h.link q (by omega)]
    by_cases e : q = 0
    · subst e
      rw [if_pos (show some (full xs)[0] = some 0 from rfl), show 0 + 1 - (n + 1) = 0 by omega]
      rfl
    · rw [if_neg, ih q (by omega) (by omega), show q + 1 - (n + 1) = q - n by omega]
      intro he
      simp only [Option.some.injEq] at he
      exact e ((h.at0 (by omega)).1 he)

theorem ids_at (xs : List (Nat × T)) (p : Nat) (hp : p < xs.length) :
    (full xs)[p + 1]? = some (xs[p]).1 := by
  simp only [full, List.getElem?_cons_succ]
  rw [List.getElem?_append_left (by simpa using hp)]
  simp [hp]

theorem Inv.toHead' (h : Inv l xs) : (l.heap 0).next = (full xs)[1]? := by
  rw [h.toHead, full, List.getElem?_cons_succ, List.head?_eq_getElem?]

theorem Inv.toTail' (h : Inv l xs) : (l.heap 1).prev = (full xs)[xs.length]? := by
  rw [h.toTail, full, List.getLast?_eq_getElem?, ← List.cons_append, List.getElem?_append_left (by simp)]
  simp

/-- One circular step forward from position `p` of the list with sentinels. -/
theorem Inv.cstep (h : Inv l xs) {p : Nat} (hp : p < xs.length + 1) :
    (if (l.heap ((full xs)[p]'(by rw [full_length]; omega))).next = some 1 then (l.heap 0).next
      else (l.heap ((full xs)[p]'(by rw [full_length]; omega))).next)
      = (full xs)[p % xs.length + 1]? := by
  have hlen := full_length xs
  rw [linked_next h.link p (by omega)]
  by_cases e : p + 1 = xs.length + 1
  · have h1 := (h.at1 (p := p + 1) (by omega)).2 e
    rw [if_pos (by rw [h1]), h.toHead', show p = xs.length by omega, Nat.mod_self]
  · rw [if_neg, Nat.mod_eq_of_lt (by omega), List.getElem?_eq_getElem (by omega)]
    intro he
    simp only [Option.some.injEq] at he
    exact e ((h.at1 (by omega)).1 he)

theorem Inv.cstepBack (h : Inv l xs) {p : Nat} (hp1 : 0 < p) (hp : p < xs.length + 2)
    (h0 : 0 < xs.length) :
    (if (l.heap ((full xs)[p]'(by rw [full_length]; omega))).prev = some 0 then (l.heap 1).prev
      else (l.heap ((full xs)[p]'(by rw [full_length]; omega))).prev)
      = (full xs)[(p + xs.length - 2) % xs.length + 1]? := by
  have hlen := full_length xs
  obtain ⟨q, rfl⟩ : ∃ q, p = q + 1 := ⟨p - 1, by omega⟩
  rw [linked_prev h.link q (by omega)]
  by_cases e : q = 0
  · subst e
    rw [if_pos (show some (full xs)[0] = some 0 from rfl), h.toTail', Nat.mod_eq_of_lt (by omega)]
    congr 1; omega
  · rw [if_neg, show q + 1 + xs.length - 2 = (q - 1) + xs.length by omega, Nat.add_mod_right,
      Nat.mod_eq_of_lt (by omega), List.getElem?_eq_getElem (by omega)]
    · congr 2; omega
    intro he
    simp only [Option.some.injEq] at he
    exact e ((h.at0 (by omega)).1 he)

theorem Inv.cmoveNext (h : Inv l xs) (n : Nat) : ∀ q (hq : q < xs.length),
    cmoveNext l.heap n (some (xs[q]).1) = some (full xs)[(q + n) % xs.length + 1]? := by
  have hlen := full_length xs
  induction n with
  | zero =>
    intro q hq
    rw [LList.cmoveNext, show (q + 0) % xs.length = q from Nat.mod_eq_of_lt hq, ids_at _ _ hq]
  | succ n ih =>
    intro q hq
    have e : (xs[q]).1 = (full xs)[q + 1]'(by omega) := by
      have := ids_at xs q hq
      rw [List.getElem?_eq_getElem (by omega)] at this
      exact (Option.some.inj this).symm
    have hm := Nat.mod_lt (q + 1) (show 0 < xs.length by omega)
    rw [LList.cmoveNext, e, h.cstep (by omega), ids_at _ _ hm, ih _ hm,
      Nat.mod_add_mod, show q + 1 + n = q + (n + 1) by omega]

theorem Inv.cmovePrev (h : Inv l xs) (n : Nat) : ∀ q (hq : q < xs.length),
    ∃ r, r < xs.length ∧ (r + n) % xs.length = q ∧
      cmovePrev l.heap n (some (xs[q]).1) = some (full xs)[r + 1]? := by
  have hlen := full_length xs
  induction n with
  | zero =>
    intro q hq
    exact ⟨q, hq, by rw [Nat.add_zero, Nat.mod_eq_of_lt hq], by rw [LList.cmovePrev, ids_at _ _ hq]⟩
  | succ n ih =>
    intro q hq
    have e : (xs[q]).1 = (full xs)[q + 1]'(by omega) := by
      have := ids_at xs q hq
      rw [List.getElem?_eq_getElem (by omega)] at this
      exact (Option.some.inj this).symm
    have hm := Nat.mod_lt (q + 1 + xs.length - 2) (show 0 < xs.length by omega)
    obtain ⟨r, h1, h2, h3⟩ := ih _ hm
    refine ⟨r, h1, ?_, ?_⟩
    · rw [← Nat.add_assoc, Nat.add_mod, h2, ← Nat.add_mod,
        show q + 1 + xs.length - 2 + 1 = q + xs.length by omega, Nat.add_mod_right,
        Nat.mod_eq_of_lt hq]
    · rw [LList.cmovePrev, e, h.cstepBack (by omega) (by omega) (by omega), ids_at _ _ hm, h3]

end

end Verif.LList
