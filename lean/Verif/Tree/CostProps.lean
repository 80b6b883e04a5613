import Verif.Tree.CostModel
import Verif.Heap.Cost

/-! Property C83: the number of calls of the comparator in one call. For index trees see `IndexDeep`. -/

namespace Verif.Avl

open Tree

variable {K V : Type} {cmp : K → K → Int}

theorem height_log {t : T K V} (h : Bal 2 t) : t.height ≤ 2 * Nat.log2 (t.count + 1) + 1 := by
  have h1 := minNodes_le_count (d := 2) (by decide) h
  have h2 := minNodes_two (t.height / 2)
  have h3 := minNodes_mono 1 (show 2 * (t.height / 2) ≤ t.height by omega)
  have h4 : 2 ^ (t.height / 2) ≤ t.count + 1 := Nat.le_trans h2 (Nat.succ_le_succ (Nat.le_trans h3 h1))
  have h5 := (Nat.le_log2 (by omega)).2 h4
  omega

/-- C83, tree/avl with threshold 2 and set/treeset: in a tree of `n` entries a call calls the comparator at
most 2 log2 (n + 1) + 1 times, `Upsert` at most twice as often. -/
theorem C83_avl (hc : LawfulEx cmp) {one : Bool} {m : Map K V} {xs : List (K × V)}
    (h : Reached cmp one 2 m xs) (op : Op K V) :
    calls cmp one 2 m op ≤
      (match op with | .upsert _ _ => 2 | _ => 1) * (2 * Nat.log2 (xs.length + 1) + 1) := by
  obtain ⟨hI, hR⟩ := h.inv hc ⟨by decide, by decide, fun _ => rfl⟩
  have hh := height_log (hI.good.2 (by decide))
  rw [count_eq, hR.list] at hh
  cases op with
  | put k v => have := putC_le cmp one 2 k v id m.root false; simp only [calls]; omega
  | insertIfAbsent k v => have := putC_le cmp one 2 k v id m.root false; simp only [calls]; omega
  | set k v => have := putC_le cmp one 2 k v (fun _ => (k, v)) m.root false; simp only [calls]; omega
  | upsert k v =>
    have h1 := putC_le cmp one 2 k v (fun _ => (k, v)) m.root false
    have h2 := getC_le cmp k m.root
    simp only [calls]
    split <;> omega
  | get k => have := getC_le cmp k m.root; simp only [calls]; omega
  | contains k => have := getC_le cmp k m.root; simp only [calls]; omega
  | remove k => have := removeC_le cmp one 2 k m.root true; simp only [calls]; omega
  | delete k => have := removeC_le cmp one 2 k m.root true; simp only [calls]; omega
  | _ => exact Nat.zero_le _

end Verif.Avl

namespace Verif.TreeSet

open Avl

variable {K V : Type} {cmp : K → K → Int}

theorem C83_treeset (hc : LawfulEx cmp) {m : Map K V} {xs : List (K × V)} (h : Reached cmp m xs)
    (op : Op K V) : calls cmp true 2 m op ≤
      (match op with | .upsert _ _ => 2 | _ => 1) * (2 * Nat.log2 (xs.length + 1) + 1) :=
  C83_avl hc h.avl op

example : ∃ m : Map Int String, Reached Compare.anyEx m [(1, "a"), (2, "b"), (3, "c")] ∧
    ∀ k, calls Compare.anyEx true 2 m (.contains k) ≤ 5 := by
  obtain ⟨m, _, h, -⟩ := demo_sets
  exact ⟨m, h, fun k => C83_treeset anyEx_lawful h (.contains k)⟩

end Verif.TreeSet

namespace Verif.Avls

open Tree Avl

variable {K V : Type} {cmp : K → K → Int}

/-- C83, tree/avls: `InsertIfAbsent`, `Set` and `Upsert` search twice. -/
theorem C83_avls (hc : LawfulEx cmp) {m : Map K V} {xs : List (K × V)} (h : Reached cmp m xs)
    (op : Op K V) : calls cmp 2 m op ≤
      (match op with
        | .insertIfAbsent _ _ | .set _ _ | .upsert _ _ => 2
        | _ => 1) * (2 * Nat.log2 (xs.length + 1) + 1) := by
  obtain ⟨hI, hR, -⟩ := h.inv hc
  have hh := height_log (hI.good.2 (by decide))
  rw [count_eq, hR.list] at hh
  have hp := fun k v => putC_le cmp 2 k v m.root false
  have hg := fun k => getC_le cmp k m.root
  have hr := fun k => removeC_le cmp 2 k m.root true
  cases op with
  | put k v => have := hp k v; simp only [calls]; omega
  | insertIfAbsent k v => have := hp k v; have := hg k; simp only [calls]; split <;> omega
  | set k v => have := hp k v; have := hg k; simp only [calls]; split <;> omega
  | upsert k v => have := hp k v; have := hg k; simp only [calls]; split <;> omega
  | get k => have := hg k; simp only [calls]; omega
  | remove k => have := hr k; simp only [calls]; omega
  | delete k => have := hr k; simp only [calls]; omega
  | _ => exact Nat.zero_le _

example : ∃ m : Map Int String, ∀ k, calls Compare.anyEx 2 m (.get k) ≤ 5 := by
  obtain ⟨m, h⟩ := demo_reached
  exact ⟨m, fun k => C83_avls anyEx_lawful h (.get k)⟩

end Verif.Avls

namespace Verif.Heap

variable {α : Type} [Inhabited α]

/-- C83, heap: with `n` elements `Put` calls the comparator at most log2 (n + 1) times, `Pop` at most
2 log2 (n - 1) times, the other methods never. -/
theorem C83_heap (cmp : α → α → Int) (h : PQ α) (op : Op α) :
    h.calls cmp op ≤ match op with
      | .put _ => Nat.log2 (h.size + 1)
      | .pop => 2 * Nat.log2 (h.size - 1)
      | _ => 0 := by
  have hg : h.grow.size = h.size := by unfold PQ.grow; split <;> rfl
  have hsl : ∀ q : PQ α, q.slimming.size = q.size := by
    intro q; unfold PQ.slimming; split <;> [(split <;> rfl); rfl]
  cases op with
  | put v => rw [← hg]; exact upC_le ..
  | pop =>
    simp only [PQ.calls, hsl]
    split
    · split
      · exact Nat.zero_le _
      · rename_i dv _ h0
        have := downC_le cmp dv (h.size - 1) ({ h with size := h.size - 1 } : PQ α).slimming.elements 0
        rw [show max (h.size - 1) (0 + 1) = h.size - 1 by omega] at this
        have e : Nat.log2 (0 + 1) = 0 := by decide
        omega
    · exact Nat.zero_le _
  | _ => exact Nat.le_refl _

example : (PQ.mk 3 [1, 5, 2, 0] : PQ Int).calls (fun a b => a - b) .pop ≤ 2 := C83_heap _ _ .pop

end Verif.Heap
