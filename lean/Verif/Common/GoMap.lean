import Verif.Common.Tac
import Mathlib.Data.List.Nodup
import Mathlib.Data.List.Perm.Basic

/-!
The built-in Go map type, part of the trusted base: a finite map with lookup, assignment, `delete`
and `len`. Keys are compared with `==`, here decidable equality (so keys that are not reflexive under
`==`, such as NaN, and keys that panic when hashed are excluded; for these see Map/NanModel).
Iteration order is unspecified in
Go; the models that iterate take an arbitrary reordering as a parameter.
-/

namespace Verif

/-- A Go map as the list of its entries in some order. -/
abbrev GoMap (K V : Type) := List (K × V)

namespace GoMap
variable {K V : Type} [DecidableEq K]

/-- `v, ok := m[k]` -/
def get (m : GoMap K V) (k : K) : Option V := (m.find? fun e => e.1 = k).map (·.2)

/-- `m[k] = v` -/
def set : GoMap K V → K → V → GoMap K V
  | [], k, v => [(k, v)]
  | e :: m, k, v => if e.1 = k then (k, v) :: m else e :: set m k v

/-- `delete(m, k)` -/
def delete (m : GoMap K V) (k : K) : GoMap K V := m.filter fun e => e.1 ≠ k

/-- Entries have distinct keys. -/
def WF (m : GoMap K V) : Prop := (m.map (·.1)).Nodup

theorem get_nil (k : K) : get ([] : GoMap K V) k = none := rfl

theorem get_cons (e : K × V) (m : GoMap K V) (k : K) :
    get (e :: m) k = if e.1 = k then some e.2 else get m k := by
  by_cases h : e.1 = k <;> simp [get, h]

theorem get_set (m : GoMap K V) (k k' : K) (v : V) :
    get (set m k v) k' = if k = k' then some v else get m k' := by
  induction m with
  | nil => simp [set, get_cons, get_nil]
  | cons e m ih =>
    simp only [set]
    by_cases h : e.1 = k
    · rw [if_pos h, get_cons, get_cons, h]
      by_cases h2 : k = k' <;> simp [h2]
    · rw [if_neg h, get_cons, get_cons, ih]
      by_cases h2 : k = k'
      · subst h2; simp [h]
      · simp [h2]

theorem get_delete (m : GoMap K V) (k k' : K) :
    get (delete m k) k' = if k = k' then none else get m k' := by
  induction m with
  | nil => simp [delete, get_nil]
  | cons e m ih =>
    have hd : delete (e :: m) k = if e.1 = k then delete m k else e :: delete m k := by
      by_cases h : e.1 = k <;> simp [delete, h]
    rw [hd]
    by_cases h : e.1 = k
    · rw [if_pos h, ih, get_cons, h]
      by_cases h2 : k = k' <;> simp [h2]
    · rw [if_neg h, get_cons, get_cons, ih]
      by_cases h2 : k = k'
      · subst h2; simp [h]
      · simp [h2]

theorem mem_keys_iff (m : GoMap K V) (k : K) : k ∈ m.map (·.1) ↔ (get m k).isSome := by
  induction m with
  | nil => simp [get_nil]
  | cons e m ih =>
    rw [get_cons, List.map_cons, List.mem_cons, ih]
    by_cases h : e.1 = k
    · simp [h]
    · simp [h, Ne.symm h]

theorem mem_iff (m : GoMap K V) (hw : WF m) (k : K) (v : V) : (k, v) ∈ m ↔ get m k = some v := by
  induction m with
  | nil => simp [get_nil]
  | cons e m ih =>
    obtain ⟨a, b⟩ := e
    simp only [WF, List.map_cons, List.nodup_cons] at hw
    rw [get_cons, List.mem_cons, ih hw.2]
    by_cases h : a = k
    · subst h
      have : get m a = none := by
        have := (mem_keys_iff m a).not.1 hw.1
        simpa using this
      simp [this, eq_comm]
    · simp [h, Ne.symm h]

theorem keys_set (m : GoMap K V) (k : K) (v : V) :
    (set m k v).map (·.1) = if (get m k).isSome then m.map (·.1) else m.map (·.1) ++ [k] := by
  induction m with
  | nil => simp [set, get_nil]
  | cons e m ih =>
    simp only [set, get_cons]
    by_cases h : e.1 = k
    · simp [h]
    · simp only [h, if_false, List.map_cons, ih]
      split <;> simp

omit [DecidableEq K] in
theorem wf_nil : WF ([] : GoMap K V) := by simp [WF]

theorem wf_set {m : GoMap K V} (hw : WF m) (k : K) (v : V) : WF (set m k v) := by
  unfold WF at *
  rw [keys_set]
  split
  · exact hw
  · rename_i h
    rw [← mem_keys_iff] at h
    rw [List.nodup_append]
    refine ⟨hw, by simp, ?_⟩
    intro a ha b hb
    simp at hb; subst hb
    rintro rfl; exact h ha

theorem wf_delete {m : GoMap K V} (hw : WF m) (k : K) : WF (delete m k) := by
  unfold WF at *
  exact hw.sublist ((List.filter_sublist).map _)

/-- Assigning an absent key adds one entry. -/
theorem set_absent {m : GoMap K V} {k : K} (h : get m k = none) (v : V) : set m k v = m ++ [(k, v)] := by
  induction m with
  | nil => rfl
  | cons e m ih =>
    rw [get_cons] at h
    by_cases h2 : e.1 = k
    · simp [h2] at h
    · simp only [set, h2, if_false, List.cons_append]
      rw [ih (by simpa [h2] using h)]

end GoMap
end Verif
