import Verif.Map.LinkedLemmas

/-! C13, C14: the linked hash map. -/

set_option linter.unusedSectionVars false

namespace Verif.Map.Linked
open DLL
variable {K V : Type} [DecidableEq K] [Inhabited K] [Inhabited V]

/-- Value of a key in a list of entries. -/
def look (l : List (K × V)) (k : K) : Option V := (l.find? fun e => e.1 = k).map (·.2)

/-- The entries with another key. -/
def without (l : List (K × V)) (k : K) : List (K × V) := l.filter fun e => e.1 ≠ k

/-- The entries with the value of `k` replaced. -/
def assign (l : List (K × V)) (k : K) (v : V) : List (K × V) :=
  l.map fun e => if e.1 = k then (k, v) else e

/-- The specification of C14: the list of entries in order. -/
def spec (l : List (K × V)) : Op K V → List (K × V) × Res K V
  | .setBack k v => (without l k ++ [(k, v)], .bool (look l k).isSome)
  | .setFront k v => ((k, v) :: without l k, .bool (look l k).isSome)
  | .pushBack k v => if (look l k).isSome then (l, .bool false) else (l ++ [(k, v)], .bool true)
  | .pushFront k v => if (look l k).isSome then (l, .bool false) else ((k, v) :: l, .bool true)
  | .get k => (l, .val (look l k))
  | .set k v => (assign l k v, .bool (look l k).isSome)
  | .upsert k v =>
    if (look l k).isSome then (assign l k v, .bool true) else (l ++ [(k, v)], .bool false)
  | .clear => ([], .unit)
  | .remove k => (without l k, .val (look l k))
  | .empty => (l, .bool l.isEmpty)
  | .len => (l, .nat l.length)
  | .keys => (l, .keys (l.map (·.1)))
  | .values => (l, .values (l.map (·.2)))
  | .slices => (l, .slices l)

theorem look_none {l : List (K × V)} {k : K} : look l k = none ↔ k ∉ l.map (·.1) := by
  simp only [look, Option.map_eq_none_iff, List.find?_eq_none, List.mem_map, not_exists, not_and,
    decide_eq_true_eq]

theorem without_absent {l : List (K × V)} {k : K} (h : k ∉ l.map (·.1)) : without l k = l := by
  unfold without
  rw [List.filter_eq_self]
  intro e he
  simp only [ne_eq, decide_eq_true_eq]
  rintro rfl
  exact h (List.mem_map_of_mem he)

theorem assign_absent {l : List (K × V)} {k : K} {v : V} (h : k ∉ l.map (·.1)) :
    assign l k v = l := by
  unfold assign
  conv_rhs => rw [← List.map_id l]
  apply List.map_congr_left
  intro e he
  rw [if_neg]
  · rfl
  · rintro rfl; exact h (List.mem_map_of_mem he)

theorem at_split {l₁ l₂ : List (K × V)} {k : K} {w : V}
    (nd : ((l₁ ++ (k, w) :: l₂).map (·.1)).Nodup) :
    look (l₁ ++ (k, w) :: l₂) k = some w ∧ without (l₁ ++ (k, w) :: l₂) k = l₁ ++ l₂ ∧
    ∀ v, assign (l₁ ++ (k, w) :: l₂) k v = l₁ ++ (k, v) :: l₂ := by
  simp only [List.map_append, List.map_cons, List.nodup_append, List.nodup_cons] at nd
  have h2 : k ∉ l₂.map (·.1) := nd.2.1.1
  have h1 : k ∉ l₁.map (·.1) := fun h => nd.2.2 k h k (by simp) rfl
  refine ⟨?_, ?_, ?_⟩
  · have := look_none.2 h1
    unfold look at this ⊢
    rw [Option.map_eq_none_iff] at this
    simp [List.find?_append, this]
  · have e1 := without_absent h1
    have e2 := without_absent h2
    unfold without at *
    rw [List.filter_append, e1, List.filter_cons_of_neg (by simp), e2]
  · intro v
    have e1 := assign_absent (v := v) h1
    have e2 := assign_absent (v := v) h2
    unfold assign at *
    rw [List.map_append, e1, List.map_cons, e2]
    simp

theorem LHM.step_ok (m : LHM K V) (l : List (K × V)) (o : Op K V)
    (hR : ∃ ids, m.Inv ids ∧ vals m.h ids = l) :
    ∃ m', m.step o = some (m', (spec l o).2) ∧
      ∃ ids, m'.Inv ids ∧ vals m'.h ids = (spec l o).1 := by
  obtain ⟨ids, hi, rfl⟩ := hR
  have hlen : m.hmap.length = (vals m.h ids).length := by
    rw [hi.map.length_eq]; simp [vals]
  -- the two situations of a key
  have key : ∀ k, (m.hmap.get k = none ∧ look (vals m.h ids) k = none ∧
        without (vals m.h ids) k = vals m.h ids ∧ ∀ v, assign (vals m.h ids) k v = vals m.h ids) ∨
      ∃ l₁ a l₂, m.hmap.get k = some a ∧ ids = l₁ ++ a :: l₂ ∧ (m.h a).val.1 = k ∧
        look (vals m.h ids) k = some (m.h a).val.2 ∧
        without (vals m.h ids) k = vals m.h (l₁ ++ l₂) ∧
        ∀ v, assign (vals m.h ids) k v = vals (m.h.setVal a (k, v)) ids := by
    intro k
    cases hg : m.hmap.get k with
    | none =>
      have hn := hi.get_none.1 hg
      exact .inl ⟨rfl, look_none.2 hn, without_absent hn, fun v => assign_absent hn⟩
    | some a =>
      obtain ⟨l₁, l₂, e, hk⟩ := hi.split hg
      right
      have ev : vals m.h ids = vals m.h l₁ ++ (k, (m.h a).val.2) :: vals m.h l₂ := by
        rw [e]; simp [vals, ← hk]
      have nd : ((vals m.h ids).map (·.1)).Nodup := by
        simpa [vals, Function.comp_def] using hi.keys
      rw [ev] at nd ⊢
      obtain ⟨h1, h2, h3⟩ := at_split nd
      refine ⟨l₁, a, l₂, rfl, e, hk, h1, ?_, ?_⟩
      · rw [h2]; simp [vals]
      · intro v
        rw [h3, e]
        have hna : a ∉ l₁ ++ l₂ := by
          have := hi.nodup
          rw [e] at this
          intro h
          exact (nodup_drop this).2 (by simp at h ⊢; tauto)
        have hc : ∀ l : List Nat, a ∉ l → vals (m.h.setVal a (k, v)) l = vals m.h l := by
          intro l hl
          apply vals_congr
          intro b hb
          have hba : b ≠ a := by rintro rfl; exact hl hb
          simp [val_setVal, hba]
        have c1 := hc l₁ (fun h => hna (by simp [h]))
        have c2 := hc l₂ (fun h => hna (by simp [h]))
        unfold vals at c1 c2 ⊢
        rw [List.map_append, List.map_cons, c1, c2]
        simp [val_setVal]
  cases o with
  | setBack k v =>
    rcases key k with ⟨hg, h1, h2, h3⟩ | ⟨l₁, a, l₂, hg, e, hk, h1, h2, h3⟩
    · obtain ⟨i, j⟩ := LHM.newBack_inv hi k v hg
      exact ⟨m.newBack k v, by simp [step, setBack, hg, spec, h1], _, i, by simp [spec, h2, j]⟩
    · rw [e] at hi
      obtain ⟨m', i, j, k⟩ := LHM.setBack_some v hi hk
      exact ⟨m', by simp [step, i, spec, h1], _, j, by simp only [spec, h2, k]⟩
  | setFront k v =>
    rcases key k with ⟨hg, h1, h2, h3⟩ | ⟨l₁, a, l₂, hg, e, hk, h1, h2, h3⟩
    · obtain ⟨i, j⟩ := LHM.newFront_inv hi k v hg
      exact ⟨m.newFront k v, by simp [step, setFront, hg, spec, h1], _, i, by simp [spec, h2, j]⟩
    · rw [e] at hi
      obtain ⟨m', i, j, k⟩ := LHM.setFront_some v hi hk
      exact ⟨m', by simp [step, i, spec, h1], _, j, by simp only [spec, h2, k]⟩
  | pushBack k v =>
    rcases key k with ⟨hg, h1, h2, h3⟩ | ⟨l₁, a, l₂, hg, e, hk, h1, h2, h3⟩
    · obtain ⟨i, j⟩ := LHM.newBack_inv hi k v hg
      exact ⟨m.newBack k v, by simp [step, hg, spec, h1], _, i, by simp [spec, h1, j]⟩
    · exact ⟨m, by simp [step, hg, spec, h1], ids, hi, by simp [spec, h1]⟩
  | pushFront k v =>
    rcases key k with ⟨hg, h1, h2, h3⟩ | ⟨l₁, a, l₂, hg, e, hk, h1, h2, h3⟩
    · obtain ⟨i, j⟩ := LHM.newFront_inv hi k v hg
      exact ⟨m.newFront k v, by simp [step, hg, spec, h1], _, i, by simp [spec, h1, j]⟩
    · exact ⟨m, by simp [step, hg, spec, h1], ids, hi, by simp [spec, h1]⟩
  | get k =>
    rcases key k with ⟨hg, h1, h2, h3⟩ | ⟨l₁, a, l₂, hg, e, hk, h1, h2, h3⟩
    · exact ⟨m, by simp [step, hg, spec, h1], ids, hi, by simp [spec]⟩
    · exact ⟨m, by simp [step, hg, spec, h1], ids, hi, by simp [spec]⟩
  | set k v =>
    rcases key k with ⟨hg, h1, h2, h3⟩ | ⟨l₁, a, l₂, hg, e, hk, h1, h2, h3⟩
    · exact ⟨m, by simp [step, hg, spec, h1], ids, hi, by simp [spec, h3]⟩
    · exact ⟨_, by simp only [step, hg, spec, h1]; rfl, ids, LHM.setVal_inv hi v hg,
        by simp only [spec, h3]⟩
  | upsert k v =>
    rcases key k with ⟨hg, h1, h2, h3⟩ | ⟨l₁, a, l₂, hg, e, hk, h1, h2, h3⟩
    · obtain ⟨i, j⟩ := LHM.newBack_inv hi k v hg
      exact ⟨m.newBack k v, by simp [step, hg, spec, h1], _, i, by simp [spec, h1, j]⟩
    · exact ⟨{ m with h := m.h.setVal a (k, v) }, by simp [step, hg, spec, h1], ids,
        LHM.setVal_inv hi v hg, by simp [spec, h1, h3]⟩
  | clear => exact ⟨m.clear, rfl, [], LHM.clear_inv hi, rfl⟩
  | remove k =>
    rcases key k with ⟨hg, h1, h2, h3⟩ | ⟨l₁, a, l₂, hg, e, hk, h1, h2, h3⟩
    · exact ⟨m, by simp [step, remove, hg, spec, h1], ids, hi, by simp [spec, h2]⟩
    · rw [e] at hi
      obtain ⟨m', i, j, k⟩ := LHM.remove_some hi hk
      exact ⟨m', by simp [step, i, spec, h1], _, j, by simp only [spec, h2, k]⟩
  | empty =>
    refine ⟨m, ?_, ids, hi, rfl⟩
    simp only [step, spec, hlen]
    cases vals m.h ids <;> rfl
  | len => exact ⟨m, by simp [step, spec, hlen], ids, hi, rfl⟩
  | keys => exact ⟨m, by simp [step, spec, LHM.entries_eq hi], ids, hi, rfl⟩
  | values => exact ⟨m, by simp [step, spec, LHM.entries_eq hi], ids, hi, rfl⟩
  | slices => exact ⟨m, by simp [step, spec, LHM.entries_eq hi], ids, hi, rfl⟩

/-- C14: every history of the linked hash map gives the results of the ordered list of entries. -/
theorem C14_linkedhashmap_order (os : List (Op K V)) :
    ∃ m, run LHM.step (LHM.new : LHM K V) os = some (m, (runSpec spec [] os).2) := by
  suffices H : _ from
    (run_refines (fun (m : LHM K V) l => ∃ ids, m.Inv ids ∧ vals m.h ids = l) H os LHM.new []
      ⟨[], LHM.new_inv, rfl⟩).imp fun _ h => h.1
  intro m l o hR
  exact LHM.step_ok m l o hR

/-! ### C13 -/

/-- The specification of C13, over a partial function; `Keys`, `Values` and `Slices` in any
order. -/
inductive MSpec : (K → Option V) → Op K V → Res K V → (K → Option V) → Prop
  | setBack (f : K → Option V) (k : K) (v : V) :
      MSpec f (.setBack k v) (.bool (f k).isSome) (fun x => if x = k then some v else f x)
  | setFront (f : K → Option V) (k : K) (v : V) :
      MSpec f (.setFront k v) (.bool (f k).isSome) (fun x => if x = k then some v else f x)
  | pushBackNew (f : K → Option V) (k : K) (v : V) : f k = none →
      MSpec f (.pushBack k v) (.bool true) (fun x => if x = k then some v else f x)
  | pushBackOld (f : K → Option V) (k : K) (v : V) : f k ≠ none →
      MSpec f (.pushBack k v) (.bool false) f
  | pushFrontNew (f : K → Option V) (k : K) (v : V) : f k = none →
      MSpec f (.pushFront k v) (.bool true) (fun x => if x = k then some v else f x)
  | pushFrontOld (f : K → Option V) (k : K) (v : V) : f k ≠ none →
      MSpec f (.pushFront k v) (.bool false) f
  | get (f : K → Option V) (k : K) : MSpec f (.get k) (.val (f k)) f
  | setNew (f : K → Option V) (k : K) (v : V) : f k = none → MSpec f (.set k v) (.bool false) f
  | setOld (f : K → Option V) (k : K) (v : V) : f k ≠ none →
      MSpec f (.set k v) (.bool true) (fun x => if x = k then some v else f x)
  | upsert (f : K → Option V) (k : K) (v : V) :
      MSpec f (.upsert k v) (.bool (f k).isSome) (fun x => if x = k then some v else f x)
  | clear (f : K → Option V) : MSpec f .clear .unit (fun _ => none)
  | remove (f : K → Option V) (k : K) :
      MSpec f (.remove k) (.val (f k)) (fun x => if x = k then none else f x)
  | empty (f : K → Option V) (b : Bool) : (b = true ↔ ∀ k, f k = none) →
      MSpec f .empty (.bool b) f
  | len (f : K → Option V) (ks : List K) : ks.Nodup → (∀ k, k ∈ ks ↔ (f k).isSome) →
      MSpec f .len (.nat ks.length) f
  | keys (f : K → Option V) (ks : List K) : ks.Nodup → (∀ k, k ∈ ks ↔ (f k).isSome) →
      MSpec f .keys (.keys ks) f
  | values (f : K → Option V) (ks : List K) : ks.Nodup → (∀ k, k ∈ ks ↔ (f k).isSome) →
      MSpec f .values (.values (ks.filterMap f)) f
  | slices (f : K → Option V) (l : List (K × V)) : (l.map (·.1)).Nodup →
      (∀ k v, (k, v) ∈ l ↔ f k = some v) → MSpec f .slices (.slices l) f

theorem look_isSome {l : List (K × V)} {k : K} : k ∈ l.map (·.1) ↔ (look l k).isSome := by
  rw [← not_iff_not, ← look_none]
  cases look l k <;> simp

theorem look_mem {l : List (K × V)} (nd : (l.map (·.1)).Nodup) {k : K} {v : V} :
    (k, v) ∈ l ↔ look l k = some v := GoMap.mem_iff l nd k v

theorem look_snoc {l : List (K × V)} {k : K} {v : V} (x : K) :
    look (l ++ [(k, v)]) x = (look l x).or (if x = k then some v else none) := by
  unfold look
  rw [List.find?_append]
  cases hl : l.find? fun e => e.1 = x with
  | some e => simp
  | none => by_cases e : x = k <;> simp [e, Ne.symm]

theorem look_cons {l : List (K × V)} {k : K} {v : V} (x : K) :
    look ((k, v) :: l) x = if x = k then some v else look l x := by
  unfold look
  rw [List.find?_cons]
  by_cases e : x = k <;> simp [e, Ne.symm]

theorem look_without {l : List (K × V)} {k : K} (x : K) :
    look (without l k) x = if x = k then none else look l x := by
  rw [show look (without l k) x = GoMap.get (GoMap.delete l k) x from rfl, GoMap.get_delete]
  by_cases e : x = k <;> simp [e, Ne.symm, look, GoMap.get]

theorem look_assign {l : List (K × V)} {k : K} {v : V} (h : (look l k).isSome) (x : K) :
    look (assign l k v) x = if x = k then some v else look l x := by
  induction l with
  | nil => simp [look] at h
  | cons e l ih =>
    obtain ⟨k', w⟩ := e
    by_cases hk : k' = k
    · subst hk
      simp only [assign, List.map_cons, if_true]
      rw [look_cons, look_cons]
      by_cases hx : x = k'
      · simp [hx]
      · simp only [hx, if_false]
        by_cases hl : (look l k').isSome
        · have := ih hl
          rw [if_neg hx] at this
          exact this
        · have := assign_absent (l := l) (k := k') (v := v) (by rw [look_isSome]; exact hl)
          unfold assign at this
          rw [this]
    · have hl : (look l k).isSome := by
        rw [look_cons] at h
        simpa [Ne.symm hk] using h
      have := ih hl
      simp only [assign, List.map_cons, hk, if_false] at this ⊢
      rw [look_cons, look_cons, this]
      by_cases hx : x = k'
      · subst hx; simp [hk]
      · simp [hx]

theorem nodup_without {l : List (K × V)} (nd : (l.map (·.1)).Nodup) (k : K) :
    ((without l k).map (·.1)).Nodup :=
  nd.sublist ((List.filter_sublist).map _)

theorem spec_nodup {l : List (K × V)} (nd : (l.map (·.1)).Nodup) (o : Op K V) :
    (((spec l o).1).map (·.1)).Nodup := by
  have hw : ∀ k, k ∉ (without l k).map (·.1) := by
    intro k; rw [look_isSome, look_without]; simp
  have hs : ∀ (l : List (K × V)) (k : K) (v : V), (l.map (·.1)).Nodup → k ∉ l.map (·.1) →
      ((l ++ [(k, v)]).map (·.1)).Nodup := by
    intro l k v h1 h2
    rw [List.map_append, List.nodup_append]
    refine ⟨h1, by simp, ?_⟩
    intro a ha b hb
    simp at hb; subst hb
    rintro rfl; exact h2 ha
  have ha : ∀ k v, ((assign l k v).map (·.1)).Nodup := by
    intro k v
    have : (assign l k v).map (·.1) = l.map (·.1) := by
      simp only [assign, List.map_map]
      apply List.map_congr_left
      intro e _
      by_cases h : e.1 = k <;> simp [h]
    rw [this]; exact nd
  have hl : ∀ k, ¬ (look l k).isSome → k ∉ l.map (·.1) := fun k h => by rwa [look_isSome]
  cases o with
  | setBack k v => exact hs _ k v (nodup_without nd k) (hw k)
  | setFront k v => exact List.nodup_cons.2 ⟨hw k, nodup_without nd k⟩
  | pushBack k v =>
    simp only [spec]
    split
    · exact nd
    · rename_i h; exact hs l k v nd (hl k h)
  | pushFront k v =>
    simp only [spec]
    split
    · exact nd
    · rename_i h; exact List.nodup_cons.2 ⟨hl k h, nd⟩
  | upsert k v =>
    simp only [spec]
    split
    · exact ha k v
    · rename_i h; exact hs l k v nd (hl k h)
  | set k v => exact ha k v
  | remove k => exact nodup_without nd k
  | clear => simp [spec]
  | _ => exact nd

theorem spec_mspec {l : List (K × V)} (nd : (l.map (·.1)).Nodup) (o : Op K V) :
    MSpec (look l) o (spec l o).2 (look (spec l o).1) := by
  have hsn : ∀ k v, look l k = none →
      look (l ++ [(k, v)]) = fun x => if x = k then some v else look l x := by
    intro k v h; funext x; rw [look_snoc]
    by_cases e : x = k
    · subst e; simp [h]
    · simp [e]
  cases o with
  | setBack k v =>
    have : look (without l k ++ [(k, v)]) = fun x => if x = k then some v else look l x := by
      funext x; rw [look_snoc, look_without]; by_cases e : x = k <;> simp [e]
    simp only [spec, this]; exact .setBack _ k v
  | setFront k v =>
    have : look ((k, v) :: without l k) = fun x => if x = k then some v else look l x := by
      funext x; rw [look_cons, look_without]; by_cases e : x = k <;> simp [e]
    simp only [spec, this]; exact .setFront _ k v
  | pushBack k v =>
    cases h : look l k with
    | none => simp only [spec, h, Option.isSome_none, Bool.false_eq_true, if_false, hsn k v h]; exact .pushBackNew _ k v h
    | some w => simp only [spec, h]; exact .pushBackOld _ k v (by simp [h])
  | pushFront k v =>
    cases h : look l k with
    | none =>
      have : look ((k, v) :: l) = fun x => if x = k then some v else look l x := by
        funext x; rw [look_cons]
      simp only [spec, h, Option.isSome_none, Bool.false_eq_true, if_false, this]; exact .pushFrontNew _ k v h
    | some w => simp only [spec, h]; exact .pushFrontOld _ k v (by simp [h])
  | get k => exact .get _ k
  | set k v =>
    cases h : look l k with
    | none =>
      simp only [spec, h, assign_absent (look_none.1 h)]; exact .setNew _ k v h
    | some w =>
      simp only [spec, h, funext (look_assign (l := l) (k := k) (v := v) (by simp [h]))]
      exact .setOld _ k v (by simp [h])
  | upsert k v =>
    have := MSpec.upsert (look l) k v
    cases h : look l k with
    | none => simp only [spec, h, Option.isSome_none, Bool.false_eq_true, if_false, hsn k v h]; rw [h] at this; exact this
    | some w =>
      simp only [spec, h, Option.isSome_some, if_true,
        funext (look_assign (l := l) (k := k) (v := v) (by simp [h]))]
      rw [h] at this; exact this
  | clear => exact .clear _
  | remove k =>
    have : look (without l k) = fun x => if x = k then none else look l x := by
      funext x; rw [look_without]
    simp only [spec, this]; exact .remove _ k
  | empty =>
    refine .empty _ _ ?_
    cases l with
    | nil => simp [look]
    | cons e l =>
      simp only [List.isEmpty_cons, Bool.false_eq_true, false_iff, not_forall]
      exact ⟨e.1, by rw [look_cons]; simp⟩
  | len =>
    have := MSpec.len (look l) (l.map (·.1)) nd fun k => look_isSome
    simpa [spec] using this
  | keys => exact .keys _ _ nd fun k => look_isSome
  | values =>
    have := MSpec.values (look l) (l.map (·.1)) nd fun k => look_isSome
    have e : (l.map (·.1)).filterMap (look l) = l.map (·.2) := by
      rw [List.filterMap_map]
      have : ∀ e ∈ l, (look l ∘ fun e => e.1) e = some e.2 := fun e he => (look_mem nd).1 he
      rw [List.filterMap_congr this]
      simp
    rw [e] at this
    exact this
  | slices => exact .slices _ _ nd fun k v => look_mem nd

/-- C13: every history of the linked hash map gives results allowed by an ideal finite map. -/
theorem C13_linkedhashmap_map (os : List (Op K V)) :
    ∃ m rs f, run LHM.step (LHM.new : LHM K V) os = some (m, rs) ∧
      Trace MSpec (fun _ => none) os rs f := by
  obtain ⟨m, rs, f, h1, h2, -⟩ := run_refines_rel
    (fun (m : LHM K V) f => ∃ ids, m.Inv ids ∧ ((vals m.h ids).map (·.1)).Nodup ∧
      look (vals m.h ids) = f)
    (by
      rintro m f o ⟨ids, hi, nd, rfl⟩
      obtain ⟨m', hs, ids', hi', hv⟩ := LHM.step_ok m (vals m.h ids) o ⟨ids, hi, rfl⟩
      refine ⟨m', _, _, hs, spec_mspec nd o, ids', hi', ?_, ?_⟩
      · rw [hv]; exact spec_nodup nd o
      · rw [hv]) os LHM.new (fun _ => none) ⟨[], LHM.new_inv, by simp [vals], by funext k; rfl⟩
  exact ⟨m, rs, f, h1, h2⟩

/-- Non-vacuity: a history that relinks at both ends and in the middle. -/
example : ((run LHM.step (LHM.new : LHM Nat Nat)
    [.pushBack 1 10, .pushBack 2 20, .pushFront 3 30, .setBack 1 11, .setFront 2 21, .remove 3,
     .upsert 1 12, .setFront 1 13, .slices]).map (·.2.getLast?)) =
    some (some (.slices [(1, 13), (2, 21)])) := by decide

end Verif.Map.Linked
