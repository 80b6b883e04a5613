import Verif.Map.HashModel

/-! C11, C12: the hash map and hash set wrappers. -/

namespace Verif.Map
variable {K V : Type} [DecidableEq K]

/-- `ks` lists the keys of the finite map `f`, each once. -/
def Enumerates (f : K → Option V) (ks : List K) : Prop := ks.Nodup ∧ ∀ k, k ∈ ks ↔ (f k).isSome

/-- The API contract over a partial function. -/
inductive Spec : (K → Option V) → Op K V → Res K V → (K → Option V) → Prop
  | putNew (f : K → Option V) (k : K) (v : V) : f k = none →
      Spec f (.put k v) (.bool true) (fun x => if x = k then some v else f x)
  | putOld (f : K → Option V) (k : K) (v : V) : f k ≠ none → Spec f (.put k v) (.bool false) f
  | set (f : K → Option V) (k : K) (v : V) :
      Spec f (.set k v) .unit (fun x => if x = k then some v else f x)
  | upsert (f : K → Option V) (k : K) (v : V) :
      Spec f (.upsert k v) (.bool (f k).isSome) (fun x => if x = k then some v else f x)
  | get (f : K → Option V) (k : K) : Spec f (.get k) (.val (f k)) f
  | remove (f : K → Option V) (k : K) : Spec f (.remove k) .unit (fun x => if x = k then none else f x)
  | delete (f : K → Option V) (k : K) :
      Spec f (.delete k) (.val (f k)) (fun x => if x = k then none else f x)
  | empty (f : K → Option V) (b : Bool) : (b = true ↔ ∀ k, f k = none) → Spec f .empty (.bool b) f
  | len (f : K → Option V) (ks : List K) : Enumerates f ks → Spec f .len (.nat ks.length) f
  | keys (f : K → Option V) (ks : List K) : Enumerates f ks → Spec f .keys (.keys ks) f
  | values (f : K → Option V) (ks : List K) : Enumerates f ks →
      Spec f .values (.values (ks.filterMap f)) f
  | slices (f : K → Option V) (l : List (K × V)) : Enumerates f (l.map (·.1)) →
      (∀ k v, (k, v) ∈ l ↔ f k = some v) → Spec f .slices (.slices l) f
  | clear (f : K → Option V) : Spec f .clear .unit (fun _ => none)

theorem enumerates_of (m : GoMap K V) (hw : m.WF) {l : List (K × V)} (hp : l.Perm m) :
    Enumerates m.get (l.map (·.1)) := by
  refine ⟨(hp.map _).nodup_iff.2 hw, ?_⟩
  intro k
  rw [(hp.map _).mem_iff, GoMap.mem_keys_iff]

theorem filterMap_get (m : GoMap K V) (hw : m.WF) (l : List (K × V)) (h : ∀ e ∈ l, e ∈ m) :
    (l.map (·.1)).filterMap m.get = l.map (·.2) := by
  induction l with
  | nil => rfl
  | cons e l ih =>
    have : m.get e.1 = some e.2 := (GoMap.mem_iff m hw e.1 e.2).1 (h e (by simp))
    simp [this]
    simpa using ih fun e he => h e (by simp [he])

theorem HM.step_ok (ro : RangeOrder (K × V)) (m : GoMap K V) (f : K → Option V) (o : Op K V)
    (hR : m.WF ∧ m.get = f) :
    ∃ m' r f', HM.step ro m o = some (m', r) ∧ Spec f o r f' ∧ m'.WF ∧ m'.get = f' := by
  obtain ⟨hw, rfl⟩ := hR
  have hset : ∀ k v, (m.set k v).get = fun x => if x = k then some v else m.get x := by
    intro k v; funext x; rw [GoMap.get_set]; by_cases h : x = k <;> simp [h, Ne.symm]
  have hdel : ∀ k, (m.delete k).get = fun x => if x = k then none else m.get x := by
    intro k; funext x; rw [GoMap.get_delete]; by_cases h : x = k <;> simp [h, Ne.symm]
  cases o with
  | put k v =>
    cases hg : m.get k with
    | none =>
      exact ⟨m.set k v, _, _, by simp [HM.step, hg], .putNew _ k v hg, GoMap.wf_set hw k v, hset k v⟩
    | some w =>
      exact ⟨m, _, _, by simp [HM.step, hg], .putOld _ k v (by simp [hg]), hw, rfl⟩
  | set k v => exact ⟨_, _, _, rfl, .set _ k v, GoMap.wf_set hw k v, hset k v⟩
  | upsert k v => exact ⟨_, _, _, rfl, .upsert _ k v, GoMap.wf_set hw k v, hset k v⟩
  | get k => exact ⟨_, _, _, rfl, .get _ k, hw, rfl⟩
  | remove k => exact ⟨_, _, _, rfl, .remove _ k, GoMap.wf_delete hw k, hdel k⟩
  | delete k =>
    cases hg : m.get k with
    | none =>
      refine ⟨m, .val none, fun x => if x = k then none else m.get x, by simp [HM.step, hg],
        ?_, hw, ?_⟩
      · have := Spec.delete m.get k
        rwa [hg] at this
      · funext x; by_cases h : x = k <;> simp [h, hg]
    | some w =>
      refine ⟨m.delete k, .val (some w), _, by simp [HM.step, hg], ?_, GoMap.wf_delete hw k, hdel k⟩
      rw [← hg]; exact .delete _ k
  | empty =>
    refine ⟨_, _, _, rfl, .empty _ _ ?_, hw, rfl⟩
    cases m with
    | nil => simp [GoMap.get_nil]
    | cons e m =>
      simp only [List.length_cons, beq_iff_eq, Nat.add_one_ne_zero, false_iff, not_forall]
      exact ⟨e.1, by simp [GoMap.get_cons]⟩
  | len =>
    refine ⟨_, _, _, rfl, ?_, hw, rfl⟩
    have := Spec.len m.get _ (enumerates_of m hw (List.Perm.refl m))
    simpa using this
  | keys => exact ⟨_, _, _, rfl, .keys _ _ (enumerates_of m hw (ro.perm m)), hw, rfl⟩
  | values =>
    refine ⟨_, _, _, rfl, ?_, hw, rfl⟩
    rw [← filterMap_get m hw (ro.order m) fun e he => (ro.perm m).subset he]
    exact .values _ _ (enumerates_of m hw (ro.perm m))
  | slices =>
    refine ⟨_, _, _, rfl, .slices _ _ (enumerates_of m hw (ro.perm m)) ?_, hw, rfl⟩
    intro k v
    rw [(ro.perm m).mem_iff, GoMap.mem_iff m hw]
  | clear => exact ⟨_, _, _, rfl, .clear _, GoMap.wf_nil, rfl⟩

/-- C11: every history of the hash map gives results allowed by the API contract, whatever order
the runtime iterates in. -/
theorem C11_hashmap_contract (ro : RangeOrder (K × V)) (os : List (Op K V)) :
    ∃ m rs f, run (HM.step ro) ([] : GoMap K V) os = some (m, rs) ∧
      Trace Spec (fun _ => none) os rs f := by
  obtain ⟨m, rs, f, h1, h2, -⟩ := run_refines_rel (fun m f => GoMap.WF m ∧ GoMap.get m = f)
    (fun m f o hR => HM.step_ok ro m f o hR) os [] (fun _ => none) ⟨GoMap.wf_nil, rfl⟩
  exact ⟨m, rs, f, h1, h2⟩

/-- Non-vacuity: a runtime iterating backwards. -/
def backwards {E : Type} : RangeOrder E := ⟨List.reverse, fun l => List.reverse_perm l⟩

example : (run (HM.step backwards) ([] : GoMap Nat Nat)
    [.put 1 10, .put 1 11, .upsert 2 20, .upsert 2 21, .keys, .delete 1, .get 2]).map (·.1) =
    some [(2, 21)] := by decide

/-! ### C12 -/

/-- The specification of the set, over a predicate. -/
inductive SSpec : (K → Prop) → SOp K → SRes K → (K → Prop) → Prop
  | add (p : K → Prop) (ks : List K) : SSpec p (.add ks) .unit (fun k => p k ∨ k ∈ ks)
  | remove (p : K → Prop) (ks : List K) : SSpec p (.remove ks) .unit (fun k => p k ∧ k ∉ ks)
  | contains (p : K → Prop) (k : K) (b : Bool) : (b = true ↔ p k) → SSpec p (.contains k) (.bool b) p
  | empty (p : K → Prop) (b : Bool) : (b = true ↔ ∀ k, ¬ p k) → SSpec p .empty (.bool b) p
  | size (p : K → Prop) (ks : List K) : ks.Nodup → (∀ k, k ∈ ks ↔ p k) →
      SSpec p .size (.nat ks.length) p
  | values (p : K → Prop) (ks : List K) : ks.Nodup → (∀ k, k ∈ ks ↔ p k) →
      SSpec p .values (.values ks) p
  | clear (p : K → Prop) : SSpec p .clear .unit (fun _ => False)

theorem HS.add_ok (ks : List K) : ∀ (m : GoMap K Unit), m.WF →
    GoMap.WF (ks.foldl HS.addOne m) ∧
    ∀ k, (GoMap.get (ks.foldl HS.addOne m) k).isSome ↔ (m.get k).isSome ∨ k ∈ ks := by
  induction ks with
  | nil => intro m hw; exact ⟨hw, by simp⟩
  | cons a ks ih =>
    intro m hw
    simp only [List.foldl_cons]
    cases hg : m.get a with
    | none =>
      rw [show HS.addOne m a = m.set a () by simp [HS.addOne, hg]]
      obtain ⟨h1, h2⟩ := ih (m.set a ()) (GoMap.wf_set hw a ())
      refine ⟨h1, fun k => ?_⟩
      rw [h2, GoMap.get_set]
      by_cases e : a = k
      · subst e; simp
      · simp [e, Ne.symm e]
    | some u =>
      rw [show HS.addOne m a = m by simp [HS.addOne, hg]]
      obtain ⟨h1, h2⟩ := ih m hw
      refine ⟨h1, fun k => ?_⟩
      rw [h2]
      by_cases e : a = k
      · subst e; simp [hg]
      · simp [Ne.symm e]

theorem HS.remove_ok (ks : List K) : ∀ (m : GoMap K Unit), m.WF →
    GoMap.WF (ks.foldl (fun m k => m.delete k) m) ∧
    ∀ k, (GoMap.get (ks.foldl (fun m k => m.delete k) m) k).isSome ↔ (m.get k).isSome ∧ k ∉ ks := by
  induction ks with
  | nil => intro m hw; exact ⟨hw, by simp⟩
  | cons a ks ih =>
    intro m hw
    simp only [List.foldl_cons]
    obtain ⟨h1, h2⟩ := ih (m.delete a) (GoMap.wf_delete hw a)
    refine ⟨h1, fun k => ?_⟩
    rw [h2, GoMap.get_delete]
    by_cases e : a = k
    · subst e; simp
    · simp [e, Ne.symm e]

theorem HS.step_ok (ro : RangeOrder (K × Unit)) (m : GoMap K Unit) (p : K → Prop) (o : SOp K)
    (hR : m.WF ∧ ∀ k, (m.get k).isSome ↔ p k) :
    ∃ m' r p', HS.step ro m o = some (m', r) ∧ SSpec p o r p' ∧ m'.WF ∧
      ∀ k, (m'.get k).isSome ↔ p' k := by
  obtain ⟨hw, hp⟩ := hR
  cases o with
  | add ks =>
    obtain ⟨h1, h2⟩ := HS.add_ok ks m hw
    exact ⟨_, _, _, rfl, .add p ks, h1, fun k => by rw [h2, hp]⟩
  | remove ks =>
    obtain ⟨h1, h2⟩ := HS.remove_ok ks m hw
    exact ⟨_, _, _, rfl, .remove p ks, h1, fun k => by rw [h2, hp]⟩
  | contains k =>
    refine ⟨m, _, p, rfl, .contains p k _ ?_, hw, hp⟩
    rw [← hp]
    cases m.get k <;> simp
  | empty =>
    refine ⟨m, _, p, rfl, .empty p _ ?_, hw, hp⟩
    cases m with
    | nil => simp [← hp, GoMap.get_nil]
    | cons e m =>
      simp only [List.length_cons, beq_iff_eq, Nat.add_one_ne_zero, false_iff, not_forall, not_not]
      exact ⟨e.1, by rw [← hp]; simp [GoMap.get_cons]⟩
  | size =>
    refine ⟨m, _, p, rfl, ?_, hw, hp⟩
    have := SSpec.size p (List.map (fun e : K × Unit => e.1) m) hw fun k => by
      rw [GoMap.mem_keys_iff, hp]
    simpa using this
  | values =>
    refine ⟨m, _, p, rfl, ?_, hw, hp⟩
    have h := enumerates_of m hw (ro.perm m)
    exact .values p _ h.1 fun k => by rw [h.2, hp]
  | clear => exact ⟨_, _, _, rfl, .clear p, GoMap.wf_nil, fun k => by simp [GoMap.get_nil]⟩

/-- C12: every history of the hash set behaves as a set. -/
theorem C12_hashset_set (ro : RangeOrder (K × Unit)) (os : List (SOp K)) :
    ∃ m rs p, run (HS.step ro) ([] : GoMap K Unit) os = some (m, rs) ∧
      Trace SSpec (fun _ => False) os rs p := by
  obtain ⟨m, rs, f, h1, h2, -⟩ := run_refines_rel
    (fun (m : GoMap K Unit) (p : K → Prop) => m.WF ∧ ∀ k, (m.get k).isSome ↔ p k)
    (fun m f o hR => HS.step_ok ro m f o hR) os [] (fun _ => False)
    ⟨GoMap.wf_nil, by simp [GoMap.get_nil]⟩
  exact ⟨m, rs, f, h1, h2⟩

example : (run (HS.step backwards) ([] : GoMap Nat Unit)
    [.add [1, 2, 1], .remove [2, 7], .contains 1]).map (·.1) = some [(1, ())] := by decide

end Verif.Map
