import Verif.Map.NanLemmas

/-! C110: the hash containers with keys that are not equal to themselves and keys that cannot be hashed. -/

namespace Verif.Map.Nan
variable {K V : Type} [DecidableEq K] (ks : Keys K)

/-! ### Contracts -/

/-- C110: every history of the hash map gives the answers of the API contract for the history in which every call with a
NaN has a key of its own and the refused calls are left out. -/
theorem C110_hashmap (ro : RangeOrder (K × V)) (os : List (Op K V)) :
    ∃ m rs f, run (hmStep ks ro) ([] : GoMap K V) os = some (m, List.zipWith (hmAns ks) os rs) ∧
      Trace Spec (fun _ => none) (number (hmTag ks) (fun _ => 1) 0 os) rs f := by
  obtain ⟨m, rs, f, h1, h2⟩ := C11_hashmap_contract (lift ro) (number (hmTag ks) (fun _ => 1) 0 os)
  have h3 := run_number (hmStep ks ro) (HM.step (lift ro)) (List.map un) (hmAns ks) (hmTag ks) (fun _ => 1)
    (fun n m => ∀ e ∈ m, Old ks n e.1) (hm_sim ks ro) os 0 [] (by simp)
  rw [h1] at h3
  exact ⟨_, rs, f, h3, h2⟩

/-- C110: the same for the hash set; of a call with several items those before the first one that cannot be hashed are
added or removed. -/
theorem C110_hashset (ro : RangeOrder (K × Unit)) (os : List (SOp K)) :
    ∃ m rs p, run (hsStep ks ro) ([] : GoMap K Unit) os = some (m, List.zipWith (hsAns ks) os rs) ∧
      Trace SSpec (fun _ => False) (number (hsTag ks) hsUse 0 os) rs p := by
  obtain ⟨m, rs, f, h1, h2⟩ := C12_hashset_set (lift ro) (number (hsTag ks) hsUse 0 os)
  have h3 := run_number (hsStep ks ro) (HS.step (lift ro)) (List.map un) (hsAns ks) (hsTag ks) hsUse
    (fun n m => ∀ e ∈ m, Old ks n e.1) (hs_sim ks ro) os 0 [] (by simp)
  rw [h1] at h3
  exact ⟨_, rs, f, h3, h2⟩

section linked
open DLL Linked
variable [Inhabited K] [Inhabited V]

theorem down_new : down (LHM.new : LHM (Tag K) V) = LHM.new := by
  simp only [down, LHM.new, List.map_nil]
  congr 1
  funext a
  by_cases e : a = 0 <;> simp [unH, e] <;> rfl

theorem linked_run (os : List (Linked.Op K V)) :
    ∃ m, run LHM.step (LHM.new : LHM (Tag K) V) (number (lhTag ks) (fun _ => 1) 0 os) =
        some (m, (runSpec spec [] (number (lhTag ks) (fun _ => 1) 0 os)).2) ∧
      run (lhStep ks) (LHM.new : LHM K V) os =
        some (down m, List.zipWith (lhAns ks) os (runSpec spec [] (number (lhTag ks) (fun _ => 1) 0 os)).2) := by
  obtain ⟨m, h1⟩ := C14_linkedhashmap_order (number (lhTag ks) (fun _ => 1) 0 os)
  have h3 := run_number (lhStep ks) LHM.step down (lhAns ks) (lhTag ks) (fun _ => 1)
    (fun n m => ∀ e ∈ m.hmap, Old ks n e.1) (lh_sim ks) os 0 LHM.new (by simp [LHM.new])
  rw [h1, down_new] at h3
  exact ⟨m, h1, h3⟩

/-- C110: the same for the linked hash map, with the order of the entries. -/
theorem C110_linkedhashmap (os : List (Linked.Op K V)) :
    ∃ m, run (lhStep ks) (LHM.new : LHM K V) os =
      some (m, List.zipWith (lhAns ks) os (runSpec spec [] (number (lhTag ks) (fun _ => 1) 0 os)).2) :=
  (linked_run ks os).imp' down fun _ h => h.2

end linked

/-! ### What becomes of NaNs -/

/-- The entries with a NaN after a call of the hash map, by the calls alone: each insertion adds one, only `Clear` takes
them out. -/
def hmNans (l : List (K × V)) : Op K V → List (K × V)
  | .put k v | .set k v | .upsert k v => if ks.nan k && !ks.bad k then l ++ [(k, v)] else l
  | .clear => []
  | _ => l

theorem get_nan (m : GoMap K V) {k : K} (h : ks.nan k = true) : get ks m k = none := by
  simp only [get, Option.map_eq_none_iff, List.find?_eq_none, Keys.eq]
  rintro e - hh
  simp only [Bool.and_eq_true, decide_eq_true_eq, Bool.not_eq_true'] at hh
  rw [hh.1, h] at hh
  exact absurd hh.2 (by decide)

theorem set_nans (k : K) (v : V) : ∀ m : GoMap K V, (set ks m k v).filter (fun e => ks.nan e.1) =
    m.filter (fun e => ks.nan e.1) ++ if ks.nan k then [(k, v)] else []
  | [] => by cases h : ks.nan k <;> simp [set, h]
  | e :: m => by
    simp only [set]
    split
    · rename_i hh
      simp only [Keys.eq, Bool.and_eq_true, decide_eq_true_eq, Bool.not_eq_true'] at hh
      obtain ⟨h1, h2⟩ := hh
      have h3 : ks.nan k = false := by rw [← h1]; exact h2
      simp [h2, h3]
    · have ih := set_nans k v m
      cases h : ks.nan e.1 <;> simp [h, ih]

theorem delete_nans (k : K) (m : GoMap K V) : (delete ks m k).filter (fun e => ks.nan e.1) =
    m.filter (fun e => ks.nan e.1) := by
  rw [delete, List.filter_filter]
  apply List.filter_congr
  intro e _
  simp only [Keys.eq]
  cases ks.nan e.1 <;> simp

theorem hm_nans (ro : RangeOrder (K × V)) (m : GoMap K V) (o : Op K V) :
    ∃ m' r, hmStep ks ro m o = some (m', r) ∧
      m'.filter (fun e => ks.nan e.1) = hmNans ks (m.filter fun e => ks.nan e.1) o := by
  by_cases hb : (hmKey o).any ks.bad = true
  · refine ⟨m, .refused, by simp only [hmStep, hb, if_true], ?_⟩
    cases o <;> simp_all [hmKey, hmNans]
  · cases o with
    | put k v =>
      have hb' : ks.bad k = false := by simpa [hmKey] using hb
      cases hn : ks.nan k with
      | true =>
        refine ⟨set ks m k v, .ok (.bool true), by simp [hmStep, hmKey, hb', get_nan ks m hn], ?_⟩
        simp [set_nans, hmNans, hn, hb']
      | false =>
        cases hg : get ks m k with
        | none => exact ⟨set ks m k v, .ok (.bool true), by simp [hmStep, hmKey, hb', hg], by simp [set_nans, hmNans, hn]⟩
        | some w => exact ⟨m, .ok (.bool false), by simp [hmStep, hmKey, hb', hg], by simp [hmNans, hn]⟩
    | set k v =>
      have hb' : ks.bad k = false := by simpa [hmKey] using hb
      refine ⟨set ks m k v, _, by simp only [hmStep, hb, Bool.false_eq_true, if_false]; rfl, ?_⟩
      cases hn : ks.nan k <;> simp [set_nans, hmNans, hn, hb']
    | upsert k v =>
      have hb' : ks.bad k = false := by simpa [hmKey] using hb
      refine ⟨set ks m k v, _, by simp only [hmStep, hb, Bool.false_eq_true, if_false]; rfl, ?_⟩
      cases hn : ks.nan k <;> simp [set_nans, hmNans, hn, hb']
    | remove k =>
      exact ⟨delete ks m k, _, by simp only [hmStep, hb, Bool.false_eq_true, if_false]; rfl, delete_nans ks k m⟩
    | delete k =>
      have hb' : ks.bad k = false := by simpa [hmKey] using hb
      cases hg : get ks m k with
      | none => exact ⟨m, .ok (.val none), by simp [hmStep, hmKey, hb', hg], rfl⟩
      | some w => exact ⟨delete ks m k, .ok (.val (some w)), by simp [hmStep, hmKey, hb', hg], delete_nans ks k m⟩
    | get k => exact ⟨m, _, by simp only [hmStep, hb, Bool.false_eq_true, if_false]; rfl, rfl⟩
    | clear => exact ⟨[], _, rfl, rfl⟩
    | _ => exact ⟨m, _, rfl, rfl⟩

theorem hm_nans_run (ro : RangeOrder (K × V)) : ∀ (os : List (Op K V)) (m : GoMap K V),
    ∃ m' rs, run (hmStep ks ro) m os = some (m', rs) ∧
      m'.filter (fun e => ks.nan e.1) = os.foldl (hmNans ks) (m.filter fun e => ks.nan e.1)
  | [], m => ⟨m, [], rfl, rfl⟩
  | o :: os, m => by
    obtain ⟨m1, r, h1, h2⟩ := hm_nans ks ro m o
    obtain ⟨m2, rs, h3, h4⟩ := hm_nans_run ro os m1
    exact ⟨m2, r :: rs, by simp only [run, h1, h3], by rw [h4, List.foldl_cons, h2]⟩

/-- C110: in the hash map every insertion of a NaN adds an entry that can be listed but is never found nor removed,
except by `Clear`. -/
theorem C110_hashmap_nans (ro : RangeOrder (K × V)) (os : List (Op K V)) :
    ∃ m rs l, run (hmStep ks ro) ([] : GoMap K V) os = some (m, rs) ∧
      hmStep ks ro m .slices = some (m, .ok (.slices l)) ∧ hmStep ks ro m .len = some (m, .ok (.nat l.length)) ∧
      (l.filter fun e => ks.nan e.1).Perm (os.foldl (hmNans ks) []) ∧
      ∀ k, ks.nan k = true → ks.bad k = false → hmStep ks ro m (.get k) = some (m, .ok (.val none)) ∧
        hmStep ks ro m (.delete k) = some (m, .ok (.val none)) := by
  obtain ⟨m, rs, h1, h2⟩ := hm_nans_run ks ro os []
  refine ⟨m, rs, ro.order m, h1, rfl, ?_, ?_, fun k hn hb => ?_⟩
  · rw [(ro.perm m).length_eq]; rfl
  · have := (ro.perm m).filter fun e => ks.nan e.1
    rwa [h2] at this
  · have hg := get_nan ks m hn
    constructor <;> simp [hmStep, hmKey, hb, hg]

/-- The NaNs in the hash set after a call. -/
def hsNans (l : List K) : SOp K → List K
  | .add is => l ++ (goods ks is).filter ks.nan
  | .clear => []
  | _ => l

theorem hsAdd_nans : ∀ (is : List K) (m : GoMap K Unit), ((hsAdd ks m is).1.filter fun e => ks.nan e.1).map (·.1) =
    (m.filter fun e => ks.nan e.1).map (·.1) ++ (goods ks is).filter ks.nan
  | [], m => by simp [hsAdd, goods]
  | k :: is, m => by
    cases hb : ks.bad k with
    | true => simp [hsAdd, goods, hb]
    | false =>
      simp only [hsAdd, goods, hb, List.takeWhile_cons, Bool.not_false, if_true, Bool.false_eq_true, if_false]
      have ih := hsAdd_nans is
      simp only [goods] at ih
      rw [ih]
      cases hn : ks.nan k with
      | true => simp [get_nan ks m hn, set_nans, hn]
      | false => cases get ks m k <;> simp [set_nans, hn]

theorem hsRemove_nans : ∀ (is : List K) (m : GoMap K Unit),
    (hsRemove ks m is).1.filter (fun e => ks.nan e.1) = m.filter fun e => ks.nan e.1
  | [], m => rfl
  | k :: is, m => by
    simp only [hsRemove]
    split
    · rfl
    · rw [hsRemove_nans is, delete_nans]

theorem hs_nans (ro : RangeOrder (K × Unit)) (m : GoMap K Unit) (o : SOp K) :
    ∃ m' r, hsStep ks ro m o = some (m', r) ∧
      (m'.filter fun e => ks.nan e.1).map (·.1) = hsNans ks ((m.filter fun e => ks.nan e.1).map (·.1)) o := by
  cases o with
  | add is => exact ⟨_, _, rfl, hsAdd_nans ks is m⟩
  | remove is => exact ⟨_, _, rfl, by rw [hsRemove_nans]; rfl⟩
  | contains k => simp only [hsStep]; split <;> exact ⟨_, _, rfl, rfl⟩
  | _ => exact ⟨_, _, rfl, rfl⟩

theorem hs_nans_run (ro : RangeOrder (K × Unit)) : ∀ (os : List (SOp K)) (m : GoMap K Unit),
    ∃ m' rs, run (hsStep ks ro) m os = some (m', rs) ∧
      (m'.filter fun e => ks.nan e.1).map (·.1) = os.foldl (hsNans ks) ((m.filter fun e => ks.nan e.1).map (·.1))
  | [], m => ⟨m, [], rfl, rfl⟩
  | o :: os, m => by
    obtain ⟨m1, r, h1, h2⟩ := hs_nans ks ro m o
    obtain ⟨m2, rs, h3, h4⟩ := hs_nans_run ro os m1
    exact ⟨m2, r :: rs, by simp only [run, h1, h3], by rw [h4, List.foldl_cons, h2]⟩

/-- C110: in the hash set every `Add` of a NaN adds an item, which `Values` and `Size` count, `Contains` never finds and
`Remove` never takes out. -/
theorem C110_hashset_nans (ro : RangeOrder (K × Unit)) (os : List (SOp K)) :
    ∃ m rs l, run (hsStep ks ro) ([] : GoMap K Unit) os = some (m, rs) ∧
      hsStep ks ro m .values = some (m, .ok (.values l)) ∧ hsStep ks ro m .size = some (m, .ok (.nat l.length)) ∧
      (l.filter ks.nan).Perm (os.foldl (hsNans ks) []) ∧
      ∀ k, ks.nan k = true → ks.bad k = false → hsStep ks ro m (.contains k) = some (m, .ok (.bool false)) := by
  obtain ⟨m, rs, h1, h2⟩ := hs_nans_run ks ro os []
  refine ⟨m, rs, (ro.order m).map (·.1), h1, rfl, ?_, ?_, fun k hn hb => ?_⟩
  · rw [List.length_map, (ro.perm m).length_eq]; rfl
  · have := ((ro.perm m).filter fun e => ks.nan e.1).map (·.1)
    rw [h2] at this
    rw [List.filter_map]; exact this
  · simp [hsStep, hb, get_nan ks m hn]

section linked
open DLL Linked
variable [Inhabited K] [Inhabited V]

/-- The entries with a NaN in the linked hash map after a call, in order. -/
def lhNans (l : List (K × V)) : Linked.Op K V → List (K × V)
  | .setBack k v | .pushBack k v | .upsert k v => if ks.nan k && !ks.bad k then l ++ [(k, v)] else l
  | .setFront k v | .pushFront k v => if ks.nan k && !ks.bad k then (k, v) :: l else l
  | .clear => []
  | _ => l

/-- The entries with a NaN, without numbers. -/
def nans (l : List (Tag K × V)) : List (K × V) := (l.map un).filter fun e => ks.nan e.1

variable {n : Nat} {l : List (Tag K × V)}

theorem fresh_tag (h : ∀ e ∈ l, Old ks n e.1) {k : K} (hn : ks.nan k = true) : tag ks n k ∉ l.map (·.1) := by
  intro hm
  obtain ⟨e, he, ht⟩ := List.mem_map.1 hm
  have := eq_tag ks (h e he) k
  rw [ht, decide_eq_true rfl] at this
  simp [Keys.eq, tag, hn] at this

theorem without_nans (h : ∀ e ∈ l, Old ks n e.1) (k : K) : nans ks (without l (tag ks n k)) = nans ks l := by
  cases hn : ks.nan k with
  | true => rw [without_absent (fresh_tag ks h hn)]
  | false =>
    simp only [nans, without, List.filter_map, List.filter_filter]
    congr 1
    apply List.filter_congr
    intro e _
    by_cases c : e.1 = tag ks n k
    · simp [c, un, tag, hn]
    · simp [c]

theorem assign_nans (h : ∀ e ∈ l, Old ks n e.1) (k : K) (v : V) : nans ks (assign l (tag ks n k) v) = nans ks l := by
  cases hn : ks.nan k with
  | true => rw [assign_absent (fresh_tag ks h hn)]
  | false =>
    clear h
    induction l with
    | nil => rfl
    | cons e l ih =>
      simp only [nans, assign, List.map_cons, List.filter_cons] at ih ⊢
      rw [ih]
      by_cases c : e.1 = tag ks n k
      · simp [c, un, tag, hn]
      · simp [c]

theorem lh_nans (h : ∀ e ∈ l, Old ks n e.1) (o : Linked.Op K V) :
    nans ks (spec l (lhTag ks n o)).1 = lhNans ks (nans ks l) o ∧ ∀ e ∈ (spec l (lhTag ks n o)).1, Old ks (n + 1) e.1 := by
  have hm : ∀ e ∈ l, Old ks (n + 1) e.1 := fun e he => (h e he).mono (by omega)
  have hw : ∀ k, ∀ e ∈ without l (tag ks n k), Old ks (n + 1) e.1 := fun k e he => hm e (List.mem_filter.1 he).1
  have ha : ∀ k v, ∀ e ∈ assign l (tag ks n k) v, Old ks (n + 1) e.1 := by
    intro k v e he
    obtain ⟨a, ha, rfl⟩ := List.mem_map.1 he
    split
    · exact old_tag ks n k
    · exact hm a ha
  have hback : ∀ (l' : List (Tag K × V)) k v, (∀ e ∈ l', Old ks (n + 1) e.1) →
      ∀ e ∈ l' ++ [(tag ks n k, v)], Old ks (n + 1) e.1 := by
    intro l' k v h' e he
    rcases List.mem_append.1 he with he | he
    · exact h' e he
    · rw [List.mem_singleton.1 he]; exact old_tag ks n k
  have hfront : ∀ (l' : List (Tag K × V)) k v, (∀ e ∈ l', Old ks (n + 1) e.1) →
      ∀ e ∈ (tag ks n k, v) :: l', Old ks (n + 1) e.1 := by
    intro l' k v h' e he
    rcases List.mem_cons.1 he with rfl | he
    · exact old_tag ks n k
    · exact h' e he
  have nback : ∀ (l' : List (Tag K × V)) k v, nans ks (l' ++ [(tag ks n k, v)]) =
      if ks.nan k then nans ks l' ++ [(k, v)] else nans ks l' := by
    intro l' k v
    cases hn : ks.nan k <;> simp [nans, un, tag, hn]
  have nfront : ∀ (l' : List (Tag K × V)) k v, nans ks ((tag ks n k, v) :: l') =
      if ks.nan k then (k, v) :: nans ks l' else nans ks l' := by
    intro l' k v
    cases hn : ks.nan k <;> simp [nans, un, tag, hn]
  have hl : ∀ k, (look l (tag ks n k)).isSome = true → ks.nan k = false := by
    intro k hs
    cases hn : ks.nan k with
    | false => rfl
    | true => rw [look_none.2 (fresh_tag ks h hn)] at hs; cases hs
  by_cases hb : (lhKey o).any ks.bad = true
  · simp only [lhTag, hb, if_true, spec]
    refine ⟨?_, hm⟩
    clear nback nfront hback hfront hl ha hw
    cases o <;> first
      | rfl
      | (simp only [lhKey, Option.any_some] at hb
         simp only [lhNans, hb, Bool.not_true, Bool.and_false, Bool.false_eq_true, if_false]; done)
      | (cases hb)
  · cases o with
    | setBack k v =>
      have hb' : ks.bad k = false := by simpa [lhKey] using hb
      simp only [lhTag, hb, Bool.false_eq_true, if_false, spec, lhNans, nback, without_nans ks h, hb', Bool.not_false,
        Bool.and_true, true_and]
      exact hback _ k v (hw k)
    | setFront k v =>
      have hb' : ks.bad k = false := by simpa [lhKey] using hb
      simp only [lhTag, hb, Bool.false_eq_true, if_false, spec, lhNans, nfront, without_nans ks h, hb', Bool.not_false,
        Bool.and_true, true_and]
      exact hfront _ k v (hw k)
    | pushBack k v =>
      have hb' : ks.bad k = false := by simpa [lhKey] using hb
      simp only [lhTag, hb, Bool.false_eq_true, if_false, spec, lhNans, hb', Bool.not_false, Bool.and_true]
      split
      · rename_i hs; rw [hl k hs]; exact ⟨rfl, hm⟩
      · exact ⟨nback l k v, hback _ k v hm⟩
    | pushFront k v =>
      have hb' : ks.bad k = false := by simpa [lhKey] using hb
      simp only [lhTag, hb, Bool.false_eq_true, if_false, spec, lhNans, hb', Bool.not_false, Bool.and_true]
      split
      · rename_i hs; rw [hl k hs]; exact ⟨rfl, hm⟩
      · exact ⟨nfront l k v, hfront _ k v hm⟩
    | upsert k v =>
      have hb' : ks.bad k = false := by simpa [lhKey] using hb
      simp only [lhTag, hb, Bool.false_eq_true, if_false, spec, lhNans, hb', Bool.not_false, Bool.and_true]
      split
      · rename_i hs; rw [hl k hs]; exact ⟨assign_nans ks h k v, ha k v⟩
      · exact ⟨nback l k v, hback _ k v hm⟩
    | set k v =>
      simp only [lhTag, hb, Bool.false_eq_true, if_false, spec, lhNans]
      exact ⟨assign_nans ks h k v, ha k v⟩
    | remove k =>
      simp only [lhTag, hb, Bool.false_eq_true, if_false, spec, lhNans]
      exact ⟨without_nans ks h k, hw k⟩
    | get k =>
      simp only [lhTag, hb, Bool.false_eq_true, if_false, spec, lhNans]
      exact ⟨trivial, hm⟩
    | clear => exact ⟨rfl, by rintro e ⟨⟩⟩
    | _ => exact ⟨rfl, hm⟩

theorem lh_nans_run : ∀ (os : List (Linked.Op K V)) (n : Nat) (l : List (Tag K × V)), (∀ e ∈ l, Old ks n e.1) →
    nans ks (runSpec spec l (number (lhTag ks) (fun _ => 1) n os)).1 = os.foldl (lhNans ks) (nans ks l)
  | [], _, _, _ => rfl
  | o :: os, n, l, h => by
    obtain ⟨h1, h2⟩ := lh_nans ks h o
    simp only [number, runSpec, List.foldl_cons, ← h1]
    exact lh_nans_run os (n + 1) _ h2

/-- C110: in the linked hash map every insertion of a NaN adds an entry at its end of the list, which is listed there but
never found nor removed, except by `Clear`. -/
theorem C110_linkedhashmap_nans (os : List (Linked.Op K V)) :
    ∃ m rs l, run (lhStep ks) (LHM.new : LHM K V) os = some (m, rs) ∧
      lhStep ks m .slices = some (m, .ok (.slices l)) ∧ lhStep ks m .len = some (m, .ok (.nat l.length)) ∧
      (l.filter fun e => ks.nan e.1) = os.foldl (lhNans ks) [] ∧
      ∀ k, ks.nan k = true → ks.bad k = false → lhStep ks m (.get k) = some (m, .ok (.val none)) ∧
        lhStep ks m (.remove k) = some (m, .ok (.val none)) := by
  obtain ⟨m, h1, ids, hi, hv⟩ := run_refines (fun (m : LHM (Tag K) V) l => ∃ ids, m.Inv ids ∧ vals m.h ids = l)
    (fun m l o hR => LHM.step_ok m l o hR) (number (lhTag ks) (fun _ => 1) 0 os) LHM.new [] ⟨[], LHM.new_inv, rfl⟩
  have h3 := run_number (lhStep ks) LHM.step down (lhAns ks) (lhTag ks) (fun _ => 1)
    (fun n m => ∀ e ∈ m.hmap, Old ks n e.1) (lh_sim ks) os 0 LHM.new (by simp [LHM.new])
  rw [h1, down_new, Option.map_some] at h3
  have h4 := lh_nans_run ks os 0 ([] : List (Tag K × V)) (by simp)
  generalize runSpec spec [] (number (lhTag ks) (fun _ => 1) 0 os) = R at *
  obtain ⟨m1, h5, -⟩ := LHM.step_ok m R.1 .slices ⟨ids, hi, hv⟩
  obtain ⟨m2, h6, -⟩ := LHM.step_ok m R.1 .len ⟨ids, hi, hv⟩
  simp only [LHM.step, spec, Option.map_eq_some_iff, Prod.mk.injEq, Linked.Res.slices.injEq, Option.some.injEq,
    Linked.Res.nat.injEq] at h5 h6
  obtain ⟨l', h7, -, rfl⟩ := h5
  refine ⟨down m, _, R.1.map un, h3, ?_, ?_, h4, fun k hn hb => ?_⟩
  · simp only [lhStep, lhKey, Option.any_none, Bool.false_eq_true, if_false, entries_sim, h7, Option.map_some]
  · simp only [lhStep, lhKey, Option.any_none, Bool.false_eq_true, if_false, down, List.length_map, h6.2]
  · have hg := get_nan ks (down m).hmap hn
    constructor
    · simp only [lhStep, lhKey, Option.any_some, hb, Bool.false_eq_true, if_false, hg]
    · simp only [lhStep, lhKey, Option.any_some, hb, Bool.false_eq_true, if_false, remove, hg, Option.map_some]

end linked

/-! ### Refused keys and examples -/

/-- C110: a call with a key that cannot be hashed panics in every state and changes nothing; a call with several items has
then added or removed the ones before it. -/
theorem C110_refused [Inhabited K] [Inhabited V] (ro : RangeOrder (K × V)) (so : RangeOrder (K × Unit)) (m : GoMap K V)
    (s : GoMap K Unit) (lm : Linked.LHM K V) (k : K) (h : ks.bad k = true) :
    (∀ v, ∀ o ∈ [Op.put k v, .set k v, .upsert k v, .get k, .remove k, .delete k],
      hmStep ks ro m o = some (m, .refused)) ∧
    (∀ v, ∀ o ∈ [Linked.Op.setBack k v, .setFront k v, .pushBack k v, .pushFront k v, .get k, .set k v, .upsert k v,
      .remove k], lhStep ks lm o = some (lm, .refused)) ∧
    hsStep ks so s (.contains k) = some (s, .refused) ∧
    ∀ l l', (∀ i ∈ l, ks.bad i = false) →
      hsStep ks so s (.add (l ++ k :: l')) = (hsStep ks so s (.add l)).map (fun p => (p.1, .refused)) ∧
      hsStep ks so s (.remove (l ++ k :: l')) = (hsStep ks so s (.remove l)).map (fun p => (p.1, .refused)) := by
  refine ⟨fun v o ho => ?_, fun v o ho => ?_, ?_, fun l l' hl => ?_⟩
  · have hk : hmKey o = some k := by
      simp only [List.mem_cons, List.not_mem_nil, or_false] at ho
      rcases ho with rfl | rfl | rfl | rfl | rfl | rfl <;> rfl
    simp only [hmStep, hk, Option.any_some, h, if_true]
  · have hk : lhKey o = some k := by
      simp only [List.mem_cons, List.not_mem_nil, or_false] at ho
      rcases ho with rfl | rfl | rfl | rfl | rfl | rfl | rfl | rfl <;> rfl
    simp only [lhStep, hk, Option.any_some, h, if_true]
  · simp only [hsStep, h, if_true]
  · simp only [hsStep, Option.map_some, Option.some.injEq]
    induction l generalizing s with
    | nil => simp only [List.nil_append, hsAdd, hsRemove, h, if_true, and_self]
    | cons i l ih =>
      have hi := hl i (List.mem_cons_self ..)
      have ih := fun s => ih s fun j hj => hl j (List.mem_cons_of_mem _ hj)
      simp only [List.cons_append, hsAdd, hsRemove, hi, Bool.false_eq_true, if_false]
      exact ⟨(ih _).1, (ih _).2⟩

/-- Numbers as keys, where 90 to 99 are NaNs and numbers from 100 on cannot be hashed. -/
def exKeys : Keys Nat := ⟨fun k => 90 ≤ k && k < 100, fun k => 100 ≤ k⟩

example : (run (hsStep exKeys backwards) [] [.add [1, 90, 1, 90, 100, 2], .contains 90, .remove [90, 1], .add [91]]).map
    (·.1) = some [(90, ()), (90, ()), (91, ())] := by decide

example : [SOp.add [1, 90, 1, 90, 100, 2], .contains 90, .remove [90, 1], .add [91]].foldl (hsNans exKeys) [] =
    [90, 90, 91] := by decide

example : (run (lhStep exKeys) (Linked.LHM.new : Linked.LHM Nat Nat) [.pushBack 90 1, .setFront 90 2, .setBack 5 6,
    .set 90 7, .remove 90, .upsert 100 3, .slices, .len]).map (·.2) =
    some [.ok (.bool true), .ok (.bool false), .ok (.bool false), .ok (.bool false), .ok (.val none), .refused,
      .ok (.slices [(90, 2), (90, 1), (5, 6)]), .ok (.nat 3)] := by decide

example : exKeys.bad 100 = true ∧ ∀ i ∈ [1, 90], exKeys.bad i = false := by decide

/-- With keys of no special kind the numbers do not matter: the history is the same. -/
example : number (hmTag exKeys) (fun _ => 1) 0 [.put 1 2, .put 90 3, .get 90, .put 100 4] =
    [Op.put (1, none) 2, .put (90, some 1) 3, .get (90, some 2), .len] := rfl

end Verif.Map.Nan
