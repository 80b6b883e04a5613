import Verif.Map.NanModel
import Verif.Map.HashProps
import Verif.Map.LinkedProps

/-! The containers with all keys, compared with the containers with keys that are equal to themselves: a key that is not
equal to itself gets a number that no other call has. -/

namespace Verif.Map.Nan
variable {K V : Type} [DecidableEq K] (ks : Keys K)

/-- Keys with numbers. -/
abbrev Tag (K : Type) := K × Option Nat

/-- The key of the call with number `n`. -/
def tag (n : Nat) (k : K) : Tag K := (k, if ks.nan k then some n else none)

/-- An entry without the number. -/
def un {W : Type} (e : Tag K × W) : K × W := (e.1.1, e.2)

/-- A key that was made by a call with a number below `n`. -/
def Old (n : Nat) (t : Tag K) : Prop := ∃ i < n, t = tag ks i t.1

theorem Old.mono {ks : Keys K} {n n' : Nat} {t : Tag K} (h : Old ks n t) (hn : n ≤ n') : Old ks n' t :=
  h.imp fun _ hi => ⟨by omega, hi.2⟩

theorem old_tag (n : Nat) (k : K) : Old ks (n + 1) (tag ks n k) := ⟨n, by omega, rfl⟩

theorem eq_tag {n : Nat} {t : Tag K} (h : Old ks n t) (k : K) : ks.eq t.1 k = decide (t = tag ks n k) := by
  obtain ⟨i, hi, ht⟩ := h
  rw [Bool.eq_iff_iff, decide_eq_true_iff]
  simp only [Keys.eq, Bool.and_eq_true, decide_eq_true_eq, Bool.not_eq_true']
  constructor
  · rintro ⟨rfl, hn⟩
    rw [ht]; simp [tag, hn]
  · intro e
    have e1 : t.1 = k := by rw [e]; rfl
    refine ⟨e1, ?_⟩
    subst e1
    cases hn : ks.nan t.1 with
    | false => rfl
    | true =>
      rw [e] at ht
      simp [tag, hn] at ht
      omega

section map
variable {W : Type} {n : Nat}

theorem get_tag {m : GoMap (Tag K) W} (h : ∀ e ∈ m, Old ks n e.1) (k : K) :
    get ks (m.map un) k = GoMap.get m (tag ks n k) := by
  induction m with
  | nil => rfl
  | cons e m ih =>
    have h1 := ih fun e he => h e (List.mem_cons_of_mem _ he)
    have h2 := eq_tag ks (h e (List.mem_cons_self ..)) k
    simp only [get, GoMap.get, List.map_cons, List.find?_cons, un] at h1 ⊢
    rw [h2]
    by_cases c : e.1 = tag ks n k
    · simp [c]
    · simpa [c] using h1

theorem set_tag {m : GoMap (Tag K) W} (h : ∀ e ∈ m, Old ks n e.1) (k : K) (v : W) :
    set ks (m.map un) k v = (GoMap.set m (tag ks n k) v).map un := by
  induction m with
  | nil => rfl
  | cons e m ih =>
    have h1 := ih fun e he => h e (List.mem_cons_of_mem _ he)
    have h2 := eq_tag ks (h e (List.mem_cons_self ..)) k
    simp only [List.map_cons, set, GoMap.set]
    rw [show (un e).1 = e.1.1 from rfl, h2]
    by_cases c : e.1 = tag ks n k
    · simp [c]; rfl
    · simpa [c] using h1

theorem delete_tag {m : GoMap (Tag K) W} (h : ∀ e ∈ m, Old ks n e.1) (k : K) :
    delete ks (m.map un) k = (GoMap.delete m (tag ks n k)).map un := by
  simp only [delete, GoMap.delete, List.filter_map]
  congr 1
  apply List.filter_congr
  intro e he
  simp only [Function.comp, un, eq_tag ks (h e he) k]
  simp

theorem old_set {m : GoMap (Tag K) W} (h : ∀ e ∈ m, Old ks n e.1) (k : K) (v : W) :
    ∀ e ∈ GoMap.set m (tag ks n k) v, Old ks (n + 1) e.1 := by
  induction m with
  | nil => intro e he; rw [List.mem_singleton.1 he]; exact old_tag ks n k
  | cons a m ih =>
    intro e he
    have h1 := ih fun e he => h e (List.mem_cons_of_mem _ he)
    simp only [GoMap.set] at he
    split at he
    · rcases List.mem_cons.1 he with rfl | he
      · exact old_tag ks n k
      · exact (h e (List.mem_cons_of_mem _ he)).mono (by omega)
    · rcases List.mem_cons.1 he with rfl | he
      · exact (h _ (List.mem_cons_self ..)).mono (by omega)
      · exact h1 e he

theorem old_delete {m : GoMap (Tag K) W} (h : ∀ e ∈ m, Old ks n e.1) (t : Tag K) :
    ∀ e ∈ GoMap.delete m t, Old ks n e.1 := fun e he => h e (List.mem_filter.1 he).1

end map

/-! ### Orders of iteration -/

theorem perm_lift {A B : Type} (f : A → B) {l : List B} {l' : List B} (h : l.Perm l') :
    ∀ m : List A, m.map f = l' → ∃ m' : List A, m'.Perm m ∧ m'.map f = l := by
  induction h with
  | nil => intro m hm; exact ⟨m, .refl _, hm⟩
  | cons a _ ih =>
    intro m hm
    cases m with
    | nil => cases hm
    | cons x m =>
      simp only [List.map_cons, List.cons.injEq] at hm
      obtain ⟨m', h1, h2⟩ := ih m hm.2
      exact ⟨x :: m', h1.cons x, by simp [h2, hm.1]⟩
  | swap a b l =>
    intro m hm
    match m, hm with
    | x :: y :: m, hm =>
      simp only [List.map_cons, List.cons.injEq] at hm
      exact ⟨y :: x :: m, .swap x y m, by simp [hm]⟩
  | trans _ _ ih1 ih2 =>
    intro m hm
    obtain ⟨m1, h1, h2⟩ := ih2 m hm
    obtain ⟨m2, h3, h4⟩ := ih1 m1 h2
    exact ⟨m2, h3.trans h1, h4⟩

/-- The same order of iteration for keys with numbers. -/
noncomputable def lift {W : Type} (ro : RangeOrder (K × W)) : RangeOrder (Tag K × W) where
  order l := (perm_lift un (ro.perm (l.map un)) l rfl).choose
  perm l := (perm_lift un (ro.perm (l.map un)) l rfl).choose_spec.1

theorem lift_map {W : Type} (ro : RangeOrder (K × W)) (l : List (Tag K × W)) :
    ((lift ro).order l).map un = ro.order (l.map un) := (perm_lift un (ro.perm (l.map un)) l rfl).choose_spec.2

/-! ### Histories -/

section hist
variable {σ σ' ω ω' ρ ρ' : Type}

/-- The calls with numbers, from `n` on. -/
def number (tg : Nat → ω → ω') (use : ω → Nat) : Nat → List ω → List ω'
  | _, [] => []
  | n, o :: os => tg n o :: number tg use (n + use o) os

theorem run_number (step : σ → ω → Option (σ × ρ)) (step' : σ' → ω' → Option (σ' × ρ')) (down : σ' → σ)
    (ans : ω → ρ' → ρ) (tg : Nat → ω → ω') (use : ω → Nat) (I : Nat → σ' → Prop)
    (hs : ∀ n s o, I n s → step (down s) o = (step' s (tg n o)).map (fun p => (down p.1, ans o p.2)) ∧
      ∀ p, step' s (tg n o) = some p → I (n + use o) p.1) : ∀ (os : List ω) (n : Nat) (s : σ'), I n s →
    run step (down s) os =
      (run step' s (number tg use n os)).map fun p => (down p.1, List.zipWith ans os p.2)
  | [], _, _, _ => rfl
  | o :: os, n, s, hI => by
    obtain ⟨h1, h2⟩ := hs n s o hI
    simp only [run, number, h1]
    cases e : step' s (tg n o) with
    | none => rfl
    | some p =>
      have ih := run_number step step' down ans tg use I hs os _ p.1 (h2 p e)
      simp only [Option.map_some, ih]
      cases run step' p.1 (number tg use (n + use o) os) <;> rfl

end hist

/-! ### The hash map -/

/-- The result without numbers. -/
def unRes : Res (Tag K) V → Res K V
  | .unit => .unit | .bool b => .bool b | .val v => .val v | .nat n => .nat n
  | .keys l => .keys (l.map (·.1)) | .values l => .values l | .slices l => .slices (l.map un)

/-- The call of the hash map with number `n`. A refused call is replaced by one that changes nothing. -/
def hmTag (n : Nat) (o : Op K V) : Op (Tag K) V :=
  if (hmKey o).any ks.bad then .len else
  match o with
  | .put k v => .put (tag ks n k) v
  | .set k v => .set (tag ks n k) v
  | .upsert k v => .upsert (tag ks n k) v
  | .get k => .get (tag ks n k)
  | .remove k => .remove (tag ks n k)
  | .delete k => .delete (tag ks n k)
  | .empty => .empty | .len => .len | .keys => .keys | .values => .values | .slices => .slices | .clear => .clear

/-- What the caller sees. -/
def hmAns (o : Op K V) (r : Res (Tag K) V) : Ans (Res K V) :=
  if (hmKey o).any ks.bad then .refused else .ok (unRes r)

theorem hm_sim (ro : RangeOrder (K × V)) (n : Nat) (m : GoMap (Tag K) V) (o : Op K V) (h : ∀ e ∈ m, Old ks n e.1) :
    hmStep ks ro (m.map un) o =
      (HM.step (lift ro) m (hmTag ks n o)).map (fun p => (p.1.map un, hmAns ks o p.2)) ∧
    ∀ p, HM.step (lift ro) m (hmTag ks n o) = some p → ∀ e ∈ p.1, Old ks (n + 1) e.1 := by
  have hm : ∀ e ∈ m, Old ks (n + 1) e.1 := fun e he => (h e he).mono (by omega)
  by_cases hb : (hmKey o).any ks.bad = true
  · simp only [hmStep, hmTag, hmAns, hb, if_true, HM.step, Option.map_some, true_and]
    rintro p ⟨⟩
    exact hm
  · have hl := lift_map ro m
    cases o <;> simp only [hmStep, hmTag, hmAns, hb, Bool.false_eq_true, if_false, HM.step, get_tag ks h, set_tag ks h,
      delete_tag ks h]
    case put k v =>
      cases GoMap.get m (tag ks n k)
      · exact ⟨rfl, by rintro p ⟨⟩; exact old_set ks h k v⟩
      · exact ⟨rfl, by rintro p ⟨⟩; exact hm⟩
    case delete k =>
      cases GoMap.get m (tag ks n k)
      · exact ⟨rfl, by rintro p ⟨⟩; exact hm⟩
      · exact ⟨rfl, by rintro p ⟨⟩; exact old_delete ks hm _⟩
    case set k v => exact ⟨rfl, by rintro p ⟨⟩; exact old_set ks h k v⟩
    case upsert k v => exact ⟨rfl, by rintro p ⟨⟩; exact old_set ks h k v⟩
    case remove k => exact ⟨rfl, by rintro p ⟨⟩; exact old_delete ks hm _⟩
    case clear => exact ⟨rfl, by rintro p ⟨⟩; simp⟩
    case keys => exact ⟨by simp [← hl, unRes, un], by rintro p ⟨⟩; exact hm⟩
    case values => exact ⟨by simp [← hl, unRes, un], by rintro p ⟨⟩; exact hm⟩
    case slices => exact ⟨by simp [← hl, unRes], by rintro p ⟨⟩; exact hm⟩
    all_goals exact ⟨by simp [unRes], by rintro p ⟨⟩; exact hm⟩

/-! ### The hash set -/

/-- The items before the first one that cannot be hashed. -/
def goods (l : List K) : List K := l.takeWhile fun k => !ks.bad k

/-- Items with numbers from `n` on. -/
def tagList : Nat → List K → List (Tag K)
  | _, [] => []
  | n, k :: l => tag ks n k :: tagList (n + 1) l

def unSRes : SRes (Tag K) → SRes K
  | .unit => .unit | .bool b => .bool b | .nat n => .nat n | .values l => .values (l.map (·.1))

def hsTag (n : Nat) : SOp K → SOp (Tag K)
  | .add l => .add (tagList ks n (goods ks l))
  | .remove l => .remove (tagList ks n (goods ks l))
  | .contains k => if ks.bad k then .size else .contains (tag ks n k)
  | .empty => .empty | .size => .size | .values => .values | .clear => .clear

/-- How many numbers a call needs. -/
def hsUse : SOp K → Nat
  | .add l | .remove l => l.length
  | _ => 1

/-- The call has an item that cannot be hashed. -/
def hsBad : SOp K → Bool
  | .add l | .remove l => l.any ks.bad
  | .contains k => ks.bad k
  | _ => false

def hsAns (o : SOp K) (r : SRes (Tag K)) : Ans (SRes K) := if hsBad ks o then .refused else .ok (unSRes r)

theorem hsAdd_sim : ∀ (l : List K) (n : Nat) (m : GoMap (Tag K) Unit), (∀ e ∈ m, Old ks n e.1) →
    hsAdd ks (m.map un) l = (((tagList ks n (goods ks l)).foldl HS.addOne m).map un,
      if l.any ks.bad then .refused else .ok .unit) ∧
    ∀ e ∈ (tagList ks n (goods ks l)).foldl HS.addOne m, Old ks (n + l.length) e.1
  | [], n, m, h => ⟨rfl, h⟩
  | k :: l, n, m, h => by
    cases hb : ks.bad k with
    | true =>
      simp only [hsAdd, hb, goods, List.takeWhile_cons, Bool.not_true, List.any_cons, Bool.true_or, if_true]
      exact ⟨rfl, fun e he => (h e he).mono (by omega)⟩
    | false =>
      simp only [hsAdd, hb, goods, List.takeWhile_cons, Bool.not_false, List.any_cons, Bool.false_or, if_true, tagList,
        List.foldl_cons, get_tag ks h, set_tag ks h, HS.addOne]
      have e : n + (k :: l).length = n + 1 + l.length := by simp only [List.length_cons]; omega
      rw [e]
      cases GoMap.get m (tag ks n k) with
      | none => exact hsAdd_sim l (n + 1) _ (old_set ks h k ())
      | some _ => exact hsAdd_sim l (n + 1) m fun e he => (h e he).mono (by omega)

theorem hsRemove_sim : ∀ (l : List K) (n : Nat) (m : GoMap (Tag K) Unit), (∀ e ∈ m, Old ks n e.1) →
    hsRemove ks (m.map un) l = (((tagList ks n (goods ks l)).foldl (fun m k => m.delete k) m).map un,
      if l.any ks.bad then .refused else .ok .unit) ∧
    ∀ e ∈ (tagList ks n (goods ks l)).foldl (fun m k => GoMap.delete m k) m, Old ks (n + l.length) e.1
  | [], n, m, h => ⟨rfl, h⟩
  | k :: l, n, m, h => by
    cases hb : ks.bad k with
    | true =>
      simp only [hsRemove, hb, goods, List.takeWhile_cons, Bool.not_true, List.any_cons, Bool.true_or, if_true]
      exact ⟨rfl, fun e he => (h e he).mono (by omega)⟩
    | false =>
      simp only [hsRemove, hb, goods, List.takeWhile_cons, Bool.not_false, List.any_cons, Bool.false_or, if_true, tagList,
        List.foldl_cons, delete_tag ks h]
      have e : n + (k :: l).length = n + 1 + l.length := by simp only [List.length_cons]; omega
      rw [e]
      exact hsRemove_sim l (n + 1) _ fun e he => (old_delete ks h _ e he).mono (by omega)

theorem hs_sim (ro : RangeOrder (K × Unit)) (n : Nat) (m : GoMap (Tag K) Unit) (o : SOp K) (h : ∀ e ∈ m, Old ks n e.1) :
    hsStep ks ro (m.map un) o =
      (HS.step (lift ro) m (hsTag ks n o)).map (fun p => (p.1.map un, hsAns ks o p.2)) ∧
    ∀ p, HS.step (lift ro) m (hsTag ks n o) = some p → ∀ e ∈ p.1, Old ks (n + hsUse o) e.1 := by
  have hm : ∀ i, ∀ e ∈ m, Old ks (n + i) e.1 := fun i e he => (h e he).mono (by omega)
  cases o with
  | add l =>
    obtain ⟨h1, h2⟩ := hsAdd_sim ks l n m h
    refine ⟨?_, by rintro p ⟨⟩; exact h2⟩
    simp only [hsStep, h1, hsTag, HS.step, Option.map_some, hsAns, hsBad, unSRes]
    rfl
  | remove l =>
    obtain ⟨h1, h2⟩ := hsRemove_sim ks l n m h
    refine ⟨?_, by rintro p ⟨⟩; exact h2⟩
    simp only [hsStep, h1, hsTag, HS.step, Option.map_some, hsAns, hsBad, unSRes]
    rfl
  | contains k =>
    cases hb : ks.bad k with
    | true => simp only [hsStep, hsTag, hb, if_true, HS.step, hsAns, hsBad]; exact ⟨rfl, by rintro p ⟨⟩; exact hm _⟩
    | false =>
      simp only [hsStep, hsTag, hb, HS.step, hsAns, hsBad, get_tag ks h]
      exact ⟨rfl, by rintro p ⟨⟩; exact hm _⟩
  | values => exact ⟨by simp [hsStep, hsTag, HS.step, hsAns, hsBad, ← lift_map ro m, unSRes, un],
      by rintro p ⟨⟩; exact hm _⟩
  | clear => exact ⟨rfl, by rintro p ⟨⟩; simp⟩
  | empty => exact ⟨by simp [hsStep, hsTag, HS.step, hsAns, hsBad, unSRes], by rintro p ⟨⟩; exact hm _⟩
  | size => exact ⟨by simp [hsStep, hsTag, HS.step, hsAns, hsBad, unSRes], by rintro p ⟨⟩; exact hm _⟩

/-! ### The linked hash map -/

section linked
open DLL Linked
variable [Inhabited K] [Inhabited V]

/-- The nodes without numbers. -/
def unH (h : Store (Tag K × V)) : Store (K × V) := fun a => ⟨(h a).prev, (h a).next, un (h a).val⟩

def down (m : LHM (Tag K) V) : LHM K V := ⟨unH m.h, m.fresh, m.head, m.tail, m.hmap.map un⟩

theorem unH_put (h : Store (Tag K × V)) (a : Nat) :
    (unH h).put a ⟨none, none, default⟩ = unH (h.put a ⟨none, none, default⟩) := by
  funext x; by_cases e : x = a <;> simp [unH, Store.put, e] <;> rfl

theorem unH_next (h : Store (Tag K × V)) (a : Nat) (v : Option Nat) :
    (unH h).setNext a v = unH (h.setNext a v) := by
  funext x; by_cases e : x = a <;> simp [unH, Store.setNext, Store.put, e]

theorem unH_prev (h : Store (Tag K × V)) (a : Nat) (v : Option Nat) :
    (unH h).setPrev a v = unH (h.setPrev a v) := by
  funext x; by_cases e : x = a <;> simp [unH, Store.setPrev, Store.put, e]

theorem unH_val (h : Store (Tag K × V)) (a : Nat) (w : Tag K × V) :
    (unH h).setVal a (un w) = unH (h.setVal a w) := by
  funext x; by_cases e : x = a <;> simp [unH, Store.setVal, Store.put, e]

theorem unH_tag (h : Store (Tag K × V)) (a n : Nat) (k : K) (v : V) :
    (unH h).setVal a (k, v) = unH (h.setVal a (tag ks n k, v)) := unH_val h a (tag ks n k, v)

theorem unH_keep (h : Store (Tag K × V)) (a : Nat) (v : V) :
    (unH h).setVal a ((unH h a).val.1, v) = unH (h.setVal a ((h a).val.1, v)) := unH_val h a ((h a).val.1, v)

theorem unH_default (h : Store (Tag K × V)) (a : Nat) :
    (unH h).setVal a default = unH (h.setVal a default) := unH_val h a default

theorem prev_unH (h : Store (Tag K × V)) (a : Nat) : (unH h a).prev = (h a).prev := rfl
theorem next_unH (h : Store (Tag K × V)) (a : Nat) : (unH h a).next = (h a).next := rfl
theorem val_unH (h : Store (Tag K × V)) (a : Nat) : (unH h a).val.2 = (h a).val.2 := rfl

variable {n : Nat} {m : LHM (Tag K) V}

theorem newBack_sim (h : ∀ e ∈ m.hmap, Old ks n e.1) (k : K) (v : V) :
    newBack ks (down m) k v = down (m.newBack (tag ks n k) v) := by
  simp only [newBack, down, LHM.newBack, unH_put, unH_tag ks _ _ n, unH_prev, unH_next, set_tag ks h]

theorem newFront_sim (h : ∀ e ∈ m.hmap, Old ks n e.1) (k : K) (v : V) :
    newFront ks (down m) k v = down (m.newFront (tag ks n k) v) := by
  simp only [newFront, down, LHM.newFront, unH_put, unH_tag ks _ _ n, unH_prev, unH_next, set_tag ks h]

theorem setBack_sim (h : ∀ e ∈ m.hmap, Old ks n e.1) (k : K) (v : V) :
    setBack ks (down m) k v = (m.setBack (tag ks n k) v).map fun p => (down p.1, p.2) := by
  have h1 : get ks (down m).hmap k = GoMap.get m.hmap (tag ks n k) := get_tag ks h k
  simp only [setBack, LHM.setBack, h1]
  cases GoMap.get m.hmap (tag ks n k) with
  | none => simp only [newBack_sim ks h, Option.map_some]
  | some node =>
    simp only [down, unH_keep, unH_prev, unH_next, prev_unH, next_unH]
    split
    · rfl
    · simp only [Option.bind_eq_bind, Option.pure_def, Option.map_bind, Function.comp_def, Option.map_some]

theorem setFront_sim (h : ∀ e ∈ m.hmap, Old ks n e.1) (k : K) (v : V) :
    setFront ks (down m) k v = (m.setFront (tag ks n k) v).map fun p => (down p.1, p.2) := by
  have h1 : get ks (down m).hmap k = GoMap.get m.hmap (tag ks n k) := get_tag ks h k
  simp only [setFront, LHM.setFront, h1]
  cases GoMap.get m.hmap (tag ks n k) with
  | none => simp only [newFront_sim ks h, Option.map_some]
  | some node =>
    simp only [down, unH_keep, unH_prev, unH_next, prev_unH, next_unH]
    split
    · rfl
    · simp only [Option.bind_eq_bind, Option.pure_def, Option.map_bind, Function.comp_def, Option.map_some]

theorem remove_sim (h : ∀ e ∈ m.hmap, Old ks n e.1) (k : K) :
    remove ks (down m) k = (m.remove (tag ks n k)).map fun p => (down p.1, p.2) := by
  have h1 : get ks (down m).hmap k = GoMap.get m.hmap (tag ks n k) := get_tag ks h k
  have h2 : delete ks (down m).hmap k = (GoMap.delete m.hmap (tag ks n k)).map un := delete_tag ks h k
  simp only [remove, LHM.remove, h1]
  cases GoMap.get m.hmap (tag ks n k) with
  | none => rfl
  | some node =>
    simp only [h2]
    simp only [down, unH_prev, unH_next, prev_unH, next_unH, val_unH, Option.bind_eq_bind, Option.pure_def,
      Option.map_bind, Function.comp_def, Option.map_some]

theorem clear_sim : (down m).clear = down m.clear := by
  simp only [LHM.clear, down, unH_default, unH_prev, unH_next, List.map_nil]

theorem walkTo_un (h : Store (Tag K × V)) (stop : Nat) : ∀ (fuel : Nat) (a : Option Nat),
    walkTo (unH h) stop fuel a = (walkTo h stop fuel a).map (List.map un)
  | _, none => by simp [walkTo]
  | 0, some a => by simp only [walkTo]; split <;> rfl
  | fuel + 1, some a => by
    simp only [walkTo]
    split
    · rfl
    · rw [next_unH, walkTo_un h stop fuel]
      cases walkTo h stop fuel (h a).next <;> rfl

theorem entries_sim : (down m).entries = m.entries.map (List.map un) := walkTo_un _ _ _ _

def unLRes : Linked.Res (Tag K) V → Linked.Res K V
  | .unit => .unit | .bool b => .bool b | .val v => .val v | .nat n => .nat n
  | .keys l => .keys (l.map (·.1)) | .values l => .values l | .slices l => .slices (l.map un)

/-- The call of the linked hash map with number `n`. A refused call is replaced by one that changes nothing. -/
def lhTag (n : Nat) (o : Linked.Op K V) : Linked.Op (Tag K) V :=
  if (lhKey o).any ks.bad then .len else
  match o with
  | .setBack k v => .setBack (tag ks n k) v
  | .setFront k v => .setFront (tag ks n k) v
  | .pushBack k v => .pushBack (tag ks n k) v
  | .pushFront k v => .pushFront (tag ks n k) v
  | .get k => .get (tag ks n k)
  | .set k v => .set (tag ks n k) v
  | .upsert k v => .upsert (tag ks n k) v
  | .remove k => .remove (tag ks n k)
  | .clear => .clear | .empty => .empty | .len => .len | .keys => .keys | .values => .values | .slices => .slices

def lhAns (o : Linked.Op K V) (r : Linked.Res (Tag K) V) : Ans (Linked.Res K V) :=
  if (lhKey o).any ks.bad then .refused else .ok (unLRes r)

theorem old_setBack (h : ∀ e ∈ m.hmap, Old ks n e.1) (k : K) (v : V) (p) (hp : m.setBack (tag ks n k) v = some p) :
    ∀ e ∈ p.1.hmap, Old ks (n + 1) e.1 := by
  have hm : ∀ e ∈ m.hmap, Old ks (n + 1) e.1 := fun e he => (h e he).mono (by omega)
  simp only [LHM.setBack] at hp
  cases hg : GoMap.get m.hmap (tag ks n k) with
  | none => rw [hg] at hp; cases hp; exact old_set ks h k _
  | some node =>
    rw [hg] at hp
    simp only at hp
    split at hp
    · cases hp; exact hm
    · simp only [Option.bind_eq_bind, Option.pure_def, Option.bind_eq_some_iff] at hp
      obtain ⟨_, -, _, -, _, -, hp⟩ := hp
      cases hp; exact hm

theorem old_setFront (h : ∀ e ∈ m.hmap, Old ks n e.1) (k : K) (v : V) (p) (hp : m.setFront (tag ks n k) v = some p) :
    ∀ e ∈ p.1.hmap, Old ks (n + 1) e.1 := by
  have hm : ∀ e ∈ m.hmap, Old ks (n + 1) e.1 := fun e he => (h e he).mono (by omega)
  simp only [LHM.setFront] at hp
  cases hg : GoMap.get m.hmap (tag ks n k) with
  | none => rw [hg] at hp; cases hp; exact old_set ks h k _
  | some node =>
    rw [hg] at hp
    simp only at hp
    split at hp
    · cases hp; exact hm
    · simp only [Option.bind_eq_bind, Option.pure_def, Option.bind_eq_some_iff] at hp
      obtain ⟨_, -, _, -, _, -, hp⟩ := hp
      cases hp; exact hm

theorem old_remove (h : ∀ e ∈ m.hmap, Old ks n e.1) (k : K) (p) (hp : m.remove (tag ks n k) = some p) :
    ∀ e ∈ p.1.hmap, Old ks (n + 1) e.1 := by
  have hm : ∀ e ∈ m.hmap, Old ks (n + 1) e.1 := fun e he => (h e he).mono (by omega)
  simp only [LHM.remove] at hp
  cases hg : GoMap.get m.hmap (tag ks n k) with
  | none => rw [hg] at hp; cases hp; exact hm
  | some node =>
    rw [hg] at hp
    simp only [Option.bind_eq_bind, Option.pure_def, Option.bind_eq_some_iff] at hp
    obtain ⟨_, -, _, -, hp⟩ := hp
    cases hp; exact old_delete ks hm _

theorem lh_sim (n : Nat) (m : LHM (Tag K) V) (o : Linked.Op K V) (h : ∀ e ∈ m.hmap, Old ks n e.1) :
    lhStep ks (down m) o = (m.step (lhTag ks n o)).map (fun p => (down p.1, lhAns ks o p.2)) ∧
    ∀ p, m.step (lhTag ks n o) = some p → ∀ e ∈ p.1.hmap, Old ks (n + 1) e.1 := by
  have hm : ∀ e ∈ m.hmap, Old ks (n + 1) e.1 := fun e he => (h e he).mono (by omega)
  have hg : ∀ k, get ks (down m).hmap k = GoMap.get m.hmap (tag ks n k) := get_tag ks h
  by_cases hb : (lhKey o).any ks.bad = true
  · simp only [lhStep, lhTag, lhAns, hb, if_true, LHM.step, Option.map_some, true_and]
    rintro p ⟨⟩
    exact hm
  · cases o <;> simp only [lhStep, lhTag, lhAns, hb, Bool.false_eq_true, if_false, LHM.step, hg, setBack_sim ks h,
      setFront_sim ks h, remove_sim ks h, newBack_sim ks h, newFront_sim ks h, clear_sim, entries_sim, Option.map_map,
      Function.comp_def]
    case setBack k v =>
      refine ⟨rfl, fun p hp => ?_⟩
      obtain ⟨q, hq, rfl⟩ := Option.map_eq_some_iff.1 hp
      exact old_setBack ks h k v q hq
    case setFront k v =>
      refine ⟨rfl, fun p hp => ?_⟩
      obtain ⟨q, hq, rfl⟩ := Option.map_eq_some_iff.1 hp
      exact old_setFront ks h k v q hq
    case remove k =>
      refine ⟨rfl, fun p hp => ?_⟩
      obtain ⟨q, hq, rfl⟩ := Option.map_eq_some_iff.1 hp
      exact old_remove ks h k q hq
    case pushBack k v =>
      cases GoMap.get m.hmap (tag ks n k)
      · exact ⟨rfl, by rintro p ⟨⟩; exact old_set ks h k _⟩
      · exact ⟨rfl, by rintro p ⟨⟩; exact hm⟩
    case pushFront k v =>
      cases GoMap.get m.hmap (tag ks n k)
      · exact ⟨rfl, by rintro p ⟨⟩; exact old_set ks h k _⟩
      · exact ⟨rfl, by rintro p ⟨⟩; exact hm⟩
    case get k => cases GoMap.get m.hmap (tag ks n k) <;> exact ⟨rfl, by rintro p ⟨⟩; exact hm⟩
    case set k v =>
      cases GoMap.get m.hmap (tag ks n k)
      · exact ⟨rfl, by rintro p ⟨⟩; exact hm⟩
      · exact ⟨by simp only [down, unH_tag ks _ _ n, Option.map_some]; rfl, by rintro p ⟨⟩; exact hm⟩
    case upsert k v =>
      cases GoMap.get m.hmap (tag ks n k)
      · exact ⟨rfl, by rintro p ⟨⟩; exact old_set ks h k _⟩
      · exact ⟨by simp only [down, unH_tag ks _ _ n, Option.map_some]; rfl, by rintro p ⟨⟩; exact hm⟩
    case clear => exact ⟨rfl, by rintro p ⟨⟩; simp [LHM.clear]⟩
    case empty => exact ⟨by simp [down, unLRes], by rintro p ⟨⟩; exact hm⟩
    case len => exact ⟨by simp [down, unLRes], by rintro p ⟨⟩; exact hm⟩
    all_goals
      refine ⟨?_, fun p hp => ?_⟩
      · cases m.entries <;> simp [unLRes, un]
      · obtain ⟨q, -, rfl⟩ := Option.map_eq_some_iff.1 hp
        exact hm

end linked

end Verif.Map.Nan
