import Verif.Tree.AvlDeepMap
import Mathlib.Data.Finset.Card

/-! C25 is false for tree/avl with the default threshold 1: there is a history of `Put` and `Remove` after which the map
has 8257 entries and the next `Put` panics. The history is found for rational keys and then made one for the keys in
question. -/

namespace Verif.Avl

open _root_.Verif.Tree

variable {K K' V : Type}

namespace Deep

/-! ### The same calls with other keys -/

section
variable {cmp : K → K → Int} {cmp' : K' → K' → Int} {f : K → K'}

/-- The comparators agree about the keys in the tree and this one. -/
def Agree (cmp : K → K → Int) (cmp' : K' → K' → Int) (f : K → K') (key : K) (t : T K V) : Prop :=
  ∀ e ∈ t.toList, cmp' (f e.1) (f key) = cmp e.1 key

theorem Agree.parts {key : K} {h : Int} {k : K} {v : V} {l r : T K V}
    (ha : Agree cmp cmp' f key (node h k v l r)) :
    cmp' (f k) (f key) = cmp k key ∧ Agree cmp cmp' f key l ∧ Agree cmp cmp' f key r := by
  simp only [Agree, toList, List.mem_append, List.mem_cons] at ha ⊢
  exact ⟨ha (k, v) (.inr (.inl rfl)), fun e he => ha e (.inl he), fun e he => ha e (.inr (.inr he))⟩

theorem get_mapT {key : K} : ∀ {t : T K V}, Agree cmp cmp' f key t →
    get cmp' (f key) (mapT f id t) = (get cmp key t).map (Option.map fun e => (f e.1, e.2))
  | nil, _ => rfl
  | node h k v l r, ha => by
    obtain ⟨h1, h2, h3⟩ := ha.parts
    simp only [mapT, get, h1, get_mapT h2, get_mapT h3, id]
    split_ifs <;> rfl

theorem getC_mapT {key : K} : ∀ {t : T K V}, Agree cmp cmp' f key t →
    (getC cmp' (f key) (mapT f id t)).1 = (getC cmp key t).1
  | nil, _ => rfl
  | node h k v l r, ha => by
    obtain ⟨h1, h2, h3⟩ := ha.parts
    simp only [mapT, getC, h1]
    split_ifs <;> simp only [getC_mapT h2, getC_mapT h3]

theorem put_mapT {key : K} {val : V} : ∀ {t : T K V} {sib : Bool}, Agree cmp cmp' f key t →
    put cmp' false 1 (f key) val id (mapT f id t) sib =
      (put cmp false 1 key val id t sib).map fun p => (mapT f id p.1, p.2)
  | nil, _, _ => rfl
  | node h k v l r, sib, ha => by
    obtain ⟨h1, h2, h3⟩ := ha.parts
    simp only [mapT, put, h1, put_mapT h2, put_mapT h3, id, isNil_mapT]
    split_ifs with c1 c2 c3
    · rfl
    · cases put cmp false 1 key val id l r.isNil with
      | none => rfl
      | some p =>
        simp only [Option.map_some, Option.bind_some]
        split_ifs
        · rfl
        · have := rebalance_mapT (f := f) (g := id) (node h k v p.1 r)
          simp only [mapT, id] at this
          rw [this]
          cases rebalance false 1 (node h k v p.1 r) <;> rfl
    · cases put cmp false 1 key val id r l.isNil with
      | none => rfl
      | some p =>
        simp only [Option.map_some, Option.bind_some]
        split_ifs
        · rfl
        · have := rebalance_mapT (f := f) (g := id) (node h k v l p.1)
          simp only [mapT, id] at this
          rw [this]
          cases rebalance false 1 (node h k v l p.1) <;> rfl
    · rfl

theorem rebIf_mapT (rb : Bool) (t : T K V) :
    rebIf false 1 rb (mapT f id t) = (rebIf false 1 rb t).map fun p => (mapT f id p.1, p.2) := by
  cases rb
  · rfl
  · exact rebalance_mapT t

theorem neighboring_mapT (right : Bool) : ∀ t : T K V, neighboring false 1 right (mapT f id t) =
    (neighboring false 1 right t).map fun p => (mapT f id p.1, (f p.2.1.1, p.2.1.2), p.2.2)
  | nil => rfl
  | node h k v l r => by
    have ihl := neighboring_mapT right l
    have ihr := neighboring_mapT right r
    cases right with
    | true =>
      cases r with
      | nil => rfl
      | node h' k' v' l' r' =>
        rw [neighboring.eq_def]
        simp only [mapT, if_true] at ihr ⊢
        rw [ihr]
        conv_rhs => rw [neighboring.eq_def]
        simp only [if_true]
        cases neighboring false 1 true (node h' k' v' l' r') with
        | none => rfl
        | some p =>
          have := rebIf_mapT (f := f) p.2.2 (node h k v l p.1)
          simp only [mapT, id] at this
          simp only [Option.map_some, Option.bind_some, id, this]
          cases rebIf false 1 p.2.2 (node h k v l p.1) <;> rfl
    | false =>
      cases l with
      | nil => rfl
      | node h' k' v' l' r' =>
        rw [neighboring.eq_def]
        simp only [mapT, Bool.false_eq_true, if_false] at ihl ⊢
        rw [ihl]
        conv_rhs => rw [neighboring.eq_def]
        simp only [Bool.false_eq_true, if_false]
        cases neighboring false 1 false (node h' k' v' l' r') with
        | none => rfl
        | some p =>
          have := rebIf_mapT (f := f) p.2.2 (node h k v p.1 r)
          simp only [mapT, id] at this
          simp only [Option.map_some, Option.bind_some, id, this]
          cases rebIf false 1 p.2.2 (node h k v p.1 r) <;> rfl

theorem removeHere_mapT (right : Bool) (t : T K V) : removeHere false 1 right (mapT f id t) =
    (removeHere false 1 right t).map fun p => (mapT f id p.1, p.2) := by
  cases t with
  | nil => rfl
  | node h k v l r =>
    simp only [mapT, removeHere, isNil_mapT, neighboring_mapT, id]
    split_ifs
    · rfl
    · rfl
    · cases neighboring false 1 false r with
      | none => rfl
      | some p =>
        have := rebalance_mapT (f := f) (g := id) (node h p.2.1.1 p.2.1.2 l p.1)
        simp only [mapT, id] at this
        simp only [Option.map_some, Option.bind_some, this]
        cases rebalance false 1 (node h p.2.1.1 p.2.1.2 l p.1) <;> rfl
    · cases neighboring false 1 true l with
      | none => rfl
      | some p =>
        have := rebalance_mapT (f := f) (g := id) (node h p.2.1.1 p.2.1.2 p.1 r)
        simp only [mapT, id] at this
        simp only [Option.map_some, Option.bind_some, this]
        cases rebalance false 1 (node h p.2.1.1 p.2.1.2 p.1 r) <;> rfl

theorem remove_mapT {key : K} : ∀ {t : T K V} {right : Bool}, Agree cmp cmp' f key t →
    remove false 1 cmp' (f key) (mapT f id t) right =
      (remove false 1 cmp key t right).map fun p => (mapT f id p.1, p.2)
  | nil, _, _ => rfl
  | node h k v l r, right, ha => by
    obtain ⟨h1, h2, h3⟩ := ha.parts
    have hr := removeHere_mapT (f := f) right (node h k v l r)
    simp only [mapT, id] at hr
    simp only [mapT, remove, h1, remove_mapT h2, remove_mapT h3, id, hr]
    split_ifs with c1 c2 c3
    · rfl
    · cases remove false 1 cmp key l false with
      | none => rfl
      | some p =>
        have := rebIf_mapT (f := f) p.2.2 (node h k v p.1 r)
        simp only [mapT, id] at this
        simp only [Option.map_some, Option.bind_some, this]
        cases rebIf false 1 p.2.2 (node h k v p.1 r) <;> rfl
    · cases remove false 1 cmp key r true with
      | none => rfl
      | some p =>
        have := rebIf_mapT (f := f) p.2.2 (node h k v l p.1)
        simp only [mapT, id] at this
        simp only [Option.map_some, Option.bind_some, this]
        cases rebIf false 1 p.2.2 (node h k v l p.1) <;> rfl
    · rfl

def mapM (f : K → K') (m : Map K V) : Map K' V := ⟨mapT f id m.root, m.size⟩

/-- A call with another key. -/
def mapOp (f : K → K') : Op K V → Op K' V
  | .put k v => .put (f k) v
  | .remove k => .remove (f k)
  | _ => .clear

/-- The key of a call. -/
def keyOf : Op K V → Option K
  | .put k _ => some k
  | .remove k => some k
  | _ => none

theorem step_mapT {m : Map K V} {op : Op K V} {v : V} (ho : ∃ k, op = .put k v ∨ op = .remove k)
    (ha : ∀ k ∈ keyOf op, Agree cmp cmp' f k m.root) :
    (step cmp' false 1 (mapM f m) (mapOp f op)).map (·.1) = (step cmp false 1 m op).map fun p => mapM f p.1 := by
  obtain ⟨k, rfl | rfl⟩ := ho
  · have := ha k rfl
    simp only [step, mapOp, Map.put, mapM, put_mapT this]
    cases put cmp false 1 k v id m.root false <;> rfl
  · have := ha k rfl
    simp only [step, mapOp, Map.remove, mapM, remove_mapT this]
    cases remove false 1 cmp k m.root true <;> rfl

theorem spec_keys {F : K → Prop} {o : K → K → Ordering} {xs : List (K × V)} {op : Op K V} {v : V}
    (ho : ∃ k, op = .put k v ∨ op = .remove k) (hk : ∀ k ∈ keyOf op, F k) (hx : ∀ e ∈ xs, F e.1) :
    ∀ e ∈ (spec o xs op).1, F e.1 := by
  obtain ⟨k, rfl | rfl⟩ := ho
  · simp only [spec]
    split_ifs
    · exact hx
    · intro e he
      simp only [insertEntry, List.mem_append, List.mem_filter, List.mem_cons] at he
      rcases he with he | rfl | he
      · exact hx e he.1
      · exact hk k rfl
      · exact hx e he.1
  · intro e he
    exact hx e (List.mem_filter.1 he).1

/-- A history with other keys. -/
theorem run_mapT (hc : LawfulEx cmp) {F : K → Prop} (hf : ∀ a b, F a → F b → cmp' (f a) (f b) = cmp a b) {v : V} :
    ∀ (os : List (Op K V)), (∀ op ∈ os, ∃ k, op = .put k v ∨ op = .remove k) →
      (∀ op ∈ os, ∀ k ∈ keyOf op, F k) → ∀ {m m' : Map K V} {rs : List (Res K V)} {xs : List (K × V)},
      Rel cmp m xs → (∀ e ∈ xs, F e.1) → run (step cmp false 1) m os = some (m', rs) →
      (∃ rs', run (step cmp' false 1) (mapM f m) (os.map (mapOp f)) = some (mapM f m', rs')) ∧
      ∀ e ∈ m'.root.toList, F e.1
  | [], _, _, m, m', rs, xs, hR, hx, h => by
    cases h
    exact ⟨⟨[], rfl⟩, by rw [hR.list]; exact hx⟩
  | op :: os, ho, hk, m, m', rs, xs, hR, hx, h => by
    simp only [run] at h
    cases h1 : step cmp false 1 m op with
    | none => rw [h1] at h; cases h
    | some p =>
      obtain ⟨m1, r⟩ := p
      rw [h1] at h
      simp only at h
      cases h2 : run (step cmp false 1) m1 os with
      | none => rw [h2] at h; cases h
      | some q =>
        obtain ⟨m2, rs2⟩ := q
        rw [h2] at h
        cases h
        have ho' := ho op List.mem_cons_self
        have hk' := hk op List.mem_cons_self
        have ha : op.abstract = true := by obtain ⟨k, rfl | rfl⟩ := ho' <;> rfl
        obtain ⟨⟨rs', h3⟩, h4⟩ := run_mapT hc hf os (fun o h => ho o (List.mem_cons_of_mem _ h))
          (fun o h => hk o (List.mem_cons_of_mem _ h)) (step_partial hc ha hR h1).2 (spec_keys ho' hk' hx) h2
        have h5 := step_mapT (cmp' := cmp') (f := f) (m := m) ho' fun k hk0 e he =>
          hf _ _ (hx e (by rw [← hR.list]; exact he)) (hk' k hk0)
        rw [h1] at h5
        obtain ⟨⟨m3, r3⟩, h6, h7⟩ := Option.map_eq_some_iff.1 h5
        simp only at h7
        subst h7
        exact ⟨⟨r3 :: rs', by simp only [List.map_cons, run, h6, h3]⟩, h4⟩

end

end Deep

/-- There are increasing sequences of keys of every length, as for strings or integers without bound. -/
def LongChains (o : K → K → Ordering) : Prop :=
  ∀ n : Nat, ∃ l : Nat → K, ∀ i j, i < j → j ≤ n → o (l i) (l j) = .lt

namespace Deep

/-- Finitely many rational numbers, told by keys in the same order. -/
theorem rename {cmp : K → K → Int} (hc : LawfulEx cmp) (hl : LongChains (ord cmp)) (F : Finset Rat) :
    ∃ f : Rat → K, ∀ a b, a ∈ F → b ∈ F → cmp (f a) (f b) = ratCmp a b := by
  have := hc.trans
  obtain ⟨l, hl⟩ := hl F.card
  have hle : ∀ a, (F.filter (· < a)).card ≤ F.card := fun a => Finset.card_filter_le _ _
  have hlt : ∀ a b, a ∈ F → a < b → (F.filter (· < a)).card < (F.filter (· < b)).card := by
    intro a b ha hab
    refine Finset.card_lt_card ⟨fun x hx => ?_, fun h => ?_⟩
    · rw [Finset.mem_filter] at hx ⊢
      exact ⟨hx.1, lt_trans hx.2 hab⟩
    · have := h (Finset.mem_filter.2 ⟨ha, hab⟩)
      exact lt_irrefl _ (Finset.mem_filter.1 this).2
  refine ⟨fun a => l (F.filter (· < a)).card, fun a b ha hb => ?_⟩
  rcases lt_trichotomy a b with h | h | h
  · have h1 := hl _ _ (hlt a b ha h) (hle b)
    rcases cmp_cases hc (l (F.filter (· < a)).card) (l (F.filter (· < b)).card) with h2 | h2 | h2
    · rw [h2.2] at h1; cases h1
    · rw [h2.2] at h1; cases h1
    · rw [h2.1]; simp [ratCmp, h, not_lt_of_gt h]
  · subst h
    have h1 := Ord.refl (o := ord cmp) (l (F.filter (· < a)).card)
    rcases hc.range (l (F.filter (· < a)).card) (l (F.filter (· < a)).card) with h2 | h2 | h2
    · rw [h2]; simp [ratCmp]
    · simp [ord, h2, exOrd] at h1
    · simp [ord, h2, exOrd] at h1
  · have h1 := hl _ _ (hlt b a hb h) (hle a)
    rw [cmp_zero hc h1]; simp [ratCmp, h]

/-- A history with rational keys as one with the keys in question. -/
theorem transfer {cmp : K → K → Int} (hc : LawfulEx cmp) (hl : LongChains (ord cmp)) {v : V}
    {os : List (Op Rat V)} {m : Map Rat V} {rs : List (Res Rat V)}
    (ho : ∀ op ∈ os, ∃ k, op = .put k v ∨ op = .remove k)
    (h : run (step ratCmp false 1) Map.new os = some (m, rs)) (key : Rat) :
    ∃ (f : Rat → K) (rs' : List (Res K V)), (∀ op ∈ os.map (mapOp f), ∃ k, op = .put k v ∨ op = .remove k) ∧
      run (step cmp false 1) Map.new (os.map (mapOp f)) = some (mapM f m, rs') ∧
      Agree ratCmp cmp f key m.root := by
  classical
  obtain ⟨f, hf⟩ := rename hc hl (insert key (os.filterMap keyOf).toFinset)
  obtain ⟨⟨rs', h1⟩, h2⟩ := run_mapT (cmp' := cmp) (f := f) ratCmp_lawful
    (F := fun a => a ∈ insert key (os.filterMap keyOf).toFinset) hf os ho
    (fun op hop k hk => by
      rw [Finset.mem_insert, List.mem_toFinset, List.mem_filterMap]
      exact .inr ⟨op, hop, hk⟩) Rel.new (by simp) h
  refine ⟨f, rs', ?_, h1, fun e he => hf _ _ (h2 e he) (Finset.mem_insert_self _ _)⟩
  intro op hop
  obtain ⟨op', h3, rfl⟩ := List.mem_map.1 hop
  obtain ⟨k, rfl | rfl⟩ := ho op' h3
  · exact ⟨f k, .inl rfl⟩
  · exact ⟨f k, .inr rfl⟩

end Deep

open Deep

/-- C25 is false for the default threshold of tree/avl: for every lawful comparator for which there are increasing
sequences of keys of every length, there is a history of `Put` and `Remove` without a panic that leaves 8257
entries, and a key not in the map whose `Put` then panics. -/
theorem C25_map_panics {cmp : K → K → Int} (hc : LawfulEx cmp) (hl : LongChains (ord cmp)) (v : V) :
    ∃ (os : List (Op K V)) (m : Map K V) (rs : List (Res K V)) (key : K),
      (∀ op ∈ os, ∃ k, op = .put k v ∨ op = .remove k) ∧
      run (step cmp false 1) Map.new os = some (m, rs) ∧ m.size = 8257 ∧
      step cmp false 1 m (.get key) = some (m, .val none) ∧ step cmp false 1 m (.put key v) = none := by
  obtain ⟨os, m, rs, key, h1, h2, h3, h4, h5⟩ := panics_of_dense ratCmp_lawful ratCmp_dense v
  obtain ⟨f, rs', h6, h7, h8⟩ := transfer hc hl h1 h2 key
  refine ⟨_, _, rs', f key, h6, h7, h3, ?_, ?_⟩
  · simp [step, Map.get, mapM, get_mapT h8, h4]
  · have := step_mapT (cmp' := cmp) (f := f) (m := m) (op := .put key v) ⟨key, .inl rfl⟩
      fun k hk => by cases hk; exact h8
    rw [h5] at this
    exact Option.map_eq_none_iff.1 this

/-- C83 has no logarithmic bound for the default threshold of tree/avl: for every `n` up to 128 there is a history that
leaves n (n + 1) / 2 entries and a key for which `Get` calls the comparator `n` times. -/
theorem C83_avl_default_deep {cmp : K → K → Int} (hc : LawfulEx cmp) (hl : LongChains (ord cmp)) (v : V) {n : Nat}
    (h0 : 1 ≤ n) (hn : n ≤ 128) :
    ∃ (os : List (Op K V)) (m : Map K V) (rs : List (Res K V)) (key : K),
      run (step cmp false 1) Map.new os = some (m, rs) ∧ m.size * 2 = n * (n + 1) ∧
      calls cmp false 1 m (.get key) = n := by
  obtain ⟨os, m, rs, key, h1, h2, h3, h4⟩ := deep_of_dense ratCmp_lawful ratCmp_dense v h0 hn
  obtain ⟨f, rs', -, h7, h8⟩ := transfer hc hl h1 h2 key
  exact ⟨_, _, rs', f key, h7, h3, (getC_mapT h8).trans h4⟩

/-! The hypotheses hold for integers without bound (big.Int). -/

theorem anyEx_chains : LongChains (ord (Compare.anyEx : Int → Int → Int)) := fun n =>
  ⟨fun i => i, fun i j h _ => by
    have h2 : (i : Int) < j := by omega
    simp [ord, Compare.anyEx, exOrd, h2, not_lt_of_gt h2]⟩

example : ∃ (os : List (Op Int String)) (m : Map Int String) (rs : List (Res Int String)) (key : Int),
    (∀ op ∈ os, ∃ k, op = .put k "a" ∨ op = .remove k) ∧
    run (step Compare.anyEx false 1) Map.new os = some (m, rs) ∧ m.size = 8257 ∧
    step Compare.anyEx false 1 m (.get key) = some (m, .val none) ∧
    step Compare.anyEx false 1 m (.put key "a") = none :=
  C25_map_panics anyEx_lawful anyEx_chains "a"

/-- 210 entries, 20 comparisons; with threshold 2 there are at most 15. -/
example : ∃ (os : List (Op Int String)) (m : Map Int String) (rs : List (Res Int String)) (key : Int),
    run (step Compare.anyEx false 1) Map.new os = some (m, rs) ∧ m.size * 2 = 20 * (20 + 1) ∧
    calls Compare.anyEx false 1 m (.get key) = 20 :=
  C83_avl_default_deep anyEx_lawful anyEx_chains "a" (by decide) (by decide)

end Verif.Avl
