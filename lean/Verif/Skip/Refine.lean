import Verif.Skip.Ops
import Verif.Common.Guard

/-! Refinement of the sorted list of entries, call by call. -/

namespace Verif.Skip

open Verif.Size (ord ord_lt ord_gt ord_eq at?)

variable {K V : Type}

/-- `TrimByIndex` has something to keep. -/
def Keeps {α : Type} (xs : List α) (low high : Int) : Prop :=
  xs = [] ∨ ∃ i : Nat, i < xs.length ∧ low ≤ i ∧ (i : Int) ≤ high

/-- The calls that do what they should. -/
def legal (xs : List (K × V)) : Op K V → Prop
  | .trimByIndex low high => Keeps xs low high
  | _ => True

theorem seen_eq {α : Type} (every : α → Bool) : ∀ es : List α,
    es.take ((es.takeWhile every).length + 1) = seen every es
  | [] => rfl
  | e :: es => by
    rw [seen, List.takeWhile_cons]
    by_cases h : every e = true
    · simp only [h, if_true, List.length_cons, List.take_succ_cons]
      rw [seen_eq every es]
    · simp [h]

theorem has_false {o : K → K → Ordering} {k : K} {xs : List (K × V)} (h : Avl.has o k xs = false) :
    xs.find? (fun e => o e.1 k == .eq) = none := by
  rw [List.find?_eq_none]
  intro e he
  have := List.any_eq_false.1 h e he
  simpa using this

theorem at?_map {α β : Type} (f : α → β) (as : List α) (i : Int) : at? (as.map f) i = (at? as i).map f := by
  unfold at?
  split
  · rfl
  · simp

theorem at?_none {α : Type} {as : List α} {i : Int} (h : i < 0 ∨ i ≥ as.length) : at? as i = none := by
  unfold at?
  split
  · rfl
  · rw [List.getElem?_eq_none]; omega

theorem at?_split {α : Type} {as : List α} {i : Int} (h : ¬ (i < 0 ∨ i ≥ as.length)) :
    ∃ L c R, as = L ++ c :: R ∧ (L.length : Int) = i ∧ at? as i = some c := by
  have hi : i.toNat < as.length := by omega
  refine ⟨as.take i.toNat, as[i.toNat], as.drop (i.toNat + 1), by simp, by simp; omega, ?_⟩
  unfold at?
  rw [if_neg (by omega)]
  simp [hi]

section
variable {cmp : K → K → Int} {s : SL K V} {as L R : List Nat} {ht : Nat → Nat}

theorem Sim.sorted {xs : List (K × V)} (h : Sim cmp s xs) : Sorted (ord cmp) xs := by
  obtain ⟨as, ht, g, rfl⟩ := h; exact g.sorted

theorem Good.skip (g : Good cmp s (L ++ R) ht) :
    s.first = some (L ++ R).head? ∧ skip s.heap L.length (L ++ R).head? = some R.head? := by
  refine ⟨g.first, ?_⟩
  rw [skip_ok L.length (L ++ R) g.run0.2 (by simp)]
  simp

theorem clear_ok (g : Good cmp s as ht) (k : K) (v : V) : Sim cmp { s with
      heap := s.heap.put s.free ⟨k, v, List.replicate MaxLevel none⟩
      header := s.free, level := 1, size := 0, free := s.free + 1 } ([] : List (K × V)) := by
  have hlv := g.lvl
  refine ⟨[], fun _ => 0, ⟨?_, by simp, ⟨Nat.le_refl _, by simp only; omega, hlv.2.2⟩, List.Pairwise.nil, ?_,
    by simp, rfl⟩, rfl⟩
  · intro i hi
    refine ⟨?_, trivial⟩
    simp [Store.put, hi]
  · intro a ha
    simp only [List.mem_singleton] at ha
    simp only
    omega

variable (hc : Lawful cmp)
include hc

theorem removeRange_ok (g : Good cmp s as ht) (low high : Int) :
    ∃ s', doRemoveRangeByIndex cmp s low high = some s' ∧
      Sim cmp s' (ranks (fun j => !(decide (low ≤ j) && decide (j ≤ high))) (as.map s.ent)) := by
  have hsz := g.size
  rw [doRemoveRangeByIndex]
  simp only [hsz]
  generalize hlo : (if low < 0 then (0 : Int) else low) = lo
  generalize hhi : (if high ≥ (as.length : Int) then (as.length : Int) - 1 else high) = hi
  have h1 : lo = max low 0 := by rw [← hlo]; split <;> omega
  have h2 : hi = min high (as.length - 1) := by rw [← hhi]; split <;> omega
  by_cases hlh : lo > hi
  · rw [if_pos hlh]
    refine ⟨s, rfl, as, ht, g, ranks_all ?_⟩
    intro j hj
    simp only [List.length_map] at hj
    simp only [Bool.not_eq_true', Bool.and_eq_false_iff, decide_eq_false_iff_not]
    omega
  · rw [if_neg hlh]
    obtain ⟨L, T, hT, hL⟩ : ∃ L T, as = L ++ T ∧ (L.length : Int) = lo :=
      ⟨as.take lo.toNat, as.drop lo.toNat, by simp, by simp; omega⟩
    subst hT
    simp only [List.length_append] at h2
    push_cast at h2
    obtain ⟨M, R, hM, hMl⟩ : ∃ M R, T = M ++ R ∧ (M.length : Int) = hi - lo + 1 :=
      ⟨T.take (hi - lo + 1).toNat, T.drop (hi - lo + 1).toNat, by simp, by simp; omega⟩
    subst hM
    obtain ⟨s', e, g', he⟩ := removeLoop_ok hc M s g
    have hsk := g.skip
    refine ⟨s', ?_, L ++ R, ht, g', ?_⟩
    · rw [hsk.1]
      simp only [Option.bind_some]
      rw [show lo.toNat = L.length by omega, hsk.2]
      simp only [Option.bind_some]
      rw [show (hi - lo + 1).toNat = M.length by omega]
      exact e
    · rw [List.map_append, List.map_append, ranks_append, ranks_append, ranks_all, ranks_none, ranks_all]
      · rw [List.nil_append, ← List.map_append]
        exact List.map_congr_left fun a _ => (he a).symm
      all_goals
        intro j hj
        simp only [List.length_map, List.length_append] at hj hMl h2 ⊢
        push_cast at h2
        simp only [Bool.not_eq_true', Bool.not_eq_false', Bool.and_eq_false_iff, Bool.and_eq_true,
          decide_eq_false_iff_not, decide_eq_true_eq]
        omega

theorem trim_ok (g : Good cmp s as ht) (low high : K) :
    ∃ s', removeAll cmp ((as.filter fun a => decide (cmp (s.heap a).key low < 0) ||
        decide (cmp (s.heap a).key high > 0)).map fun a => (s.heap a).key) s = some s' ∧
      Sim cmp s' ((as.map s.ent).filter fun e => ord cmp e.1 low != .lt && ord cmp e.1 high != .gt) := by
  have := hc.transCmp
  obtain ⟨s', e, h⟩ := removeAll_mem hc ⟨as, ht, g, rfl⟩ ((as.filter fun a => decide (cmp (s.heap a).key low < 0) ||
        decide (cmp (s.heap a).key high > 0)).map fun a => (s.heap a).key)
    (fun e => ord cmp e.1 low == .lt || ord cmp e.1 high == .gt) (by
      intro e he
      obtain ⟨a, ha, rfl⟩ := List.mem_map.1 he
      simp only [List.mem_map, List.mem_filter, Bool.or_eq_true, decide_eq_true_eq, ← ord_lt, ← ord_gt, beq_iff_eq]
      constructor
      · intro hh
        exact ⟨_, ⟨a, ⟨ha, hh⟩, rfl⟩, Ord.refl (o := ord cmp) _⟩
      · rintro ⟨_, ⟨b, ⟨hb, hh⟩, rfl⟩, hab⟩
        rw [Ord.congr_left (o := ord cmp) hab, Ord.congr_left (o := ord cmp) hab]
        exact hh)
  refine ⟨s', e, ?_⟩
  have hf : (fun e : K × V => !(ord cmp e.1 low == .lt || ord cmp e.1 high == .gt)) =
      fun e => ord cmp e.1 low != .lt && ord cmp e.1 high != .gt := by
    funext e
    cases ord cmp e.1 low <;> cases ord cmp e.1 high <;> rfl
  rw [hf] at h
  exact h

theorem trimByIndex_ok (g : Good cmp s as ht) {low high : Int} (hk : Keeps as low high) :
    ∃ s', doTrimByIndex cmp s low high = some s' ∧
      Sim cmp s' (ranks (fun j => decide (low ≤ j) && decide (j ≤ high)) (as.map s.ent)) := by
  have := hc.transCmp
  have hsz := g.size
  rw [doTrimByIndex]
  simp only [hsz]
  generalize hlo : (if low < 0 then (0 : Int) else low) = lo
  generalize hhi : (if high ≥ (as.length : Int) then (as.length : Int) - 1 else high) = hi
  have h1 : lo = max low 0 := by rw [← hlo]; split <;> omega
  have h2 : hi = min high (as.length - 1) := by rw [← hhi]; split <;> omega
  by_cases hlh : lo > hi
  · rw [if_pos hlh]
    rcases hk with rfl | ⟨i, hi1, hi2, hi3⟩
    · exact ⟨s, rfl, [], ht, g, rfl⟩
    · omega
  · rw [if_neg hlh, g.nodes]
    obtain ⟨L, T, hT, hL⟩ : ∃ L T, as = L ++ T ∧ (L.length : Int) = lo :=
      ⟨as.take lo.toNat, as.drop lo.toNat, by simp, by simp; omega⟩
    subst hT
    simp only [List.length_append] at h2
    push_cast at h2
    obtain ⟨M, R, hM, hMl⟩ : ∃ M R, T = M ++ R ∧ (M.length : Int) = hi - lo + 1 :=
      ⟨T.take (hi - lo + 1).toNat, T.drop (hi - lo + 1).toNat, by simp, by simp; omega⟩
    subst hM
    simp only [List.length_append] at h2
    push_cast at h2
    have hbad : (((L ++ (M ++ R)).zipIdx.filter fun x => decide ((x.2 : Int) < lo) ||
        decide ((x.2 : Int) > hi)).map fun x => (s.heap x.1).key) = (L ++ R).map fun a => (s.heap a).key := by
      have : ranks (fun j => decide (j < lo) || decide (j > hi)) (L ++ (M ++ R)) = L ++ R := by
        rw [ranks_append, ranks_append, ranks_all, ranks_none, ranks_all]
        · rfl
        all_goals
          intro j hj
          simp only [Bool.or_eq_true, Bool.or_eq_false_iff, decide_eq_false_iff_not, decide_eq_true_eq]
          omega
      rw [← this, ranks, List.map_map]
      rfl
    simp only [Option.bind_some]
    rw [hbad]
    obtain ⟨s', e, h⟩ := removeAll_ok hc ((L ++ R).map fun a => (s.heap a).key) s _ ⟨_, ht, g, rfl⟩
    refine ⟨s', e, ?_⟩
    have hp := g.pairwise
    rw [List.pairwise_append, List.pairwise_append] at hp
    have hrk : ranks (fun j => decide (low ≤ j) && decide (j ≤ high)) ((L ++ (M ++ R)).map s.ent) = M.map s.ent := by
      rw [List.map_append, List.map_append, ranks_append, ranks_append, ranks_none, ranks_all, ranks_none]
      · simp
      all_goals
        intro j hj
        simp only [List.length_map] at hj ⊢
        simp only [Bool.and_eq_true, Bool.and_eq_false_iff, decide_eq_false_iff_not, decide_eq_true_eq]
        omega
    have hfl : ((L ++ (M ++ R)).map s.ent).filter (fun e => ((L ++ R).map fun a => (s.heap a).key).all
        fun k => ord cmp e.1 k != .eq) = M.map s.ent := by
      rw [List.map_append (f := s.ent), List.map_append (f := s.ent), List.filter_append, List.filter_append,
        List.filter_eq_nil_iff.2, List.filter_eq_self.2, List.filter_eq_nil_iff.2]
      · simp
      · intro e he
        obtain ⟨a, ha, rfl⟩ := List.mem_map.1 he
        rw [List.all_eq_true]
        intro hh
        have := hh (s.heap a).key (List.mem_map.2 ⟨a, by simp [ha], rfl⟩)
        simp only [SL.ent, Ord.refl (o := ord cmp)] at this
        exact absurd this (by decide)
      · intro e he
        obtain ⟨a, ha, rfl⟩ := List.mem_map.1 he
        rw [List.all_eq_true]
        intro k hk
        obtain ⟨b, hb, rfl⟩ := List.mem_map.1 hk
        simp only [SL.ent, bne_iff_ne, ne_eq]
        rcases List.mem_append.1 hb with hb | hb
        · have := hp.2.2 b hb a (by simp [ha])
          rw [Ord.lt_iff (o := ord cmp)] at this
          rw [this]; simp
        · have := hp.2.1.2.2 a ha b hb
          rw [this]; simp
      · intro e he
        obtain ⟨a, ha, rfl⟩ := List.mem_map.1 he
        rw [List.all_eq_true]
        intro hh
        have := hh (s.heap a).key (List.mem_map.2 ⟨a, by simp [ha], rfl⟩)
        simp only [SL.ent, Ord.refl (o := ord cmp)] at this
        exact absurd this (by decide)
    rw [hrk]
    rw [hfl] at h
    exact h

theorem get_ok {xs : List (K × V)} (hs : Sim cmp s xs) (k : K) :
    step cmp s (.get k) = some (s, .found ((xs.find? fun e => ord cmp e.1 k == .eq).map (·.2))) := by
  have := hc.transCmp
  obtain ⟨as, ht, g, rfl⟩ := hs
  obtain ⟨L, R, rfl, hL, hse, hR⟩ := g.cases hc k
  have hat := g.at_pre
  simp only [step, hse, Option.bind_some, hat, Option.map_some]
  rcases hR with ⟨b, R, rfl, hb⟩ | hR
  · have hsr := g.sorted
    rw [List.map_append, List.map_cons] at hsr
    have hh := hit_facts hsr (e := s.ent b) (k := k) hb
    rw [List.map_append, List.map_cons, hh.2.1]
    simp only [List.head?_cons]
    rw [if_pos (ord_eq.1 hb)]
    rfl
  · have hm := miss_facts (o := ord cmp) (L := L.map s.ent) (R := R.map s.ent) (k := k)
      (by intro e he; obtain ⟨a, ha, rfl⟩ := List.mem_map.1 he; exact hL a ha)
      (by intro e he; obtain ⟨a, ha, rfl⟩ := List.mem_map.1 he; exact hR a ha)
    rw [List.map_append, hm.2.1]
    cases hf : R.head? with
    | none => rfl
    | some b =>
      have := hR b (List.mem_of_mem_head? hf)
      simp only
      rw [if_neg (fun h0 => by rw [← ord_eq, this] at h0; cases h0)]
      rfl

theorem step_ok {xs : List (K × V)} (hs : Sim cmp s xs) (op : Op K V) (hl : legal xs op) :
    ∃ s', step cmp s op = some (s', (spec (ord cmp) xs op).2) ∧ Sim cmp s' (spec (ord cmp) xs op).1 := by
  have := hc.transCmp
  have hs0 := hs
  obtain ⟨as, ht, g, hx⟩ := hs
  have hsz := g.size
  cases op with
  | put k v coins =>
    obtain ⟨s', e, h⟩ := putWith_ok hc hs0 k v coins
    refine ⟨s', ?_, ?_⟩
    · rw [step, e, spec]
      cases hh : Avl.has (ord cmp) k xs <;> simp
    · rw [spec]
      cases hh : Avl.has (ord cmp) k xs
      · simpa [hh] using h
      · simpa [hh] using h
  | putDup k v coins =>
    obtain ⟨s', e, h⟩ := putWith_ok hc hs0 k v coins
    refine ⟨s', ?_, ?_⟩
    · rw [step, e, spec]
      cases hh : Avl.has (ord cmp) k xs
      · simp [has_false hh]
      · simp
    · rw [spec]
      cases hh : Avl.has (ord cmp) k xs
      · simpa [hh] using h
      · simpa [hh] using h
  | get k => exact ⟨s, get_ok hc hs0 k, hs0⟩
  | remove k =>
    obtain ⟨s', e, h⟩ := remove_ok hc hs0 k
    exact ⟨s', by rw [step, e]; rfl, h⟩
  | size => exact ⟨s, by rw [step, spec, hsz, hx]; simp, hs0⟩
  | head => exact ⟨s, by rw [step, spec, g.first, hx]; simp, hs0⟩
  | tail => exact ⟨s, by rw [step, spec, g.nodes, hx]; simp, hs0⟩
  | index i =>
    refine ⟨s, ?_, hs0⟩
    rw [step, spec, hsz, hx, at?_map]
    by_cases hi : i < 0 ∨ i ≥ as.length
    · rw [if_pos hi, at?_none hi]; rfl
    · rw [if_neg hi]
      obtain ⟨L, c, R, rfl, hLl, hat⟩ := at?_split hi
      have hsk := g.skip
      rw [hsk.1]
      simp only [Option.bind_some]
      rw [show i.toNat = L.length by omega, hsk.2, hat]
      rfl
  | indexOf k =>
    refine ⟨s, ?_, hs0⟩
    rw [step, spec, g.nodes, hx, List.findIdx?_map]
    simp only [Option.map_some]
    have : (fun a => cmp (s.heap a).key k == 0) = ((fun e : K × V => ord cmp e.1 k == .eq) ∘ s.ent) := by
      funext a
      simp only [Function.comp, SL.ent]
      rw [Bool.eq_iff_iff]
      simp [ord_eq]
    rw [this]
    rfl
  | clear => exact ⟨_, rfl, clear_ok g _ _⟩
  | traverse every =>
    refine ⟨s, ?_, hs0⟩
    rw [step, spec, g.nodes, hx]
    simp only [Option.map_some]
    rw [seen_eq]
  | slices => exact ⟨s, by rw [step, spec, g.nodes, hx]; rfl, hs0⟩
  | removeHead =>
    rw [step, spec, hsz]
    cases as with
    | nil =>
      subst hx
      exact ⟨s, rfl, hs0⟩
    | cons a as =>
      rw [if_neg (by simp only [List.length_cons]; omega), g.first]
      simp only [List.head?_cons, Option.bind_some]
      obtain ⟨s', e, h⟩ := remove_ok hc hs0 (s.heap a).key
      have hsr := g.sorted
      have hh := hit_facts (o := ord cmp) (L := []) (R := as.map s.ent) (e := s.ent a) (k := (s.heap a).key) hsr
        (Ord.refl (o := ord cmp) _)
      simp only [List.nil_append] at hh
      subst hx
      rw [List.map_cons] at e h ⊢
      rw [hh.2.1] at e
      rw [hh.2.2.2] at h
      exact ⟨s', by rw [e]; rfl, h⟩
  | removeTail =>
    rw [step, spec, hsz]
    rcases List.eq_nil_or_concat as with rfl | ⟨L, c, hLc⟩
    · subst hx
      exact ⟨s, rfl, hs0⟩
    · rw [List.concat_eq_append] at hLc
      subst hLc
      obtain ⟨s', e, h⟩ := removeAt_ok hc g
      refine ⟨s', ?_, ?_⟩
      · rw [if_neg (by simp only [List.length_append, List.length_cons]; omega), g.nodes]
        simp only [Option.bind_some, List.getLast?_append, List.getLast?_singleton, Option.some_or]
        rw [e, hx]
        simp
      · rw [hx]
        simpa using h
  | removeIndex i =>
    rw [step, spec, hsz]
    by_cases hi : i < 0 ∨ i ≥ as.length
    · rw [if_pos hi, hx, at?_map, at?_none hi]
      refine ⟨s, rfl, as, ht, g, ?_⟩
      refine ranks_all (L := as.map s.ent) (p := fun j => j != i) ?_
      intro j hj
      simp only [List.length_map] at hj
      simp only [bne_iff_ne, ne_eq]
      omega
    · rw [if_neg hi, hx, at?_map]
      obtain ⟨L, c, R, rfl, hLl, hat⟩ := at?_split hi
      have hsk := g.skip
      obtain ⟨s', e, h⟩ := removeAt_ok hc g
      refine ⟨s', ?_, ?_⟩
      · rw [hsk.1]
        simp only [Option.bind_some]
        rw [show i.toNat = L.length by omega, hsk.2, hat]
        simp only [List.head?_cons, Option.bind_some]
        rw [e]
        rfl
      · have : ranks (fun j => j != i) ((L ++ c :: R).map s.ent) = L.map s.ent ++ R.map s.ent := by
          rw [List.map_append, List.map_cons, ← List.singleton_append, ranks_append, ranks_append, ranks_all,
            ranks_none, ranks_all]
          · simp
          all_goals
            intro j hj
            simp only [List.length_map, List.length_singleton] at hj ⊢
            simp only [bne_iff_ne, ne_eq, bne_eq_false_iff_eq]
            omega
        rw [this]
        exact h
  | removeRangeByIndex low high =>
    obtain ⟨s', e, h⟩ := removeRange_ok hc g low high
    exact ⟨s', by rw [step, e]; rfl, by rw [spec, hx]; exact h⟩
  | trim low high =>
    obtain ⟨s', e, h⟩ := trim_ok hc g low high
    refine ⟨s', ?_, by rw [spec, hx]; exact h⟩
    rw [step, g.nodes]
    simp only [Option.bind_some]
    rw [e]
    rfl
  | trimByIndex low high =>
    have hk : Keeps as low high := by
      have hl : Keeps xs low high := hl
      rw [hx] at hl
      rcases hl with h1 | h1
      · left; simpa using h1
      · right; simpa using h1
    obtain ⟨s', e, h⟩ := trimByIndex_ok hc g hk
    exact ⟨s', by rw [step, e]; rfl, by rw [spec, hx]; exact h⟩

end

theorem new_ok {cmp : K → K → Int} (m : Int) (junk : K × V) : Sim cmp (new m junk) [] := by
  refine ⟨[], fun _ => 0, ⟨?_, by simp, ?_, List.Pairwise.nil, ?_, by simp [new], rfl⟩, rfl⟩
  · intro i hi
    refine ⟨?_, trivial⟩
    simp [new, hi]
  · refine ⟨Nat.le_refl _, ?_⟩
    simp only [new]
    by_cases h : m < 1 ∨ m > MaxLevel
    · rw [if_pos h]; simp [MaxLevel]
    · rw [if_neg h]; omega
  · intro a ha
    simp only [new, List.mem_singleton] at ha ⊢
    omega

end Verif.Skip
