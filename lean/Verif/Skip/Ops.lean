import Verif.Skip.Core

/-! Every operation does what the sorted list of entries says. -/

namespace Verif.Skip

open Verif.Size (ord ord_lt ord_gt ord_eq at?)

variable {K V : Type}

/-! ### Specification -/

section
variable (o : K → K → Ordering)

/-- The entries whose rank satisfies `p`. -/
def ranks {α : Type} (p : Int → Bool) (xs : List α) : List α := (xs.zipIdx.filter fun x => p x.2).map (·.1)

/-- The ideal sorted map: the list of its entries. -/
def spec (xs : List (K × V)) : Op K V → List (K × V) × Res K V
  | .put k v _ =>
    if Avl.has o k xs then (xs.map fun e => if o e.1 k == .eq then (e.1, v) else e, .bool false)
    else (Avl.insertEntry o (k, v) xs, .bool true)
  | .putDup k v _ =>
    if Avl.has o k xs then (xs.map fun e => if o e.1 k == .eq then (e.1, v) else e,
      .dup false (xs.find? fun e => o e.1 k == .eq))
    else (Avl.insertEntry o (k, v) xs, .dup true none)
  | .get k => (xs, .found ((xs.find? fun e => o e.1 k == .eq).map (·.2)))
  | .remove k => (xs.filter fun e => o e.1 k != .eq, .slice (xs.find? fun e => o e.1 k == .eq))
  | .size => (xs, .int xs.length)
  | .head => (xs, .slice xs.head?)
  | .tail => (xs, .slice xs.getLast?)
  | .index i => (xs, .slice (at? xs i))
  | .indexOf k => (xs, .int (match xs.findIdx? fun e => o e.1 k == .eq with | none => -1 | some n => n))
  | .clear => ([], .unit)
  | .traverse every => (xs, .list (seen every xs))
  | .slices => (xs, .list xs)
  | .removeHead => (xs.tail, .slice xs.head?)
  | .removeTail => (xs.dropLast, .slice xs.getLast?)
  | .removeIndex i => (ranks (fun j => j != i) xs, .slice (at? xs i))
  | .removeRangeByIndex low high => (ranks (fun j => !(decide (low ≤ j) && decide (j ≤ high))) xs, .unit)
  | .trim low high => (xs.filter fun e => o e.1 low != .lt && o e.1 high != .gt, .unit)
  | .trimByIndex low high => (ranks (fun j => decide (low ≤ j) && decide (j ≤ high)) xs, .unit)

end

/-- The list represents the entries `xs`. -/
def Sim (cmp : K → K → Int) (s : SL K V) (xs : List (K × V)) : Prop :=
  ∃ as ht, Good cmp s as ht ∧ xs = as.map s.ent

/-! ### Facts about sorted lists -/

theorem split_mono {α : Type} (p : α → Bool) : ∀ (as : List α), as.Pairwise (fun a b => p b = true → p a = true) →
    ∃ L R, as = L ++ R ∧ (∀ a ∈ L, p a = true) ∧ ∀ a ∈ R, p a = false
  | [], _ => ⟨[], [], rfl, by simp, by simp⟩
  | a :: as, h => by
    obtain ⟨L, R, rfl, h1, h2⟩ := split_mono p as (List.pairwise_cons.1 h).2
    by_cases ha : p a = true
    · exact ⟨a :: L, R, rfl, by simpa [ha] using h1, h2⟩
    · have hall : ∀ b ∈ a :: (L ++ R), p b = false := by
        intro b hb
        rcases List.mem_cons.1 hb with rfl | hb
        · simpa using ha
        · by_contra hc
          exact ha ((List.pairwise_cons.1 h).1 b hb (by simpa using hc))
      exact ⟨[], a :: (L ++ R), rfl, by simp, hall⟩

section
variable {o : K → K → Ordering} [Std.TransCmp o]

omit [Std.TransCmp o] in
theorem miss_facts {L R : List (K × V)} {k : K} (hL : ∀ e ∈ L, o e.1 k = .lt) (hR : ∀ e ∈ R, o e.1 k = .gt) :
    Avl.has o k (L ++ R) = false ∧ (L ++ R).find? (fun e => o e.1 k == .eq) = none ∧
      (∀ v : V, Avl.insertEntry o (k, v) (L ++ R) = L ++ (k, v) :: R) ∧
      (L ++ R).filter (fun e => o e.1 k != .eq) = L ++ R := by
  have hne : ∀ e ∈ L ++ R, o e.1 k ≠ .eq := by
    intro e he
    rcases List.mem_append.1 he with h | h
    · rw [hL e h]; simp
    · rw [hR e h]; simp
  refine ⟨?_, ?_, fun v => ?_, ?_⟩
  · rw [Avl.has, List.any_eq_false]
    intro e he
    simpa using hne e he
  · rw [List.find?_eq_none]
    intro e he
    simpa using hne e he
  · unfold Avl.insertEntry
    simp only [List.filter_append]
    rw [List.filter_eq_self.2 (fun e he => by simp [hL e he]),
      List.filter_eq_nil_iff.2 (fun e he => by simp [hR e he]),
      List.filter_eq_nil_iff.2 (fun e he => by simp [hL e he]),
      List.filter_eq_self.2 (fun e he => by simp [hR e he])]
    simp
  · rw [List.filter_eq_self]
    intro e he
    simpa using hne e he

theorem hit_facts {L R : List (K × V)} {e : K × V} {k : K} (hs : Sorted o (L ++ e :: R)) (he : o e.1 k = .eq) :
    Avl.has o k (L ++ e :: R) = true ∧ (L ++ e :: R).find? (fun x => o x.1 k == .eq) = some e ∧
      (∀ f : K × V → K × V, (L ++ e :: R).map (fun x => if o x.1 k == .eq then f x else x) = L ++ f e :: R) ∧
      (L ++ e :: R).filter (fun x => o x.1 k != .eq) = L ++ R := by
  obtain ⟨-, -, h3, h4, -⟩ := Sorted.split.1 hs
  have hL : ∀ x ∈ L, o x.1 k = .lt := fun x hx => Ord.lt_of_lt_of_eq (h3 x hx) he
  have hR : ∀ x ∈ R, o x.1 k = .gt := fun x hx => by
    rw [Ord.gt_iff]; exact Ord.lt_of_eq_of_lt (Ord.eq_symm he) (h4 x hx)
  refine ⟨?_, ?_, fun f => ?_, ?_⟩
  · rw [Avl.has, List.any_eq_true]
    exact ⟨e, by simp, by simp [he]⟩
  · rw [List.find?_append, List.find?_eq_none.2 (fun x hx => by simp [hL x hx])]
    simp [he]
  · simp only [List.map_append, List.map_cons, he]
    congr 1
    · rw [List.map_congr_left (g := id) (fun x hx => by simp [hL x hx])]; simp
    · congr 1
      rw [List.map_congr_left (g := id) (fun x hx => by simp [hR x hx])]; simp
  · simp only [List.filter_append, List.filter_cons, he]
    rw [List.filter_eq_self.2 (fun x hx => by simp [hL x hx]),
      List.filter_eq_self.2 (fun x hx => by simp [hR x hx])]
    simp

end

theorem ranks_append {α : Type} (p : Int → Bool) (L R : List α) :
    ranks p (L ++ R) = ranks p L ++ ranks (fun j => p (j + L.length)) R := by
  unfold ranks
  rw [List.zipIdx_append, List.filter_append, List.map_append, Nat.zero_add]
  congr 1
  rw [List.zipIdx_eq_map_add (l := R) (i := L.length), List.filter_map, List.map_map]
  congr 1
  refine List.filter_congr fun x _ => ?_
  simp only [Function.comp]
  congr 1
  push_cast
  omega

theorem ranks_all {α : Type} {p : Int → Bool} {L : List α} (h : ∀ j : Nat, j < L.length → p j = true) :
    ranks p L = L := by
  unfold ranks
  rw [List.filter_eq_self.2, List.zipIdx_map_fst]
  rintro ⟨a, j⟩ hj
  have := List.snd_lt_of_mem_zipIdx hj
  exact h j (by simpa using this)

theorem ranks_none {α : Type} {p : Int → Bool} {L : List α} (h : ∀ j : Nat, j < L.length → p j = false) :
    ranks p L = [] := by
  unfold ranks
  rw [List.filter_eq_nil_iff.2]
  · rfl
  rintro ⟨a, j⟩ hj
  have := List.snd_lt_of_mem_zipIdx hj
  simp [h j (by simpa using this)]

/-! ### The operations -/

section
variable {cmp : K → K → Int} {s : SL K V} {as L R : List Nat} {ht : Nat → Nat}

theorem Good.pairwise (g : Good cmp s as ht) :
    as.Pairwise fun a b => ord cmp (s.heap a).key (s.heap b).key = .lt := by
  have := g.sorted
  unfold Sorted at this
  rw [List.pairwise_map] at this
  exact this

/-- The pointer after the last of `L`. -/
theorem Good.at_pre (g : Good cmp s (L ++ R) ht) : (s.heap (pre s.header ht L 0)).fwd[0]? = some R.head? := by
  have hr := g.run0
  obtain ⟨P, hP⟩ := pre_split s.header ht L 0
  have hL : L.filter (fun a => decide (0 < ht a)) = L := List.filter_eq_self.2 fun a ha => by
    have := g.tower a (by simp [ha]); simp; omega
  rw [hL] at hP
  rw [← List.cons_append, hP, run_append, run_append] at hr
  have := hr.1.2.1
  simpa using this

theorem Good.descend (g : Good cmp s (L ++ R) ht) {go : Nat → Bool} (hL : ∀ a ∈ L, go a = true)
    (hR : ∀ a ∈ R, go a = false) : descend s.heap go s.free s.level s.header =
      some ((List.range s.level).map (pre s.header ht L), pre s.header ht L 0) := by
  have hl := g.len_lt
  have hlv := g.lvl
  rw [descend_ok g.levels hL hR (by simp only [List.length_append] at hl; omega) s.level s.header (by omega)
    (.inl rfl), if_neg (by omega)]

theorem Good.upd (g : Good cmp s (L ++ R) ht) (i : Nat) :
    updAt s.header ((List.range s.level).map (pre s.header ht L)) i = pre s.header ht L i :=
  updAt_pre (fun a ha => (g.tower a (by simp [ha])).2) i

variable (hc : Lawful cmp)
include hc

/-- The position of a key. -/
theorem Good.split (g : Good cmp s as ht) (k : K) : ∃ L R, as = L ++ R ∧
    (∀ a ∈ L, ord cmp (s.heap a).key k = .lt) ∧ (∀ a ∈ R, ord cmp (s.heap a).key k ≠ .lt) ∧
    search cmp s k = some ((List.range s.level).map (pre s.header ht L), pre s.header ht L 0) := by
  have := hc.transCmp
  obtain ⟨L, R, rfl, h1, h2⟩ := split_mono (before cmp s.heap k) as (by
    refine g.pairwise.imp ?_
    intro a b hab hb
    simp only [before, decide_eq_true_eq, ← ord_lt] at hb ⊢
    exact Ord.lt_trans (o := ord cmp) hab hb)
  refine ⟨L, R, rfl, fun a ha => ?_, fun a ha => ?_, g.descend h1 h2⟩
  · have := h1 a ha
    simpa [before, ord_lt] using this
  · have := h2 a ha
    rw [Ne, ord_lt]
    simpa [before] using this

/-- Either a node with the key follows or only greater ones. -/
theorem Good.cases (g : Good cmp s as ht) (k : K) : ∃ L R, as = L ++ R ∧
    (∀ a ∈ L, ord cmp (s.heap a).key k = .lt) ∧
    search cmp s k = some ((List.range s.level).map (pre s.header ht L), pre s.header ht L 0) ∧
    ((∃ b R', R = b :: R' ∧ ord cmp (s.heap b).key k = .eq) ∨
      ∀ a ∈ R, ord cmp (s.heap a).key k = .gt) := by
  have := hc.transCmp
  obtain ⟨L, R, rfl, h1, h2, h3⟩ := g.split hc k
  refine ⟨L, R, rfl, h1, h3, ?_⟩
  rcases R with _ | ⟨b, R⟩
  · right; simp
  · cases hb : ord cmp (s.heap b).key k with
    | lt => exact absurd hb (h2 b (by simp))
    | eq => exact .inl ⟨b, R, rfl, hb⟩
    | gt =>
      right
      intro a ha
      rcases List.mem_cons.1 ha with rfl | ha
      · exact hb
      · have hp := (List.pairwise_append.1 g.pairwise).2.1
        have := (List.pairwise_cons.1 hp).1 a ha
        rw [Ord.gt_iff (o := ord cmp)] at hb ⊢
        exact Ord.lt_trans (o := ord cmp) hb this

omit hc in
theorem level_bounds {n l m : Nat} (hl : l ≤ m) (hn : n ≤ m) :
    l ≤ (if (if n ≥ l then n + 1 else l) > m then m else (if n ≥ l then n + 1 else l)) ∧
      (if (if n ≥ l then n + 1 else l) > m then m else (if n ≥ l then n + 1 else l)) ≤ m ∧
      n ≤ (if (if n ≥ l then n + 1 else l) > m then m else (if n ≥ l then n + 1 else l)) := by
  by_cases h1 : n ≥ l
  · simp only [if_pos h1]
    by_cases h2 : n + 1 > m
    · rw [if_pos h2]; omega
    · rw [if_neg h2]; omega
  · simp only [if_neg h1]
    by_cases h2 : l > m
    · rw [if_pos h2]; omega
    · rw [if_neg h2]; omega

theorem putWith_ok {xs : List (K × V)} (hs : Sim cmp s xs) (k : K) (v : V) (coins : List Bool) :
    ∃ s', putWith cmp s k v coins = some (s', !Avl.has (ord cmp) k xs, xs.find? fun e => ord cmp e.1 k == .eq) ∧
      Sim cmp s' (if Avl.has (ord cmp) k xs then xs.map fun e => if ord cmp e.1 k == .eq then (e.1, v) else e
        else Avl.insertEntry (ord cmp) (k, v) xs) := by
  have := hc.transCmp
  obtain ⟨as, ht, g, rfl⟩ := hs
  obtain ⟨L, R, rfl, hL, hse, hR⟩ := g.cases hc k
  have hat := g.at_pre
  rcases hR with ⟨b, R, rfl, hb⟩ | hR
  · have hsr := g.sorted
    rw [List.map_append, List.map_cons] at hsr
    have hh := hit_facts hsr (e := s.ent b) (k := k) hb
    refine ⟨{ s with heap := s.heap.put b { s.heap b with val := v } }, ?_, ?_⟩
    · rw [putWith, hse]
      simp only [Option.bind_some, hat, List.head?_cons]
      rw [if_pos (ord_eq.1 hb)]
      rw [List.map_append, List.map_cons, hh.1, hh.2.1]
      rfl
    · rw [List.map_append, List.map_cons, hh.1, if_pos rfl, hh.2.2.1 (fun e => (e.1, v))]
      have hfw : ∀ a i : Nat, ((s.heap.put b { s.heap b with val := v }) a).fwd[i]? = (s.heap a).fwd[i]? := by
        intro a i
        by_cases hab : a = b
        · subst hab; simp [Store.put]
        · simp [Store.put, hab]
      have hnd := g.nodup
      have hbL : ∀ a ∈ L, a ≠ b := by
        rintro a ha rfl
        rw [List.nodup_cons, List.nodup_append] at hnd
        exact hnd.2.2.2 a ha a (by simp) rfl
      have hbR : ∀ a ∈ R, a ≠ b := by
        rintro a ha rfl
        rw [List.nodup_cons, List.nodup_append, List.nodup_cons] at hnd
        exact hnd.2.2.1.1 ha
      have hent : (L ++ b :: R).map (SL.ent { s with heap := s.heap.put b { s.heap b with val := v } }) =
          L.map s.ent ++ ((s.heap b).key, v) :: R.map s.ent := by
        rw [List.map_append, List.map_cons]
        congr 1
        · refine List.map_congr_left fun a ha => ?_
          simp [SL.ent, Store.put, hbL a ha]
        · congr 1
          · simp [SL.ent, Store.put]
          · refine List.map_congr_left fun a ha => ?_
            simp [SL.ent, Store.put, hbR a ha]
      refine ⟨L ++ b :: R, ht, ⟨?_, g.tower, g.lvl, ?_, g.fresh, g.nodup, g.size⟩, ?_⟩
      · intro i hi
        exact run_congr (fun a _ => hfw a i) (g.levels i hi)
      · rw [hent]
        rw [Sorted.split] at hsr ⊢
        exact hsr
      · rw [hent]; rfl
  · have hm := miss_facts (o := ord cmp) (L := L.map s.ent) (R := R.map s.ent) (k := k)
      (by intro e he; obtain ⟨a, ha, rfl⟩ := List.mem_map.1 he; exact hL a ha)
      (by intro e he; obtain ⟨a, ha, rfl⟩ := List.mem_map.1 he; exact hR a ha)
    have hlv := g.lvl
    have hrb := randomFrom_bounds (m := s.maxLevel) coins 1 (by omega)
    let level := (if (if randomLevel s.maxLevel coins ≥ s.level then randomLevel s.maxLevel coins + 1 else s.level)
      > s.maxLevel then s.maxLevel else
      (if randomLevel s.maxLevel coins ≥ s.level then randomLevel s.maxLevel coins + 1 else s.level))
    have hlevel : s.level ≤ level ∧ level ≤ s.maxLevel ∧ randomLevel s.maxLevel coins ≤ level := by
      exact level_bounds hlv.2.1 hrb.2
    obtain ⟨h', e, g', hk, hkx⟩ := insert_good (key := k) (value := v) (n := randomLevel s.maxLevel coins)
      (level := level) (upd := updAt s.header ((List.range s.level).map (pre s.header ht L))) g hL
      (fun a ha => by rw [← Ord.gt_iff (o := ord cmp)]; exact hR a ha)
      ⟨hrb.1, hlevel.2.2⟩ ⟨hlevel.1, hlevel.2.1⟩ g.upd
    refine ⟨{ s with heap := h', level := level, size := s.size + 1, free := s.free + 1 }, ?_, ?_⟩
    · rw [putWith, hse]
      simp only [Option.bind_some, hat]
      rw [List.map_append, hm.1, hm.2.1]
      simp only [level] at e
      cases hf : R.head? with
      | none =>
        simp only
        rw [e]
        rfl
      | some b =>
        have hb := hR b (List.mem_of_mem_head? hf)
        simp only
        rw [if_neg (fun h0 => by rw [← ord_eq, hb] at h0; cases h0), e]
        rfl
    · rw [List.map_append, hm.1, if_neg (by simp), hm.2.2.1]
      refine ⟨_, _, g', ?_⟩
      rw [List.map_append, List.map_cons]
      have hfr := g.fresh
      congr 1
      · refine List.map_congr_left fun a ha => ?_
        have := hfr a (by simp [ha])
        have := hk a (by omega)
        simp only [SL.ent, this]
      · congr 1
        · simp only [SL.ent, hkx]
        · refine List.map_congr_left fun a ha => ?_
          have := hfr a (by simp [ha])
          have := hk a (by omega)
          simp only [SL.ent, this]

theorem remove_ok {xs : List (K × V)} (hs : Sim cmp s xs) (k : K) :
    ∃ s', remove cmp s k = some (s', xs.find? fun e => ord cmp e.1 k == .eq) ∧
      Sim cmp s' (xs.filter fun e => ord cmp e.1 k != .eq) := by
  have := hc.transCmp
  obtain ⟨as, ht, g, rfl⟩ := hs
  obtain ⟨L, R, rfl, hL, hse, hR⟩ := g.cases hc k
  have hat := g.at_pre
  rcases hR with ⟨b, R, rfl, hb⟩ | hR
  · have hsr := g.sorted
    rw [List.map_append, List.map_cons] at hsr
    have hh := hit_facts hsr (e := s.ent b) (k := k) hb
    obtain ⟨s', e, g', he, -⟩ := takeOut_good g
    refine ⟨s', ?_, L ++ R, ht, g', ?_⟩
    · rw [remove, hse]
      simp only [Option.bind_some, hat, List.head?_cons]
      rw [if_neg (by rw [not_not]; exact ord_eq.1 hb), e, List.map_append, List.map_cons, hh.2.1]
      rfl
    · rw [List.map_append, List.map_cons, hh.2.2.2, ← List.map_append]
      exact List.map_congr_left fun a _ => (he a).symm
  · have hm := miss_facts (o := ord cmp) (L := L.map s.ent) (R := R.map s.ent) (k := k)
      (by intro e he; obtain ⟨a, ha, rfl⟩ := List.mem_map.1 he; exact hL a ha)
      (by intro e he; obtain ⟨a, ha, rfl⟩ := List.mem_map.1 he; exact hR a ha)
    refine ⟨s, ?_, L ++ R, ht, g, ?_⟩
    · rw [remove, hse]
      simp only [Option.bind_some, hat]
      rw [List.map_append, hm.2.1]
      cases hf : R.head? with
      | none => rfl
      | some b =>
        have := hR b (List.mem_of_mem_head? hf)
        simp only
        rw [if_pos]
        intro h0
        rw [← ord_eq, this] at h0
        cases h0
    · rw [List.map_append, hm.2.2.2]

theorem Good.go_at {c : Nat} (g : Good cmp s (L ++ c :: R) ht) :
    (∀ a ∈ L, (a != c && before cmp s.heap (s.heap c).key a) = true) ∧
      ∀ a ∈ c :: R, (a != c && before cmp s.heap (s.heap c).key a) = false := by
  have := hc.transCmp
  have hp := g.pairwise
  rw [List.pairwise_append, List.pairwise_cons] at hp
  have hnd := g.nodup
  rw [List.nodup_cons, List.nodup_append] at hnd
  refine ⟨fun a ha => ?_, fun a ha => ?_⟩
  · have h1 : a ≠ c := fun hh => hnd.2.2.2 a ha c (by simp) hh
    have h2 := hp.2.2 a ha c (by simp)
    simp [before, h1, ← ord_lt, h2]
  · rcases List.mem_cons.1 ha with rfl | ha
    · simp
    · have h2 := hp.2.1.1 a ha
      rw [Ord.lt_iff (o := ord cmp)] at h2
      simp [before, ← ord_lt, h2]

theorem removeAt_ok {c : Nat} (g : Good cmp s (L ++ c :: R) ht) :
    ∃ s', removeAt cmp s c = some (s', some (s.ent c)) ∧ Sim cmp s' (L.map s.ent ++ R.map s.ent) := by
  obtain ⟨h1, h2⟩ := g.go_at hc
  obtain ⟨s', e, g', he, -⟩ := takeOut_good g
  have hl := g.len_lt
  have hlv := g.lvl
  refine ⟨s', ?_, L ++ R, ht, g', ?_⟩
  · rw [removeAt, descendH_ok g.levels h1 h2 (by simp only [List.length_append] at hl; omega) s.level (by omega)]
    simp only [Option.bind_some]
    rw [g.upd, g.at_pre]
    simp only [List.head?_cons, Option.bind_some, ne_eq, not_true_eq_false, if_false]
    rw [e]
    rfl
  · rw [← List.map_append]
    exact List.map_congr_left fun a _ => (he a).symm

theorem removeLoop_ok : ∀ (M : List Nat) (s : SL K V), Good cmp s (L ++ (M ++ R)) ht →
    ∃ s', removeLoop cmp M.length s (M ++ R).head? = some s' ∧ Good cmp s' (L ++ R) ht ∧
      ∀ a, s'.ent a = s.ent a
  | [], s, g => ⟨s, rfl, g, fun _ => rfl⟩
  | c :: M, s, g => by
    obtain ⟨h1, h2⟩ := Good.go_at (R := M ++ R) hc g
    obtain ⟨s1, e, g1, he, -⟩ := takeOut_good (R := M ++ R) g
    obtain ⟨s', e', g', he'⟩ := removeLoop_ok M s1 g1
    refine ⟨s', ?_, g', fun a => by rw [he', he]⟩
    have hn : (s.heap c).fwd[0]? = some (M ++ R).head? := by
      have hr := g.run0
      rw [← List.cons_append, run_append] at hr
      have := hr.2.1
      simpa using this
    have hd := Good.descend (R := c :: (M ++ R)) g h1 h2
    rw [List.cons_append, List.head?_cons, List.length_cons, removeLoop, hn]
    simp only [Option.bind_some]
    rw [hd]
    simp only [Option.bind_some]
    rw [e]
    simp only [Option.bind_some]
    exact e'

theorem removeAll_ok : ∀ (ks : List K) (s : SL K V) (xs : List (K × V)), Sim cmp s xs →
    ∃ s', removeAll cmp ks s = some s' ∧ Sim cmp s' (xs.filter fun e => ks.all fun k => ord cmp e.1 k != .eq)
  | [], s, xs, hs => ⟨s, rfl, by simpa using hs⟩
  | k :: ks, s, xs, hs => by
    obtain ⟨s1, e1, h1⟩ := remove_ok hc hs k
    obtain ⟨s2, e2, h2⟩ := removeAll_ok ks s1 _ h1
    refine ⟨s2, ?_, ?_⟩
    · rw [removeAll, e1]; exact e2
    · rw [List.filter_filter] at h2
      have : (fun e : K × V => (ks.all fun k => ord cmp e.1 k != .eq) && (ord cmp e.1 k != .eq)) =
          fun e => (k :: ks).all fun k => ord cmp e.1 k != .eq := by
        funext e; simp [Bool.and_comm]
      rw [this] at h2
      exact h2

/-- Removing all entries that satisfy `p` by their keys. -/
theorem removeAll_mem {xs : List (K × V)} (hs : Sim cmp s xs) (ks : List K) (p : K × V → Bool)
    (hks : ∀ e ∈ xs, p e = true ↔ ∃ k ∈ ks, ord cmp e.1 k = .eq) :
    ∃ s', removeAll cmp ks s = some s' ∧ Sim cmp s' (xs.filter fun e => !p e) := by
  obtain ⟨s', e, h⟩ := removeAll_ok hc ks s xs hs
  refine ⟨s', e, ?_⟩
  rw [List.filter_congr (q := fun e => !p e)] at h
  · exact h
  · intro x hx
    have := hks x hx
    by_cases hp : p x = true
    · obtain ⟨k, hk, hk'⟩ := this.1 hp
      rw [hp]
      simp only [Bool.not_true]
      rw [List.all_eq_false]
      exact ⟨k, hk, by simp [hk']⟩
    · rw [Bool.not_eq_true] at hp
      rw [hp]
      simp only [Bool.not_false]
      rw [List.all_eq_true]
      intro k hk
      simp only [bne_iff_ne, ne_eq]
      intro hh
      have := this.2 ⟨k, hk, hh⟩
      rw [hp] at this
      cases this

end

end Verif.Skip
