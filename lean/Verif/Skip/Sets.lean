import Verif.Skip.Refine

/-! Union, intersection and difference. -/

namespace Verif.Skip

open Verif.Size (ord ord_lt ord_gt ord_eq at?)

variable {K V : Type}

/-- The entry with key `k`. -/
def entry (o : K → K → Ordering) (xs : List (K × V)) (k : K) : Option (K × V) := xs.find? fun e => o e.1 k == .eq

/-- What `Put` makes of the entries. -/
def upsert (o : K → K → Ordering) (xs : List (K × V)) (k : K) (v : V) : List (K × V) :=
  if Avl.has o k xs then xs.map fun e => if o e.1 k == .eq then (e.1, v) else e
  else Avl.insertEntry o (k, v) xs

section
variable {o : K → K → Ordering} [ht : Std.TransCmp o]
include ht

theorem sorted_cases {xs : List (K × V)} (h : Sorted o xs) (k : K) :
    (∃ L e R, xs = L ++ e :: R ∧ o e.1 k = .eq) ∨
    ∃ L R, xs = L ++ R ∧ (∀ e ∈ L, o e.1 k = .lt) ∧ ∀ e ∈ R, o e.1 k = .gt := by
  have hp := parts k h.le
  rcases h.same_le k with h1 | ⟨e, h1, he⟩
  · right
    rw [h1, List.append_nil] at hp
    exact ⟨_, _, hp, fun e he => (mem_below.1 he).2, fun e he => (mem_above.1 he).2⟩
  · left
    rw [h1, List.append_assoc] at hp
    exact ⟨_, e, _, hp, he⟩

omit ht in
theorem entry_ne {L : List (K × V)} {k : K} (h : ∀ e ∈ L, o e.1 k ≠ .eq) : entry o L k = none := by
  unfold entry
  rw [List.find?_eq_none]
  intro e he
  simpa using h e he

/-- After `Put` the key is there with the new value, the rest is as before. -/
theorem entry_upsert {xs : List (K × V)} (h : Sorted o xs) (k : K) (v : V) (k' : K) :
    entry o (upsert o xs k v) k' =
      if o k k' = .eq then some ((match entry o xs k' with | some e => e.1 | none => k), v) else entry o xs k' := by
  rcases sorted_cases h k with ⟨L, e, R, rfl, he⟩ | ⟨L, R, rfl, hL, hR⟩
  · have hh := hit_facts h he
    unfold upsert
    rw [hh.1, if_pos rfl, hh.2.2.1 (fun e => (e.1, v))]
    by_cases hk : o k k' = .eq
    · rw [if_pos hk]
      have he' : o e.1 k' = .eq := Ord.eq_trans he hk
      have h2 : Sorted o (L ++ (e.1, v) :: R) := by rw [Sorted.split] at h ⊢; exact h
      have e1 := (hit_facts h2 (k := k') he').2.1
      have e2 := (hit_facts h (k := k') he').2.1
      unfold entry
      rw [e1, e2]
    · rw [if_neg hk]
      have he' : o e.1 k' ≠ .eq := fun hh => hk (Ord.eq_trans (Ord.eq_symm he) hh)
      unfold entry
      simp [List.find?_append, he']
  · have hm := miss_facts (o := o) hL hR
    unfold upsert
    rw [hm.1, if_neg (by simp), hm.2.2.1 v]
    by_cases hk : o k k' = .eq
    · rw [if_pos hk]
      have e1 : entry o (L ++ R) k' = none := entry_ne fun e he => by
        rw [Ord.congr_right (o := o) (c := e.1) (Ord.eq_symm hk)]
        rcases List.mem_append.1 he with h1 | h1
        · rw [hL e h1]; simp
        · rw [hR e h1]; simp
      rw [e1]
      unfold entry
      rw [List.find?_append, List.find?_eq_none.2 (fun e he => by
        rw [Ord.congr_right (o := o) (c := e.1) (Ord.eq_symm hk), hL e he]; simp)]
      simp [hk]
    · rw [if_neg hk]
      unfold entry
      simp [List.find?_append, hk]

theorem upsert_sorted {xs : List (K × V)} (h : Sorted o xs) (k : K) (v : V) : Sorted o (upsert o xs k v) := by
  rcases sorted_cases h k with ⟨L, e, R, rfl, he⟩ | ⟨L, R, rfl, hL, hR⟩
  · have hh := hit_facts h he
    unfold upsert
    rw [hh.1, if_pos rfl, hh.2.2.1 (fun e => (e.1, v))]
    rw [Sorted.split] at h ⊢; exact h
  · have hm := miss_facts (o := o) hL hR
    unfold upsert
    rw [hm.1, if_neg (by simp), hm.2.2.1 v]
    have h2 := List.pairwise_append.1 h
    refine Sorted.split.2 ⟨h2.1, h2.2.1, hL, fun e he => ?_, h2.2.2⟩
    rw [Ord.lt_iff]; exact hR e he

/-- Many `Put`s. -/
def upserts (o : K → K → Ordering) (xs : List (K × V)) (es : List (K × V)) : List (K × V) :=
  es.foldl (fun xs e => upsert o xs e.1 e.2) xs

omit ht in
theorem upserts_append (xs es fs : List (K × V)) :
    upserts o xs (es ++ fs) = upserts o (upserts o xs es) fs := List.foldl_append ..

theorem upserts_sorted : ∀ (es xs : List (K × V)), Sorted o xs → Sorted o (upserts o xs es)
  | [], _, h => h
  | e :: es, _, h => upserts_sorted es _ (upsert_sorted h e.1 e.2)

omit ht in
/-- Greater entries are appended. -/
theorem upserts_greater : ∀ (es xs : List (K × V)), Sorted o (xs ++ es) → upserts o xs es = xs ++ es
  | [], xs, _ => by simp [upserts]
  | e :: es, xs, h => by
    have h1 := Sorted.split.1 h
    have hm := miss_facts (o := o) (L := xs) (R := []) (k := e.1) h1.2.2.1 (by simp)
    rw [List.append_nil] at hm
    have : upsert o xs e.1 e.2 = xs ++ [e] := by
      unfold upsert
      rw [hm.1, if_neg (by simp), hm.2.2.1 e.2]
    rw [upserts, List.foldl_cons, this]
    have := upserts_greater es (xs ++ [e]) (by simpa using h)
    rw [upserts] at this
    rw [this]
    simp

/-- Two entries for one key. -/
def both (x y : Option (K × V)) : Option (K × V) :=
  match x, y with
  | none, y => y
  | some x, none => some x
  | some x, some y => some (x.1, y.2)

theorem entry_upserts : ∀ (es xs : List (K × V)), Sorted o xs → Sorted o es → ∀ k,
    entry o (upserts o xs es) k = both (entry o xs k) (entry o es k)
  | [], xs, _, _, k => by
    have : entry o ([] : List (K × V)) k = none := rfl
    rw [this, upserts, List.foldl_nil]
    cases entry o xs k <;> rfl
  | e :: es, xs, h, he, k => by
    rw [upserts, List.foldl_cons, ← upserts]
    have he' := List.pairwise_cons.1 he
    rw [entry_upserts es _ (upsert_sorted h e.1 e.2) he'.2 k, entry_upsert h]
    by_cases hk : o e.1 k = .eq
    · rw [if_pos hk]
      have h1 : entry o es k = none := entry_ne fun x hx => by
        have := he'.1 x hx
        rw [Ord.congr_left (o := o) hk] at this
        rw [Ord.lt_iff] at this
        rw [this]; simp
      have h2 : entry o (e :: es) k = some e := by simp [entry, hk]
      rw [h1, h2]
      cases entry o xs k <;> rfl
    · rw [if_neg hk]
      have h2 : entry o (e :: es) k = entry o es k := by simp [entry, hk]
      rw [h2]

end

section
variable {cmp : K → K → Int} (hc : Lawful cmp)
include hc

theorem putAll_ok : ∀ (es : List ((K × V) × List Bool)) (s : SL K V) (xs : List (K × V)), Sim cmp s xs →
    ∃ s', putAll cmp es s = some s' ∧ Sim cmp s' (upserts (ord cmp) xs (es.map (·.1)))
  | [], s, xs, hs => ⟨s, rfl, hs⟩
  | (e, coins) :: es, s, xs, hs => by
    obtain ⟨s1, e1, h1⟩ := putWith_ok hc hs e.1 e.2 coins
    obtain ⟨s2, e2, h2⟩ := putAll_ok es s1 _ h1
    refine ⟨s2, ?_, h2⟩
    rw [putAll, e1]
    exact e2

omit hc in
theorem withCoins_fst (coins : Nat → List Bool) (es : List (K × V)) : (withCoins coins es).map (·.1) = es := by
  unfold withCoins
  rw [List.map_map]
  have : ((fun x : (K × V) × List Bool => x.1) ∘ fun x : (K × V) × Nat => (x.1, coins x.2)) = Prod.fst := rfl
  rw [this, List.zipIdx_map_fst]

theorem lookups_ok {t : SL K V} {ys : List (K × V)} (hs : Sim cmp t ys) : ∀ ks : List K,
    lookups cmp t ks = some (ks.map fun k => (entry (ord cmp) ys k).map (·.2))
  | [] => rfl
  | k :: ks => by
    rw [lookups, get_ok hc hs, lookups_ok hs ks]
    rfl

omit hc in
theorem zip_filterMap {α β γ : Type} (f : α → β) (g : α × β → Option γ) (xs : List α) :
    ((xs.zip (xs.map f)).filterMap g) = xs.filterMap fun a => g (a, f a) := by
  induction xs with
  | nil => rfl
  | cons x xs ih =>
    simp only [List.map_cons, List.zip_cons_cons, List.filterMap_cons, ih]

variable {s t : SL K V} {xs ys : List (K × V)}

omit hc in
theorem Sim.nodes (hs : Sim cmp s xs) : ∃ as, s.nodes = some as ∧ as.map s.ent = xs := by
  obtain ⟨as, ht, g, rfl⟩ := hs
  exact ⟨as, g.nodes, rfl⟩

omit hc in
theorem keep_sorted {f : K × V → Option (K × V)} (hf : ∀ e e', f e = some e' → e'.1 = e.1)
    (h : Sorted (ord cmp) xs) : Sorted (ord cmp) (xs.filterMap f) := by
  unfold Sorted
  rw [List.pairwise_filterMap]
  refine List.Pairwise.imp ?_ h
  intro a b hab a' ha' b' hb'
  rw [hf a a' ha', hf b b' hb']
  exact hab

theorem intersection_ok (hs : Sim cmp s xs) (ht : Sim cmp t ys) (coins : Nat → List Bool) (junk : K × V) :
    ∃ r, intersection cmp s t coins junk = some r ∧
      Sim cmp r (xs.filterMap fun e => (entry (ord cmp) ys e.1).map fun y => (e.1, y.2)) := by
  have := hc.transCmp
  obtain ⟨as, hn, hx⟩ := hs.nodes
  have hks : as.map (fun a => (s.heap a).key) = xs.map (·.1) := by rw [← hx, List.map_map]; rfl
  have hes : ((as.map s.ent).zip (xs.map fun e => (entry (ord cmp) ys e.1).map (·.2))).filterMap
      (fun x => x.2.map fun v => (x.1.1, v)) = xs.filterMap fun e => (entry (ord cmp) ys e.1).map fun y => (e.1, y.2) := by
    rw [hx, zip_filterMap]
    congr 1
    funext e
    simp only [Option.map_map]
    rfl
  obtain ⟨r, e, h⟩ := putAll_ok hc (withCoins coins (xs.filterMap fun e => (entry (ord cmp) ys e.1).map fun y => (e.1, y.2)))
    (new MaxLevel junk) [] (new_ok _ _)
  refine ⟨r, ?_, ?_⟩
  · rw [intersection, hn]
    simp only [Option.bind_some]
    rw [hks, lookups_ok hc ht]
    simp only [Option.bind_some]
    rw [List.map_map]
    have : (xs.map ((fun k => (entry (ord cmp) ys k).map (·.2)) ∘ fun x => x.1)) =
      xs.map fun e => (entry (ord cmp) ys e.1).map (·.2) := rfl
    rw [this, hes]
    exact e
  · rw [withCoins_fst, upserts_greater] at h
    · exact h
    · rw [List.nil_append]
      refine keep_sorted (fun e e' he => ?_) hs.sorted
      cases hy : entry (ord cmp) ys e.1 with
      | none => rw [hy] at he; cases he
      | some y => rw [hy] at he; cases he; rfl

theorem difference_ok (hs : Sim cmp s xs) (ht : Sim cmp t ys) (coins : Nat → List Bool) (junk : K × V) :
    ∃ r, difference cmp s t coins junk = some r ∧
      Sim cmp r (xs.filter fun e => (entry (ord cmp) ys e.1).isNone) := by
  have := hc.transCmp
  obtain ⟨as, hn, hx⟩ := hs.nodes
  have hks : as.map (fun a => (s.heap a).key) = xs.map (·.1) := by rw [← hx, List.map_map]; rfl
  have hes : ((as.map s.ent).zip (xs.map fun e => (entry (ord cmp) ys e.1).map (·.2))).filterMap
      (fun x => if x.2.isNone then some x.1 else none) =
      xs.filter fun e => (entry (ord cmp) ys e.1).isNone := by
    rw [hx, zip_filterMap, ← List.filterMap_eq_filter]
    congr 1
    funext e
    cases hy : entry (ord cmp) ys e.1 <;> simp [Option.guard, hy]
  obtain ⟨r, e, h⟩ := putAll_ok hc (withCoins coins (xs.filter fun e => (entry (ord cmp) ys e.1).isNone))
    (new MaxLevel junk) [] (new_ok _ _)
  refine ⟨r, ?_, ?_⟩
  · rw [difference, hn]
    simp only [Option.bind_some]
    rw [hks, lookups_ok hc ht]
    simp only [Option.bind_some]
    rw [List.map_map]
    have : (xs.map ((fun k => (entry (ord cmp) ys k).map (·.2)) ∘ fun x => x.1)) =
      xs.map fun e => (entry (ord cmp) ys e.1).map (·.2) := rfl
    rw [this, hes]
    exact e
  · rw [withCoins_fst, upserts_greater] at h
    · exact h
    · rw [List.nil_append]
      exact List.Pairwise.sublist List.filter_sublist hs.sorted

theorem union_ok (hs : Sim cmp s xs) (ht : Sim cmp t ys) (coins : Nat → List Bool) (junk : K × V) :
    ∃ r zs, union cmp s t coins junk = some r ∧ Sim cmp r zs ∧
      ∀ k, entry (ord cmp) zs k = both (entry (ord cmp) xs k) (entry (ord cmp) ys k) := by
  have := hc.transCmp
  obtain ⟨as, hn, hx⟩ := hs.nodes
  obtain ⟨bs, hm, hy⟩ := ht.nodes
  obtain ⟨r, e, h⟩ := putAll_ok hc (withCoins coins (xs ++ ys)) (new MaxLevel junk) [] (new_ok _ _)
  refine ⟨r, _, ?_, h, ?_⟩
  · rw [union, hn]
    simp only [Option.bind_some]
    rw [hm]
    simp only [Option.bind_some]
    rw [hx, hy]
    exact e
  · intro k
    rw [withCoins_fst, upserts_append, upserts_greater xs [] hs.sorted, List.nil_append]
    exact entry_upserts _ _ hs.sorted ht.sorted k

end

end Verif.Skip
