import Verif.Skip.Props

/-! What a call on a skip list does to nodes that an iterator may be at. -/

namespace Verif.Skip

open Verif.Size (ord ord_lt ord_gt ord_eq)

variable {K V : Type}

/-! ### Frames -/

theorem setFwd_frame {h h' : Store K V} {a i : Nat} {v : Option Nat} (e : h.setFwd a i v = some h') :
    (∀ b, b ≠ a → h' b = h b) ∧ ∀ b, (h' b).key = (h b).key ∧ (h' b).val = (h b).val := by
  unfold Store.setFwd at e
  split at e
  · cases e
    refine ⟨fun b hb => by simp [Store.put, hb], fun b => ?_⟩
    by_cases hb : b = a
    · subst hb; simp [Store.put]
    · simp [Store.put, hb]
  · cases e

theorem link_frame {x : Nat} {upd : Nat → Nat} {h : Store K V} : ∀ (n : Nat) {h' : Store K V},
    link x upd h n = some h' → ∀ b, b ≠ x → (∀ i, b ≠ upd i) → h' b = h b
  | 0, h', e, b, _, _ => by cases e; rfl
  | n + 1, h', e, b, hx, hu => by
    rw [link] at e
    cases h1 : link x upd h n with
    | none => rw [h1] at e; cases e
    | some g1 =>
      rw [h1] at e
      simp only [Option.bind_some] at e
      cases h2 : (g1 (upd n)).fwd[n]? with
      | none => rw [h2] at e; cases e
      | some f =>
        rw [h2] at e
        simp only [Option.bind_some] at e
        cases h3 : g1.setFwd x n f with
        | none => rw [h3] at e; cases e
        | some g2 =>
          rw [h3] at e
          simp only [Option.bind_some] at e
          rw [(setFwd_frame e).1 b (hu n), (setFwd_frame h3).1 b hx]
          exact link_frame n h1 b hx hu

theorem unlink_frame {c : Nat} {upd : Nat → Nat} {h : Store K V} : ∀ (n : Nat) {h' : Store K V},
    unlink c upd h n = some h' → ∀ b, (∀ i, b ≠ upd i) → h' b = h b
  | 0, h', e, b, _ => by cases e; rfl
  | n + 1, h', e, b, hu => by
    rw [unlink] at e
    cases h1 : unlink c upd h n with
    | none => rw [h1] at e; cases e
    | some g1 =>
      rw [h1] at e
      simp only [Option.bind_some] at e
      cases h2 : (g1 (upd n)).fwd[n]? with
      | none => rw [h2] at e; cases e
      | some f =>
        rw [h2] at e
        simp only [Option.bind_some] at e
        split at e
        · cases h3 : (g1 c).fwd[n]? with
          | none => rw [h3] at e; cases e
          | some q =>
            rw [h3] at e
            simp only [Option.bind_some] at e
            rw [(setFwd_frame e).1 b (hu n)]
            exact unlink_frame n h1 b hu
        · cases e
          exact unlink_frame n h1 b hu

section
variable {cmp : K → K → Int}

/-- From `s` with the nodes `as` to `s'` with the nodes `as'` by one call. Keys do not change; nodes that are
not in the list stay as they are; the header is replaced only if no node is left; a node that leaves the list
keeps its value and points to the next node of those that stay, or to one before it that leaves, too. -/
structure Eff (cmp : K → K → Int) (s : SL K V) (as : List Nat) (s' : SL K V) (as' : List Nat) : Prop where
  free : s.free ≤ s'.free
  header : s'.header = s.header ∨ s.free ≤ s'.header ∧ as' = []
  keys : ∀ a, a < s.free → (s'.heap a).key = (s.heap a).key
  dead : ∀ a, a < s.free → a ∉ as → a ≠ s.header → s'.heap a = s.heap a
  news : ∀ a ∈ as', a ∈ as ∨ s.free ≤ a
  keep : ∀ t ∈ as, ∀ t' ∈ as', ord cmp (s'.heap t').key (s.heap t).key = .eq → t' = t
  gone : ∀ a ∈ as, a ∉ as' → (s'.heap a).val = (s.heap a).val ∧ ∃ q, (s'.heap a).fwd[0]? = some q ∧
    (∀ b, q = some b → b ∈ as ∧ ord cmp (s.heap a).key (s.heap b).key = .lt) ∧
    ∀ t ∈ as', t ∈ as → ord cmp (s.heap a).key (s.heap t).key = .lt →
      ∃ b, q = some b ∧ ord cmp (s.heap b).key (s.heap t).key ≠ .gt

variable {s s' : SL K V} {as as' L R : List Nat} {ht : Nat → Nat}

/-- Nodes of a list have different keys. -/
theorem Good.unique (hc : Lawful cmp) (g : Good cmp s as ht) {a b : Nat} (ha : a ∈ as) (hb : b ∈ as)
    (h : ord cmp (s.heap a).key (s.heap b).key = .eq) : a = b := by
  have := hc.transCmp
  have hp := g.pairwise
  by_contra hne
  rcases List.append_of_mem ha with ⟨L, R, rfl⟩
  rw [List.pairwise_append, List.pairwise_cons] at hp
  rcases List.mem_append.1 hb with hb | hb
  · have := hp.2.2 b hb a (by simp)
    rw [Ord.lt_iff (o := ord cmp), h] at this
    cases this
  · rcases List.mem_cons.1 hb with rfl | hb
    · exact hne rfl
    · rw [hp.2.1.1 b hb] at h; cases h

theorem Good.key_congr (hkeys : ∀ a ∈ as, (s'.heap a).key = (s.heap a).key) {a b : Nat} (ha : a ∈ as) (hb : b ∈ as) :
    ord cmp (s'.heap a).key (s'.heap b).key = ord cmp (s.heap a).key (s.heap b).key := by
  rw [hkeys a ha, hkeys b hb]

theorem Eff.same (hc : Lawful cmp) (g : Good cmp s as ht) (hf : s'.free = s.free) (hh : s'.header = s.header)
    (hk : ∀ a, (s'.heap a).key = (s.heap a).key) (hd : ∀ a, a ∉ as → s'.heap a = s.heap a) : Eff cmp s as s' as := by
  refine ⟨by omega, .inl hh, fun a _ => hk a, fun a _ ha _ => hd a ha, fun a ha => .inl ha, ?_, ?_⟩
  · intro t ht t' ht' h
    rw [hk] at h
    exact g.unique hc ht' ht h
  · intro a ha hn; exact absurd ha hn

theorem Eff.refl (hc : Lawful cmp) (g : Good cmp s as ht) : Eff cmp s as s as :=
  .same hc g rfl rfl (fun _ => rfl) (fun _ _ => rfl)

/-- The same for calls that only remove. -/
structure Cut (cmp : K → K → Int) (s : SL K V) (as : List Nat) (s' : SL K V) (as' : List Nat) : Prop where
  free : s'.free = s.free
  header : s'.header = s.header
  ents : ∀ a, s'.ent a = s.ent a
  dead : ∀ a, a ∉ as → a ≠ s.header → s'.heap a = s.heap a
  sub : ∀ a ∈ as', a ∈ as
  gone : ∀ a ∈ as, a ∉ as' → ∃ q, (s'.heap a).fwd[0]? = some q ∧
    (∀ b, q = some b → b ∈ as ∧ ord cmp (s.heap a).key (s.heap b).key = .lt) ∧
    ∀ t ∈ as', ord cmp (s.heap a).key (s.heap t).key = .lt →
      ∃ b, q = some b ∧ ord cmp (s.heap b).key (s.heap t).key ≠ .gt

theorem ent_eq {a : Nat} (h : s'.ent a = s.ent a) :
    (s'.heap a).key = (s.heap a).key ∧ (s'.heap a).val = (s.heap a).val := by
  simpa [SL.ent] using h

theorem Cut.refl : Cut cmp s as s as :=
  ⟨rfl, rfl, fun _ => rfl, fun _ _ _ => rfl, fun _ h => h, fun _ h hn => absurd h hn⟩

theorem Cut.trans {s1 : SL K V} {as1 : List Nat} (hne : s.header ∉ as) (h1 : Cut cmp s as s1 as1)
    (h2 : Cut cmp s1 as1 s' as') : Cut cmp s as s' as' := by
  refine ⟨h2.free.trans h1.free, h2.header.trans h1.header, fun a => (h2.ents a).trans (h1.ents a), fun a hn hh => ?_,
    fun a ha => h1.sub a (h2.sub a ha), fun a ha hn => ?_⟩
  · rw [h2.dead a (fun h => hn (h1.sub a h)) (by rw [h1.header]; exact hh), h1.dead a hn hh]
  · by_cases ha1 : a ∈ as1
    · obtain ⟨q, hq, hb, hT⟩ := h2.gone a ha1 hn
      simp only [(ent_eq (h1.ents _)).1] at hb hT
      exact ⟨q, hq, fun b e => ⟨h1.sub b (hb b e).1, (hb b e).2⟩, hT⟩
    · obtain ⟨q, hq, hb, hT⟩ := h1.gone a ha ha1
      refine ⟨q, ?_, hb, fun t ht => hT t (h2.sub t ht)⟩
      rw [h2.dead a ha1 (by rw [h1.header]; rintro rfl; exact hne ha)]
      exact hq

theorem Good.header_notin (g : Good cmp s as ht) : s.header ∉ as := (List.nodup_cons.1 g.nodup).1

theorem Good.mem_lt (g : Good cmp s as ht) {a : Nat} (ha : a ∈ as) : a < s.free :=
  g.fresh a (List.mem_cons_of_mem _ ha)

theorem Good.fwd0 (g : Good cmp s (L ++ a :: R) ht) : (s.heap a).fwd[0]? = some R.head? := by
  have hr := g.run0
  rw [← List.cons_append, run_append] at hr
  simpa using hr.2.1

theorem Cut.eff (hc : Lawful cmp) (g : Good cmp s as ht) (h : Cut cmp s as s' as') : Eff cmp s as s' as' := by
  refine ⟨Nat.le_of_eq h.free.symm, .inl h.header, fun a _ => (ent_eq (h.ents a)).1,
    fun a _ hn hh => h.dead a hn hh, fun a ha => .inl (h.sub a ha), ?_, ?_⟩
  · intro t ht t' ht' e
    rw [(ent_eq (h.ents _)).1] at e
    exact g.unique hc (h.sub t' ht') ht e
  · intro a ha hn
    obtain ⟨q, hq, hb, hT⟩ := h.gone a ha hn
    exact ⟨(ent_eq (h.ents a)).2, q, hq, hb, fun t ht _ => hT t ht⟩

theorem pre_in (hd : Nat) (ht : Nat → Nat) (L : List Nat) (i : Nat) : pre hd ht L i = hd ∨ pre hd ht L i ∈ L := by
  rcases pre_mem' hd ht L i with h | h
  · exact .inl h
  · exact .inr h.1

/-- One node is taken out. -/
theorem takeOut_cut {c : Nat} (hc : Lawful cmp) (g : Good cmp s (L ++ c :: R) ht) :
    ∃ s', takeOut s c ((List.range s.level).map (pre s.header ht L)) = some (s', s.ent c) ∧
      Good cmp s' (L ++ R) ht ∧ Cut cmp s (L ++ c :: R) s' (L ++ R) := by
  have := hc.transCmp
  obtain ⟨s', e, g', he, hf⟩ := takeOut_good g
  refine ⟨s', e, g', ?_⟩
  have hnd := g.nodup
  have hp := g.pairwise
  rw [List.pairwise_append, List.pairwise_cons] at hp
  have hu : ∀ i, updAt s.header ((List.range s.level).map (pre s.header ht L)) i = pre s.header ht L i :=
    fun i => updAt_pre (fun a ha => (g.tower a (by simp [ha])).2) i
  unfold takeOut at e
  cases h1 : unlink c (updAt s.header ((List.range s.level).map (pre s.header ht L))) s.heap s.level with
  | none => rw [h1] at e; cases e
  | some h' =>
    rw [h1] at e
    simp only [Option.bind_some] at e
    cases h2 : shrink h' s.header s.level with
    | none => rw [h2] at e; cases e
    | some l =>
      rw [h2] at e
      simp only [Option.map_some, Option.some.injEq, Prod.mk.injEq] at e
      obtain ⟨rfl, -⟩ := e
      refine ⟨rfl, rfl, he, fun a ha hh => ?_, fun a ha => ?_, fun a ha hn => ?_⟩
      · refine unlink_frame _ h1 a fun i => ?_
        rw [hu]
        rcases pre_in s.header ht L i with hq | hq
        · rw [hq]; exact hh
        · intro e; exact ha (by rw [e]; simp [hq])
      · simp only [List.mem_append, List.mem_cons] at ha ⊢
        rcases ha with ha | ha <;> simp [ha]
      · have hac : a = c := by
          simp only [List.mem_append, List.mem_cons, not_or] at ha hn
          rcases ha with ha | ha | ha
          · exact absurd ha hn.1
          · exact ha
          · exact absurd ha hn.2
        subst hac
        refine ⟨R.head?, by rw [hf]; exact g.fwd0, fun b hb => ?_, fun t htm hlt => ?_⟩
        · have hbR := List.mem_of_mem_head? hb
          exact ⟨by simp [hbR], hp.2.1.1 b hbR⟩
        · rcases List.mem_append.1 htm with htL | htR
          · have := hp.2.2 t htL a (by simp)
            rw [Ord.lt_iff (o := ord cmp), hlt] at this
            cases this
          · cases R with
            | nil => cases htR
            | cons b R =>
              refine ⟨b, rfl, ?_⟩
              rcases List.mem_cons.1 htR with rfl | htR
              · rw [Ord.refl (o := ord cmp)]; simp
              · have := (List.pairwise_cons.1 hp.2.1.2).1 t htR
                rw [this]; simp

theorem remove_cut (hc : Lawful cmp) (g : Good cmp s as ht) (k : K) :
    ∃ s' r as', remove cmp s k = some (s', r) ∧ Good cmp s' as' ht ∧ Cut cmp s as s' as' := by
  have := hc.transCmp
  obtain ⟨L, R, rfl, hL, hse, hR⟩ := g.cases hc k
  have hat := g.at_pre
  rcases hR with ⟨b, R, rfl, hb⟩ | hR
  · obtain ⟨s', e, g', h'⟩ := takeOut_cut hc g
    refine ⟨s', some (s.ent b), L ++ R, ?_, g', h'⟩
    rw [remove, hse]
    simp only [Option.bind_some, hat, List.head?_cons]
    rw [if_neg (by rw [not_not]; exact ord_eq.1 hb), e]
    rfl
  · refine ⟨s, none, L ++ R, ?_, g, .refl⟩
    rw [remove, hse]
    simp only [Option.bind_some, hat]
    cases hf : R.head? with
    | none => rfl
    | some b =>
      have := hR b (List.mem_of_mem_head? hf)
      simp only
      rw [if_pos]
      intro h0
      rw [← ord_eq, this] at h0
      cases h0

theorem removeAll_cut (hc : Lawful cmp) : ∀ (ks : List K) {s : SL K V} {as : List Nat}, Good cmp s as ht →
    ∃ s' as', removeAll cmp ks s = some s' ∧ Good cmp s' as' ht ∧ Cut cmp s as s' as'
  | [], s, as, g => ⟨s, as, rfl, g, .refl⟩
  | k :: ks, s, as, g => by
    obtain ⟨s1, r, as1, e1, g1, c1⟩ := remove_cut hc g k
    obtain ⟨s2, as2, e2, g2, c2⟩ := removeAll_cut hc ks g1
    exact ⟨s2, as2, by rw [removeAll, e1]; exact e2, g2, c1.trans g.header_notin c2⟩

theorem removeAt_cut {c : Nat} (hc : Lawful cmp) (g : Good cmp s (L ++ c :: R) ht) :
    ∃ s' r, removeAt cmp s c = some (s', r) ∧ Good cmp s' (L ++ R) ht ∧ Cut cmp s (L ++ c :: R) s' (L ++ R) := by
  obtain ⟨h1, h2⟩ := g.go_at hc
  obtain ⟨s', e, g', h'⟩ := takeOut_cut hc g
  have hl := g.len_lt
  have hlv := g.lvl
  refine ⟨s', some (s.ent c), ?_, g', h'⟩
  rw [removeAt, descendH_ok g.levels h1 h2 (by simp only [List.length_append] at hl; omega) s.level (by omega)]
  simp only [Option.bind_some]
  rw [g.upd, g.at_pre]
  simp only [List.head?_cons, Option.bind_some, ne_eq, not_true_eq_false, if_false]
  rw [e]
  rfl

theorem removeLoop_cut (hc : Lawful cmp) : ∀ (n : Nat) (T : List Nat) (s : SL K V), Good cmp s (L ++ T) ht →
    ∃ s' as', removeLoop cmp n s T.head? = some s' ∧ Good cmp s' as' ht ∧ Cut cmp s (L ++ T) s' as'
  | 0, T, s, g => ⟨s, _, rfl, g, .refl⟩
  | _ + 1, [], s, g => ⟨s, _, rfl, g, .refl⟩
  | n + 1, c :: T, s, g => by
    obtain ⟨h1, h2⟩ := g.go_at hc
    obtain ⟨s1, e, g1, c1⟩ := takeOut_cut hc g
    obtain ⟨s', as', e', g', c'⟩ := removeLoop_cut hc n T s1 g1
    refine ⟨s', as', ?_, g', c1.trans g.header_notin c'⟩
    have hd := Good.descend (R := c :: T) g h1 h2
    rw [List.head?_cons, removeLoop, g.fwd0]
    simp only [Option.bind_some]
    rw [hd]
    simp only [Option.bind_some]
    rw [e]
    simp only [Option.bind_some]
    exact e'

/-- `Put` and `PutDuplicate`. -/
theorem putWith_eff (hc : Lawful cmp) (g : Good cmp s as ht) (k : K) (v : V) (coins : List Bool) :
    ∃ s' r as' ht', putWith cmp s k v coins = some (s', r) ∧ Good cmp s' as' ht' ∧ Eff cmp s as s' as' := by
  have := hc.transCmp
  obtain ⟨L, R, rfl, hL, hse, hR⟩ := g.cases hc k
  have hat := g.at_pre
  rcases hR with ⟨b, R, rfl, hb⟩ | hR
  · obtain ⟨s', e, hsim⟩ := putWith_ok hc ⟨_, ht, g, rfl⟩ k v coins
    have e' : putWith cmp s k v coins = some ({ s with heap := s.heap.put b { s.heap b with val := v } }, false,
        some ((s.heap b).key, (s.heap b).val)) := by
      rw [putWith, hse]
      simp only [Option.bind_some, hat, List.head?_cons]
      rw [if_pos (ord_eq.1 hb)]
    have hfw : ∀ a i : Nat, ((s.heap.put b { s.heap b with val := v }) a).fwd[i]? = (s.heap a).fwd[i]? := by
      intro a i
      by_cases hab : a = b
      · subst hab; simp [Store.put]
      · simp [Store.put, hab]
    have hk : ∀ a : Nat, ((s.heap.put b { s.heap b with val := v }) a).key = (s.heap a).key := by
      intro a
      by_cases hab : a = b
      · subst hab; simp [Store.put]
      · simp [Store.put, hab]
    refine ⟨_, _, L ++ b :: R, ht, e', ⟨?_, g.tower, g.lvl, ?_, g.fresh, g.nodup, g.size⟩, ?_⟩
    · intro i hi
      exact run_congr (fun a _ => hfw a i) (g.levels i hi)
    · have hp := g.pairwise
      unfold Sorted
      rw [List.pairwise_map]
      refine hp.imp fun {a b'} h => ?_
      simp only [SL.ent, hk]
      exact h
    · refine .same hc g rfl rfl hk fun a ha => ?_
      have : a ≠ b := by rintro rfl; exact ha (by simp)
      simp [Store.put, this]
  · have hlv := g.lvl
    have hrb := randomFrom_bounds (m := s.maxLevel) coins 1 (by omega)
    let level := (if (if randomLevel s.maxLevel coins ≥ s.level then randomLevel s.maxLevel coins + 1 else s.level)
      > s.maxLevel then s.maxLevel else
      (if randomLevel s.maxLevel coins ≥ s.level then randomLevel s.maxLevel coins + 1 else s.level))
    have hlevel : s.level ≤ level ∧ level ≤ s.maxLevel ∧ randomLevel s.maxLevel coins ≤ level :=
      level_bounds hlv.2.1 hrb.2
    obtain ⟨h', e, g', hk, hkx⟩ := insert_good (key := k) (value := v) (n := randomLevel s.maxLevel coins)
      (level := level) (upd := updAt s.header ((List.range s.level).map (pre s.header ht L))) g hL
      (fun a ha => by rw [← Ord.gt_iff (o := ord cmp)]; exact hR a ha)
      ⟨hrb.1, hlevel.2.2⟩ ⟨hlevel.1, hlevel.2.1⟩ g.upd
    refine ⟨{ s with heap := h', level := level, size := s.size + 1, free := s.free + 1 }, (true, none), _, _, ?_, g',
      ?_⟩
    · rw [putWith, hse]
      simp only [Option.bind_some, hat]
      simp only [level] at e
      cases hf : R.head? with
      | none =>
        simp only
        rw [e]
        rfl
      | some b =>
        have hb := hR b (List.mem_of_mem_head? hf)
        simp only
        rw [if_neg (fun h0 => by rw [← ord_eq, hb] at h0; cases h0), e]
        rfl
    · have hkeys : ∀ a, a < s.free → (h' a).key = (s.heap a).key := fun a ha => (hk a (by omega)).1
      refine ⟨by simp only; omega, .inl rfl, hkeys, ?_, ?_, ?_, ?_⟩
      · intro a ha hn hh
        have := link_frame _ e a (by omega) (fun i => by
          rw [g.upd]
          rcases pre_in s.header ht L i with hq | hq
          · rw [hq]; exact hh
          · intro e; exact hn (by rw [e]; simp [hq]))
        simp only [this]
        have hne : a ≠ s.free := by omega
        simp [Store.put, hne]
      · intro a ha
        simp only [List.mem_append, List.mem_cons] at ha ⊢
        rcases ha with ha | rfl | ha
        · exact .inl (.inl ha)
        · exact .inr (Nat.le_refl _)
        · exact .inl (.inr ha)
      · intro t ht t' ht' e
        refine g'.unique hc ht' ?_ ?_
        · simp only [List.mem_append, List.mem_cons] at ht ⊢
          rcases ht with h | h
          · exact .inl h
          · exact .inr (.inr h)
        · simp only [hkeys t (g.mem_lt ht)]; exact e
      · intro a ha hn
        exfalso
        simp only [List.mem_append, List.mem_cons, not_or] at ha hn
        rcases ha with h | h
        · exact hn.1 h
        · exact hn.2.2 h

/-- Every call has such an effect. -/
theorem step_eff (hc : Lawful cmp) (g : Good cmp s as ht) (op : Op K V) :
    ∃ s' r as' ht', step cmp s op = some (s', r) ∧ Good cmp s' as' ht' ∧ Eff cmp s as s' as' := by
  have hsz := g.size
  have hself := Eff.refl hc g
  have hany := step_any hc ⟨as, ht, g, rfl⟩ op
  have same : ∀ r, step cmp s op = some (s, r) →
      ∃ s' r as' ht', step cmp s op = some (s', r) ∧ Good cmp s' as' ht' ∧ Eff cmp s as s' as' :=
    fun r e => ⟨s, r, as, ht, e, g, hself⟩
  cases op with
  | put k v coins =>
    obtain ⟨s', r, as', ht', e, g', h'⟩ := putWith_eff hc g k v coins
    exact ⟨s', .bool r.1, as', ht', by rw [step, e]; rfl, g', h'⟩
  | putDup k v coins =>
    obtain ⟨s', r, as', ht', e, g', h'⟩ := putWith_eff hc g k v coins
    exact ⟨s', .dup r.1 r.2, as', ht', by rw [step, e]; rfl, g', h'⟩
  | get k => exact same _ (get_ok hc ⟨as, ht, g, rfl⟩ k)
  | remove k =>
    obtain ⟨s', r, as', e, g', h'⟩ := remove_cut hc g k
    exact ⟨s', .slice r, as', ht, by rw [step, e]; rfl, g', h'.eff hc g⟩
  | size => exact same _ rfl
  | head => exact same _ (by rw [step, g.first]; rfl)
  | tail => exact same _ (by rw [step, g.nodes]; rfl)
  | index i =>
    obtain ⟨s', r, ys, e, -⟩ := hany
    rw [step] at e
    have : s' = s := by
      split at e
      · cases e; rfl
      · rw [g.first] at e
        simp only [Option.bind_some] at e
        cases h1 : skip s.heap i.toNat as.head? with
        | none => rw [h1] at e; cases e
        | some c =>
          rw [h1] at e
          cases c with
          | none => cases e
          | some c => cases e; rfl
    subst this
    exact same r (by rw [step]; exact e)
  | indexOf k => exact same _ (by rw [step, g.nodes]; rfl)
  | clear =>
    obtain ⟨as', ht', g', hx⟩ := clear_ok g (s.heap s.header).key (s.heap s.header).val
    have : as' = [] := by cases as' with | nil => rfl | cons => simp at hx
    subst this
    refine ⟨_, _, [], ht', rfl, g', ?_⟩
    have hput : ∀ a, a < s.free → (s.heap.put s.free ⟨(s.heap s.header).key, (s.heap s.header).val,
        List.replicate MaxLevel none⟩) a = s.heap a := by
      intro a ha
      have : a ≠ s.free := by omega
      simp [Store.put, this]
    refine ⟨by simp only; omega, .inr ⟨Nat.le_refl _, rfl⟩, fun a ha => ?_, fun a ha _ _ => ?_, by simp, by simp, ?_⟩
    · simp only [hput a ha]
    · simp only [hput a ha]
    · intro a ha _
      simp only [hput a (g.mem_lt ha)]
      refine ⟨trivial, ?_⟩
      obtain ⟨L, R, rfl⟩ := List.append_of_mem ha
      have hp := g.pairwise
      rw [List.pairwise_append, List.pairwise_cons] at hp
      refine ⟨R.head?, g.fwd0, fun b hb => ?_, by simp⟩
      have hbR := List.mem_of_mem_head? hb
      exact ⟨by simp [hbR], hp.2.1.1 b hbR⟩
  | traverse every => exact same _ (by rw [step, g.nodes]; rfl)
  | slices => exact same _ (by rw [step, g.nodes]; rfl)
  | removeHead =>
    cases as with
    | nil => exact same (.slice none) (by rw [step, hsz]; rfl)
    | cons a as =>
      obtain ⟨s', r, as', e, g', h'⟩ := remove_cut hc g (s.heap a).key
      refine ⟨s', .slice r, as', ht, ?_, g', h'.eff hc g⟩
      rw [step, hsz, if_neg (by simp only [List.length_cons]; omega), g.first]
      simp only [List.head?_cons, Option.bind_some]
      rw [e]; rfl
  | removeTail =>
    rcases List.eq_nil_or_concat as with rfl | ⟨L, c, hLc⟩
    · exact same (.slice none) (by rw [step, hsz]; rfl)
    · rw [List.concat_eq_append] at hLc
      subst hLc
      obtain ⟨s', r, e, g', h'⟩ := removeAt_cut hc g
      refine ⟨s', .slice r, _, ht, ?_, g', h'.eff hc g⟩
      rw [step, hsz, if_neg (by simp only [List.length_append, List.length_cons]; omega), g.nodes]
      simp only [Option.bind_some, List.getLast?_append, List.getLast?_singleton, Option.some_or]
      rw [e]; rfl
  | removeIndex i =>
    by_cases hi : i < 0 ∨ i ≥ as.length
    · exact same (.slice none) (by rw [step, hsz, if_pos hi])
    · obtain ⟨L, c, R, rfl, hLl, hat⟩ := at?_split hi
      have hsk := g.skip
      obtain ⟨s', r, e, g', h'⟩ := removeAt_cut hc g
      refine ⟨s', .slice r, _, ht, ?_, g', h'.eff hc g⟩
      rw [step, hsz, if_neg hi, hsk.1]
      simp only [Option.bind_some]
      rw [show i.toNat = L.length by omega, hsk.2]
      simp only [List.head?_cons, Option.bind_some]
      rw [e]; rfl
  | removeRangeByIndex low high =>
    rw [step, doRemoveRangeByIndex]
    simp only [hsz]
    generalize hlo : (if low < 0 then (0 : Int) else low) = lo
    generalize hhi : (if high ≥ (as.length : Int) then (as.length : Int) - 1 else high) = hi
    have h1 : 0 ≤ lo := by rw [← hlo]; split <;> omega
    have h2 : hi ≤ as.length - 1 := by rw [← hhi]; split <;> omega
    by_cases hlh : lo > hi
    · rw [if_pos hlh]
      exact ⟨s, _, as, ht, rfl, g, hself⟩
    · rw [if_neg hlh]
      obtain ⟨L, T, hT, hL⟩ : ∃ L T, as = L ++ T ∧ (L.length : Int) = lo :=
        ⟨as.take lo.toNat, as.drop lo.toNat, by simp, by simp; omega⟩
      subst hT
      have hsk := g.skip
      obtain ⟨s', as', e, g', h'⟩ := removeLoop_cut hc (hi - lo + 1).toNat T s g
      refine ⟨s', .unit, as', ht, ?_, g', h'.eff hc g⟩
      rw [hsk.1]
      simp only [Option.bind_some]
      rw [show lo.toNat = L.length by omega, hsk.2]
      simp only [Option.bind_some]
      rw [e]; rfl
  | trim low high =>
    rw [step, g.nodes]
    simp only [Option.bind_some]
    obtain ⟨s', as', e, g', h'⟩ := removeAll_cut hc ((as.filter fun a => decide (cmp (s.heap a).key low < 0) ||
        decide (cmp (s.heap a).key high > 0)).map fun a => (s.heap a).key) g
    exact ⟨s', .unit, as', ht, by rw [e]; rfl, g', h'.eff hc g⟩
  | trimByIndex low high =>
    rw [step, doTrimByIndex]
    simp only [hsz]
    generalize hlo : (if low < 0 then (0 : Int) else low) = lo
    generalize hhi : (if high ≥ (as.length : Int) then (as.length : Int) - 1 else high) = hi
    by_cases hlh : lo > hi
    · rw [if_pos hlh]
      exact ⟨s, _, as, ht, rfl, g, hself⟩
    · rw [if_neg hlh, g.nodes]
      simp only [Option.bind_some]
      obtain ⟨s', as', e, g', h'⟩ := removeAll_cut hc ((as.zipIdx.filter fun x => decide ((x.2 : Int) < lo) ||
        decide ((x.2 : Int) > hi)).map fun x => (s.heap x.1).key) g
      exact ⟨s', .unit, as', ht, by rw [e]; rfl, g', h'.eff hc g⟩

end

end Verif.Skip
