import Verif.Skip.Heap
import Verif.Tree.SizeRank
import Verif.Tree.AvlSpec
import Verif.Common.DLL

/-! The invariant of the skip list and the two changes of its shape. -/

namespace Verif.Skip

open Verif.Size (ord)

variable {K V : Type}

/-- The nodes in order are `as`, and `a` is in the first `ht a` levels. -/
structure Good (cmp : K → K → Int) (s : SL K V) (as : List Nat) (ht : Nat → Nat) : Prop where
  levels : Levels s.heap s.header as ht
  tower : ∀ a ∈ as, 1 ≤ ht a ∧ ht a ≤ s.level
  lvl : 1 ≤ s.level ∧ s.level ≤ s.maxLevel ∧ s.maxLevel ≤ MaxLevel
  sorted : Sorted (ord cmp) (as.map s.ent)
  fresh : ∀ a ∈ s.header :: as, a < s.free
  nodup : (s.header :: as).Nodup
  size : s.size = as.length

theorem randomFrom_bounds {m : Nat} : ∀ (coins : List Bool) (l : Nat), l ≤ m →
    l ≤ randomFrom m l coins ∧ randomFrom m l coins ≤ m
  | [], l, h => ⟨Nat.le_refl _, h⟩
  | c :: cs, l, h => by
    rw [randomFrom]
    split
    · have := randomFrom_bounds (m := m) cs (l + 1) (by omega)
      omega
    · omega

section
variable {cmp : K → K → Int} {s : SL K V} {as L R : List Nat} {ht : Nat → Nat}

theorem Good.len_lt (g : Good cmp s as ht) : as.length < s.free := by
  have := DLL.length_le_of_nodup_lt g.nodup g.fresh
  simp only [List.length_cons] at this
  omega

theorem Good.head_some (g : Good cmp s as ht) {i : Nat} (hi : i < MaxLevel) :
    ((s.heap s.header).fwd[i]?).isSome := run_mem (g.levels i hi) (by simp)

theorem Good.run0 (g : Good cmp s as ht) : Run s.heap 0 (s.header :: as) none := by
  have h1 := g.levels 0 (by decide)
  rwa [List.filter_eq_self.2] at h1
  intro a ha
  have := g.tower a ha
  simp; omega

theorem Good.first (g : Good cmp s as ht) : s.first = some as.head? := by
  have := g.run0.1
  simpa [SL.first] using this

theorem Good.nodes (g : Good cmp s as ht) : s.nodes = some as := by
  rw [SL.nodes, g.first]
  exact nodes_ok _ _ g.run0.2 (Nat.le_of_lt g.len_lt)

theorem filter_ht {as : List Nat} {ht : Nat → Nat} {x n i : Nat} (hx : x ∉ as) :
    as.filter (fun a => decide (i < (if a = x then n else ht a))) = as.filter fun a => decide (i < ht a) := by
  refine List.filter_congr fun a ha => ?_
  have : a ≠ x := fun h => hx (h ▸ ha)
  simp [this]

/-- A new node between `L` and `R`. -/
theorem insert_good (g : Good cmp s (L ++ R) ht) {key : K} {value : V} {n level : Nat} {upd : Nat → Nat}
    (hlt : ∀ a ∈ L, ord cmp (s.heap a).key key = .lt) (hgt : ∀ a ∈ R, ord cmp key (s.heap a).key = .lt)
    (hn : 1 ≤ n ∧ n ≤ level) (hlv : s.level ≤ level ∧ level ≤ s.maxLevel)
    (hu : ∀ i, upd i = pre s.header ht L i) :
    ∃ h', link s.free upd (s.heap.put s.free ⟨key, value, List.replicate level none⟩) n = some h' ∧
      Good cmp { s with heap := h', level := level, size := s.size + 1, free := s.free + 1 }
        (L ++ s.free :: R) (fun a => if a = s.free then n else ht a) ∧
      (∀ a, a ≠ s.free → (h' a).key = (s.heap a).key ∧ (h' a).val = (s.heap a).val) ∧
      (h' s.free).key = key ∧ (h' s.free).val = value := by
  have hfr := g.fresh
  have hx : ∀ a ∈ s.header :: (L ++ R), a ≠ s.free := fun a ha => Nat.ne_of_lt (hfr a ha)
  have hlv3 := g.lvl
  have hum : ∀ i, upd i ∈ s.header :: (L ++ R) := by
    intro i
    rw [hu]
    rcases pre_mem' s.header ht L i with h1 | h1
    · rw [h1]; simp
    · simp [h1.1]
  have hput : ∀ a, a ≠ s.free →
      (s.heap.put s.free ⟨key, value, List.replicate level none⟩) a = s.heap a := by
    intro a ha; simp [Store.put, ha]
  have hputx : (s.heap.put s.free ⟨key, value, List.replicate level none⟩) s.free =
      ⟨key, value, List.replicate level none⟩ := by simp [Store.put]
  obtain ⟨h', e, f, k⟩ := link_ok (x := s.free) (upd := upd)
    (h := s.heap.put s.free ⟨key, value, List.replicate level none⟩) n (by
      intro i hi
      refine ⟨hx _ (hum i), ?_, ?_⟩
      · rw [hput _ (hx _ (hum i)), hu]
        have hr := g.levels i (by omega)
        rw [List.filter_append, ← List.cons_append] at hr
        exact run_mem hr (List.mem_append_left _ (pre_mem _ _ _ _))
      · rw [hputx, List.getElem?_replicate, if_pos (by omega)]; rfl)
  have hkey : ∀ a, a ≠ s.free → (h' a).key = (s.heap a).key ∧ (h' a).val = (s.heap a).val := by
    intro a ha
    have := k a
    rw [hput a ha] at this
    exact this
  have hkx := k s.free
  rw [hputx] at hkx
  refine ⟨h', e, ?_, hkey, hkx⟩
  have hxL : s.free ∉ L := fun hh => hx _ (by simp [hh]) rfl
  have hxR : s.free ∉ R := fun hh => hx _ (by simp [hh]) rfl
  have hnd := g.nodup
  refine ⟨?_, ?_, ⟨by simp only; omega, by simp only; omega, hlv3.2.2⟩, ?_, ?_, ?_, ?_⟩
  · intro i hi
    simp only
    have hr := g.levels i hi
    have hndi : (s.header :: (L ++ R).filter fun a => decide (i < ht a)).Nodup :=
      hnd.sublist (List.Sublist.cons_cons _ List.filter_sublist)
    rw [List.filter_append] at hr hndi
    rw [List.filter_append, List.filter_cons, filter_ht hxL, filter_ht hxR]
    obtain ⟨P, hP⟩ := pre_split s.header ht L i
    rw [← List.cons_append, hP] at hr hndi
    have hmem : ∀ a ∈ P ++ [pre s.header ht L i], a ≠ s.free := by
      rw [← hP]
      intro a ha
      refine hx a ?_
      rcases List.mem_cons.1 ha with rfl | ha
      · simp
      · simp [(List.mem_filter.1 ha).1]
    have hmR : ∀ a ∈ R.filter (fun a => decide (i < ht a)), a ≠ s.free := fun a ha =>
      hx a (by simp [(List.mem_filter.1 ha).1])
    simp only [if_true]
    by_cases hi2 : i < n
    · simp only [hi2, decide_true, if_true]
      rw [← List.cons_append, hP, run_append]
      rw [run_append] at hr
      obtain ⟨hr1, hr2⟩ := hr
      have hru : (s.heap (pre s.header ht L i)).fwd[i]? =
          some ((R.filter fun a => decide (i < ht a)).head?.or none) := by
        rw [run_append] at hr1
        exact hr1.2.1
      have hneP : ∀ a ∈ P, a ≠ pre s.header ht L i := by
        intro a ha hh
        rw [List.append_assoc, List.nodup_append] at hndi
        exact hndi.2.2 a ha (pre s.header ht L i) (by simp) hh
      have hneR : ∀ a ∈ R.filter (fun a => decide (i < ht a)), a ≠ pre s.header ht L i := by
        intro a ha hh
        rw [List.nodup_append] at hndi
        exact hndi.2.2 _ (by simp) a ha hh.symm
      refine ⟨run_last ?_ ?_ hr1, ?_, run_congr ?_ hr2⟩
      · intro a ha
        rw [f, if_pos hi2, hu, if_neg (hneP a ha), if_neg (hmem a (by simp [ha])),
          hput _ (hmem a (by simp [ha]))]
      · rw [f, if_pos hi2, hu]; simp
      · rw [f, if_pos hi2, hu, if_neg (fun hh => hmem _ (by simp) hh.symm), if_pos rfl,
          hput _ (hmem _ (by simp))]
        exact hru
      · intro a ha
        rw [f, if_pos hi2, hu, if_neg (hneR a ha), if_neg (hmR a ha), hput _ (hmR a ha)]
    · simp only [hi2, decide_false, Bool.false_eq_true, if_false]
      rw [← List.cons_append, hP]
      refine run_congr ?_ hr
      intro a ha
      have hax : a ≠ s.free := by
        rcases List.mem_append.1 ha with ha | ha
        · exact hmem a ha
        · exact hmR a ha
      rw [f, if_neg hi2, hput a hax]
  · intro a ha
    simp only
    by_cases hax : a = s.free
    · subst hax; rw [if_pos rfl]; exact hn
    · rw [if_neg hax]
      have := g.tower a (by
        simp only [List.mem_append, List.mem_cons] at ha ⊢
        rcases ha with h1 | h1 | h1
        · exact .inl h1
        · exact absurd h1 hax
        · exact .inr h1)
      omega
  · have hs := g.sorted
    rw [List.map_append, List.map_cons]
    rw [List.map_append] at hs
    unfold Sorted at hs
    rw [List.pairwise_append] at hs
    have hLe : L.map (SL.ent { s with heap := h', level := level, size := s.size + 1, free := s.free + 1 })
        = L.map s.ent := List.map_congr_left fun a ha => by
      simp only [SL.ent]
      rw [(hkey a (hx a (by simp [ha]))).1, (hkey a (hx a (by simp [ha]))).2]
    have hRe : R.map (SL.ent { s with heap := h', level := level, size := s.size + 1, free := s.free + 1 })
        = R.map s.ent := List.map_congr_left fun a ha => by
      simp only [SL.ent]
      rw [(hkey a (hx a (by simp [ha]))).1, (hkey a (hx a (by simp [ha]))).2]
    rw [hLe, hRe]
    refine Sorted.split.2 ⟨hs.1, hs.2.1, ?_, ?_, hs.2.2⟩
    · intro e he
      obtain ⟨a, ha, rfl⟩ := List.mem_map.1 he
      simp only [SL.ent, hkx.1]
      exact hlt a ha
    · intro e he
      obtain ⟨a, ha, rfl⟩ := List.mem_map.1 he
      simp only [SL.ent, hkx.1]
      exact hgt a ha
  · intro a ha
    simp only
    by_cases hax : a = s.free
    · omega
    · have := hfr a (by
        simp only [List.mem_append, List.mem_cons] at ha ⊢
        rcases ha with h1 | h1 | h1 | h1
        · exact .inl h1
        · exact .inr (.inl h1)
        · exact absurd h1 hax
        · exact .inr (.inr h1))
      omega
  · simp only
    have hp : (s.header :: (L ++ s.free :: R)).Perm (s.free :: s.header :: (L ++ R)) :=
      (List.Perm.cons _ List.perm_middle).trans (List.Perm.swap ..)
    rw [hp.nodup_iff, List.nodup_cons]
    exact ⟨fun hh => hx _ hh rfl, hnd⟩
  · simp only [g.size, List.length_append, List.length_cons]
    push_cast; omega

/-- The node between `L` and `R` disappears. -/
theorem takeOut_good {c : Nat} (g : Good cmp s (L ++ c :: R) ht) :
    ∃ s', takeOut s c ((List.range s.level).map (pre s.header ht L)) = some (s', s.ent c) ∧
      Good cmp s' (L ++ R) ht ∧ (∀ a, s'.ent a = s.ent a) ∧ (s'.heap c).fwd[0]? = (s.heap c).fwd[0]? := by
  have hnd := g.nodup
  have hlv := g.lvl
  have htow := g.tower
  have hu : ∀ i, updAt s.header ((List.range s.level).map (pre s.header ht L)) i = pre s.header ht L i :=
    fun i => updAt_pre (fun a ha => (htow a (by simp [ha])).2) i
  have hcL : c ∉ L := by
    intro hh
    rw [List.nodup_cons, List.nodup_append] at hnd
    exact hnd.2.2.2 c hh c (by simp) rfl
  have hcR : c ∉ R := by
    intro hh
    rw [List.nodup_cons, List.nodup_append, List.nodup_cons] at hnd
    exact hnd.2.2.1.1 hh
  have hch : c ≠ s.header := by
    intro hh
    rw [List.nodup_cons] at hnd
    exact hnd.1 (by simp [hh])
  have huc : ∀ i, pre s.header ht L i ≠ c := by
    intro i hh
    rcases pre_mem' s.header ht L i with h1 | h1
    · exact hch (hh.symm.trans h1)
    · exact hcL (hh ▸ h1.1)
  -- the pointer at level `i` before `c`
  have hat : ∀ i < MaxLevel, (s.heap (pre s.header ht L i)).fwd[i]? =
      some (((c :: R).filter fun a => decide (i < ht a)).head?) := by
    intro i hi
    have hr := g.levels i hi
    obtain ⟨P, hP⟩ := pre_split s.header ht L i
    rw [List.filter_append, ← List.cons_append, hP, run_append, run_append] at hr
    have := hr.1.2.1
    simpa using this
  have hnot : ∀ i < MaxLevel, (s.heap (pre s.header ht L i)).fwd[i]? = some (some c) → i < ht c := by
    intro i hi hh
    rw [hat i hi, Option.some.injEq] at hh
    have := List.mem_of_mem_head? hh
    simpa using (List.mem_filter.1 this).2
  obtain ⟨h', e, f, k⟩ := unlink_ok (c := c)
    (upd := updAt s.header ((List.range s.level).map (pre s.header ht L))) (h := s.heap) s.level (by
      intro i hi
      rw [hu]
      refine ⟨huc i, ?_, fun hh => ?_⟩
      · rw [hat i (by omega)]; rfl
      · have := hnot i (by omega) hh
        refine run_mem (g.levels i (by omega)) (a := c) ?_
        simp [this])
  have hlev : Levels h' s.header (L ++ R) ht := by
    intro i hi
    have hr := g.levels i hi
    have hndi : (s.header :: (L ++ c :: R).filter fun a => decide (i < ht a)).Nodup :=
      hnd.sublist (List.Sublist.cons_cons _ List.filter_sublist)
    obtain ⟨P, hP⟩ := pre_split s.header ht L i
    have hati := hat i hi
    rw [List.filter_append, ← List.cons_append, hP] at hr hndi ⊢
    have hneP : ∀ a ∈ P, a ≠ pre s.header ht L i := by
      intro a ha hh
      rw [List.append_assoc, List.nodup_append] at hndi
      exact hndi.2.2 a ha (pre s.header ht L i) (by simp) hh
    by_cases hic : i < ht c
    · have hil : i < s.level := Nat.lt_of_lt_of_le hic (htow c (by simp)).2
      have hfc : (c :: R).filter (fun a => decide (i < ht a)) = c :: R.filter fun a => decide (i < ht a) := by
        simp [hic]
      rw [hfc] at hr hndi hati
      rw [run_append] at hr ⊢
      have hneR : ∀ a ∈ R.filter (fun a => decide (i < ht a)), a ≠ pre s.header ht L i := by
        intro a ha hh
        rw [List.nodup_append] at hndi
        exact hndi.2.2 _ (by simp) a (by simp only [List.mem_cons]; exact .inr ha) hh.symm
      refine ⟨run_last ?_ ?_ hr.1, run_congr ?_ hr.2.2⟩
      · intro a ha
        rw [f, if_neg (fun hh => hneP a ha (hh.2.1.trans (hu i)))]
      · rw [f, if_pos ⟨hil, (hu i).symm, hati⟩]
        exact hr.2.1
      · intro a ha
        rw [f, if_neg (fun hh => hneR a ha (hh.2.1.trans (hu i)))]
    · have hfc : (c :: R).filter (fun a => decide (i < ht a)) = R.filter fun a => decide (i < ht a) := by
        simp [hic]
      rw [hfc] at hr
      refine run_congr ?_ hr
      intro a ha
      rw [f, if_neg]
      rintro ⟨_, h2, h3⟩
      rw [h2, hu] at h3
      exact hic (hnot i hi h3)
  obtain ⟨l, el, l1, l2, l3, -⟩ := shrink_ok (h := h') (hd := s.header) s.level hlv.1
    (fun i hi => run_mem (hlev i (by omega)) (by simp))
  have hent : ∀ a, SL.ent { s with heap := h', level := l, size := s.size - 1 } a = s.ent a := by
    intro a; simp only [SL.ent]; rw [(k a).1, (k a).2]
  refine ⟨{ s with heap := h', level := l, size := s.size - 1 }, ?_, ?_, hent, ?_⟩
  · rw [takeOut, e]
    simp only [Option.bind_some, el, Option.map_some]
    have := hent c
    simp only [SL.ent] at this
    rw [this]; rfl
  · refine ⟨hlev, ?_, ⟨l1, by simp only; omega, hlv.2.2⟩, ?_, ?_, ?_, ?_⟩
    · intro a ha
      have hta := htow a (by
        simp only [List.mem_append, List.mem_cons] at ha ⊢
        rcases ha with h1 | h1 <;> simp [h1])
      refine ⟨hta.1, ?_⟩
      simp only
      by_contra hc
      have hl : l < s.level := by omega
      have hr := hlev l (by omega)
      have h1 := hr.1
      rw [l3 l (Nat.le_refl _) hl] at h1
      simp only [Option.or_none, Option.some.injEq] at h1
      have h2 : (L ++ R).filter (fun a => decide (l < ht a)) = [] := List.head?_eq_none_iff.1 h1.symm
      have h3 := List.filter_eq_nil_iff.1 h2 a ha
      simp at h3
      omega
    · have hs := g.sorted
      have : (L ++ R).map (SL.ent { s with heap := h', level := l, size := s.size - 1 }) =
          (L ++ R).map s.ent := List.map_congr_left fun a _ => hent a
      rw [this]
      refine List.Pairwise.sublist ?_ hs
      refine List.Sublist.map _ ?_
      exact List.Sublist.append_left (List.sublist_cons_self _ _) _
    · intro a ha
      refine g.fresh a ?_
      simp only [List.mem_append, List.mem_cons] at ha ⊢
      rcases ha with h1 | h1 | h1 <;> simp [h1]
    · refine hnd.sublist ?_
      exact List.Sublist.cons_cons _ (List.Sublist.append_left (List.sublist_cons_self _ _) _)
    · simp only [g.size, List.length_append, List.length_cons]
      push_cast; omega
  · simp only
    rw [f, if_neg]
    rintro ⟨-, h2, -⟩
    exact huc 0 (h2.trans (hu 0)).symm

end

end Verif.Skip
