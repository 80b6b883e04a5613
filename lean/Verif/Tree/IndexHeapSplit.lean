import Verif.Tree.IndexHeapTrim

/-! The pointer program of `Verif.Tree.IndexHeap`: `Split` and `SplitContain`. -/

namespace Verif.IndexHeap
open Verif.AvlHeap (P ptr addrs erase ptr_nil ptr_node ptr_mem ptr_ne)
open Verif.Tree Verif.Size Verif.IndexTree
variable {K V : Type} {cmp : K → K → Int} {incl : Bool} {key : K}

/-- The node `a` with the child `w` on the side other than `c`; the child `c` may be anything. -/
def Stub (m : Mem K V) (c : Bool) (a : Nat) (k : K) (v : V) (q : Nat) (w : P K V) : Prop :=
  (∃ s b o, m a = Cell.setKid ⟨k, v, s, b, some q, ptr w, ptr w⟩ c o) ∧ Rep m a w

theorem Stub.congr {m m' : Mem K V} {c : Bool} {a q : Nat} {k : K} {v : V} {w : P K V}
    (h : Stub m c a k v q w) (h1 : m' a = m a) (h2 : ∀ x ∈ addrs w, m' x = m x) :
    Stub m' c a k v q w := ⟨by rw [h1]; exact h.1, h.2.congr h2⟩

theorem Stub.chop_rep {m : Mem K V} {c : Bool} {a q : Nat} {k : K} {v : V} {w : P K V}
    (h : Stub m c a k v q w) (hn : a ∉ addrs w) :
    Rep (chop m a c) q (bn c (a, sz (erase w) + 1) k v nil w) := by
  obtain ⟨⟨s, b, o, h1⟩, h2⟩ := h
  exact IndexHeap.chop_rep (a := (a, s)) h1 h2 hn

/-- A new child `c`. -/
theorem Stub.graft {m m2 : Mem K V} {c : Bool} {a q : Nat} {k : K} {v : V} {z w : P K V}
    (h : Stub m c a k v q w) (h2 : m2 a = (m a).setKid c (ptr z)) (hz : Rep m2 a z) (hw : Rep m2 a w)
    (hn : (a :: (addrs z ++ addrs w)).Nodup) :
    Rep (sumSize m2 a) q (bn c (a, sz (erase z) + sz (erase w) + 1) k v z w) := by
  obtain ⟨⟨s, b, o, h1⟩, -⟩ := h
  refine sum_rep (a := (a, s)) (rep_bn.2 ⟨⟨b, ?_⟩, hz, hw⟩) ((addrs_bn (c := c)).nodup_iff.2 hn)
  simp only [h2, h1]; cases c <;> rfl

theorem hook_ne {m : Mem K V} {a x : Nat} {c : Bool} {o : Option Nat} (h : x ≠ a) (ho : o ≠ some x) :
    hook m a c o x = m x := by
  have : hook m a c o = sumSize (adopt m a c o) a := rfl
  rw [this, sumSize_ne h, adopt_other ho h]

theorem Stub.hook_rep {m : Mem K V} {c : Bool} {a q q1 : Nat} {k : K} {v : V} {z w : P K V}
    (h : Stub m c a k v q w) (hz : Rep m q1 z) (hn : (a :: (addrs z ++ addrs w)).Nodup) :
    Rep (hook m a c (ptr z)) q (bn c (a, sz (erase z) + sz (erase w) + 1) k v z w) := by
  obtain ⟨⟨s, b, o, h1⟩, h2⟩ := h
  exact sum_rep (a := (a, s)) (adopt_rep (a := (a, s)) h1 hz h2 hn) ((addrs_bn (c := c)).nodup_iff.2 hn)

theorem stub_of {m : Mem K V} {c : Bool} {a : Nat × Int} {q : Nat} {k : K} {v : V} {u w : P K V}
    (h : Rep m q (bn c a k v u w)) : Stub m c a.1 k v q w := by
  obtain ⟨⟨g, hg⟩, hu, hw⟩ := rep_bn.1 h
  exact ⟨⟨a.2, g, ptr u, by rw [hg]; cases c <;> rfl⟩, hw⟩

/-- The node comes below another one. -/
theorem Stub.move {m : Mem K V} {c d : Bool} {a q y : Nat} {k : K} {v : V} {w : P K V}
    (h : Stub m c a k v q w) (ha : a ≠ y) (hn : a ∉ addrs w) (hy : y ∉ addrs w) :
    Stub (adopt m y d (some a)) c a k v y w := by
  obtain ⟨⟨s, b, o, h1⟩, h2⟩ := h
  refine ⟨⟨s, b, o, by rw [adopt_kid rfl ha, h1]; cases c <;> rfl⟩, h2.congr fun x hx => ?_⟩
  exact adopt_other (by rintro ⟨⟩; exact hn hx) (by rintro rfl; exact hy hx)

section
variable {m m2 : Mem K V} {e : Bool} {x y qx qy qm : Nat} {a : Nat × Int} {kx ky k : K} {vx vy v : V}
  {A B l r t1 t2 : P K V}

theorem nodup_parts {zs : List Nat} (hz : zs.Perm (a.1 :: (addrs l ++ addrs r)))
    (hn : (x :: y :: (addrs A ++ addrs B ++ zs)).Nodup) :
    (x :: y :: a.1 :: (addrs A ++ (addrs B ++ (addrs l ++ addrs r)))).Nodup := by
  have h1 : (addrs A ++ addrs B ++ zs).Perm (a.1 :: (addrs A ++ (addrs B ++ (addrs l ++ addrs r)))) := by
    refine (hz.append_left _).trans (List.perm_middle.trans ?_)
    rw [List.append_assoc]
  exact ((h1.cons _).cons _).nodup_iff.1 hn

/-- The node `a` comes below `y`. -/
theorem below_pre (hy : Stub m e y ky vy qy B) (hx : Stub m (!e) x kx vx qx A)
    (hR : Rep m qm (bn e a k v l r))
    (hn : (x :: y :: a.1 :: (addrs A ++ (addrs B ++ (addrs l ++ addrs r)))).Nodup) :
    Stub (adopt m y e (some a.1)) (!e) x kx vx qx A ∧ Stub (adopt m y e (some a.1)) e a.1 k v y r ∧
      Rep (adopt m y e (some a.1)) a.1 l ∧ ((adopt m y e (some a.1)) a.1).kid e = ptr l := by
  obtain ⟨⟨g, hg⟩, hl, hr⟩ := rep_bn.1 hR
  have o : ∀ z, z ≠ a.1 → z ≠ y → adopt m y e (some a.1) z = m z := fun z h1 h2 =>
    adopt_other (by rintro ⟨⟩; exact h1 rfl) h2
  refine ⟨hx.congr (o x ?_ ?_) fun z hz => o z ?_ ?_, Stub.move (stub_of hR) ?_ ?_ ?_,
    hl.congr fun z hz => o z ?_ ?_, ?_⟩
  all_goals try (clear hy hx hR hg o hl hr; grind)
  rw [adopt_kid rfl (by clear hy hx hR hg o hl hr; grind), hg]
  cases e <;> rfl

theorem below_post (hy : Stub m e y ky vy qy B)
    (hn : (x :: y :: a.1 :: (addrs A ++ (addrs B ++ (addrs l ++ addrs r)))).Nodup)
    (hp : (addrs t1 ++ addrs t2).Perm (addrs l))
    (h1 : Rep m2 qx (bn (!e) (x, sz (erase t1) + sz (erase A) + 1) kx vx t1 A))
    (h2 : Rep m2 y (bn e (a.1, sz (erase t2) + sz (erase r) + 1) k v t2 r))
    (hf : ∀ z, z ≠ x → z ≠ a.1 → z ∉ addrs l → m2 z = adopt m y e (some a.1) z) :
    Rep (sumSize m2 y) qx (bn (!e) (x, sz (erase t1) + sz (erase A) + 1) kx vx t1 A) ∧
    Rep (sumSize m2 y) qy (bn e (y, sz (erase (bn e (a.1, sz (erase t2) + sz (erase r) + 1) k v t2 r)) +
      sz (erase B) + 1) ky vy (bn e (a.1, sz (erase t2) + sz (erase r) + 1) k v t2 r) B) ∧
    (addrs t1 ++ addrs (bn e (a.1, sz (erase t2) + sz (erase r) + 1) k v t2 r)).Perm
      (a.1 :: (addrs l ++ addrs r)) ∧
    ∀ z, z ≠ x → z ≠ y → z ∉ a.1 :: (addrs l ++ addrs r) → sumSize m2 y z = m z := by
  have hp2 : (addrs (bn e (a.1, sz (erase t2) + sz (erase r) + 1) k v t2 r)).Perm
    (a.1 :: (addrs t2 ++ addrs r)) := addrs_bn
  have hsub : ∀ z, (z ∈ addrs t1 → z ∈ addrs l) ∧ (z ∈ addrs t2 → z ∈ addrs l) := fun z =>
    ⟨fun hz => hp.mem_iff.1 (by simp [hz]), fun hz => hp.mem_iff.1 (by simp [hz])⟩
  have hnd : (addrs t1 ++ addrs t2).Nodup := hp.nodup_iff.2 (by clear hy h1 h2 hf hp2 hsub hp; grind)
  have o : ∀ z, z ≠ x → z ≠ y → z ∉ a.1 :: addrs l → m2 z = m z := fun z i1 i2 i3 => by
    simp only [List.mem_cons, not_or] at i3
    rw [hf z i1 i3.1 i3.2]
    exact adopt_other (by rintro ⟨⟩; exact i3.1 rfl) i2
  have hy2 : m2 y = (m y).setKid e (some a.1) := by
    rw [hf y (by clear hy h1 h2 hf hp2 hsub hp o; grind) (by clear hy h1 h2 hf hp2 hsub hp o; grind)
      (by clear hy h1 h2 hf hp2 hsub hp o; grind),
      adopt_self (by clear hy h1 h2 hf hp2 hsub hp o; grind)]
  refine ⟨?_, ?_, ?_, ?_⟩
  · refine h1.congr fun z hz => sumSize_ne ?_
    rw [(addrs_bn (c := !e)).mem_iff] at hz
    clear hy h1 h2 hf hp2 hp o hy2
    grind
  · refine hy.graft (m2 := m2) (by rw [ptr_bn]; exact hy2) h2 ?_ ?_
    · refine hy.2.congr fun z hz => o z ?_ ?_ ?_
      all_goals (clear hy h1 h2 hf hp2 hsub hp o hy2; grind)
    · rw [((hp2.append_right (addrs B)).cons y).nodup_iff]
      clear hy h1 h2 hf hp2 hp o hy2
      simp only [List.nodup_cons, List.nodup_append, List.mem_cons, List.mem_append, not_or, List.cons_append] at hn hnd ⊢
      grind
  · refine (hp2.append_left _).trans (List.perm_middle.trans (List.Perm.cons _ ?_))
    rw [← List.append_assoc]
    exact hp.append_right _
  · intro z i1 i2 i3
    rw [sumSize_ne i2, o z i1 i2]
    simp only [List.mem_cons, List.mem_append, not_or] at i3 ⊢
    exact ⟨i3.1, i3.2.1⟩

/-- The node `a` has the key: it comes below `y` and its child below `x`. -/
theorem split_here (hy : Stub m e y ky vy qy B) (hx : Stub m (!e) x kx vx qx A)
    (hR : Rep m qm (bn e a k v l r))
    (hn : (x :: y :: a.1 :: (addrs A ++ (addrs B ++ (addrs l ++ addrs r)))).Nodup) :
    ∃ m', m' = hook (sumSize (chop (adopt m y e (some a.1)) a.1 e) y) x (!e) (ptr l) ∧
    Rep m' qx (bn (!e) (x, sz (erase l) + sz (erase A) + 1) kx vx l A) ∧
    Rep m' qy (bn e (y, sz (erase (bn e (a.1, sz (erase r) + 1) k v nil r)) + sz (erase B) + 1) ky vy
      (bn e (a.1, sz (erase r) + 1) k v nil r) B) ∧
    (addrs l ++ addrs (bn e (a.1, sz (erase r) + 1) k v nil r)).Perm (a.1 :: (addrs l ++ addrs r)) ∧
    ∀ z, z ≠ x → z ≠ y → z ∉ a.1 :: (addrs l ++ addrs r) → m' z = m z := by
  obtain ⟨-, s2, hl1, -⟩ := below_pre hy hx hR hn
  obtain ⟨-, hl, -⟩ := rep_bn.1 hR
  have r1 := s2.chop_rep (by clear hy hx s2 hR hl1 hl; grind)
  generalize hm2 : chop (adopt m y e (some a.1)) a.1 e = m2 at r1 ⊢
  have o2 : ∀ z, z ≠ a.1 → z ≠ y → m2 z = m z := by
    intro z h1 h2
    rw [← hm2, chop_ne h1, adopt_other (by rintro ⟨⟩; exact h1 rfl) h2]
  have hya : y ≠ a.1 := by clear hy hx s2 hR hl1 hl o2; grind
  have hy2 : m2 y = (m y).setKid e (some a.1) := by
    rw [← hm2, chop_ne hya, adopt_self (by rintro ⟨⟩; exact hya rfl)]
  have hp2 : (addrs (bn e (a.1, sz (erase r) + 1) k v nil r)).Perm
    (a.1 :: (addrs (nil : P K V) ++ addrs r)) := addrs_bn
  simp only [addrs, List.nil_append] at hp2
  have r2 := hy.graft (m2 := m2) (z := bn e (a.1, sz (erase r) + 1) k v nil r) (by rw [ptr_bn]; exact hy2) r1
    (hy.2.congr fun z hz => o2 z (by clear hy hx s2 hR hl1 hl o2 hy2 hp2 r1; grind)
      (by clear hy hx s2 hR hl1 hl o2 hy2 hp2 r1; grind))
    (by
      rw [((hp2.append_right (addrs B)).cons y).nodup_iff]
      clear hy hx s2 hR hl1 hl o2 hy2 hp2 r1
      grind)
  have o3 : ∀ z, z ≠ a.1 → z ≠ y → sumSize m2 y z = m z := fun z h1 h2 => by
    rw [sumSize_ne h2, o2 z h1 h2]
  have s3 : Stub (sumSize m2 y) (!e) x kx vx qx A := by
    refine hx.congr (o3 x ?_ ?_) fun z hz => o3 z ?_ ?_
    all_goals (clear hy hx s2 hR hl1 hl o2 o3 hy2 hp2 r1 r2; grind)
  have hl3 : Rep (sumSize m2 y) a.1 l := by
    refine hl.congr fun z hz => o3 z ?_ ?_
    all_goals (clear hy hx s2 hR hl1 hl o2 o3 hy2 hp2 r1 r2 s3; grind)
  refine ⟨_, rfl, s3.hook_rep hl3 ?_, ?_, ?_, ?_⟩
  · clear hy hx s2 hR hl1 hl o2 o3 hy2 hp2 r1 r2 s3; grind
  · refine r2.congr fun z hz => ?_
    rw [(addrs_bn (c := e)).mem_iff, List.mem_cons, List.mem_append, hp2.mem_iff] at hz
    refine hook_ne ?_ (ptr_ne ?_)
    all_goals (clear hy hx s2 hR hl1 hl o2 o3 hy2 hp2 r1 r2 s3; grind)
  · exact (hp2.append_left _).trans List.perm_middle
  · intro z h1 h2 h3
    simp only [List.mem_cons, List.mem_append, not_or] at h3
    rw [hook_ne h1 (ptr_ne h3.2.1), o3 z h3.1 h2]

end

/-- tree.go:850-890, 972-1011. -/
theorem splitRec_ok : ∀ (t : P K V) (m : Mem K V) (x y qx qy qm : Nat) (kx ky : K) (vx vy : V) (A B : P K V),
    Stub m true x kx vx qx A → Stub m false y ky vy qy B → Rep m qm t →
    (x :: y :: (addrs A ++ addrs B ++ addrs t)).Nodup →
    ∃ m' t1 t2, (∀ n, t.height < n → splitRec cmp incl key n m (ptr t) x y = some m') ∧
      erase t1 = (splitMid cmp incl key (erase t)).1 ∧ erase t2 = (splitMid cmp incl key (erase t)).2 ∧
      (addrs t1 ++ addrs t2).Perm (addrs t) ∧
      Rep m' qx (bn true (x, sz (erase t1) + sz (erase A) + 1) kx vx t1 A) ∧
      Rep m' qy (bn false (y, sz (erase t2) + sz (erase B) + 1) ky vy t2 B) ∧
      ∀ z, z ≠ x → z ≠ y → z ∉ addrs t → m' z = m z
  | nil, m, x, y, qx, qy, qm, kx, ky, vx, vy, A, B, hx, hy, _, hn => by
    have r1 := hx.chop_rep (by grind)
    have hy1 : Stub (chop m x true) false y ky vy qy B :=
      hy.congr (chop_ne (by grind)) fun z hz => chop_ne (by grind)
    have r2 := hy1.chop_rep (by grind)
    refine ⟨chop (chop m x true) y false, nil, nil, fun n hl => ?_, rfl, rfl, .refl _, ?_, ?_,
      fun z h1 h2 _ => ?_⟩
    · obtain ⟨n, rfl⟩ : ∃ n', n = n' + 1 := ⟨n - 1, by omega⟩
      rfl
    · have : sz (erase (nil : P K V)) + sz (erase A) + 1 = sz (erase A) + 1 := by simp [erase, sz]
      rw [this]
      refine r1.congr fun z hz => chop_ne ?_
      rw [(addrs_bn (c := true)).mem_iff] at hz
      simp only [addrs] at hz hn
      grind
    · have : sz (erase (nil : P K V)) + sz (erase B) + 1 = sz (erase B) + 1 := by simp [erase, sz]
      rw [this]
      exact r2
    · rw [chop_ne h2, chop_ne h1]
  | node a k v l r, m, x, y, qx, qy, qm, kx, ky, vx, vy, A, B, hx, hy, hR, hn => by
    have hnR := nodup_parts (a := a) (l := l) (r := r) (.refl _) hn
    have hnL : (y :: x :: a.1 :: (addrs B ++ (addrs A ++ (addrs r ++ addrs l)))).Nodup :=
      nodup_parts (a := a) (l := r) (r := l) (List.perm_append_comm.cons _)
        (((List.Perm.swap x y _).nodup_iff.2 (((List.perm_append_comm.append_right _).cons y).cons x
          |>.nodup_iff.1 hn)))
    have hh : ∀ n, (node a k v l r).height < n → ∃ n', n = n' + 1 ∧ l.height < n' ∧ r.height < n' := by
      intro n hn
      simp only [Tree.height] at hn
      exact ⟨n - 1, by omega, by omega, by omega⟩
    have hkey : (m a.1).key = k := by obtain ⟨⟨g, hg⟩, -⟩ := hR; rw [hg]
    simp only [erase, splitMid]
    by_cases c1 : cmp k key > 0
    · simp only [if_pos c1]
      obtain ⟨s1, s2, hl1, e1⟩ := below_pre (e := false) hy hx hR hnR
      obtain ⟨m2, t1, t2, i1, i2, i3, i4, i5, i6, i7⟩ := splitRec_ok l _ x a.1 qx y a.1 kx k vx v A r s1 s2 hl1
        (by
          clear s1 s2 hl1 e1 hx hy hR hn hnL hh
          simp only [List.nodup_cons, List.nodup_append, List.mem_cons, List.mem_append, not_or] at hnR ⊢
          grind)
      obtain ⟨j1, j2, j3, j4⟩ := below_post (e := false) hy hnR i4 i5 i6 i7
      refine ⟨_, t1, bn false (a.1, sz (erase t2) + sz (erase r) + 1) k v t2 r, fun n hle => ?_, i2, ?_, j3, j1,
        j2, j4⟩
      · obtain ⟨n, rfl, h1, -⟩ := hh n hle
        replace e1 : ((adopt m y false (some a.1)) a.1).lo = ptr l := e1
        simp only [ptr_node, splitRec, hkey, if_pos c1, adopt_adopt, e1, i1 n h1, Option.map_some]
      · rw [erase_bn, i3]; rfl
    · simp only [if_neg c1]
      by_cases c2 : cmp k key < 0
      · simp only [if_pos c2]
        obtain ⟨s1, s2, hl1, e1⟩ := below_pre (e := true) (l := r) (r := l) hx hy hR hnL
        obtain ⟨m2, t1, t2, i1, i2, i3, i4, i5, i6, i7⟩ := splitRec_ok r _ a.1 y x qy a.1 k ky v vy l B s2 s1 hl1
          (by
          clear s1 s2 hl1 e1 hx hy hR hn hnL hh
          simp only [List.nodup_cons, List.nodup_append, List.mem_cons, List.mem_append, not_or] at hnR ⊢
          grind)
        obtain ⟨j1, j2, j3, j4⟩ := below_post (e := true) (l := r) (r := l) (t1 := t2) (t2 := t1) hx hnL
          (List.perm_append_comm.trans i4) i6 i5 (fun z h1 h2 => i7 z h2 h1)
        refine ⟨_, bn true (a.1, sz (erase t1) + sz (erase l) + 1) k v t1 l, t2, fun n hle => ?_, ?_, i3,
          List.perm_append_comm.trans (j3.trans (List.perm_append_comm.cons _)), j2, j1, fun z h1 h2 h3 => ?_⟩
        · obtain ⟨n, rfl, -, h1⟩ := hh n hle
          replace e1 : ((adopt m x true (some a.1)) a.1).hi = ptr r := e1
          simp only [ptr_node, splitRec, hkey, if_neg c1, if_pos c2, adopt_adopt, e1, i1 n h1, Option.map_some]
        · rw [erase_bn, i2]
          simp only [bn, mk, if_true]
          rw [Int.add_comm (sz (erase l))]
        · exact j4 z h2 h1 fun h => h3 ((List.perm_append_comm.cons _).mem_iff.1 h)
      · simp only [if_neg c2]
        cases incl with
        | true =>
          simp only [if_true]
          obtain ⟨-, -, -, e1⟩ := below_pre (e := true) (l := r) (r := l) hx hy hR hnL
          obtain ⟨m', j0, j1, j2, j3, j4⟩ := split_here (e := true) (l := r) (r := l) hx hy hR hnL
          refine ⟨m', bn true (a.1, sz (erase l) + 1) k v nil l, r, fun n hle => ?_, ?_, rfl,
            List.perm_append_comm.trans (j3.trans (List.perm_append_comm.cons _)), j2, j1, fun z h1 h2 h3 => ?_⟩
          · obtain ⟨n, rfl, -, -⟩ := hh n hle
            replace e1 : ((adopt m x true (some a.1)) a.1).hi = ptr r := e1
            simp only [ptr_node, splitRec, hkey, if_neg c1, if_neg c2, adopt_adopt, e1, if_true, j0, Bool.not_true]
          · rw [erase_bn]; rfl
          · exact j4 z h2 h1 fun h => h3 ((List.perm_append_comm.cons _).mem_iff.1 h)
        | false =>
          simp only [Bool.false_eq_true, if_false]
          obtain ⟨-, -, -, e1⟩ := below_pre (e := false) hy hx hR hnR
          obtain ⟨m', j0, j1, j2, j3, j4⟩ := split_here (e := false) hy hx hR hnR
          refine ⟨m', l, bn false (a.1, sz (erase r) + 1) k v nil r, fun n hle => ?_, rfl, ?_, j3, j1, j2, j4⟩
          · obtain ⟨n, rfl, -, -⟩ := hh n hle
            replace e1 : ((adopt m y false (some a.1)) a.1).lo = ptr l := e1
            simp only [ptr_node, splitRec, hkey, if_neg c1, if_neg c2, adopt_adopt, e1, j0,
              Bool.false_eq_true, if_false, Bool.not_false]
          · rw [erase_bn]; rfl

/-! ### The whole method -/

/-- `spineL` (`e`) and `spineR` (`!e`): what stays and what goes. -/
def vspine (cmp : K → K → Int) (incl : Bool) (key : K) (e : Bool) (t : T K V) : Option (T K V × T K V) :=
  if e then spineL cmp incl key t else (spineR cmp incl key t).map fun p => (p.2, p.1)

/-- The two parts in the order: what stays, what goes. -/
def midStay (cmp : K → K → Int) (incl : Bool) (key : K) (e : Bool) (t : T K V) : T K V :=
  if e then (splitMid cmp incl key t).1 else (splitMid cmp incl key t).2

def midMove (cmp : K → K → Int) (incl : Bool) (key : K) (e : Bool) (t : T K V) : T K V :=
  if e then (splitMid cmp incl key t).2 else (splitMid cmp incl key t).1

theorem vspine_stay {e : Bool} {a : Int} {k : K} {v : V} {u w : T K V}
    (h : goesLeft incl (cmp k key) = e) : vspine cmp incl key e (bn e a k v u w) =
      (vspine cmp incl key e u).map fun p => (vfix .sum e a k v p.1 w, p.2) := by
  cases e
  · simp only [vspine, bn, Bool.false_eq_true, if_false, spineR, h, Option.map_map]; rfl
  · simp only [vspine, bn, if_true, spineL, h]; rfl

theorem vspine_go {e : Bool} {a : Int} {k : K} {v : V} {u w : T K V}
    (h : goesLeft incl (cmp k key) ≠ e) : vspine cmp incl key e (bn (!e) a k v u w) =
      some (midStay cmp incl key e u, bn (!e) (sz (midMove cmp incl key e u) + sz w + 1) k v
        (midMove cmp incl key e u) w) := by
  cases e
  · rw [ne_eq, Bool.not_eq_false] at h
    simp only [vspine, bn, Bool.false_eq_true, if_false, spineR, h, Option.map_some, Bool.not_false, if_true,
      midStay, midMove, mk]
    rw [Int.add_comm (sz w)]
  · rw [ne_eq, Bool.not_eq_true] at h
    simp only [vspine, bn, Bool.false_eq_true, if_false, spineL, h, Bool.not_true, if_true,
      midStay, midMove, mk]

/-- `splitFind` from a node that stays. -/
def find (cmp : K → K → Int) (incl : Bool) (key : K) (e : Bool) (m : Mem K V) (n : Nat) (o x : Option Nat) :
    Option (Option Nat × Option Nat × Option Nat) :=
  if e then splitFind cmp incl key m n o x none else splitFind cmp incl key m n o none x

/-- `lroot` and `rroot`, if `x` stays and `y` goes. -/
def sides (e : Bool) (x y : Nat) : Nat × Nat := if e then (x, y) else (y, x)

theorem find_stay {e : Bool} {m : Mem K V} {n a : Nat} {x : Option Nat}
    (h : goesLeft incl (cmp (m a).key key) = e) :
    find cmp incl key e m (n + 1) (some a) x = find cmp incl key e m n ((m a).kid e) (some a) := by
  cases e <;> simp [find, splitFind, h] <;> rfl

theorem find_go {e : Bool} {m : Mem K V} {n y x : Nat} (h : goesLeft incl (cmp (m y).key key) ≠ e) :
    find cmp incl key e m (n + 1) (some y) (some x) =
      some ((m y).kid (!e), some (sides e x y).1, some (sides e x y).2) := by
  cases e
  · rw [ne_eq, Bool.not_eq_false] at h
    simp [find, splitFind, h, sides]; rfl
  · rw [ne_eq, Bool.not_eq_true] at h
    simp [find, splitFind, h, sides]; rfl

theorem find_nil {e : Bool} {m : Mem K V} {n : Nat} {x : Option Nat} :
    find cmp incl key e m (n + 1) none x = some (none, if e then (x, none) else (none, x)) := by
  cases e <;> simp [find, splitFind]

theorem kid_bn {m : Mem K V} {c : Bool} {a : Nat × Int} {q : Nat} {k : K} {v : V} {u w : P K V}
    (h : Rep m q (bn c a k v u w)) :
    (m a.1).kid c = ptr u ∧ (m a.1).key = k ∧ (m a.1).parent = some q := by
  obtain ⟨⟨g, hg⟩, -, -⟩ := rep_bn.1 h
  rw [hg]; cases c <;> exact ⟨rfl, rfl, rfl⟩

/-- All nodes stay. -/
theorem find_none {e : Bool} : ∀ (t : P K V) (q : Nat) (m : Mem K V), Rep m q t →
    vspine cmp incl key e (erase t) = none → ∀ x : Option Nat, ∃ o : Option Nat,
      (o.isSome = (x.isSome || (ptr t).isSome)) ∧ ∀ n, t.height < n →
        find cmp incl key e m n (ptr t) x = some (none, if e then (o, none) else (none, o)) := by
  intro t
  induction t using spine_ind e with
  | h0 =>
    intro q m _ _ x
    refine ⟨x, by simp, fun n hn => ?_⟩
    obtain ⟨n, rfl⟩ : ∃ n', n = n' + 1 := ⟨n - 1, by omega⟩
    exact find_nil
  | h1 a k v u w ih =>
    intro q m hR h x
    obtain ⟨h1, h2, h3⟩ := kid_bn hR
    obtain ⟨-, hu, -⟩ := rep_bn.1 hR
    by_cases hg : goesLeft incl (cmp k key) = e
    · rw [erase_bn, vspine_stay hg, Option.map_eq_none_iff] at h
      obtain ⟨o, i1, i2⟩ := ih a.1 m hu h (some a.1)
      refine ⟨o, by rw [i1, ptr_bn]; simp, fun n hn => ?_⟩
      rw [height_bn] at hn
      obtain ⟨n, rfl⟩ : ∃ n', n = n' + 1 := ⟨n - 1, by omega⟩
      rw [ptr_bn, find_stay (by rw [h2]; exact hg), h1]
      exact i2 n (by omega)
    · rw [erase_bn] at h
      have := vspine_go (cmp := cmp) (incl := incl) (key := key) (e := e) (a := a.2) (k := k) (v := v)
        (u := erase w) (w := erase u) hg
      have e2 : bn (!e) a.2 k v (erase w) (erase u) = bn e a.2 k v (erase u) (erase w) := by cases e <;> rfl
      rw [e2, h] at this
      exact absurd this (by simp)

/-- What is known of the part that goes: it is the tree below the other node `root`. -/
def Moved (m0 : Mem K V) (dst a : Nat) (yv : T K V) (gone : List Nat) (m : Mem K V) : Prop :=
  ∃ y : P K V, gone = dst :: addrs y ∧ erase y = yv ∧ Rep m dst y ∧ m dst = (m0 dst).setKid false (ptr y) ∧
    ∃ c k v u w, y = bn c (a, sz (erase u) + sz (erase w) + 1) k v u w

theorem moved_stable {m0 : Mem K V} {dst a : Nat} {yv : T K V} (gone : List Nat) (m1 m2 : Mem K V)
    (h : ∀ x ∈ gone, m2 x = m1 x) (hq : Moved m0 dst a yv gone m1) : Moved m0 dst a yv gone m2 := by
  obtain ⟨y, rfl, h2, h3, h4, h5⟩ := hq
  exact ⟨y, rfl, h2, h3.congr fun x hx => h x (by simp [hx]), by rw [h dst (by simp), h4], h5⟩

/-- The size is the sum already. -/
theorem sumLoop_same {m : Mem K V} {q a : Nat} {c : Bool} {k : K} {v : V} {u w : P K V}
    (hR : Rep m q (bn c (a, sz (erase u) + sz (erase w) + 1) k v u w)) (hq : a ≠ q) {n : Nat} (hn : 2 ≤ n) :
    sumLoop q n m a = some m := by
  obtain ⟨n, rfl⟩ : ∃ n', n = n' + 2 := ⟨n - 2, by omega⟩
  obtain ⟨⟨g, hg⟩, hu, hw⟩ := rep_bn.1 hR
  have e1 : sumSize m a = m := by
    funext x
    by_cases hx : x = a
    · subst hx
      simp only [sumSize, setSize, upd_self]
      have h1 : getSize m (m x).lo + getSize m (m x).hi + 1 = sz (erase u) + sz (erase w) + 1 := by
        rw [hg]
        cases c
        · show getSize m (ptr u) + getSize m (ptr w) + 1 = _
          rw [getSize_ptr hu, getSize_ptr hw]
        · show getSize m (ptr w) + getSize m (ptr u) + 1 = _
          rw [getSize_ptr hu, getSize_ptr hw, Int.add_comm (sz (erase w))]
      rw [h1, hg]
      cases c <;> rfl
    · exact sumSize_ne hx
  have e2 : (m a).parent = some q := by rw [hg]; cases c <;> rfl
  simp only [sumLoop, if_neg hq, e1, e2, Option.bind_some, if_true]

/-- tree.go:896-937, 1017-1058 from the recursion on, if `x` stays and `y` goes. -/
def splitAt (cmp : K → K → Int) (incl : Bool) (key : K) (e : Bool) (stop dst : Nat) (m : Mem K V)
    (cur : Option Nat) (x y : Nat) (n : Nat) : Option (Mem K V) :=
  (splitRec cmp incl key n
    (link (link (adopt m dst false (some y)) (sides e x y).1 true none) (sides e x y).2 false none) cur
    (sides e x y).1 (sides e x y).2).bind fun m =>
      if e then sumLoop stop n m x else (sumLoop dst n m y).bind fun m => sumLoop stop n m x

section
variable {m : Mem K V} {e d : Bool} {p stop dst : Nat} {x y : Nat × Int} {kx ky : K} {vx vy : V}
  {M wx wy : P K V}

theorem addrs_two : (addrs (bn e x kx vx (bn (!e) y ky vy M wy) wx)).Perm
    (x.1 :: (y.1 :: (addrs M ++ addrs wy) ++ addrs wx)) :=
  (addrs_bn (c := e)).trans (((addrs_bn (c := !e)).append_right _).cons _)

/-- The memory the recursion starts with. -/
theorem start_ok (hR : Rep m p (bn e x kx vx (bn (!e) y ky vy M wy) wx))
    (hn : (p :: dst :: x.1 :: y.1 :: (addrs M ++ (addrs wy ++ addrs wx))).Nodup) :
    ∃ m2, m2 = link (link (adopt m dst false (some y.1)) (sides e x.1 y.1).1 true none)
        (sides e x.1 y.1).2 false none ∧ Stub m2 e x.1 kx vx p wx ∧ Stub m2 (!e) y.1 ky vy dst wy ∧
      Rep m2 y.1 M ∧ m2 dst = (m dst).setKid false (some y.1) ∧
      ∀ z, z ≠ x.1 → z ≠ y.1 → z ≠ dst → m2 z = m z := by
  obtain ⟨⟨g, hg⟩, hy, hwx⟩ := rep_bn.1 hR
  obtain ⟨⟨g', hg'⟩, hM, hwy⟩ := rep_bn.1 hy
  have xy : x.1 ≠ y.1 := by clear hR hg hy hwx hg' hM hwy; grind
  have xd : x.1 ≠ dst := by clear hR hg hy hwx hg' hM hwy; grind
  have yd : y.1 ≠ dst := by clear hR hg hy hwx hg' hM hwy; grind
  have a1 : adopt m dst false (some y.1) x.1 = m x.1 :=
    adopt_other (fun h => xy (Option.some.inj h).symm) xd
  have a2 : adopt m dst false (some y.1) y.1 = { m y.1 with parent := some dst } := adopt_kid rfl yd
  have a3 : adopt m dst false (some y.1) dst = (m dst).setKid false (some y.1) :=
    adopt_self (by rintro ⟨⟩; exact yd rfl)
  have a4 : ∀ z, z ≠ y.1 → z ≠ dst → adopt m dst false (some y.1) z = m z := fun z h1 h2 =>
    adopt_other (by rintro ⟨⟩; exact h1 rfl) h2
  generalize hm2 : link (link (adopt m dst false (some y.1)) (sides e x.1 y.1).1 true none)
        (sides e x.1 y.1).2 false none = m2
  have b1 : m2 x.1 = (m x.1).setKid e none := by
    rw [← hm2, ← a1]; cases e <;> simp [link, sides, xy, upd]
  have b2 : m2 y.1 = Cell.setKid { m y.1 with parent := some dst } (!e) none := by
    rw [← hm2, ← a2]; cases e <;> simp [link, sides, xy.symm, upd]
  have b3 : ∀ z, z ≠ x.1 → z ≠ y.1 → m2 z = adopt m dst false (some y.1) z := fun z h1 h2 => by
    rw [← hm2]; cases e <;> simp [link, sides, upd, h1, h2]
  have b4 : ∀ z, z ≠ x.1 → z ≠ y.1 → z ≠ dst → m2 z = m z := fun z h1 h2 h3 => by
    rw [b3 z h1 h2, a4 z h2 h3]
  refine ⟨m2, rfl, ⟨⟨x.2, g, none, ?_⟩, hwx.congr fun z hz => b4 z ?_ ?_ ?_⟩,
    ⟨⟨y.2, g', none, ?_⟩, hwy.congr fun z hz => b4 z ?_ ?_ ?_⟩, hM.congr fun z hz => b4 z ?_ ?_ ?_, ?_, b4⟩
  · rw [b1, hg]; cases e <;> rfl
  on_goal 4 => rw [b2, hg']; cases e <;> rfl
  on_goal 10 => rw [b3 dst xd.symm yd.symm, a3]
  all_goals (clear hR hg hy hwx hg' hM hwy b1 b2 b3 b4 a1 a2 a3 a4 hm2; grind)

/-- Both sides of `splitRec_ok`. -/
theorem mid_ok {m2 : Mem K V} (s1 : Stub m2 e x.1 kx vx p wx) (s2 : Stub m2 (!e) y.1 ky vy dst wy)
    (hM : Rep m2 y.1 M) (hn : (p :: dst :: x.1 :: y.1 :: (addrs M ++ (addrs wy ++ addrs wx))).Nodup) :
    ∃ m3 Ms Mm, (∀ n, M.height < n →
        splitRec cmp incl key n m2 (ptr M) (sides e x.1 y.1).1 (sides e x.1 y.1).2 = some m3) ∧
      erase Ms = midStay cmp incl key e (erase M) ∧ erase Mm = midMove cmp incl key e (erase M) ∧
      (addrs Ms ++ addrs Mm).Perm (addrs M) ∧
      Rep m3 p (bn e (x.1, sz (erase Ms) + sz (erase wx) + 1) kx vx Ms wx) ∧
      Rep m3 dst (bn (!e) (y.1, sz (erase Mm) + sz (erase wy) + 1) ky vy Mm wy) ∧
      ∀ z, z ≠ x.1 → z ≠ y.1 → z ∉ addrs M → m3 z = m2 z := by
  simp only [List.nodup_cons, List.nodup_append, List.mem_cons, List.mem_append, not_or] at hn
  cases e with
  | true =>
    obtain ⟨m3, t1, t2, h1, h2, h3, h4, h5, h6, h7⟩ := splitRec_ok (cmp := cmp) (incl := incl) (key := key)
      M m2 x.1 y.1 p dst y.1 kx ky vx vy wx wy s1 s2 hM (by
        clear s1 s2 hM
        simp only [List.nodup_cons, List.nodup_append, List.mem_cons, List.mem_append, not_or]
        grind)
    exact ⟨m3, t1, t2, h1, h2, h3, h4, h5, h6, h7⟩
  | false =>
    obtain ⟨m3, t1, t2, h1, h2, h3, h4, h5, h6, h7⟩ := splitRec_ok (cmp := cmp) (incl := incl) (key := key)
      M m2 y.1 x.1 dst p y.1 ky kx vy vx wy wx s2 s1 hM (by
        clear s1 s2 hM
        simp only [List.nodup_cons, List.nodup_append, List.mem_cons, List.mem_append, not_or]
        grind)
    exact ⟨m3, t2, t1, h1, h3, h2, List.perm_append_comm.trans h4, h6, h5, fun z a b => h7 z b a⟩

theorem splitAt_base (hR : Rep m p (bn e x kx vx (bn (!e) y ky vy M wy) wx))
    (hn : (p :: ([dst] ++ addrs (bn e x kx vx (bn (!e) y ky vy M wy) wx))).Nodup)
    (hh : Hole [dst] m p d (bn e x kx vx (bn (!e) y ky vy M wy) wx)) (hs : x.1 ≠ stop) :
    Runs [dst] (Moved m dst y.1 (bn (!e) (sz (midMove cmp incl key e (erase M)) + sz (erase wy) + 1) ky vy
      (midMove cmp incl key e (erase M)) (erase wy)))
      (splitAt cmp incl key e stop dst m (ptr M) x.1 y.1) (sumLoop stop) m p d
      (bn e x kx vx (bn (!e) y ky vy M wy) wx)
      (vfix .sum e x.2 kx vx (midStay cmp incl key e (erase M)) (erase wx)) := by
  have hp : (addrs (bn e x kx vx (bn (!e) y ky vy M wy) wx)).Perm
    (x.1 :: y.1 :: (addrs M ++ (addrs wy ++ addrs wx))) := by
    refine addrs_two.trans ?_
    rw [List.cons_append, List.append_assoc]
  have hn' : (p :: dst :: x.1 :: y.1 :: (addrs M ++ (addrs wy ++ addrs wx))).Nodup :=
    ((hp.cons dst).cons p).nodup_iff.1 hn
  obtain ⟨m2, e2, s1, s2, hM, d2, f2⟩ := start_ok hR hn'
  obtain ⟨m3, Ms, Mm, i1, i2, i3, i4, i5, i6, i7⟩ := mid_ok (cmp := cmp) (incl := incl) (key := key) s1 s2 hM hn'
  have hsub : ∀ z ∈ addrs Ms ++ addrs Mm, z ∈ addrs M := fun z hz => i4.mem_iff.1 hz
  have hp1 : (addrs (bn e (x.1, sz (erase Ms) + sz (erase wx) + 1) kx vx Ms wx)).Perm
    (x.1 :: (addrs Ms ++ addrs wx)) := addrs_bn
  have hp2 : (addrs (bn (!e) (y.1, sz (erase Mm) + sz (erase wy) + 1) ky vy Mm wy)).Perm
    (y.1 :: (addrs Mm ++ addrs wy)) := addrs_bn
  have pnd : p ≠ x.1 ∧ p ≠ y.1 ∧ p ≠ dst ∧ p ∉ addrs M ∧ dst ≠ x.1 ∧ dst ≠ y.1 ∧ dst ∉ addrs M := by
    clear hR hn hh hp e2 s1 s2 hM d2 f2 i1 i2 i3 i4 i5 i6 i7 hsub hp1 hp2
    grind
  obtain ⟨q1, q2, q3, q4, q5, q6, q7⟩ := pnd
  have g1 : Good [dst] (dst :: addrs (bn (!e) (y.1, sz (erase Mm) + sz (erase wy) + 1) ky vy Mm wy)) m m3 p d
      (bn e x kx vx (bn (!e) y ky vy M wy) wx)
      (bn e (x.1, sz (erase Ms) + sz (erase wx) + 1) kx vx Ms wx) := by
    refine ⟨i5, ?_, ?_, ?_⟩
    · rw [i7 p q1 q2 q4, f2 p q1 q2 q3, ptr_bn]
      exact (setKid_kid (hh.1.trans ptr_bn)).symm
    · refine List.Perm.cons _ (((hp2.append hp1).trans ?_).trans hp.symm)
      refine List.perm_middle.trans (List.Perm.cons _ (List.Perm.cons _ ?_))
      refine List.Perm.trans ?_ (i4.append_right _)
      show (addrs Mm ++ addrs wy ++ (addrs Ms ++ addrs wx)).Perm _
      refine List.perm_iff_count.2 fun z => ?_
      simp only [List.count_append]
      omega
    · intro z hz hzp
      rw [List.mem_append, hp.mem_iff] at hz
      simp only [List.mem_cons, List.mem_append, not_or, List.not_mem_nil] at hz
      rw [i7 z hz.2.1 hz.2.2.1 hz.2.2.2.1, f2 z hz.2.1 hz.2.2.1 hz.1.1]
  have hn1 := g1.nodup hn
  have Q1 : Moved m dst y.1 (bn (!e) (sz (midMove cmp incl key e (erase M)) + sz (erase wy) + 1) ky vy
      (midMove cmp incl key e (erase M)) (erase wy))
      (dst :: addrs (bn (!e) (y.1, sz (erase Mm) + sz (erase wy) + 1) ky vy Mm wy)) m3 := by
    refine ⟨_, rfl, ?_, i6, ?_, ⟨_, _, _, _, _, rfl⟩⟩
    · rw [erase_bn, i3]
    · rw [i7 dst q5 q6 q7, d2, ptr_bn]
  have hn2 : (p :: addrs (bn e (x.1, sz (erase Ms) + sz (erase wx) + 1) kx vx Ms wx)).Nodup :=
    hn1.sublist (List.Sublist.cons_cons _ (List.sublist_append_right _ _))
  obtain ⟨m4, t4, j1, j2, j3⟩ := ancLoop_step (root := stop) (anc := .sum) (p := p) (d := d) (c := e)
    (a := (x.1, sz (erase Ms) + sz (erase wx) + 1)) (k := kx) (v := vx) (w := wx)
    (y := midStay cmp incl key e (erase M)) hs (by simp) m3 Ms i2 i5 hn2 (g1.hole hh).mono
  have g2 := g1.trans j2
  rw [List.append_nil] at g2
  have len : (addrs (bn e x kx vx (bn (!e) y ky vy M wy) wx)).length =
      (addrs M).length + ((addrs wy).length + (addrs wx).length) + 2 := by
    rw [hp.length_eq]; simp
  refine ⟨m4, t4, _, 1, by omega, ?_, g2, moved_stable _ _ _ ?_ Q1, fun n hl => ?_⟩
  · rw [j1]; cases e <;> rfl
  · intro z hz
    refine j2.frame z ?_ ?_
    · intro hz2
      have := (List.nodup_append.1 (List.nodup_cons.1 hn1).2).2.2
      exact this z hz z (by simpa using hz2) rfl
    · rintro rfl; exact (List.nodup_cons.1 hn1).1 (List.mem_append_left _ hz)
  · have hM := height_le M
    have j4 : sumLoop stop (n + 1) m3 x.1 = sumLoop stop n m4 p := j3 n
    simp only [splitAt, ← e2, i1 (n + 1) (by omega), Option.bind_some]
    cases e with
    | true => simp only [if_true]; exact j4
    | false =>
      simp only [Bool.false_eq_true, if_false]
      rw [sumLoop_same i6 q6.symm (by omega)]
      exact j4

end

theorem spine_ok {e : Bool} {stop dst : Nat} {m : Mem K V} : ∀ (t : P K V) (p : Nat) (d : Bool) (sv mv : T K V),
    Rep m p t → (p :: ([dst] ++ addrs t)).Nodup → Hole [dst] m p d t → stop ∉ addrs t →
    (∃ a k v u w, t = bn e a k v u w ∧ goesLeft incl (cmp k key) = e) →
    vspine cmp incl key e (erase t) = some (sv, mv) →
    ∃ cur x y, (∀ m1 p1, Rep m1 p1 t → p1 ∉ addrs t →
        (m1 x).parent ≠ some y ∧ (m1 y).parent = some x ∧ ∀ X n, t.height < n →
          find cmp incl key e m1 n (ptr t) X = some (cur, some (sides e x y).1, some (sides e x y).2)) ∧
      x ∈ addrs t ∧ y ∈ addrs t ∧
      Runs [dst] (Moved m dst y mv) (splitAt cmp incl key e stop dst m cur x y) (sumLoop stop) m p d t sv := by
  intro t
  induction t using spine_ind e with
  | h0 => intro p d sv mv _ _ _ _ _ h; cases e <;> simp [vspine, erase, spineL, spineR] at h
  | h1 a k v u w ih =>
    intro p d sv mv hR hn hh hs hst h
    have hg : goesLeft incl (cmp k key) = e := by
      obtain ⟨a', k', v', u', w', h1, h2⟩ := hst
      cases e <;> (cases h1; exact h2)
    have hpa : (addrs (bn e a k v u w)).Perm (a.1 :: (addrs u ++ addrs w)) := addrs_bn
    rw [erase_bn, vspine_stay hg, Option.map_eq_some_iff] at h
    obtain ⟨⟨sv', mv'⟩, h1, h2⟩ := h
    cases h2
    obtain ⟨-, hu, -⟩ := rep_bn.1 hR
    have hnu : (a.1 :: ([dst] ++ addrs u)).Nodup := by
      have := ((hpa.append_left [dst]).cons p).nodup_iff.1 hn
      clear ih hR hh hs hst hpa hu hn
      grind
    have has : a.1 ≠ stop := by rintro rfl; exact hs (hpa.mem_iff.2 (by simp))
    have kid : ∀ m1 p1, Rep m1 p1 (bn e a k v u w) → ∀ X n, (bn e a k v u w).height < n →
        ∃ n', u.height < n' ∧
          find cmp incl key e m1 n (ptr (bn e a k v u w)) X = find cmp incl key e m1 n' (ptr u) (some a.1) := by
      intro m1 p1 hR1 X n hn
      obtain ⟨k1, k2, k3⟩ := kid_bn hR1
      rw [height_bn] at hn
      obtain ⟨n, rfl⟩ : ∃ n', n = n' + 1 := ⟨n - 1, by omega⟩
      refine ⟨n, by omega, ?_⟩
      rw [ptr_bn, find_stay (by rw [k2]; exact hg), k1]
    cases hu' : u with
    | nil => rw [hu'] at h1; cases e <;> simp [vspine, erase, spineL, spineR] at h1
    | node b ku vu ul ur =>
      rw [← hu']
      by_cases hg2 : goesLeft incl (cmp ku key) = e
      · have hst2 : ∃ a k v u1 w, u = bn e a k v u1 w ∧ goesLeft incl (cmp k key) = e := by
          cases e
          · exact ⟨b, ku, vu, ul, ur, hu', hg2⟩
          · exact ⟨b, ku, vu, ur, ul, hu', hg2⟩
        obtain ⟨cur, x, y, i1, i2, i3, i4⟩ := ih a.1 e sv' mv' hu hnu
          (Hole.kid hR (List.nodup_cons.1 hn).2) (fun h => hs (hpa.mem_iff.2 (by simp [h]))) hst2 h1
        refine ⟨cur, x, y, fun m1 p1 hR1 hp1 => ?_, hpa.mem_iff.2 (by simp [i2]), hpa.mem_iff.2 (by simp [i3]), ?_⟩
        · obtain ⟨-, hu1, -⟩ := rep_bn.1 hR1
          obtain ⟨j1, j2, j3⟩ := i1 m1 a.1 hu1 (by clear ih i1 i4 hR hR1 hh hu hu1 kid; grind)
          refine ⟨j1, j2, fun X n hn => ?_⟩
          obtain ⟨n', n1, n2⟩ := kid m1 p1 hR1 X n hn
          rw [n2]
          exact j3 _ n' n1
        · exact Runs.lift hR hn hh i4 moved_stable
            (ancLoop_step (root := stop) (anc := .sum) has (by simp))
      · obtain ⟨M, wy, hM⟩ : ∃ M wy, u = bn (!e) b ku vu M wy := by
          cases e
          · exact ⟨ur, ul, hu'⟩
          · exact ⟨ul, ur, hu'⟩
        clear hu'
        subst hM
        rw [erase_bn, vspine_go hg2] at h1
        cases h1
        refine ⟨ptr M, a.1, b.1, fun m1 p1 hR1 hp1 => ?_, hpa.mem_iff.2 (by simp), hpa.mem_iff.2 ?_, ?_⟩
        · obtain ⟨-, hu1, -⟩ := rep_bn.1 hR1
          obtain ⟨k1, k2, k3⟩ := kid_bn hu1
          obtain ⟨k4, k5, k6⟩ := kid_bn hR1
          refine ⟨?_, k3, fun X n hn => ?_⟩
          · rw [k6]
            rintro ⟨⟩
            exact hp1 (hpa.mem_iff.2 (by
              simp only [List.mem_cons, List.mem_append]
              exact .inr (.inl ((addrs_bn (c := !e)).mem_iff.2 (by simp)))))
          · obtain ⟨n', n1, n2⟩ := kid m1 p1 hR1 X n hn
            obtain ⟨n', rfl⟩ : ∃ n0, n' = n0 + 1 := ⟨n' - 1, by omega⟩
            rw [n2, ptr_bn, find_go (by rw [k2]; exact hg2), k1]
        · simp only [List.mem_cons, List.mem_append]
          exact .inr (.inl ((addrs_bn (c := !e)).mem_iff.2 (by simp)))
        · exact splitAt_base hR hn hh has

theorem sentinel_ne {junk : K × V} {m : Mem K V} {a x : Nat} (h : x ≠ a) : sentinel junk m a x = m x := by
  simp [sentinel, upd, h]

theorem sentinel_self {junk : K × V} {m : Mem K V} {a : Nat} :
    sentinel junk m a a = ⟨junk.1, junk.2, 0, 0, none, none, none⟩ := by
  simp [sentinel, upd]

/-- tree.go:818-938, 941-1060. -/
theorem split_ok {junk : K × V} {root fresh : Nat} {m : Mem K V} {t : P K V} {xv yv : T K V}
    (hR : Rep m root t) (h1 : (m root).lo = ptr t) (h2 : (m root).hi = none)
    (hn : (root :: fresh :: addrs t).Nodup) (h : IndexTree.split cmp incl key (erase t) = some (xv, yv)) :
    ∃ m' x y, erase x = xv ∧ erase y = yv ∧ Rep m' root x ∧ Rep m' fresh y ∧
      m' root = (m root).setKid false (ptr x) ∧
      m' fresh = ⟨junk.1, junk.2, 0, 0, none, ptr y, none⟩ ∧ (addrs x ++ addrs y).Perm (addrs t) ∧
      (∀ z, z ∉ root :: fresh :: addrs t → m' z = m z) ∧
      ∀ n, (addrs t).length < n → IndexHeap.split cmp incl key junk root fresh n m = some (m', true) := by
  cases t with
  | nil => simp [IndexTree.split, erase] at h
  | node a k v l r =>
    have hn0 : fresh ∉ addrs (node a k v l r) ∧ root ∉ addrs (node a k v l r) ∧ root ≠ fresh := by
      clear hR h1 h2 h; grind
    obtain ⟨hf, hr, hrf⟩ := hn0
    have hlen := height_le (node a k v l r)
    have hm0 : ∀ z, z ≠ fresh → sentinel junk m fresh z = m z := fun z hz => sentinel_ne hz
    have hR0 : Rep (sentinel junk m fresh) root (node a k v l r) :=
      hR.congr fun z hz => hm0 z (by rintro rfl; exact hf hz)
    simp only [IndexTree.split, erase] at h
    rw [ptr_node] at h1
    cases hg : goesLeft incl (cmp k key) with
    | true =>
      rw [if_pos hg] at h
      cases hv : spineL cmp incl key (node a.2 k v (erase l) (erase r)) with
      | none =>
        rw [hv] at h
        cases h
        have hv' : vspine cmp incl key true (erase (node a k v l r)) = none := by
          simp only [vspine, if_true]; exact hv
        obtain ⟨o, o1, o2⟩ := find_none (node a k v l r) root m hR hv' none
        obtain ⟨b, rfl⟩ : ∃ b, o = some b := Option.isSome_iff_exists.1 (by rw [o1]; rfl)
        refine ⟨sentinel junk m fresh, node a k v l r, nil, rfl, rfl, hR0, trivial, ?_, ?_, ?_, ?_, ?_⟩
        · rw [hm0 root hrf]; exact (setKid_kid (c := false) h1).symm
        · rw [sentinel_self]; rfl
        · simp [addrs]
        · intro z hz; exact hm0 z (by rintro rfl; exact hz (by simp))
        · intro n hl
          have := o2 n (by omega)
          simp only [find, if_true, ptr_node] at this
          simp only [IndexHeap.split, h1, this, Option.bind_some]
      | some p =>
        obtain ⟨sv, mv⟩ := p
        rw [hv] at h
        cases h
        have hv' : vspine cmp incl key true (erase (node a k v l r)) = some (xv, yv) := by
          simp only [vspine, if_true]; exact hv
        have hh : Hole [fresh] (sentinel junk m fresh) root false (node a k v l r) := by
          refine ⟨by rw [hm0 root hrf]; exact h1, fun z _ => ?_⟩
          rw [hm0 root hrf]
          show (m root).hi ≠ some z
          rw [h2]; simp
        obtain ⟨cur, x, y, i1, i2, i3, i4⟩ := spine_ok (cmp := cmp) (incl := incl) (key := key) (e := true)
          (stop := root) (dst := fresh) (node a k v l r) root false xv yv hR0 hn hh hr
          ⟨a, k, v, r, l, rfl, hg⟩ hv'
        obtain ⟨j1, j2, j3⟩ := i1 m root hR hr
        obtain ⟨m', t', gone, j, k1, k2, k3, ⟨y', rfl, y2, y3, y4, c', k', v', u', w', y5⟩, k5⟩ := i4
        refine ⟨m', t', y', k2, y2, k3.rep, y3, ?_, ?_, ?_, ?_, ?_⟩
        · rw [k3.par, hm0 root hrf]
        · rw [y4, sentinel_self]; rfl
        · exact List.perm_append_comm.trans (List.perm_cons fresh |>.1 k3.perm)
        · intro z hz
          simp only [List.mem_cons, not_or] at hz
          rw [k3.frame z (by simp only [List.mem_append, List.mem_singleton, not_or]; exact hz.2) hz.1,
            hm0 z hz.2.1]
        · intro n hl
          have e1 := j3 none n (by omega)
          simp only [find, if_true, ptr_node, sides] at e1
          have e2 : (sentinel junk m fresh x).parent ≠ some y := by
            rw [hm0 x (by rintro rfl; exact hf i2)]; exact j1
          have e3 := k5 (n - j) (by omega)
          rw [Nat.sub_add_cancel (by omega)] at e3
          obtain ⟨n', e4⟩ : ∃ n', n - j = n' + 1 := ⟨n - j - 1, by omega⟩
          simp only [e4, sumLoop, if_true, splitAt, sides] at e3
          obtain ⟨m3, f1, f2⟩ := Option.bind_eq_some_iff.1 e3
          have hlast : sumLoop fresh n m' y = some m' := by
            have hya : y ≠ fresh := by rintro rfl; exact hf i3
            rw [y5] at y3
            refine sumLoop_same y3 hya ?_
            simp only [addrs, List.length_cons] at hl
            omega
          simp only [IndexHeap.split, h1, e1, Option.bind_some, if_pos e2, adopt_adopt, f1, f2, hlast,
            Option.map_some]
    | false =>
      rw [if_neg (by rw [hg]; simp)] at h
      have hz : ∀ (m0 : Mem K V) z, z ≠ a.1 → z ≠ fresh → adopt m0 fresh false (some a.1) z = m0 z :=
        fun m0 z z1 z2 => adopt_other (fun h => z1 (Option.some.inj h).symm) z2
      have haf : a.1 ≠ fresh := by rintro rfl; exact hf (by simp [addrs])
      have har : root ≠ a.1 := by rintro rfl; exact hr (by simp [addrs])
      have hmv : ∀ m0 q, Rep m0 q (node a k v l r) →
          Rep (adopt m0 fresh false (some a.1)) fresh (node a k v l r) := fun m0 q hq =>
        (adopt_good (d := false) hq (t := node a k v l r) (gone := [])
          (List.nodup_cons.2 ⟨hf, (List.nodup_cons.1 (List.nodup_cons.1 hn).2).2⟩) (.refl _)).rep
      cases hv : spineR cmp incl key (node a.2 k v (erase l) (erase r)) with
      | none =>
        rw [hv] at h
        cases h
        have hv' : vspine cmp incl key false (erase (node a k v l r)) = none := by
          simp only [vspine, Bool.false_eq_true, if_false, Option.map_eq_none_iff]; exact hv
        obtain ⟨o, o1, o2⟩ := find_none (node a k v l r) root m hR hv' none
        have hs : ∀ z, z ≠ root → z ≠ fresh → sentinel junk (link m root false none) fresh z = m z :=
          fun z z1 z2 => by rw [sentinel_ne z2]; simp [link, upd, z1]
        refine ⟨adopt (sentinel junk (link m root false none) fresh) fresh false (some a.1), nil,
          node a k v l r, rfl, rfl, trivial, ?_, ?_, ?_, ?_, ?_, ?_⟩
        · refine hmv _ root (hR.congr fun z hz1 => hs z ?_ ?_)
          · rintro rfl; exact hr hz1
          · rintro rfl; exact hf hz1
        · rw [hz _ root har hrf, sentinel_ne hrf]; simp [link, upd]
        · rw [adopt_self (fun h => haf (Option.some.inj h)), sentinel_self]; rfl
        · simp [addrs]
        · intro z hz1
          simp only [List.mem_cons, not_or, addrs] at hz1
          rw [hz _ z hz1.2.2.1 hz1.2.1, hs z hz1.1 hz1.2.1]
        · intro n hl
          have := o2 n (by omega)
          simp only [find, Bool.false_eq_true, if_false, ptr_node] at this
          simp only [IndexHeap.split, h1, this, Option.bind_some, adopt_adopt]
      | some p =>
        obtain ⟨sv, mv⟩ := p
        rw [hv] at h
        cases h
        have hv' : vspine cmp incl key false (erase (node a k v l r)) = some (yv, xv) := by
          simp only [vspine, Bool.false_eq_true, if_false, Option.map_eq_some_iff]
          exact ⟨_, hv, rfl⟩
        have hR1 := hmv _ _ hR0
        have hfc : adopt (sentinel junk m fresh) fresh false (some a.1) fresh =
            ⟨junk.1, junk.2, 0, 0, none, some a.1, none⟩ := by
          rw [adopt_self (fun h => haf (Option.some.inj h)), sentinel_self]; rfl
        have hrc : adopt (sentinel junk m fresh) fresh false (some a.1) root = m root := by
          rw [hz _ root har hrf, hm0 root hrf]
        have hh : Hole [root] (adopt (sentinel junk m fresh) fresh false (some a.1)) fresh false
            (node a k v l r) := by
          refine ⟨by rw [hfc]; rfl, fun z _ => ?_⟩
          rw [hfc]
          simp [Cell.kid]
        have hn1 : (fresh :: ([root] ++ addrs (node a k v l r))).Nodup :=
          (List.Perm.swap _ _ _).nodup_iff.1 hn
        obtain ⟨cur, x, y, i1, i2, i3, i4⟩ := spine_ok (cmp := cmp) (incl := incl) (key := key) (e := false)
          (stop := fresh) (dst := root) (node a k v l r) fresh false yv xv hR1 hn1 hh hf
          ⟨a, k, v, l, r, rfl, hg⟩ hv'
        obtain ⟨j1, j2, j3⟩ := i1 m root hR hr
        obtain ⟨m', t', gone, j, k1, k2, k3, ⟨y', rfl, y2, y3, y4, c', k', v', u', w', y5⟩, k5⟩ := i4
        refine ⟨m', y', t', y2, k2, y3, k3.rep, ?_, ?_, ?_, ?_, ?_⟩
        · rw [y4, hrc]
        · rw [k3.par, hfc]; rfl
        · exact List.perm_cons root |>.1 k3.perm
        · intro z hz1
          simp only [List.mem_cons, not_or] at hz1
          rw [k3.frame z (by simp only [List.mem_append, List.mem_singleton, not_or]; exact ⟨hz1.1, hz1.2.2⟩)
            hz1.2.1, hz _ z (by rintro rfl; exact hz1.2.2 (by simp [addrs])) hz1.2.1, hm0 z hz1.2.1]
        · intro n hl
          have e1 := j3 none n (by omega)
          simp only [find, Bool.false_eq_true, if_false, ptr_node, sides] at e1
          have e2 : ¬(sentinel junk m fresh y).parent ≠ some x := by
            rw [hm0 y (by rintro rfl; exact hf i3)]; exact fun h => h j2
          have e3 := k5 (n - j) (by omega)
          rw [Nat.sub_add_cancel (by omega)] at e3
          obtain ⟨n', e4⟩ : ∃ n', n - j = n' + 1 := ⟨n - j - 1, by omega⟩
          simp only [e4, sumLoop, if_true, splitAt, sides, Bool.false_eq_true, if_false] at e3
          obtain ⟨m3, f1, f2⟩ := Option.bind_eq_some_iff.1 e3
          obtain ⟨m4, f3, f4⟩ := Option.bind_eq_some_iff.1 f2
          simp only [IndexHeap.split, h1, e1, Option.bind_some, if_neg e2, adopt_adopt, f1, f3, f4,
            Option.map_some]

end Verif.IndexHeap
