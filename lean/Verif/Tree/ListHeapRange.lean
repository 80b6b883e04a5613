import Verif.Tree.ListHeapLemmas

/-! The pointer program of `Verif.Tree.ListHeap`: removal of ranges. -/

namespace Verif.ListHeap
open Verif.IndexHeap Verif.DLL Verif.Tree Verif.Size
open Verif.AvlHeap (P ptr addrs erase ptr_nil ptr_node ptr_mem ptr_ne)
open Verif.TreeList (TL limit Op Res SetOp)
variable {K V : Type} {cmp : K → K → Int} {root : Nat}

/-- The links of the nodes are those of the store. -/
def Links (h : Store (K × V)) (d : Dir) : Prop := ∀ a, (h a).prev = (d a).1 ∧ (h a).next = (d a).2

theorem Links.side {h : Store (K × V)} {d : Dir} (hd : Links h d) (c : Bool) (a : Nat) :
    (if c then (h a).prev else (h a).next) = side (!c) (d a) := by
  cases c
  · exact (hd a).2
  · exact (hd a).1

/-- All links of `S` stay in `S`. -/
def Closed (d : Dir) (S : List Nat) : Prop := ∀ a ∈ S, ∀ c b, side c (d a) = some b → b ∈ S

/-- What the cuts return. -/
def InS (S : List Nat) (p : Option Nat) : Prop := ∀ b, p = some b → b ∈ S

theorem tagged_bn {c : Bool} {a : Nat × Int} {k : K} {v : Nat × V} {u w : P K (Nat × V)} :
    Tagged (bn c a k v u w) ↔ v.1 = a.1 ∧ Tagged u ∧ Tagged w := by
  cases c
  · exact Iff.rfl
  · simp only [bn, if_true, Tagged]; tauto

/-! ### The cuts -/

section
variable (cmp) (bound : K) (c : Bool) (h : Store (K × V))

/-- `cutL` (`c = true`) and `cutR` of the model with subtrees. -/
def vcutD (t : T K (Nat × V)) : T K (Nat × V) × Option Nat :=
  if c then TreeList.cutL cmp bound h t else TreeList.cutR cmp bound h t

end

theorem vcutD_bn {bound : K} {c : Bool} {h : Store (K × V)} {a : Int} {k : K} {v : Nat × V}
    {u w : T K (Nat × V)} :
    vcutD cmp bound c h (bn c a k v u w) =
      if (if c then cmp bound k > 0 else cmp bound k < 0) then
        (bn c (sz (vcutD cmp bound c h u).1 + sz w + 1) k v (vcutD cmp bound c h u).1 w,
          if (vcutD cmp bound c h u).1.isNil then some v.1 else (vcutD cmp bound c h u).2)
      else if (if c then cmp bound k < 0 else cmp bound k > 0) then
        if w.isNil then (nil, if c then (h v.1).prev else (h v.1).next) else vcutD cmp bound c h w
      else (w, if c then (h v.1).prev else (h v.1).next) := by
  cases c
  · simp only [vcutD, bn, TreeList.cutR, mk, Bool.false_eq_true, if_false]
  · simp only [vcutD, bn, TreeList.cutL, mk, if_true]
    split
    · rw [Int.add_comm (sz w)]
    · rfl

theorem isNone_ptr (t : P K V) : (ptr t).isNone = (erase t).isNil := by cases t <;> rfl

/-- tree.go:255-279, 289-313. -/
theorem cut_ok {bound : K} {c : Bool} {d : Dir} {h : Store (K × V)} (hd : Links h d) (t : P K (Nat × V)) :
    ∀ (m : Mem K (Nat × V)) (q : Nat), Rep m q t → (addrs t).Nodup → Tagged t → ∃ m' t' gone q',
      (∀ n e, t.height < n → cut d cmp bound c n m e (ptr t) =
        some (m', if t.isNil then e else (vcutD cmp bound c h (erase t)).2, ptr t')) ∧
      erase t' = (vcutD cmp bound c h (erase t)).1 ∧ Near gone m m' q' t t' := by
  induction t using both_ind c with
  | h0 =>
    intro m q _ _ _
    refine ⟨m, nil, [], q, fun n e hl => ?_, by cases c <;> rfl, Near.refl trivial⟩
    obtain ⟨n, rfl⟩ : ∃ n', n = n' + 1 := ⟨n - 1, by omega⟩
    rfl
  | h1 a k v u w ihu ihw =>
    intro m q hR hn ht
    obtain ⟨ht0, htu, htw⟩ := tagged_bn.1 ht
    have hn' : (a.1 :: (addrs u ++ addrs w)).Nodup := (addrs_bn (c := c)).nodup_iff.1 hn
    obtain ⟨⟨g, hg⟩, hu, hw⟩ := rep_bn.1 hR
    have k1 : (m a.1).kid c = ptr u := by rw [hg]; cases c <;> rfl
    have k2 : (m a.1).kid (!c) = ptr w := by rw [hg]; cases c <;> rfl
    have k3 : (m a.1).key = k := by rw [hg]; cases c <;> rfl
    have k4 : (bn c a k v u w).isNil = false := by cases c <;> rfl
    rw [erase_bn, vcutD_bn, k4, hd.side, ht0]
    by_cases hc : (if c then cmp bound k > 0 else cmp bound k < 0)
    · simp only [if_pos hc]
      obtain ⟨m1, u1, gone, q1, h1, h2, h3⟩ := ihu m a.1 hu (by grind) htu
      refine ⟨_, _, gone, q, fun n e hl => ?_, ?_, hook_ok hR hn h3⟩
      · rw [height_bn] at hl
        obtain ⟨n, rfl⟩ : ∃ n', n = n' + 1 := ⟨n - 1, by omega⟩
        simp only [ptr_bn, cut, k1, k3, if_pos hc, h1 n e (by omega), Option.map_some, isNone_ptr, h2]
        cases u with
        | nil => cases c <;> rfl
        | node => rfl
      · rw [erase_bn, h2]
    · simp only [if_neg hc]
      by_cases hc2 : (if c then cmp bound k < 0 else cmp bound k > 0)
      · simp only [if_pos hc2]
        cases w with
        | nil =>
          refine ⟨m, nil, _, a.1, fun n e hl => ?_, rfl, (Near.refl hw).drop⟩
          rw [height_bn] at hl
          obtain ⟨n, rfl⟩ : ∃ n', n = n' + 1 + 1 := ⟨n - 2, by omega⟩
          simp only [ptr_bn, cut, k2, k3, if_neg hc, if_pos hc2, ptr_nil]
          rfl
        | node =>
          obtain ⟨m1, w1, gone, q1, h1, h2, h3⟩ := ihw m a.1 hw (by grind) htw
          refine ⟨m1, w1, _, q1, fun n e hl => ?_, h2, h3.drop⟩
          rw [height_bn] at hl
          obtain ⟨n, rfl⟩ : ∃ n', n = n' + 1 := ⟨n - 1, by omega⟩
          simp only [ptr_bn, cut, k2, k3, if_neg hc, if_pos hc2, h1 n _ (by omega)]
          rfl
      · simp only [if_neg hc2]
        refine ⟨m, w, _, a.1, fun n e hl => ?_, rfl, (Near.refl hw).drop⟩
        rw [height_bn] at hl
        obtain ⟨n, rfl⟩ : ∃ n', n = n' + 1 := ⟨n - 1, by omega⟩
        simp only [ptr_bn, cut, k2, k3, if_neg hc, if_neg hc2]
        rfl

theorem vcutD_mem {bound : K} {c : Bool} {d : Dir} {h : Store (K × V)} (hd : Links h d) {S : List Nat}
    (hS : Closed d S) (t : P K (Nat × V)) : Tagged t → (∀ a ∈ addrs t, a ∈ S) →
    InS S (vcutD cmp bound c h (erase t)).2 := by
  induction t using both_ind c with
  | h0 => intro _ _ b hb; cases c <;> cases hb
  | h1 a k v u w ihu ihw =>
    intro ht hsub
    obtain ⟨ht0, htu, htw⟩ := tagged_bn.1 ht
    have hs : ∀ x ∈ a.1 :: (addrs u ++ addrs w), x ∈ S := fun x hx => hsub x ((addrs_bn (c := c)).mem_iff.2 hx)
    have i1 := ihu htu fun x hx => hs x (by simp [hx])
    have i2 := ihw htw fun x hx => hs x (by simp [hx])
    have ha : a.1 ∈ S := hs _ (by simp)
    rw [erase_bn, vcutD_bn, hd.side, ht0]
    by_cases hc : (if c then cmp bound k > 0 else cmp bound k < 0)
    · simp only [if_pos hc]
      split
      · rintro b ⟨⟩; exact ha
      · exact i1
    · simp only [if_neg hc]
      by_cases hc2 : (if c then cmp bound k < 0 else cmp bound k > 0)
      · simp only [if_pos hc2]
        split
        · exact fun b hb => hS _ ha _ _ hb
        · exact i2
      · simp only [if_neg hc2]
        exact fun b hb => hS _ ha _ _ hb

/-- tree.go:281-286, 315-320. -/
theorem cutTop_ok {bound : K} {c : Bool} {d : Dir} {h : Store (K × V)} (hd : Links h d) {m : Mem K (Nat × V)}
    {a : Nat} {t : P K (Nat × V)} (hk : (m a).kid (!c) = ptr t) (hR : Rep m a t) (hn : (addrs t).Nodup)
    (ht : Tagged t) : ∃ m' t' gone q',
      (∀ n, t.height < n → cutTop d cmp bound c n m a =
        some (m', (if t.isNil then side (!c) (d a) else (vcutD cmp bound c h (erase t)).2), ptr t')) ∧
      erase t' = (if t.isNil then nil else (vcutD cmp bound c h (erase t)).1) ∧ Near gone m m' q' t t' := by
  cases t with
  | nil => exact ⟨m, nil, [], a, fun n _ => by simp only [cutTop, hk, ptr_nil]; rfl, rfl, Near.refl trivial⟩
  | node b k v l r =>
    obtain ⟨m', t', gone, q', h1, h2, h3⟩ := cut_ok (cmp := cmp) (bound := bound) (c := c) hd _ m a hR hn ht
    refine ⟨m', t', gone, q', fun n hl => ?_, h2, h3⟩
    rw [ptr_node] at hk
    have := h1 n none hl
    simp only [cutTop, hk]
    rw [ptr_node] at this
    exact this

/-! ### `RemoveRange` -/

/-- The walk to the root with the ends of the range. -/
def ancD (root : Nat) (anc : Anc) (e : Option Nat × Option Nat) (n : Nat) (m : Mem K V) (p : Nat) :
    Option (Mem K V × Option Nat × Option Nat) := (ancLoop root anc n m p).map fun m => (m, e)

theorem ancD_step {anc : Anc} {e : Option Nat × Option Nat} {p : Nat} {d c : Bool} {a : Nat × Int} {k : K} {v : V}
    {w : P K V} {y : T K V} (hr : a.1 ≠ root) (hk : anc ≠ .keep) :
    ∀ m1 u1, erase u1 = y → Rep m1 p (bn c a k v u1 w) → (p :: addrs (bn c a k v u1 w)).Nodup →
      Hole [] m1 p d (bn c a k v u1 w) → ∃ m2 t2, erase t2 = vfix anc c a.2 k v y (erase w) ∧
        Good [] [] m1 m2 p d (bn c a k v u1 w) t2 ∧
        ∀ n, ancD root anc e (n + 1) m1 a.1 = ancD root anc e n m2 p := by
  intro m1 u1 h1 h2 h3 h4
  obtain ⟨m2, t2, i1, i2, i3⟩ := ancLoop_step (root := root) (d := d) hr hk m1 u1 h1 h2 h3 h4
  exact ⟨m2, t2, i1, i2, fun n => by simp only [ancD, i3]⟩

section
variable {d : Dir} {h : Store (K × V)} {S : List Nat} {m : Mem K (Nat × V)} {a : Nat × Int} {k : K} {v : Nat × V}
  {l r : P K (Nat × V)} {p : Nat} {dir : Bool}

theorem nil_erase (t : P K V) : (erase t).isNil = t.isNil := by cases t <;> rfl

theorem rangeAt_ok {low high : K} {z : T K (Nat × V)} {anc : Anc} {e : Option (Option Nat × Option Nat)}
    (hd : Links h d) (hS : Closed d S) (ht : Tagged (node a k v l r)) (hsub : ∀ x ∈ addrs (node a k v l r), x ∈ S)
    (hR : Rep m p (node a k v l r)) (hn : (p :: addrs (node a k v l r)).Nodup)
    (hh : Hole [] m p dir (node a k v l r))
    (hj : TreeList.rangeHere cmp low high h a.2 v (erase l) (erase r) = some (z, anc, e)) :
    ∃ dl dr, e = some (dl, dr) ∧ InS S dl ∧ InS S dr ∧ anc ≠ .keep ∧
      Runs [] any (rangeAt d root cmp low high a.1 m) (ancD root anc (dl, dr)) m p dir (node a k v l r) z := by
  obtain ⟨⟨g, hg⟩, hl, hr⟩ := id hR
  obtain ⟨ht0, htl, htr⟩ := ht
  have hn' : (p :: a.1 :: (addrs l ++ addrs r)).Nodup := hn
  have hs : ∀ x ∈ a.1 :: (addrs l ++ addrs r), x ∈ S := hsub
  have b1 := height_le l
  have b2 := height_le r
  obtain ⟨m1, l', ga, qa, i1, i2, i3⟩ := cutTop_ok (cmp := cmp) (bound := low) (c := true) hd (m := m) (a := a.1)
    (t := l) (by rw [hg]; rfl) hl (by grind) htl
  have hr1 : Rep m1 a.1 r := hr.congr fun x hx => i3.frame x (by grind)
  obtain ⟨m2, r', gb, qb, j1, j2, j3⟩ := cutTop_ok (cmp := cmp) (bound := high) (c := false) hd (m := m1) (a := a.1)
    (t := r) (by rw [i3.frame a.1 (by grind), hg]; rfl) hr1 (by grind) htr
  have hl2 : Rep m2 qa l' := i3.rep.congr fun x hx => j3.frame x (by have := i3.sub hx; grind)
  simp only [TreeList.rangeHere, Option.map_eq_some_iff, nil_erase] at hj
  obtain ⟨⟨z', anc'⟩, hj1, hj2⟩ := hj
  obtain ⟨rfl, rfl, rfl⟩ := by simpa using hj2
  have e1 : (if l.isNil then ((nil : T K (Nat × V)), (h v.1).prev) else TreeList.cutL cmp low h (erase l)) =
      (erase l', if l.isNil then side (!true) (d a.1) else (vcutD cmp low true h (erase l)).2) := by
    rw [i2, ht0, (hd a.1).1]; split <;> rfl
  have e2 : (if r.isNil then ((nil : T K (Nat × V)), (h v.1).next) else TreeList.cutR cmp high h (erase r)) =
      (erase r', if r.isNil then side (!false) (d a.1) else (vcutD cmp high false h (erase r)).2) := by
    rw [j2, ht0, (hd a.1).2]; split <;> rfl
  rw [e1, e2] at hj1 ⊢
  obtain ⟨k0, m3, t3, gone, k1, k2, k3⟩ := joinGroups_ok (root := root) (m := m2) (l' := l') (r' := r')
    hR hn hh (fun y hy => by rw [j3.frame y (by grind), i3.frame y (by grind)]) hl2 j3.rep i3.perm j3.perm hj1
  refine ⟨_, _, rfl, ?_, ?_, k0, m3, t3, gone, 0, by omega, k1, k2, trivial, fun n hle => ?_⟩
  · split
    · exact fun b hb => hS a.1 (hs a.1 (by simp)) false b hb
    · exact vcutD_mem hd hS l htl fun x hx => hs x (by simp [hx])
  · split
    · exact fun b hb => hS a.1 (hs a.1 (by simp)) true b hb
    · exact vcutD_mem hd hS r htr fun x hx => hs x (by simp [hx])
  · have k4 := k3 (n + 0) hle
    simp only [addrs, List.length_cons, List.length_append] at hle
    simp only [rangeAt, i1 _ (show l.height < n + 0 by omega), Option.bind_some,
      j1 _ (show r.height < n + 0 by omega), k4, ancD]
    rfl

/-- tree.go:248-354 `RemoveRange` below the node `p`. -/
theorem rangeOut_ok {low high : K} (hd : Links h d) (hS : Closed d S) : ∀ (t : P K (Nat × V)) (p : Nat) (dir : Bool)
    (n : Nat) (z : T K (Nat × V)) (anc : Anc) (e : Option (Option Nat × Option Nat)), Tagged t →
    (∀ x ∈ addrs t, x ∈ S) → Rep m p t → (p :: addrs t).Nodup → Hole [] m p dir t → root ∉ addrs t →
    t.height < n → TreeList.rangeOut cmp low high h (erase t) = some (z, anc, e) →
    (e = none ∧ getRangeRoot cmp m low high n (ptr t) = some none) ∨
    (∃ dl dr, e = some (dl, dr) ∧ InS S dl ∧ InS S dr ∧ anc ≠ .keep ∧ ∃ b,
      getRangeRoot cmp m low high n (ptr t) = some (some b) ∧
      Runs [] any (rangeAt d root cmp low high b m) (ancD root anc (dl, dr)) m p dir t z)
  | nil, p, dir, n, z, anc, e, _, _, _, _, _, _, hl, hz => by
    simp only [erase, TreeList.rangeOut, Option.some.injEq, Prod.mk.injEq] at hz
    obtain ⟨rfl, rfl, rfl⟩ := hz
    obtain ⟨n, rfl⟩ : ∃ n', n = n' + 1 := ⟨n - 1, by omega⟩
    exact .inl ⟨rfl, rfl⟩
  | node a k v l r, p, dir, n, z, anc, e, ht, hsub, hR, hn, hh, hr, hl, hz => by
    obtain ⟨⟨g, hg⟩, hl', hr'⟩ := id hR
    have hlt : max l.height r.height + 1 < n := by simpa [Tree.height] using hl
    obtain ⟨n, rfl⟩ : ∃ n', n = n' + 1 := ⟨n - 1, by omega⟩
    have hn' : (p :: a.1 :: (addrs l ++ addrs r)).Nodup := hn
    have hra : root ∉ a.1 :: (addrs l ++ addrs r) := hr
    have hs : ∀ x ∈ a.1 :: (addrs l ++ addrs r), x ∈ S := hsub
    have key0 : getRangeRoot cmp m low high (n + 1) (ptr (node a k v l r)) =
        if cmp low k ≠ cmp high k then some (some a.1)
        else if cmp low k < 0 then getRangeRoot cmp m low high n (ptr l)
        else if cmp low k > 0 then getRangeRoot cmp m low high n (ptr r) else some (some a.1) := by
      simp only [ptr_node, getRangeRoot, hg]
    have fin : TreeList.rangeHere cmp low high h a.2 v (erase l) (erase r) = some (z, anc, e) →
        ∃ dl dr, e = some (dl, dr) ∧ InS S dl ∧ InS S dr ∧ anc ≠ .keep ∧
        Runs [] any (rangeAt d root cmp low high a.1 m) (ancD root anc (dl, dr)) m p dir (node a k v l r) z :=
      rangeAt_ok hd hS ht hsub hR hn hh
    simp only [erase, TreeList.rangeOut] at hz
    split at hz
    · rename_i c1
      obtain ⟨dl, dr, f1, f2, f3, f4, f5⟩ := fin hz
      exact .inr ⟨dl, dr, f1, f2, f3, f4, a.1, key0.trans (if_pos c1), f5⟩
    · rename_i c1
      rw [if_neg c1] at key0
      split at hz
      · rename_i c2
        rw [if_pos c2] at key0
        rw [Option.map_eq_some_iff] at hz
        obtain ⟨⟨z1, anc1, e1⟩, h1, h2⟩ := hz
        simp only [Prod.mk.injEq] at h2
        obtain ⟨rfl, rfl, rfl⟩ := h2
        have ih := rangeOut_ok hd hS l a.1 false n z1 anc1 e1 ht.2.1 (fun x hx => hs x (by simp [hx])) hl' (by grind)
          (Hole.kid (c := false) hR (List.nodup_cons.1 hn).2) (by grind) (by omega) h1
        rcases ih with ⟨rfl, ih1⟩ | ⟨dl, dr, f1, f2, f3, hk, b, ih1, ih2⟩
        · exact .inl ⟨rfl, key0.trans ih1⟩
        · exact .inr ⟨dl, dr, f1, f2, f3, hk, b, key0.trans ih1, ih2.lift (c := false) (w := r) hR hn hh any_stable
            (ancD_step (c := false) (by grind) hk)⟩
      · rename_i c2
        rw [if_neg c2] at key0
        split at hz
        · rename_i c3
          rw [if_pos c3] at key0
          rw [Option.map_eq_some_iff] at hz
          obtain ⟨⟨z1, anc1, e1⟩, h1, h2⟩ := hz
          simp only [Prod.mk.injEq] at h2
          obtain ⟨rfl, rfl, rfl⟩ := h2
          have ih := rangeOut_ok hd hS r a.1 true n z1 anc1 e1 ht.2.2 (fun x hx => hs x (by simp [hx])) hr' (by grind)
            (Hole.kid (c := true) hR (List.nodup_cons.1 hn).2) (by grind) (by omega) h1
          rcases ih with ⟨rfl, ih1⟩ | ⟨dl, dr, f1, f2, f3, hk, b, ih1, ih2⟩
          · exact .inl ⟨rfl, key0.trans ih1⟩
          · exact .inr ⟨dl, dr, f1, f2, f3, hk, b, key0.trans ih1, ih2.lift (c := true) (w := l) hR hn hh any_stable
              (ancD_step (c := true) (by grind) hk)⟩
        · rename_i c3
          obtain ⟨dl, dr, f1, f2, f3, f4, f5⟩ := fin hz
          exact .inr ⟨dl, dr, f1, f2, f3, f4, a.1, key0.trans (if_neg c3), f5⟩

end

/-! ### `RemoveRangeByIndex` -/

section
variable (bound : Int) (c : Bool) (h : Store (K × V))

/-- `cutIdxL` (`c = true`) and `cutIdxR` of the model with subtrees. -/
def vcutIdxD (t : T K (Nat × V)) (idx : Int) : T K (Nat × V) × Option Nat :=
  if c then TreeList.cutIdxL bound h t idx else TreeList.cutIdxR bound h t idx

end

theorem vcutIdxD_bn {bound : Int} {c : Bool} {h : Store (K × V)} {a idx : Int} {k : K} {v : Nat × V}
    {u w : T K (Nat × V)} :
    vcutIdxD bound c h (bn c a k v u w) idx =
      if (if c then idx < bound else idx > bound) then
        (bn c (sz (vcutIdxD bound c h u (IndexHeap.below idx c u)).1 + sz w + 1) k v (vcutIdxD bound c h u (IndexHeap.below idx c u)).1 w,
          if (vcutIdxD bound c h u (IndexHeap.below idx c u)).1.isNil then some v.1
          else (vcutIdxD bound c h u (IndexHeap.below idx c u)).2)
      else if (if c then idx > bound else idx < bound) then
        if w.isNil then (nil, if c then (h v.1).prev else (h v.1).next)
        else vcutIdxD bound c h w (IndexHeap.below idx (!c) w)
      else (w, if c then (h v.1).prev else (h v.1).next) := by
  cases c
  · simp [vcutIdxD, bn, TreeList.cutIdxR, mk, IndexHeap.below]
  · simp only [vcutIdxD, bn, TreeList.cutIdxL, mk, if_true, IndexHeap.below]
    split
    · rw [Int.add_comm (sz w)]
    · simp

/-- tree.go:390-422, 432-464. -/
theorem cutIdx_ok {bound : Int} {c : Bool} {d : Dir} {h : Store (K × V)} (hd : Links h d) (t : P K (Nat × V)) :
    ∀ (m : Mem K (Nat × V)) (q : Nat) (idx : Int) (dir : Bool), Rep m q t → (addrs t).Nodup → Tagged t →
    ∃ m' t' gone q',
      (∀ n e, t.height < n → cutIdx d bound c n m e idx dir (ptr t) =
        some (m', if t.isNil then e else (vcutIdxD bound c h (erase t) (IndexHeap.below idx dir (erase t))).2, ptr t')) ∧
      erase t' = (vcutIdxD bound c h (erase t) (IndexHeap.below idx dir (erase t))).1 ∧ Near gone m m' q' t t' := by
  induction t using both_ind c with
  | h0 =>
    intro m q _ _ _ _ _
    refine ⟨m, nil, [], q, fun n e hl => ?_, by cases c <;> rfl, Near.refl trivial⟩
    obtain ⟨n, rfl⟩ : ∃ n', n = n' + 1 := ⟨n - 1, by omega⟩
    rfl
  | h1 a k v u w ihu ihw =>
    intro m q idx dir hR hn ht
    obtain ⟨ht0, htu, htw⟩ := tagged_bn.1 ht
    have hn' : (a.1 :: (addrs u ++ addrs w)).Nodup := (addrs_bn (c := c)).nodup_iff.1 hn
    have hbe := below_ok (idx := idx) (dir := dir) hR ptr_bn
    obtain ⟨⟨g, hg⟩, hu, hw⟩ := rep_bn.1 hR
    have k1 : (m a.1).kid c = ptr u := by rw [hg]; cases c <;> rfl
    have k2 : (m a.1).kid (!c) = ptr w := by rw [hg]; cases c <;> rfl
    have k4 : (bn c a k v u w).isNil = false := by cases c <;> rfl
    generalize IndexHeap.below idx dir (erase (bn c a k v u w)) = i at hbe ⊢
    rw [erase_bn, vcutIdxD_bn, k4, hd.side, ht0]
    by_cases hc : (if c then i < bound else i > bound)
    · simp only [if_pos hc]
      obtain ⟨m1, u1, gone, q1, h1, h2, h3⟩ := ihu m a.1 i c hu (by grind) htu
      refine ⟨_, _, gone, q, fun n e hl => ?_, ?_, hook_ok hR hn h3⟩
      · rw [height_bn] at hl
        obtain ⟨n, rfl⟩ : ∃ n', n = n' + 1 := ⟨n - 1, by omega⟩
        simp only [ptr_bn, cutIdx, hbe, k1, if_pos hc, h1 n e (by omega), Option.map_some, isNone_ptr, h2]
        cases u with
        | nil => cases c <;> rfl
        | node => rfl
      · rw [erase_bn, h2]
    · simp only [if_neg hc]
      by_cases hc2 : (if c then i > bound else i < bound)
      · simp only [if_pos hc2]
        cases w with
        | nil =>
          refine ⟨m, nil, _, a.1, fun n e hl => ?_, rfl, (Near.refl hw).drop⟩
          rw [height_bn] at hl
          obtain ⟨n, rfl⟩ : ∃ n', n = n' + 1 + 1 := ⟨n - 2, by omega⟩
          simp only [ptr_bn, cutIdx, hbe, k2, if_neg hc, if_pos hc2, ptr_nil]
          rfl
        | node =>
          obtain ⟨m1, w1, gone, q1, h1, h2, h3⟩ := ihw m a.1 i (!c) hw (by grind) htw
          refine ⟨m1, w1, _, q1, fun n e hl => ?_, h2, h3.drop⟩
          rw [height_bn] at hl
          obtain ⟨n, rfl⟩ : ∃ n', n = n' + 1 := ⟨n - 1, by omega⟩
          simp only [ptr_bn, cutIdx, hbe, k2, if_neg hc, if_pos hc2, h1 n _ (by omega)]
          rfl
      · simp only [if_neg hc2]
        refine ⟨m, w, _, a.1, fun n e hl => ?_, rfl, (Near.refl hw).drop⟩
        rw [height_bn] at hl
        obtain ⟨n, rfl⟩ : ∃ n', n = n' + 1 := ⟨n - 1, by omega⟩
        simp only [ptr_bn, cutIdx, hbe, k2, if_neg hc, if_neg hc2]
        rfl

theorem vcutIdxD_mem {bound : Int} {c : Bool} {d : Dir} {h : Store (K × V)} (hd : Links h d) {S : List Nat}
    (hS : Closed d S) (t : P K (Nat × V)) : ∀ i, Tagged t → (∀ a ∈ addrs t, a ∈ S) →
    InS S (vcutIdxD bound c h (erase t) i).2 := by
  induction t using both_ind c with
  | h0 => intro _ _ _ b hb; cases c <;> cases hb
  | h1 a k v u w ihu ihw =>
    intro i ht hsub
    obtain ⟨ht0, htu, htw⟩ := tagged_bn.1 ht
    have hs : ∀ x ∈ a.1 :: (addrs u ++ addrs w), x ∈ S := fun x hx => hsub x ((addrs_bn (c := c)).mem_iff.2 hx)
    have i1 := fun i => ihu i htu fun x hx => hs x (by simp [hx])
    have i2 := fun i => ihw i htw fun x hx => hs x (by simp [hx])
    have ha : a.1 ∈ S := hs _ (by simp)
    rw [erase_bn, vcutIdxD_bn, hd.side, ht0]
    by_cases hc : (if c then i < bound else i > bound)
    · simp only [if_pos hc]
      split
      · rintro b ⟨⟩; exact ha
      · exact i1 _
    · simp only [if_neg hc]
      by_cases hc2 : (if c then i > bound else i < bound)
      · simp only [if_pos hc2]
        split
        · exact fun b hb => hS _ ha _ _ hb
        · exact i2 _
      · simp only [if_neg hc2]
        exact fun b hb => hS _ ha _ _ hb

/-- tree.go:424-429, 466-471. -/
theorem cutIdxTop_ok {bound idx : Int} {c : Bool} {d : Dir} {h : Store (K × V)} (hd : Links h d)
    {m : Mem K (Nat × V)} {a : Nat} {t : P K (Nat × V)} (hk : (m a).kid (!c) = ptr t) (hR : Rep m a t)
    (hn : (addrs t).Nodup) (ht : Tagged t) : ∃ m' t' gone q',
      (∀ n, t.height < n → cutIdxTop d bound c n m a idx =
        some (m', (if t.isNil then side (!c) (d a)
          else (vcutIdxD bound c h (erase t) (IndexHeap.below idx (!c) (erase t))).2), ptr t')) ∧
      erase t' = (if t.isNil then nil else (vcutIdxD bound c h (erase t) (IndexHeap.below idx (!c) (erase t))).1) ∧
      Near gone m m' q' t t' := by
  cases t with
  | nil => exact ⟨m, nil, [], a, fun n _ => by simp only [cutIdxTop, hk, ptr_nil]; rfl, rfl, Near.refl trivial⟩
  | node b k v l r =>
    obtain ⟨m', t', gone, q', h1, h2, h3⟩ := cutIdx_ok (bound := bound) (c := c) hd _ m a idx (!c) hR hn ht
    refine ⟨m', t', gone, q', fun n hl => ?_, h2, h3⟩
    rw [ptr_node] at hk
    have := h1 n none hl
    simp only [cutIdxTop, hk]
    rw [ptr_node] at this
    exact this

section
variable {d : Dir} {h : Store (K × V)} {S : List Nat} {m : Mem K (Nat × V)} {a : Nat × Int} {k : K} {v : Nat × V}
  {l r : P K (Nat × V)} {p : Nat} {dir : Bool}

theorem rangeIdxAt_ok {low high idx : Int} {z : T K (Nat × V)} {anc : Anc} {e : Option Nat × Option Nat}
    (hd : Links h d) (hS : Closed d S) (ht : Tagged (node a k v l r)) (hsub : ∀ x ∈ addrs (node a k v l r), x ∈ S)
    (hR : Rep m p (node a k v l r)) (hn : (p :: addrs (node a k v l r)).Nodup)
    (hh : Hole [] m p dir (node a k v l r))
    (hj : (Size.join a.2
        (if l.isNil then ((nil : T K (Nat × V)), (h v.1).prev)
          else TreeList.cutIdxL low h (erase l) (idx - (rightSz (erase l) + 1))).1
        (if r.isNil then ((nil : T K (Nat × V)), (h v.1).next)
          else TreeList.cutIdxR high h (erase r) (idx + (leftSz (erase r) + 1))).1).map (fun j => (j.1, j.2,
            ((if l.isNil then ((nil : T K (Nat × V)), (h v.1).prev)
              else TreeList.cutIdxL low h (erase l) (idx - (rightSz (erase l) + 1))).2,
            (if r.isNil then ((nil : T K (Nat × V)), (h v.1).next)
              else TreeList.cutIdxR high h (erase r) (idx + (leftSz (erase r) + 1))).2))) = some (z, anc, e)) :
    InS S e.1 ∧ InS S e.2 ∧ anc ≠ .keep ∧
      Runs [] any (rangeIdxAt d root low high a.1 idx m) (ancD root anc e) m p dir (node a k v l r) z := by
  obtain ⟨⟨g, hg⟩, hl, hr⟩ := id hR
  obtain ⟨ht0, htl, htr⟩ := ht
  have hn' : (p :: a.1 :: (addrs l ++ addrs r)).Nodup := hn
  have hs : ∀ x ∈ a.1 :: (addrs l ++ addrs r), x ∈ S := hsub
  have b1 := height_le l
  have b2 := height_le r
  obtain ⟨m1, l', ga, qa, i1, i2, i3⟩ := cutIdxTop_ok (bound := low) (idx := idx) (c := true) hd (m := m) (a := a.1)
    (t := l) (by rw [hg]; rfl) hl (by grind) htl
  have hr1 : Rep m1 a.1 r := hr.congr fun x hx => i3.frame x (by grind)
  obtain ⟨m2, r', gb, qb, j1, j2, j3⟩ := cutIdxTop_ok (bound := high) (idx := idx) (c := false) hd (m := m1)
    (a := a.1) (t := r) (by rw [i3.frame a.1 (by grind), hg]; rfl) hr1 (by grind) htr
  have hl2 : Rep m2 qa l' := i3.rep.congr fun x hx => j3.frame x (by have := i3.sub hx; grind)
  have e1 : (if l.isNil then ((nil : T K (Nat × V)), (h v.1).prev)
        else TreeList.cutIdxL low h (erase l) (idx - (rightSz (erase l) + 1))) =
      (erase l', if l.isNil then side (!true) (d a.1)
        else (vcutIdxD low true h (erase l) (IndexHeap.below idx (!true) (erase l))).2) := by
    rw [i2, ht0, (hd a.1).1]; split <;> rfl
  have e2 : (if r.isNil then ((nil : T K (Nat × V)), (h v.1).next)
        else TreeList.cutIdxR high h (erase r) (idx + (leftSz (erase r) + 1))) =
      (erase r', if r.isNil then side (!false) (d a.1)
        else (vcutIdxD high false h (erase r) (IndexHeap.below idx (!false) (erase r))).2) := by
    rw [j2, ht0, (hd a.1).2]; split <;> rfl
  rw [e1, e2, Option.map_eq_some_iff] at hj
  obtain ⟨⟨z', anc'⟩, hj1, hj2⟩ := hj
  obtain ⟨rfl, rfl, rfl⟩ := by simpa using hj2
  obtain ⟨k0, m3, t3, gone, k1, k2, k3⟩ := joinGroups_ok (root := root) (m := m2) (l' := l') (r' := r')
    hR hn hh (fun y hy => by rw [j3.frame y (by grind), i3.frame y (by grind)]) hl2 j3.rep i3.perm j3.perm hj1
  refine ⟨?_, ?_, k0, m3, t3, gone, 0, by omega, k1, k2, trivial, fun n hle => ?_⟩
  · dsimp only
    split
    · exact fun b hb => hS a.1 (hs a.1 (by simp)) false b hb
    · exact vcutIdxD_mem hd hS l _ htl fun x hx => hs x (by simp [hx])
  · dsimp only
    split
    · exact fun b hb => hS a.1 (hs a.1 (by simp)) true b hb
    · exact vcutIdxD_mem hd hS r _ htr fun x hx => hs x (by simp [hx])
  · have k4 := k3 (n + 0) hle
    simp only [addrs, List.length_cons, List.length_append] at hle
    simp only [rangeIdxAt, i1 _ (show l.height < n + 0 by omega), Option.bind_some,
      j1 _ (show r.height < n + 0 by omega), k4, ancD]
    rfl

/-- tree.go:370-500 `RemoveRangeByIndex` below the node `p`. -/
theorem rangeIdxOut_ok {low high : Int} (hd : Links h d) (hS : Closed d S) : ∀ (t : P K (Nat × V)) (p : Nat)
    (dir : Bool) (n b : Nat) (idx : Int), Tagged t → (∀ x ∈ addrs t, x ∈ S) → Rep m p t → (p :: addrs t).Nodup →
    Hole [] m p dir t → root ∉ addrs t → t.height ≤ n → ptr t = some b →
    match TreeList.rangeIdxOut low high h (erase t) idx with
    | none => rangeLoop m low high n b idx = none
    | some none => True
    | some (some (z, anc, e)) => InS S e.1 ∧ InS S e.2 ∧ anc ≠ .keep ∧
      ∃ x i, rangeLoop m low high n b idx = some (x, i) ∧
      Runs [] any (rangeIdxAt d root low high x i m) (ancD root anc e) m p dir t z
  | nil, p, dir, n, b, idx, _, _, _, _, _, _, _, hb => by cases hb
  | node a k v l r, p, dir, n, b, idx, ht, hsub, hR, hn, hh, hr, hl, hb => by
    obtain rfl : b = a.1 := by simpa using hb.symm
    obtain ⟨⟨g, hg⟩, hl', hr'⟩ := id hR
    have hlt : max l.height r.height + 1 ≤ n := by simpa [Tree.height] using hl
    obtain ⟨n, rfl⟩ : ∃ n', n = n' + 1 := ⟨n - 1, by omega⟩
    have hn' : (p :: a.1 :: (addrs l ++ addrs r)).Nodup := hn
    have hra : root ∉ a.1 :: (addrs l ++ addrs r) := hr
    have hs : ∀ x ∈ a.1 :: (addrs l ++ addrs r), x ∈ S := hsub
    simp only [erase, TreeList.rangeIdxOut]
    by_cases c1 : idx > low ∧ idx > high
    · have e0 : rangeLoop m low high (n + 1) a.1 idx =
          (ptr l).bind fun b => rangeLoop m low high n b (idx - (getSize m (m b).hi + 1)) := by
        simp only [rangeLoop, if_pos c1, hg]
      simp only [if_pos c1, e0]
      cases hp : ptr l with
      | none =>
        obtain rfl : l = nil := by cases l; rfl; cases hp
        simp [erase, TreeList.rangeIdxOut]
      | some b2 =>
        have ih := rangeIdxOut_ok (low := low) (high := high) hd hS l a.1 false n b2
          (idx - (rightSz (erase l) + 1)) ht.2.1 (fun x hx => hs x (by simp [hx])) hl' (by grind)
          (Hole.kid (c := false) hR (List.nodup_cons.1 hn).2) (by grind) (by omega) hp
        rw [Option.bind_some, rightSz_ok hl' hp]
        match hrm : TreeList.rangeIdxOut low high h (erase l) (idx - (rightSz (erase l) + 1)), ih with
        | none, ih => exact ih
        | some none, ih => trivial
        | some (some (z, anc, e)), ⟨f1, f2, hk, x, i, j1, j2⟩ =>
          exact ⟨f1, f2, hk, x, i, j1, j2.lift (c := false) (w := r) hR hn hh any_stable
            (ancD_step (c := false) (by grind) hk)⟩
    · by_cases c2 : idx < high ∧ idx < low
      · have e0 : rangeLoop m low high (n + 1) a.1 idx =
            (ptr r).bind fun b => rangeLoop m low high n b (idx + (getSize m (m b).lo + 1)) := by
          simp only [rangeLoop, if_neg c1, if_pos c2, hg]
        simp only [if_neg c1, if_pos c2, e0]
        cases hp : ptr r with
        | none =>
          obtain rfl : r = nil := by cases r; rfl; cases hp
          simp [erase, TreeList.rangeIdxOut]
        | some b2 =>
          have ih := rangeIdxOut_ok (low := low) (high := high) hd hS r a.1 true n b2
            (idx + (leftSz (erase r) + 1)) ht.2.2 (fun x hx => hs x (by simp [hx])) hr' (by grind)
            (Hole.kid (c := true) hR (List.nodup_cons.1 hn).2) (by grind) (by omega) hp
          rw [Option.bind_some, leftSz_ok hr' hp]
          match hrm : TreeList.rangeIdxOut low high h (erase r) (idx + (leftSz (erase r) + 1)), ih with
          | none, ih => exact ih
          | some none, ih => trivial
          | some (some (z, anc, e)), ⟨f1, f2, hk, x, i, j1, j2⟩ =>
            exact ⟨f1, f2, hk, x, i, j1, j2.lift (c := true) (w := l) hR hn hh any_stable
              (ancD_step (c := true) (by grind) hk)⟩
      · have e0 : rangeLoop m low high (n + 1) a.1 idx = some (a.1, idx) := by
          simp only [rangeLoop, if_neg c1, if_neg c2]
        simp only [if_neg c1, if_neg c2, e0, nil_erase]
        split
        · rename_i hj; cases hj
        · trivial
        · rename_i z anc e hj
          obtain ⟨f1, f2, hk, h2⟩ := rangeIdxAt_ok (root := root) hd hS ht hsub hR hn hh (Option.some.inj hj)
          exact ⟨f1, f2, hk, a.1, idx, rfl, h2⟩

end

/-! ### Values with addresses -/

section
variable {d : Dir} {m : Mem K V}

/-- The cuts with addresses as part of the values. -/
theorem gh_cut {bound : K} {c : Bool} {n : Nat} {e o : Option Nat} :
    cut d cmp bound c n (gh m) e o = (cut d cmp bound c n m e o).map ghp := by
  induction n generalizing m e o with
  | zero => rfl
  | succ n ih =>
    cases o with
    | none => rfl
    | some a =>
      simp only [cut, ih, gh_key, gh_kid]
      have e : ∀ x y, ((cut d cmp bound c n m x y).map ghp).map (fun p =>
            (hook p.1 a c p.2.2, (if p.2.2.isNone then some a else p.2.1), some a)) =
          ((cut d cmp bound c n m x y).map fun p =>
            (hook p.1 a c p.2.2, (if p.2.2.isNone then some a else p.2.1), some a)).map ghp := by
        intro x y
        cases cut d cmp bound c n m x y <;> simp [ghp]
      simp only [e]
      cases c <;> simp only [Bool.false_eq_true, if_true, if_false] <;> (split; rfl; split <;> rfl)

theorem gh_cutIdx {bound : Int} {c : Bool} {n : Nat} {e o : Option Nat} {idx : Int} {dir : Bool} :
    cutIdx d bound c n (gh m) e idx dir o = (cutIdx d bound c n m e idx dir o).map ghp := by
  induction n generalizing m e o idx dir with
  | zero => rfl
  | succ n ih =>
    cases o with
    | none => rfl
    | some a =>
      simp only [cutIdx, ih, gh_kid, gh_lo, gh_hi, gh_getSize]
      have e : ∀ x y z w, ((cutIdx d bound c n m x y z w).map ghp).map (fun p =>
            (hook p.1 a c p.2.2, (if p.2.2.isNone then some a else p.2.1), some a)) =
          ((cutIdx d bound c n m x y z w).map fun p =>
            (hook p.1 a c p.2.2, (if p.2.2.isNone then some a else p.2.1), some a)).map ghp := by
        intro x y z w
        cases cutIdx d bound c n m x y z w <;> simp [ghp]
      simp only [e]
      generalize (if dir = true then idx + (getSize m (m a).lo + 1) else idx - (getSize m (m a).hi + 1)) = i
      cases c <;> simp only [Bool.false_eq_true, if_true, if_false] <;> (split; rfl; split <;> rfl)

theorem gh_cutTop {bound : K} {c : Bool} {n rt : Nat} :
    cutTop d cmp bound c n (gh m) rt = (cutTop d cmp bound c n m rt).map ghp := by
  simp only [cutTop, gh_kid, gh_cut]
  split <;> rfl

theorem gh_cutIdxTop {bound idx : Int} {c : Bool} {n rt : Nat} :
    cutIdxTop d bound c n (gh m) rt idx = (cutIdxTop d bound c n m rt idx).map ghp := by
  simp only [cutIdxTop, gh_kid, gh_cutIdx]
  split <;> rfl

theorem gh_rangeAt {low high : K} {n rt : Nat} :
    rangeAt d root cmp low high rt (gh m) n = (rangeAt d root cmp low high rt m n).map ghp := by
  simp only [rangeAt, gh_cutTop, bind_map_gh]
  refine bind_gh fun p => ?_
  simp only [ghp, gh_cutTop, bind_map_gh]
  refine bind_gh fun q => ?_
  simp only [ghp, gh_joinGroups, Option.map_map]
  rfl

theorem gh_rangeIdxAt {low high idx : Int} {n rt : Nat} :
    rangeIdxAt d root low high rt idx (gh m) n = (rangeIdxAt d root low high rt idx m n).map ghp := by
  simp only [rangeIdxAt, gh_cutIdxTop, bind_map_gh]
  refine bind_gh fun p => ?_
  simp only [ghp, gh_cutIdxTop, bind_map_gh]
  refine bind_gh fun q => ?_
  simp only [ghp, gh_joinGroups, Option.map_map]
  rfl

end
end Verif.ListHeap
