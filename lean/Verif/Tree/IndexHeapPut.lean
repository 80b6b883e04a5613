import Verif.Tree.IndexHeapLemmas

/-! The pointer program of `Verif.Tree.IndexHeap`: searching and insertion. -/

namespace Verif.IndexHeap
open Verif.AvlHeap (P ptr addrs erase ptr_nil ptr_node ptr_mem ptr_ne)
open Verif.Tree Verif.Size
variable {K V : Type} {cmp : K → K → Int}

/-- An assignment to other fields of a node than the pointers. -/
theorem tweak {m : Mem K V} {p a : Nat} {d : Bool} {s s' b' : Int} {k k' : K} {v v' : V} {l r : P K V}
    {f : Cell K V → Cell K V} (hR : Rep m p (node (a, s) k v l r))
    (hn : (p :: addrs (node (a, s) k v l r)).Nodup) (hp : (m p).kid d = some a)
    (hf : f (m a) = ⟨k', v', s', b', some p, ptr l, ptr r⟩) :
    Good [] [] m (upd m a f) p d (node (a, s) k v l r) (node (a, s') k' v' l r) := by
  obtain ⟨-, hl, hr⟩ := hR
  simp only [addrs] at hn
  refine ⟨⟨⟨b', by rw [upd_self, hf]⟩, hl.congr fun x hx => upd_ne _ (by grind),
    hr.congr fun x hx => upd_ne _ (by grind)⟩, ?_, .refl _, ?_⟩
  · rw [upd_ne _ (by grind), ptr_node]; exact (setKid_kid hp).symm
  · intro x hx _
    simp only [addrs] at hx
    exact upd_ne _ (by grind)

/-- `cur.Size++` and `updateBalance`. -/
theorem bump {m : Mem K V} {p a : Nat} {d : Bool} {s : Int} {k : K} {v : V} {l r : P K V}
    (hR : Rep m p (node (a, s) k v l r)) (hn : (p :: addrs (node (a, s) k v l r)).Nodup)
    (hp : (m p).kid d = some a) :
    ∃ m', updateBalance (setSize m a ((m a).size + 1)) a = m' ∧
      m' a = ⟨k, v, s + 1, sz (erase l) - sz (erase r), some p, ptr l, ptr r⟩ ∧
      Good [] [] m m' p d (node (a, s) k v l r) (node (a, s + 1) k v l r) := by
  have hR' := hR
  obtain ⟨⟨b, hb⟩, hl, hr⟩ := hR
  have g1 : Good [] [] m (setSize m a ((m a).size + 1)) p d (node (a, s) k v l r)
      (node (a, s + 1) k v l r) := tweak (b' := b) hR' hn hp (by simp [hb])
  have h1 : setSize m a ((m a).size + 1) a = ⟨k, v, s + 1, b, some p, ptr l, ptr r⟩ := by
    simp [setSize, hb]
  generalize setSize m a ((m a).size + 1) = m1 at g1 h1
  have hf : (fun x : Cell K V => { x with balance := (getSize m1 x.lo) - (getSize m1 x.hi) }) (m1 a) =
      ⟨k, v, s + 1, sz (erase l) - sz (erase r), some p, ptr l, ptr r⟩ := by
    simp only [h1, getSize_ptr g1.rep.2.1, getSize_ptr g1.rep.2.2]
  refine ⟨_, rfl, by rw [updateBalance, upd_self]; exact hf, g1.trans ?_⟩
  exact tweak g1.rep (g1.nodup hn) (by rw [g1.par]; simp) hf

section
variable (root : Nat) (bal : Bool) (lim : Nat → Option (Int × Int))

/-- The walk of `fixPut` in one of its states, at a node. -/
def resume : Up → Nat → Mem K V → Nat → Option (Mem K V)
  | .leaf, n, m, a => fixPut root bal lim n m a
  | .fix h, n, m, a => fixPutLoop root bal lim n m h a
  | .size, n, m, a => fixPutSize root bal n m a

end

section
variable {root : Nat} {bal : Bool} {lim : Nat → Option (Int × Int)}

theorem fixNode_ok {m : Mem K V} {p a : Nat} {d : Bool} {t : P K V} {u : T K V} {up up' : Up}
    (hR : Rep m p t) (hn : (p :: addrs t).Nodup) (hh : Hole [] m p d t) (ha : ptr t = some a)
    (hr : a ≠ root) (h : fixNode lim up (erase t) = some (u, up')) :
    ∃ m' t', erase t' = u ∧ Good [] [] m m' p d t t' ∧
      ∃ j ≤ 1, ∀ n, resume root bal lim up (n + j) m a = resume root bal lim up' n m' p := by
  match t with
  | nil => cases ha
  | node (a', s) k v l r =>
    obtain rfl : a = a' := by simpa using ha.symm
    obtain ⟨m1, e1, e2, g1⟩ := bump hR hn hh.1
    have hn1 := g1.nodup hn
    have hh1 := g1.hole hh
    have i1 : (m1 a).size = s + 1 := by rw [e2]
    have i2 : (m1 a).balance = sz (erase l) - sz (erase r) := by rw [e2]
    have i3 : (m1 a).parent = some p := by rw [e2]
    cases up with
    | leaf =>
      refine ⟨m1, node (a, s + 1) k v l r, ?_, g1, 0, by omega, ?_⟩
      · simp only [erase, fixNode] at h ⊢
        split at h <;> · cases h; rfl
      · intro n
        simp only [resume, fixPut, e1, i1, i3, Option.bind_some]
        simp only [erase, fixNode] at h
        split at h <;> rename_i h3 <;> cases h
        · rw [if_pos h3]; rfl
        · rw [if_neg h3]; rfl
    | size =>
      cases h
      cases bal with
      | true =>
        exact ⟨m1, node (a, s + 1) k v l r, rfl, g1, 1, Nat.le_refl _, fun n => by
          simp only [resume, fixPutSize, if_neg hr, if_true, e1, i3, Option.bind_some]⟩
      | false =>
        obtain ⟨⟨b, hb⟩, -, -⟩ := id hR
        refine ⟨setSize m a ((m a).size + 1), node (a, s + 1) k v l r, rfl,
          tweak (b' := b) hR hn hh.1 (by simp [hb]), 1, Nat.le_refl _, fun n => ?_⟩
        have i4 : (setSize m a ((m a).size + 1) a).parent = some p := by simp [setSize, hb]
        simp only [resume, fixPutSize, if_neg hr, Bool.false_eq_true, if_false, i4, Option.bind_some]
    | fix height =>
      simp only [erase, fixNode, Option.bind_eq_some_iff] at h
      obtain ⟨q, hq, h⟩ := h
      have key : ∀ n, resume root bal lim (.fix height) (n + 1) m a =
          if s + 1 < q.1 then
            if sz (erase l) - sz (erase r) < 0 then
              if -(sz (erase l) - sz (erase r)) ≥ q.2 then
                (sizeRotate m1 true a).bind fun m => fixPutSize root bal n m p
              else fixPutLoop root bal lim n m1 (height + 1) p
            else if sz (erase l) - sz (erase r) ≥ q.2 then
              (sizeRotate m1 false a).bind fun m => fixPutSize root bal n m p
            else fixPutLoop root bal lim n m1 (height + 1) p
          else fixPutLoop root bal lim n m1 (height + 1) p := fun n => by
        simp only [resume, fixPutLoop, if_neg hr, e1, i1, i2, i3, hq, Option.bind_some]
      have stay : ∀ n, fixPutLoop root bal lim n m1 (height + 1) p =
        resume root bal lim (.fix (height + 1)) n m1 p := fun _ => rfl
      have turn : ∀ c u', vsize c (node (s + 1) k v (erase l) (erase r)) = some u' →
          ∃ m' t', erase t' = u' ∧ Good [] [] m m' p d (node (a, s) k v l r) t' ∧
            ∀ n, ((sizeRotate m1 c a).bind fun m => fixPutSize root bal n m p) =
              resume root bal lim .size n m' p := by
        intro c u' hu
        obtain ⟨m2, t2, f1, f2, f3⟩ := sizeRotate_ok (a := a) (c := c) g1.rep hn1 hh1 rfl hu
        exact ⟨m2, t2, f2, g1.trans f3, fun n => by rw [f1]; rfl⟩
      suffices hs : ∃ m' t', erase t' = u ∧ Good [] [] m m' p d (node (a, s) k v l r) t' ∧
          ∀ n, resume root bal lim (.fix height) (n + 1) m a = resume root bal lim up' n m' p by
        obtain ⟨m', t', hs1, hs2, hs3⟩ := hs
        exact ⟨m', t', hs1, hs2, 1, Nat.le_refl _, hs3⟩
      simp only [key]
      split at h
      · rename_i c1
        simp only [if_pos c1]
        split at h
        · rename_i c2
          simp only [if_pos c2]
          split at h
          · rename_i c3
            simp only [if_pos c3]
            rw [Option.map_eq_some_iff] at h
            obtain ⟨u', h1, h2⟩ := h
            cases h2
            exact turn true _ h1
          · rename_i c3
            simp only [if_neg c3]
            cases h
            exact ⟨m1, _, rfl, g1, stay⟩
        · rename_i c2
          simp only [if_neg c2]
          split at h
          · rename_i c3
            simp only [if_pos c3]
            rw [Option.map_eq_some_iff] at h
            obtain ⟨u', h1, h2⟩ := h
            cases h2
            exact turn false _ h1
          · rename_i c3
            simp only [if_neg c3]
            cases h
            exact ⟨m1, _, rfl, g1, stay⟩
      · rename_i c1
        simp only [if_neg c1]
        cases h
        exact ⟨m1, _, rfl, g1, stay⟩

/-- A new node below a node without a child on that side. -/
theorem alloc_ok {m : Mem K V} {p fresh : Nat} {c : Bool} {key : K} {val : V}
    (hn : p ≠ fresh) :
    Good [fresh] [] m (link (alloc m fresh p key val) p c (some fresh)) p c nil
      (node (fresh, 1) key val nil nil) := by
  refine ⟨⟨⟨0, ?_⟩, trivial, trivial⟩, ?_, .refl _, ?_⟩
  · simp only [link, alloc]; rw [upd_ne _ hn.symm, upd_self]; rfl
  · simp only [link, alloc, upd_self, ptr_node]; rw [upd_ne _ hn]
  · intro x hx hxp
    simp only [addrs, List.append_nil, List.mem_singleton] at hx
    simp only [link, alloc]
    rw [upd_ne _ hxp, upd_ne _ hx]

/-- The result of the pointer program for an insertion, when the model with subtrees has `o`: with the
walk to the root still to be done if there is a new node. -/
def PutRel (root : Nat) (bal : Bool) (lim : Nat → Option (Int × Int)) (fresh : Nat) (m : Mem K V) (p : Nat) (d : Bool)
    (t t' : P K V) (hgt : Nat) (prog : Nat → Option (Mem K V × Bool)) : Option Up → Prop
  | none => ∃ m', Good [] [] m m' p d t t' ∧ ∀ n, prog n = some (m', true)
  | some up => ∃ m', Good [fresh] [] m m' p d t t' ∧ ∃ j ≤ hgt, ∀ n, prog (n + j) =
      (resume root bal lim up n m' p).map fun m => (m, false)

theorem PutRel.mono {fresh : Nat} {m : Mem K V} {p : Nat} {d : Bool} {t t' : P K V} {hgt hgt' : Nat}
    {prog : Nat → Option (Mem K V × Bool)} {o : Option Up}
    (h : PutRel root bal lim fresh m p d t t' hgt prog o) (hh : hgt ≤ hgt') :
    PutRel root bal lim fresh m p d t t' hgt' prog o := by
  cases o with
  | none => exact h
  | some up =>
    obtain ⟨m', h1, j, hj, h2⟩ := h
    exact ⟨m', h1, j, by omega, h2⟩

theorem PutRel.lift {fresh : Nat} {m : Mem K V} {p : Nat} {a : Nat × Int} {k : K} {v : V} {d c : Bool}
    {u u' w : P K V} {hgt : Nat} {prog : Nat → Option (Mem K V × Bool)} {o : Option Up}
    {q : T K V × Option Up}
    (hR : Rep m p (bn c a k v u w)) (hn : (p :: ([fresh] ++ addrs (bn c a k v u w))).Nodup)
    (hh : Hole [fresh] m p d (bn c a k v u w)) (hr : a.1 ≠ root)
    (hq : (match o with
      | none => some (bn c a.2 k v (erase u') (erase w), none)
      | some up => (fixNode lim up (bn c a.2 k v (erase u') (erase w))).map fun q => (q.1, some q.2)) =
        some q)
    (h : PutRel root bal lim fresh m a.1 c u u' hgt prog o) :
    ∃ t', erase t' = q.1 ∧ PutRel root bal lim fresh m p d (bn c a k v u w) t' (hgt + 1) prog q.2 := by
  have hp : (m p).kid d = some a.1 := by rw [hh.1, ptr_bn]
  cases o with
  | none =>
    cases hq
    obtain ⟨m', h1, h2⟩ := h
    refine ⟨bn c a k v u' w, by simp, m', Good.kid hR hp ?_ h1, h2⟩
    have : (p :: addrs (bn c a k v u w)).Sublist (p :: ([fresh] ++ addrs (bn c a k v u w))) := by simp
    exact this.nodup hn
  | some up =>
    simp only [Option.map_eq_some_iff] at hq
    obtain ⟨⟨u2, up2⟩, h1, rfl⟩ := hq
    obtain ⟨m', h2, j, hj, h3⟩ := h
    have g := Good.kid hR hp hn h2
    obtain ⟨m2, t2, e1, e2, i, hi, e3⟩ := fixNode_ok (root := root) (bal := bal) (lim := lim) g.rep (g.nodup hn) (g.hole hh)
      ptr_bn hr (by rw [erase_bn]; exact h1)
    refine ⟨t2, e1, m2, g.trans e2, i + j, by omega, fun n => ?_⟩
    have := h3 (n + i)
    rw [e3, Nat.add_assoc] at this
    exact this

theorem put_ok {write : K × V → K × V} {fresh : Nat} {key : K} {val : V} : ∀ {rounds : Nat}
    {m : Mem K V} {p a : Nat} {d : Bool} {t : P K V} {q : T K V × Option Up}, Rep m p t →
    (p :: ([fresh] ++ addrs t)).Nodup → Hole [fresh] m p d t → ptr t = some a → root ∉ addrs t →
    t.height ≤ rounds → Size.put lim cmp key val write (erase t) = some q →
    ∃ t', erase t' = q.1 ∧ PutRel root bal lim fresh m p d t t' t.height
      (fun n => putLoop root bal lim cmp write fresh key val n rounds m a) q.2 := by
  intro rounds
  induction rounds with
  | zero =>
    intro m p a d t q hR hn hh ha hr hd h
    cases t with
    | nil => cases ha
    | node => simp [Tree.height] at hd
  | succ rounds ih =>
    intro m p a d t q hR hn hh ha hr hd h
    match t with
    | nil => cases ha
    | node (a', s) k v l r =>
      obtain rfl : a = a' := by simpa using ha.symm
      have hR' := hR
      obtain ⟨⟨b, hb⟩, hl, hr'⟩ := hR
      have hnn := hn
      simp only [addrs] at hn hr
      simp only [Tree.height] at hd
      have hal : (a :: ([fresh] ++ addrs l)).Nodup := by grind
      have har : (a :: ([fresh] ++ addrs r)).Nodup := by grind
      have hra : a ≠ root := by grind
      simp only [erase, Size.put] at h
      by_cases c1 : cmp key k < 0
      · simp only [if_pos c1, Option.bind_eq_some_iff] at h
        obtain ⟨⟨u, o⟩, h1, h2⟩ := h
        have hole : Hole [fresh] m a false l := Hole.kid (c := false) (a := (a, s)) hR'
          (List.nodup_cons.1 hnn).2
        obtain ⟨u', e1, e2⟩ : ∃ u', erase u' = u ∧ PutRel root bal lim fresh m a false l u' l.height
            (fun n => putLoop root bal lim cmp write fresh key val n (rounds + 1) m a) o := by
          cases l with
          | nil =>
            cases h1
            refine ⟨node (fresh, 1) key val nil nil, rfl, _,
              alloc_ok (key := key) (val := val) (by grind), 0, by simp, fun n => ?_⟩
            simp only [putLoop, hb, if_pos c1, ptr_nil, resume, Nat.add_zero]
          | node b' k2 v2 x y =>
            obtain ⟨u', f1, f2⟩ := ih hl hal hole rfl (by grind) (by omega) h1
            refine ⟨u', f1, ?_⟩
            simpa only [putLoop, hb, if_pos c1, ptr_node] using f2
        obtain ⟨t', f1, f2⟩ := PutRel.lift (c := false) (a := (a, s)) (hgt := l.height) hR' hnn hh hra
          (by rw [e1]; exact h2) e2
        exact ⟨t', f1, f2.mono (by simp only [Tree.height]; omega)⟩
      · by_cases c2 : cmp key k > 0
        · simp only [if_neg c1, if_pos c2, Option.bind_eq_some_iff] at h
          obtain ⟨⟨u, o⟩, h1, h2⟩ := h
          have hole : Hole [fresh] m a true r := Hole.kid (c := true) (a := (a, s)) hR'
            (List.nodup_cons.1 hnn).2
          obtain ⟨u', e1, e2⟩ : ∃ u', erase u' = u ∧ PutRel root bal lim fresh m a true r u' r.height
              (fun n => putLoop root bal lim cmp write fresh key val n (rounds + 1) m a) o := by
            cases r with
            | nil =>
              cases h1
              refine ⟨node (fresh, 1) key val nil nil, rfl, _,
                alloc_ok (key := key) (val := val) (by grind), 0, by simp, fun n => ?_⟩
              simp only [putLoop, hb, if_neg c1, if_pos c2, ptr_nil, resume, Nat.add_zero]
            | node b' k2 v2 x y =>
              obtain ⟨u', f1, f2⟩ := ih hr' har hole rfl (by grind) (by omega) h1
              refine ⟨u', f1, ?_⟩
              simpa only [putLoop, hb, if_neg c1, if_pos c2, ptr_node] using f2
          obtain ⟨t', f1, f2⟩ := PutRel.lift (c := true) (a := (a, s)) (hgt := r.height) hR' hnn hh hra
            (by rw [e1]; exact h2) e2
          exact ⟨t', f1, f2.mono (by simp only [Tree.height]; omega)⟩
        · simp only [if_neg c1, if_neg c2, Option.some.injEq] at h
          subst h
          refine ⟨node (a, s) (write (k, v)).1 (write (k, v)).2 l r, rfl, _,
            tweak (b' := b) (k' := (write (k, v)).1) (v' := (write (k, v)).2) hR' (by grind) hh.1
              (f := fun x => { x with key := (write (x.key, x.val)).1, val := (write (x.key, x.val)).2 })
              (by simp [hb]), fun n => ?_⟩
          simp only [putLoop, hb, if_neg c1, if_neg c2]

end

end Verif.IndexHeap
