import Verif.Tree.ListHeapRun

/-! The pointer program of `Verif.Tree.ListHeap` panics in an insertion where the model with subtrees
does. -/

namespace Verif.IndexHeap
open Verif.AvlHeap (P ptr addrs erase ptr_nil ptr_node ptr_mem ptr_ne)
open Verif.Tree Verif.Size
variable {K V : Type} {cmp : K → K → Int}

theorem sizeRotate_none {m : Mem K V} {p a : Nat} {c : Bool} {t : P K V} (hR : Rep m p t) (ha : ptr t = some a)
    (h : vsize c (erase t) = none) : sizeRotate m c a = none := by
  obtain ⟨s, k, v, u, r, rfl⟩ : ∃ s k v u r, t = bn c s k v u r := by
    cases t with
    | nil => cases ha
    | node s k v l r => cases c; exact ⟨s, k, v, l, r, rfl⟩; exact ⟨s, k, v, r, l, rfl⟩
  rw [ptr_bn, Option.some.injEq] at ha
  subst ha
  obtain ⟨⟨g, hg⟩, hu, hr⟩ := rep_bn.1 hR
  have i1 : (m s.1).kid c = ptr u := by rw [hg]; simp
  cases hpu : ptr u with
  | none => simp only [sizeRotate, i1, hpu, Option.bind_none]
  | some b =>
    obtain ⟨s2, k2, v2, x, y, rfl⟩ : ∃ s k v x y, u = bn c s k v x y := by
      cases u with
      | nil => cases hpu
      | node s k v l r => cases c; exact ⟨s, k, v, l, r, rfl⟩; exact ⟨s, k, v, r, l, rfl⟩
    rw [ptr_bn, Option.some.injEq] at hpu
    subst hpu
    obtain ⟨⟨g2, hg2⟩, hx, hy⟩ := rep_bn.1 hu
    have i2 : (m s2.1).kid (!c) = ptr y := by rw [hg2]; simp
    have i3 : (m s2.1).kid c = ptr x := by rw [hg2]; simp
    simp only [sizeRotate, i1, ptr_bn, i2, i3, Option.bind_some, getSize_ptr hx, getSize_ptr hy]
    have hy' : sz (erase y) > sz (erase x) ∧ y = nil := by
      cases y with
      | nil =>
        refine ⟨?_, rfl⟩
        by_contra h'
        cases c <;> simp_all [vsize, bn, erase, sizeLRotate, sizeRRotate, kids, lrotate, rrotate]
      | node b3 k3 v3 y1 y2 =>
        exfalso
        cases c <;> simp [vsize, bn, erase, sizeLRotate, sizeRRotate, kids, lrotate, rrotate, mk] at h <;>
          split at h <;> simp at h
    obtain ⟨h1, rfl⟩ := hy'
    rw [if_pos h1]
    simp only [rotate, i2, ptr_nil, Option.bind_none]

section
variable {root : Nat} {bal : Bool} {lim : Nat → Option (Int × Int)}

theorem fixNode_none {m : Mem K V} {p a : Nat} {d : Bool} {t : P K V} {up : Up}
    (hR : Rep m p t) (hn : (p :: addrs t).Nodup) (hh : Hole [] m p d t) (ha : ptr t = some a)
    (hr : a ≠ root) (h : fixNode lim up (erase t) = none) : ∀ n, resume root bal lim up n m a = none := by
  match t with
  | nil => cases ha
  | node (a', s) k v l r =>
    obtain rfl : a = a' := by simpa using ha.symm
    obtain ⟨m1, e1, e2, g1⟩ := bump hR hn hh.1
    have i1 : (m1 a).size = s + 1 := by rw [e2]
    have i2 : (m1 a).balance = sz (erase l) - sz (erase r) := by rw [e2]
    have i3 : (m1 a).parent = some p := by rw [e2]
    cases up with
    | leaf =>
      simp only [erase, fixNode] at h
      split at h <;> cases h
    | size => cases h
    | fix height =>
      intro n
      cases n with
      | zero => rfl
      | succ n =>
        simp only [resume, fixPutLoop, if_neg hr, e1, i1, i2, i3, Option.bind_some]
        simp only [erase, fixNode] at h
        cases hq : lim height with
        | none => rfl
        | some q =>
          rw [hq] at h
          simp only [Option.bind_some] at h ⊢
          have turn : ∀ c, vsize c (node (s + 1) k v (erase l) (erase r)) = none →
              ((sizeRotate m1 c a).bind fun m => fixPutSize root bal n m p) = none := fun c hc => by
            rw [sizeRotate_none (a := a) (c := c) g1.rep rfl hc]; rfl
          split at h
          · rename_i c1
            rw [if_pos c1]
            split at h
            · rename_i c2
              rw [if_pos c2]
              split at h
              · rename_i c3
                rw [if_pos c3]
                exact turn true (by simpa [vsize] using h)
              · cases h
            · rename_i c2
              rw [if_neg c2]
              split at h
              · rename_i c3
                rw [if_pos c3]
                exact turn false (by simpa [vsize] using h)
              · cases h
          · cases h

theorem PutRel.none {fresh : Nat} {m : Mem K V} {p : Nat} {a : Nat × Int} {k : K} {v : V} {d c : Bool}
    {u u' w : P K V} {hgt : Nat} {prog : Nat → Option (Mem K V × Bool)} {o : Option Up}
    (hR : Rep m p (bn c a k v u w)) (hn : (p :: ([fresh] ++ addrs (bn c a k v u w))).Nodup)
    (hh : Hole [fresh] m p d (bn c a k v u w)) (hr : a.1 ≠ root)
    (hq : (match o with
      | none => some (bn c a.2 k v (erase u') (erase w), Option.none)
      | some up => (fixNode lim up (bn c a.2 k v (erase u') (erase w))).map fun q => (q.1, some q.2)) =
        Option.none)
    (h : PutRel root bal lim fresh m a.1 c u u' hgt prog o) : ∀ n, hgt ≤ n → prog n = Option.none := by
  have hp : (m p).kid d = some a.1 := by rw [hh.1, ptr_bn]
  cases o with
  | none => cases hq
  | some up =>
    simp only [Option.map_eq_none_iff] at hq
    obtain ⟨m', h2, j, hj, h3⟩ := h
    have g := Good.kid hR hp hn h2
    have := fixNode_none (root := root) (bal := bal) (lim := lim) g.rep (g.nodup hn) (g.hole hh)
      ptr_bn hr (by rw [erase_bn]; exact hq)
    intro n hn
    have h4 := h3 (n - j)
    rw [this, Nat.sub_add_cancel (by omega)] at h4
    exact h4

theorem put_none {write : K × V → K × V} {fresh : Nat} {key : K} {val : V} : ∀ {rounds : Nat}
    {m : Mem K V} {p a : Nat} {d : Bool} {t : P K V}, Rep m p t →
    (p :: ([fresh] ++ addrs t)).Nodup → Hole [fresh] m p d t → ptr t = some a → root ∉ addrs t →
    t.height ≤ rounds → Size.put lim cmp key val write (erase t) = none →
    ∀ n, t.height ≤ n → putLoop root bal lim cmp write fresh key val n rounds m a = none := by
  intro rounds
  induction rounds with
  | zero =>
    intro m p a d t hR hn hh ha hr hd h
    cases t with
    | nil => cases ha
    | node => simp [Tree.height] at hd
  | succ rounds ih =>
    intro m p a d t hR hn hh ha hr hd h n hn'
    match t with
    | nil => cases ha
    | node (a', s) k v l r =>
      obtain rfl : a = a' := by simpa using ha.symm
      have hR' := hR
      obtain ⟨⟨b, hb⟩, hl, hr'⟩ := hR
      have hnn := hn
      simp only [addrs] at hn hr
      simp only [Tree.height] at hd hn'
      have hal : (a :: ([fresh] ++ addrs l)).Nodup := by grind
      have har : (a :: ([fresh] ++ addrs r)).Nodup := by grind
      have hra : a ≠ root := by grind
      simp only [erase, Size.put] at h
      by_cases c1 : cmp key k < 0
      · simp only [if_pos c1] at h
        have hole : Hole [fresh] m a false l := Hole.kid (c := false) (a := (a, s)) hR'
          (List.nodup_cons.1 hnn).2
        cases h1 : Size.put lim cmp key val write (erase l) with
        | none =>
          cases l with
          | nil => cases h1
          | node b' k2 v2 x y =>
            have := ih hl hal hole rfl (by grind) (by omega) h1 n (by omega)
            simpa only [putLoop, hb, if_pos c1, ptr_node] using this
        | some q =>
          rw [h1, Option.bind_some] at h
          obtain ⟨u, o⟩ := q
          obtain ⟨u', e1, e2⟩ : ∃ u', erase u' = u ∧ PutRel root bal lim fresh m a false l u' l.height
              (fun n => putLoop root bal lim cmp write fresh key val n (rounds + 1) m a) o := by
            cases l with
            | nil =>
              cases h1
              refine ⟨node (fresh, 1) key val nil nil, rfl, _,
                alloc_ok (key := key) (val := val) (by grind), 0, by simp, fun n => ?_⟩
              simp only [putLoop, hb, if_pos c1, ptr_nil, resume, Nat.add_zero]
            | node b' k2 v2 x y =>
              obtain ⟨u', f1, f2⟩ := put_ok (root := root) (bal := bal) (rounds := rounds) hl hal hole rfl (by grind) (by omega) h1
              refine ⟨u', f1, ?_⟩
              simpa only [putLoop, hb, if_pos c1, ptr_node] using f2
          exact PutRel.none (c := false) (a := (a, s)) (hgt := l.height) hR' hnn hh hra
            (by rw [e1]; exact h) e2 n (by omega)
      · by_cases c2 : cmp key k > 0
        · simp only [if_neg c1, if_pos c2] at h
          have hole : Hole [fresh] m a true r := Hole.kid (c := true) (a := (a, s)) hR'
            (List.nodup_cons.1 hnn).2
          cases h1 : Size.put lim cmp key val write (erase r) with
          | none =>
            cases r with
            | nil => cases h1
            | node b' k2 v2 x y =>
              have := ih hr' har hole rfl (by grind) (by omega) h1 n (by omega)
              simpa only [putLoop, hb, if_neg c1, if_pos c2, ptr_node] using this
          | some q =>
            rw [h1, Option.bind_some] at h
            obtain ⟨u, o⟩ := q
            obtain ⟨u', e1, e2⟩ : ∃ u', erase u' = u ∧ PutRel root bal lim fresh m a true r u' r.height
                (fun n => putLoop root bal lim cmp write fresh key val n (rounds + 1) m a) o := by
              cases r with
              | nil =>
                cases h1
                refine ⟨node (fresh, 1) key val nil nil, rfl, _,
                  alloc_ok (key := key) (val := val) (by grind), 0, by simp, fun n => ?_⟩
                simp only [putLoop, hb, if_neg c1, if_pos c2, ptr_nil, resume, Nat.add_zero]
              | node b' k2 v2 x y =>
                obtain ⟨u', f1, f2⟩ := put_ok (root := root) (bal := bal) (rounds := rounds) hr' har hole rfl (by grind) (by omega) h1
                refine ⟨u', f1, ?_⟩
                simpa only [putLoop, hb, if_neg c1, if_pos c2, ptr_node] using f2
            exact PutRel.none (c := true) (a := (a, s)) (hgt := r.height) hR' hnn hh hra
              (by rw [e1]; exact h) e2 n (by omega)
        · simp only [if_neg c1, if_neg c2] at h
          cases h

end
end Verif.IndexHeap

namespace Verif.ListHeap
open Verif.IndexHeap Verif.DLL Verif.Tree Verif.Size
open Verif.AvlHeap (P ptr addrs erase ptr_nil ptr_node ptr_mem ptr_ne)
open Verif.TreeList (TL limit Op Res SetOp)
variable {K V : Type} {cmp : K → K → Int} {s : PList K V} {t : P K (Nat × V)} {zs : List (TreeList.Ent K V)}

theorem putWith_none {key : K} {val : V} {write : V → V} (h : Holds cmp s t zs)
    (hs : TreeList.putWith cmp (abs s t) key val write = none) : s.putWith cmp key val write = none := by
  have hrf : s.root < s.free := h.below s.root (by simp)
  cases t with
  | nil => simp [TreeList.putWith, abs, erase, Tree.isNil] at hs
  | node a k v l r =>
    have hlo := h.top
    rw [ptr_node] at hlo
    have hf := h.one.fuel h.below
    simp only [TreeList.putWith, abs, erase, Tree.isNil, Bool.false_eq_true, if_false] at hs
    have hn : (s.root :: ([s.free] ++ addrs (node a k v l r))).Nodup := by
      have h1 := h.one.nodup
      rw [List.nodup_cons] at h1 ⊢
      refine ⟨?_, ?_⟩
      · simp only [List.cons_append, List.nil_append, List.mem_cons, not_or]; exact ⟨by omega, h1.1⟩
      · refine List.nodup_cons.2 ⟨fun hx => ?_, h1.2⟩
        have := h.below s.free (List.mem_cons_of_mem _ hx)
        omega
    cases e1 : Size.put limit cmp key (s.free, val) (fun e => (e.1, (e.2.1, write e.2.2)))
        (node a.2 k v (erase l) (erase r)) with
    | some q => rw [e1] at hs; split at hs <;> simp_all
    | none =>
      have h1 := put_none (bal := false) (rounds := s.free) h.one.rep hn (h.one.hole _) (ptr_node ..)
        h.one.notMem (by omega) e1 s.free (by omega)
      rw [gh_putLoop, Option.map_eq_none_iff] at h1
      have he := putLoop_eq (root := s.root) (cmp := cmp) (write := write) (fresh := s.free) (key := key) (val := val)
        (rounds := s.free) (d := s.dir) s.free _ s.root a.1 none none h.one.rep rfl
      simp only [PList.putWith, hlo, he, h1, Option.map_none]

/-- An insertion panics in both models. -/
theorem step_none {op : Op K V} (h : Holds cmp s t zs) (hi : op.inserts = true)
    (hs : TreeList.step cmp (abs s t) op = none) : step cmp s op = none := by
  cases op with
  | put k v =>
    simp only [TreeList.step, Option.map_eq_none_iff] at hs
    simp only [step, putWith_none h hs, Option.map_none]
  | set k v =>
    simp only [TreeList.step, Option.map_eq_none_iff] at hs
    simp only [step, putWith_none h hs, Option.map_none]
  | putDup k v f =>
    simp only [TreeList.step, Option.map_eq_none_iff] at hs
    simp only [step, putWith_none h hs, Option.map_none]
  | _ => cases hi

end Verif.ListHeap
