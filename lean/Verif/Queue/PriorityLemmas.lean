import Verif.Queue.PriorityModel
import Verif.Tree.SizeRank
import Verif.Tree.AvlsLemmas

/-! The operations of queue/priority on trees with exact sizes. -/

namespace Verif.Priority

open Tree
open Size hiding ord
open Avl (ord cmp_cases isNil_of_ne)

variable {K V : Type} {cmp : K → K → Int}

theorem isNil_false {t : T K V} (h : t.isNil = false) : t ≠ nil := by rintro rfl; cases h

theorem isNil_true {t : T K V} (h : t.isNil = true) : t = nil := by
  cases t with
  | nil => rfl
  | node => cases h

theorem rotations {a : Int} {k : K} {v : V} {l r : T K V} (hl : Size.Exact l) (hr : Size.Exact r) :
    (l ≠ nil → ∃ t, rightRotate (node a k v l r) = some t ∧ Size.Exact t ∧
      t.toList = l.toList ++ (k, v) :: r.toList) ∧
    (sizeRotateType false l = true → ∃ t, rightRotateWithLeft (node a k v l r) = some t ∧ Size.Exact t ∧
      t.toList = l.toList ++ (k, v) :: r.toList) ∧
    (r ≠ nil → ∃ t, leftRotate (node a k v l r) = some t ∧ Size.Exact t ∧
      t.toList = l.toList ++ (k, v) :: r.toList) ∧
    (sizeRotateType true r = true → ∃ t, leftRotateWithRight (node a k v l r) = some t ∧ Size.Exact t ∧
      t.toList = l.toList ++ (k, v) :: r.toList) := by
  refine ⟨fun hn => ?_, fun hn => ?_, fun hn => ?_, fun hn => ?_⟩
  · cases l with
    | nil => exact absurd rfl hn
    | node b k' v' x y =>
      obtain ⟨-, h1, h2⟩ := exact_node.1 hl
      exact ⟨_, rfl, h1.mk _ _ (h2.mk _ _ hr), by simp [mk]⟩
  · cases l with
    | nil => cases hn
    | node b k' v' x y =>
      cases y with
      | nil => cases hn
      | node c k'' v'' y z =>
        obtain ⟨-, h1, h2⟩ := exact_node.1 hl
        obtain ⟨-, h3, h4⟩ := exact_node.1 h2
        exact ⟨_, rfl, Exact.mk _ _ (h1.mk _ _ h3) (h4.mk _ _ hr), by simp [mk]⟩
  · cases r with
    | nil => exact absurd rfl hn
    | node b k' v' x y =>
      obtain ⟨-, h1, h2⟩ := exact_node.1 hr
      exact ⟨_, rfl, Exact.mk _ _ (hl.mk _ _ h1) h2, by simp [mk]⟩
  · cases r with
    | nil => cases hn
    | node b k' v' x y =>
      cases x with
      | nil => cases hn
      | node c k'' v'' z x =>
        obtain ⟨-, h1, h2⟩ := exact_node.1 hr
        obtain ⟨-, h3, h4⟩ := exact_node.1 h1
        exact ⟨_, rfl, Exact.mk _ _ (hl.mk _ _ h3) (h4.mk _ _ h2), by simp [mk]⟩

theorem rebalance_ok {a : Int} {k : K} {v : V} {l r : T K V} (hl : Size.Exact l) (hr : Size.Exact r)
    (ha : a = (l.toList.length : Int) + r.toList.length + 1) :
    ∃ t, rebalance (node a k v l r) = some t ∧ Size.Exact t ∧
      t.toList = l.toList ++ (k, v) :: r.toList := by
  obtain ⟨r1, r2, r3, r4⟩ := rotations (a := a) (k := k) (v := v) hl hr
  have same : ∃ t, some (node a k v l r) = some t ∧ Size.Exact t ∧
      t.toList = l.toList ++ (k, v) :: r.toList := ⟨_, rfl, exact_node.2 ⟨ha, hl, hr⟩, by simp⟩
  have hpos := hl.sz_nonneg
  have hpos' := hr.sz_nonneg
  simp only [rebalance, maybeHeight]
  rw [if_neg (by omega)]
  simp only [Option.bind_some]
  generalize bottomsize _ = bs
  split
  · split
    · split
      · exact r2 (by assumption)
      · refine r1 ?_
        rintro rfl
        rw [sz_nil] at *
        omega
    · exact same
  · split
    · split
      · split
        · exact r4 (by assumption)
        · refine r3 ?_
          rintro rfl
          rw [sz_nil] at *
          omega
      · exact same
    · exact same

theorem grown_ok {two : Bool} {a : Int} {k : K} {v : V} {l r : T K V} (hl : Size.Exact l)
    (hr : Size.Exact r) (ha : a + 1 = (l.toList.length : Int) + r.toList.length + 1) :
    ∃ t, grown two (node a k v l r) = some t ∧ Size.Exact t ∧
      t.toList = l.toList ++ (k, v) :: r.toList := by
  simp only [grown]
  split
  · exact rebalance_ok hl hr ha
  · exact ⟨_, rfl, exact_node.2 ⟨ha, hl, hr⟩, by simp⟩

theorem shrunk_ok {a : Int} {k : K} {v : V} {l r : T K V} (hl : Size.Exact l)
    (hr : Size.Exact r) (ha : a - 1 = (l.toList.length : Int) + r.toList.length + 1) :
    ∃ t, shrunk (node a k v l r) = some t ∧ Size.Exact t ∧
      t.toList = l.toList ++ (k, v) :: r.toList := rebalance_ok hl hr ha

theorem put_ok (hc : LawfulEx cmp) {key : K} {val : V} {t : T K V} (hx : Size.Exact t)
    (hs : SortedLE (ord cmp) t.toList) (sib : Bool) :
    ∃ p, put cmp key val t sib = some p ∧ Size.Exact p.1 ∧
      p.1.toList = Avls.insertAfter (ord cmp) (key, val) t.toList := by
  have := hc.trans
  induction t generalizing sib with
  | nil => exact ⟨_, rfl, by simp [Size.Exact, count], rfl⟩
  | node a k v l r ihl ihr =>
    rw [toList_node] at hs ⊢
    obtain ⟨s1, s2, -⟩ := SortedLE.split.1 hs
    obtain ⟨ha, hl, hr⟩ := exact_node.1 hx
    have right : ord cmp k key ≠ .gt → ∃ p, ((put cmp key val r (!l.isNil)).bind fun p =>
        (grown p.2 (node a k v l p.1)).map fun t => (t, p.2)) = some p ∧ Size.Exact p.1 ∧
        p.1.toList = Avls.insertAfter (ord cmp) (key, val) (l.toList ++ (k, v) :: r.toList) := by
      intro ho
      obtain ⟨p, h1, h2, h3⟩ := ihr hr s2 (!l.isNil)
      obtain ⟨t, h4, h5, h6⟩ := grown_ok (two := p.2) (a := a) (k := k) (v := v) hl h2
        (by rw [h3, Avls.length_insertAfter]; omega)
      refine ⟨(t, p.2), by rw [h1, Option.bind_some, h4]; rfl, h5, ?_⟩
      rw [h6, h3, Avls.insertAfter_right hs ho]
    simp only [put]
    rcases cmp_cases hc k key with ⟨c, oc⟩ | ⟨c, oc⟩ | ⟨c, oc⟩
    · simp only [if_pos c]
      exact right (by rw [oc]; simp)
    · simp only [c, show ¬ (0 : Int) < 0 by omega, if_false, if_true]
      obtain ⟨p, h1, h2, h3⟩ := ihl hl s1 (!r.isNil)
      obtain ⟨t, h4, h5, h6⟩ := grown_ok (two := p.2) (a := a) (k := k) (v := v) h2 hr
        (by rw [h3, Avls.length_insertAfter]; omega)
      refine ⟨(t, p.2), by rw [h1, Option.bind_some, h4]; rfl, h5, ?_⟩
      rw [h6, h3, Avls.insertAfter_left hs oc]
    · simp only [c, show ¬ (1 : Int) < 0 by omega, if_false]
      exact right (by rw [oc]; simp)

theorem getfirst_eq (hc : LawfulEx cmp) {key : K} {t : T K V} (sel : Option (K × V))
    (hs : SortedLE (ord cmp) t.toList) :
    getfirst cmp key t sel = some ((t.toList.find? fun e => ord cmp e.1 key == .eq).or sel) := by
  have := hc.trans
  induction t generalizing sel with
  | nil => rfl
  | node a k v l r ihl ihr =>
    rw [toList_node] at hs ⊢
    obtain ⟨s1, s2, -⟩ := SortedLE.split.1 hs
    simp only [getfirst, ihl _ s1, ihr _ s2]
    rcases cmp_cases hc k key with ⟨c, oc⟩ | ⟨c, oc⟩ | ⟨c, oc⟩
    · rw [if_pos c, List.find?_append, List.find?_cons_of_pos (by simp [oc])]
      cases l.toList.find? fun e => ord cmp e.1 key == .eq <;> rfl
    · have := Avls.no_right hs oc
      rw [if_neg (by omega), if_pos c, Avls.find_left fun x hx => by rw [this x hx]; simp]
    · have := Avls.no_left hs oc
      rw [if_neg (by omega), if_neg (by omega), if_pos c,
        Avls.find_right fun x hx => by rw [this x hx]; simp, List.find?_cons_of_neg (by simp [oc])]

theorem setVal_exact {key : K} {val : V} {t : T K V} {p : T K V × Bool} (hx : Size.Exact t)
    (h : Avls.setVal cmp key val t = some p) : Size.Exact p.1 ∧ p.1.count = t.count := by
  induction t generalizing p with
  | nil => cases h; exact ⟨trivial, rfl⟩
  | node a k v l r ihl ihr =>
    obtain ⟨ha, hl, hr⟩ := hx
    simp only [Avls.setVal] at h
    split at h
    · obtain ⟨q, h1, rfl⟩ := Option.map_eq_some_iff.1 h
      obtain ⟨h2, h3⟩ := ihl hl h1
      split
      · exact ⟨⟨by rw [ha, h3], h2, hr⟩, by simp only [count, h3]⟩
      · exact ⟨⟨ha, hl, hr⟩, rfl⟩
    · split at h
      · obtain ⟨q, h1, rfl⟩ := Option.map_eq_some_iff.1 h
        obtain ⟨h2, h3⟩ := ihl hl h1
        exact ⟨⟨by rw [ha, h3], h2, hr⟩, by simp only [count, h3]⟩
      · split at h
        · obtain ⟨q, h1, rfl⟩ := Option.map_eq_some_iff.1 h
          obtain ⟨h2, h3⟩ := ihr hr h1
          exact ⟨⟨by rw [ha, h3], hl, h2⟩, by simp only [count, h3]⟩
        · cases h

/-! ### Removal -/

theorem neighboring_ok {right : Bool} {t : T K V} (hx : Size.Exact t) (hn : t ≠ nil) :
    ∃ p, neighboring right t = some p ∧ Size.Exact p.1 ∧
      t.toList = if right then p.1.toList ++ [p.2] else p.2 :: p.1.toList := by
  induction t with
  | nil => exact absurd rfl hn
  | node a k v l r ihl ihr =>
    obtain ⟨ha, hl, hr⟩ := exact_node.1 hx
    cases right with
    | true =>
      simp only [neighboring, if_true]
      cases hnil : r.isNil with
      | true =>
        rw [if_pos rfl]
        have := isNil_true hnil
        subst this
        exact ⟨_, rfl, hl, by simp⟩
      | false =>
        obtain ⟨p, h1, h2, h3⟩ := ihr hr (isNil_false hnil)
        simp only [if_true] at h3
        have hlen := congrArg List.length h3
        simp only [List.length_append, List.length_singleton] at hlen
        obtain ⟨t, h4, h5, h6⟩ := rebalance_ok (a := a - 1) (k := k) (v := v) hl h2 (by omega)
        refine ⟨(t, p.2), ?_, h5, by rw [h6, toList_node, h3]; simp⟩
        rw [if_neg (by simp), h1, Option.bind_some, h4]; rfl
    | false =>
      simp only [neighboring, Bool.false_eq_true, if_false]
      cases hnil : l.isNil with
      | true =>
        rw [if_pos rfl]
        have := isNil_true hnil
        subst this
        exact ⟨_, rfl, hr, by simp⟩
      | false =>
        obtain ⟨p, h1, h2, h3⟩ := ihl hl (isNil_false hnil)
        simp only [Bool.false_eq_true, if_false] at h3
        have hlen := congrArg List.length h3
        simp only [List.length_cons] at hlen
        obtain ⟨t, h4, h5, h6⟩ := rebalance_ok (a := a - 1) (k := k) (v := v) h2 hr (by omega)
        refine ⟨(t, p.2), ?_, h5, by rw [h6, toList_node, h3]; simp⟩
        rw [if_neg (by simp), h1, Option.bind_some, h4]; rfl

theorem removeHere_ok {right : Bool} {a : Int} {k : K} {v : V} {l r : T K V} (hl : Size.Exact l)
    (hr : Size.Exact r) :
    ∃ t, removeHere right (node a k v l r) = some t ∧ Size.Exact t ∧
      t.toList = l.toList ++ r.toList := by
  simp only [removeHere]
  cases hnl : l.isNil with
  | true =>
    rw [if_pos rfl]
    have := isNil_true hnl
    subst this
    exact ⟨_, rfl, hr, by simp⟩
  | false =>
    rw [if_neg (by simp)]
    cases hnr : r.isNil with
    | true =>
      rw [if_pos rfl]
      have := isNil_true hnr
      subst this
      exact ⟨_, rfl, hl, by simp⟩
    | false =>
      rw [if_neg (by simp)]
      cases right with
      | true =>
        rw [if_pos rfl]
        obtain ⟨p, h1, h2, h3⟩ := neighboring_ok (right := false) hr (isNil_false hnr)
        simp only [Bool.false_eq_true, if_false] at h3
        rw [h1, Option.bind_some]
        obtain ⟨t, h4, h5, h6⟩ := rebalance_ok (a := sz l + sz p.1 + 1) (k := p.2.1) (v := p.2.2) hl h2
          (by rw [hl.sz, h2.sz])
        exact ⟨t, h4, h5, by rw [h6, h3]⟩
      | false =>
        rw [if_neg (by simp)]
        obtain ⟨p, h1, h2, h3⟩ := neighboring_ok (right := true) hl (isNil_false hnl)
        simp only [if_true] at h3
        rw [h1, Option.bind_some]
        obtain ⟨t, h4, h5, h6⟩ := rebalance_ok (a := sz p.1 + sz r + 1) (k := p.2.1) (v := p.2.2) h2 hr
          (by rw [hr.sz, h2.sz])
        exact ⟨t, h4, h5, by rw [h6, h3]; simp⟩

theorem remove_ok (hc : LawfulEx cmp) {key : K} {t : T K V} (hx : Size.Exact t)
    (hs : SortedLE (ord cmp) t.toList) (right : Bool) :
    ∃ p, remove cmp key t right = some p ∧ Size.Exact p.1 ∧
      p.1.toList = t.toList.eraseP (fun e => ord cmp e.1 key == .eq) ∧
      p.2 = (t.toList.find? fun e => ord cmp e.1 key == .eq).map (·.2) := by
  have := hc.trans
  induction t generalizing right with
  | nil => exact ⟨_, rfl, trivial, rfl, rfl⟩
  | node a k v l r ihl ihr =>
    rw [toList_node] at hs ⊢
    obtain ⟨s1, s2, -⟩ := SortedLE.split.1 hs
    obtain ⟨ha, hl, hr⟩ := exact_node.1 hx
    obtain ⟨p, p1, p2, p3, p4⟩ := ihl hl s1 false
    obtain ⟨q, q1, q2, q3, q4⟩ := ihr hr s2 true
    -- nothing found in a subtree: it is unchanged
    have absent : ∀ {L : List (K × V)} {o : Option V},
        o = (L.find? fun e => ord cmp e.1 key == .eq).map (·.2) → o.isSome = false →
        ∀ x ∈ L, ord cmp x.1 key ≠ .eq := by
      intro L o ho hn x hx hx'
      rw [ho, Option.isSome_map, List.find?_isSome.2 ⟨x, hx, by simp [hx']⟩] at hn
      cases hn
    have present : ∀ {L : List (K × V)} {o : Option V},
        o = (L.find? fun e => ord cmp e.1 key == .eq).map (·.2) → o.isSome = true →
        (L.eraseP fun e => ord cmp e.1 key == .eq).length + 1 = L.length := by
      intro L o ho hn
      rw [ho, Option.isSome_map, List.find?_isSome] at hn
      obtain ⟨x, hx, hx'⟩ := hn
      have := List.length_eraseP_of_mem (p := fun e : K × V => ord cmp e.1 key == .eq) hx hx'
      have := List.length_pos_of_mem hx
      omega
    have none_erase : ∀ {L : List (K × V)}, (∀ x ∈ L, ord cmp x.1 key ≠ .eq) →
        (L.eraseP fun e => ord cmp e.1 key == .eq) = L := fun h =>
      List.eraseP_of_forall_not fun x hx => by simp [h x hx]
    have none_find : ∀ {L : List (K × V)}, (∀ x ∈ L, ord cmp x.1 key ≠ .eq) →
        (L.find? fun e => ord cmp e.1 key == .eq) = none := fun h =>
      List.find?_eq_none.2 fun x hx => by simp [h x hx]
    have some_find : ∀ {L : List (K × V)} {o : Option V},
        o = (L.find? fun e => ord cmp e.1 key == .eq).map (·.2) → o.isSome = true →
        ∃ e, L.find? (fun e => ord cmp e.1 key == .eq) = some e := by
      intro L o ho hn
      rw [ho, Option.isSome_map] at hn
      exact Option.isSome_iff_exists.1 hn
    simp only [remove]
    rcases cmp_cases hc k key with ⟨c, oc⟩ | ⟨c, oc⟩ | ⟨c, oc⟩
    · rw [if_pos c, p1, Option.bind_some]
      by_cases hf : p.2.isSome = true
      · rw [if_pos hf]
        have hlen := present p4 hf
        rw [← p3] at hlen
        obtain ⟨t, h4, h5, h6⟩ := shrunk_ok (a := a) (k := k) (v := v) p2 hr (by omega)
        obtain ⟨e, he⟩ := some_find p4 hf
        refine ⟨(t, p.2), by rw [h4]; rfl, h5, ?_, ?_⟩
        · rw [h6, p3, List.eraseP_append_left (List.find?_some he) _ (List.mem_of_find?_eq_some he)]
        · rw [List.find?_append, p4, he]; rfl
      · rw [if_neg hf]
        have hno := absent p4 (by simpa using hf)
        obtain ⟨t, h4, h5, h6⟩ := removeHere_ok (right := right) (a := a) (k := k) (v := v) p2 hr
        refine ⟨(t, some v), by rw [h4]; rfl, h5, ?_, ?_⟩
        · rw [h6, p3, none_erase hno, Avls.erase_right hno, List.eraseP_cons_of_pos (by simp [oc])]
        · rw [List.find?_append, none_find hno, List.find?_cons_of_pos (by simp [oc])]; rfl
    · have hR := Avls.no_right hs oc
      have hR' : ∀ x ∈ (k, v) :: r.toList, ord cmp x.1 key ≠ .eq := fun x hx => by
        rw [hR x hx]; simp
      rw [if_neg (by omega), if_pos c, p1, Option.bind_some, Avls.erase_left hR', Avls.find_left hR']
      by_cases hf : p.2.isSome = true
      · rw [if_pos hf]
        have hlen := present p4 hf
        rw [← p3] at hlen
        obtain ⟨t, h4, h5, h6⟩ := shrunk_ok (a := a) (k := k) (v := v) p2 hr (by omega)
        exact ⟨(t, p.2), by rw [h4]; rfl, h5, by rw [h6, p3], p4⟩
      · rw [if_neg hf]
        have hno := absent p4 (by simpa using hf)
        refine ⟨_, rfl, exact_node.2 ⟨by rw [p3, none_erase hno]; exact ha, p2, hr⟩, ?_, ?_⟩
        · rw [toList_node, p3]
        · rw [none_find hno]; rfl
    · have hL := Avls.no_left hs oc
      have hL' : ∀ x ∈ l.toList, ord cmp x.1 key ≠ .eq := fun x hx => by
        rw [hL x hx]; simp
      rw [if_neg (by omega), if_neg (by omega), if_pos c, q1, Option.bind_some, Avls.erase_right hL',
        Avls.find_right hL', List.eraseP_cons_of_neg (by simp [oc]),
        List.find?_cons_of_neg (by simp [oc])]
      by_cases hf : q.2.isSome = true
      · rw [if_pos hf]
        have hlen := present q4 hf
        rw [← q3] at hlen
        obtain ⟨t, h4, h5, h6⟩ := shrunk_ok (a := a) (k := k) (v := v) hl q2 (by omega)
        exact ⟨(t, q.2), by rw [h4]; rfl, h5, by rw [h6, q3], q4⟩
      · rw [if_neg hf]
        have hno := absent q4 (by simpa using hf)
        refine ⟨_, rfl, exact_node.2 ⟨by rw [q3, none_erase hno]; exact ha, hl, q2⟩, ?_, ?_⟩
        · rw [toList_node, q3]
        · rw [none_find hno]; rfl

/-- `removeIndex` for a rank of the subtree. -/
theorem removeIndex_ok {i off idx : Int} {t : T K V} {right : Bool} (hx : Size.Exact t)
    (h : Here off t idx) (h1 : off ≤ i) (h2 : i < off + t.toList.length) :
    ∃ t' e, removeIndex i t right idx = some (t', some e.2) ∧ Size.Exact t' ∧
      t'.toList = t.toList.eraseIdx (i - off).toNat ∧ t.toList[(i - off).toNat]? = some e := by
  induction t generalizing off idx right with
  | nil => simp at h2; omega
  | node a k v l r ihl ihr =>
    obtain ⟨h3, h4⟩ := here_left hx h
    have h5 := here_right hx h
    obtain ⟨ha, hl, hr⟩ := exact_node.1 hx
    rw [toList_node] at h2 ⊢
    simp only [List.length_append, List.length_cons] at h2
    simp only [removeIndex]
    by_cases e1 : idx = i
    · rw [if_pos e1]
      obtain ⟨t, g1, g2, g3⟩ := removeHere_ok (right := right) (a := a) (k := k) (v := v) hl hr
      have e2 : (i - off).toNat = l.toList.length := by omega
      refine ⟨t, (k, v), by rw [g1]; rfl, g2, ?_, ?_⟩
      · rw [g3, e2, List.eraseIdx_append_of_length_le (Nat.le_refl _)]; simp
      · rw [e2]; simp
    · rw [if_neg e1]
      by_cases e2 : idx > i
      · rw [if_pos e2]
        obtain ⟨t', e, g1, g2, g3, g4⟩ := ihl (right := false) hl h4 h1 (by omega)
        have hlt : (i - off).toNat < l.toList.length := by omega
        have hnil : l.isNil = false := isNil_of_ne (by rintro rfl; simp at hlt)
        have hlen := congrArg List.length g3
        rw [List.length_eraseIdx_of_lt hlt] at hlen
        rw [hnil, if_neg (by simp), g1]
        refine ⟨_, e, rfl, exact_node.2 ⟨by simp only; omega, g2, hr⟩, ?_, ?_⟩
        · rw [toList_node, g3, List.eraseIdx_append_of_lt_length hlt]
        · rw [List.getElem?_append_left hlt, g4]
      · rw [if_neg e2]
        obtain ⟨t', e, g1, g2, g3, g4⟩ := ihr (right := true) hr h5 (by omega) (by omega)
        have hlt : (i - (idx + 1)).toNat < r.toList.length := by omega
        have hnil : r.isNil = false := isNil_of_ne (by rintro rfl; simp at hlt)
        have hlen := congrArg List.length g3
        rw [List.length_eraseIdx_of_lt hlt] at hlen
        have hi : (i - off).toNat = l.toList.length + ((i - (idx + 1)).toNat + 1) := by omega
        rw [hnil, if_neg (by simp), g1]
        refine ⟨_, e, rfl, exact_node.2 ⟨by simp only; omega, hl, g2⟩, ?_, ?_⟩
        · rw [toList_node, g3, List.eraseIdx_append_of_length_le (by omega), hi]
          simp
        · rw [List.getElem?_append_right (by omega), hi, ← g4]
          simp

/-- `removeIndex` out of range: it panics, and the root of a tree with more than one node on the way
has a wrong size. -/
theorem removeIndex_out {i off idx : Int} {t : T K V} {right : Bool} (hx : Size.Exact t)
    (hn : t ≠ nil) (h : Here off t idx) (h1 : i < off ∨ off + t.toList.length ≤ i) :
    ∃ t', removeIndex i t right idx = some (t', none) ∧ t'.toList = t.toList ∧
      (sz t' = sz t ∨ sz t' = sz t - 1) := by
  induction t generalizing off idx right with
  | nil => exact absurd rfl hn
  | node a k v l r ihl ihr =>
    obtain ⟨h3, h4⟩ := here_left hx h
    have h5 := here_right hx h
    obtain ⟨ha, hl, hr⟩ := exact_node.1 hx
    rw [toList_node] at h1 ⊢
    simp only [List.length_append, List.length_cons] at h1
    simp only [removeIndex]
    rw [if_neg (by omega)]
    by_cases e2 : idx > i
    · rw [if_pos e2]
      cases hnil : l.isNil with
      | true => rw [if_pos rfl]; exact ⟨_, rfl, by simp, .inl rfl⟩
      | false =>
        rw [if_neg (by simp)]
        obtain ⟨t', g1, g2, -⟩ := ihl (right := false) hl (isNil_false hnil) h4 (by omega)
        rw [g1]
        exact ⟨_, rfl, by rw [toList_node, g2], .inr rfl⟩
    · rw [if_neg e2]
      cases hnil : r.isNil with
      | true => rw [if_pos rfl]; exact ⟨_, rfl, by simp, .inl rfl⟩
      | false =>
        rw [if_neg (by simp)]
        obtain ⟨t', g1, g2, -⟩ := ihr (right := true) hr (isNil_false hnil) h5 (by omega)
        rw [g1]
        exact ⟨_, rfl, by rw [toList_node, g2], .inr rfl⟩

/-! ### Refinement -/

/-- The tree stores the list, with exact sizes. -/
structure Rel (cmp : K → K → Int) (t : T K V) (xs : List (K × V)) : Prop where
  list : t.toList = xs
  sorted : SortedLE (ord cmp) xs
  exact : Size.Exact t

theorem Rel.new : Rel cmp (nil : T K V) [] := ⟨rfl, List.Pairwise.nil, trivial⟩

theorem any_find {o : K → K → Ordering} {k : K} {xs : List (K × V)} :
    (xs.find? fun e => o e.1 k == .eq).isSome = xs.any fun e => o e.1 k == .eq := by
  rw [Bool.eq_iff_iff, List.find?_isSome, List.any_eq_true]

theorem rank_eq (xs : List (K × V)) (i : Int) :
    (rank xs i).bind (xs[·]?) = at? xs (if i < 0 then xs.length + i else i) ∧
    (rank xs i = none ↔ at? xs (if i < 0 then xs.length + i else i) = none) := by
  simp only [rank]
  generalize (if i < 0 then (xs.length : Int) + i else i) = j
  split
  · rename_i h
    simp only [at?, Option.bind_some]
    rw [if_neg (by omega)]
    refine ⟨rfl, ?_⟩
    rw [List.getElem?_eq_none_iff]
    simp
    omega
  · rename_i h
    rw [at?_none.2 (by omega)]
    simp

theorem doIndex_eq {t : T K V} {xs : List (K × V)} (hR : Rel cmp t xs) (i : Int) :
    doIndex t i = (spec (ord cmp) xs (.index i)).2 := by
  have h1 := nodeAt_eq (i := if i < 0 then sz t + i else i) hR.exact (here_root t)
  rw [hR.exact.sz, hR.list, Int.sub_zero] at h1
  obtain ⟨h2, h3⟩ := rank_eq xs i
  simp only [doIndex, spec, hR.exact.sz, hR.list, h1]
  cases hr : rank xs i with
  | none => rw [h3.1 hr]
  | some j =>
    rw [hr, Option.bind_some] at h2
    rw [← h2]
    cases hj : xs[j]? with
    | none => rw [h2, ← h3, hr] at hj; cases hj
    | some e => simp [hj]

theorem doRemoveIndex_ok {t : T K V} {xs : List (K × V)} (hR : Rel cmp t xs) {i : Int} (h1 : 0 ≤ i)
    (h2 : i < xs.length) : ∃ t', doRemoveIndex t i =
      some (t', (spec (ord cmp) xs (.removeIndex i)).2) ∧
      Rel cmp t' (spec (ord cmp) xs (.removeIndex i)).1 := by
  obtain ⟨hx, hs, he⟩ := hR
  subst hx
  obtain ⟨t', e, g1, g2, g3, g4⟩ := removeIndex_ok (right := true) he (here_root t) h1 (by omega)
  rw [Int.sub_zero] at g3 g4
  have hl : 0 ≤ leftSz t := by
    cases t with
    | nil => simp [leftSz]
    | node a k v l r => exact (exact_node.1 he).2.1.sz_nonneg
  have hn : t.isNil = false := isNil_of_ne (by rintro rfl; simp at h2; omega)
  have hr : rank t.toList i = some i.toNat := by
    simp only [rank]
    rw [show (if i < 0 then (t.toList.length : Int) + i else i) = i from if_neg (by omega),
      if_pos ⟨h1, h2⟩]
  refine ⟨t', ?_, ?_⟩
  · simp only [doRemoveIndex, hn, Bool.false_eq_true, if_false]
    rw [if_neg (by omega), g1]
    simp only [spec, hr, g4]
    rfl
  · simp only [spec, hr]
    exact ⟨g3, hs.sublist (List.eraseIdx_sublist _ _), g2⟩

/-- One call. -/
theorem step_ok (hc : LawfulEx cmp) {t : T K V} {xs : List (K × V)} (op : Op K V)
    (hl : legal xs op) (hR : Rel cmp t xs) :
    ∃ t', step cmp t op = some (t', (spec (ord cmp) xs op).2) ∧
      Rel cmp t' (spec (ord cmp) xs op).1 := by
  have htr := hc.trans
  have hR' := hR
  obtain ⟨hx, hs, he⟩ := hR
  subst hx
  have hput : ∀ k v, ∃ t', doPut cmp t k v = some t' ∧
      Rel cmp t' (Avls.insertAfter (ord cmp) (k, v) t.toList) := by
    intro k v
    obtain ⟨p, h1, h2, h3⟩ := put_ok hc (key := k) (val := v) he hs true
    exact ⟨p.1, by rw [doPut, h1]; rfl, h3, Avls.sorted_insertAfter hs v, h2⟩
  have hget : ∀ k, getfirst cmp k t none =
      some (t.toList.find? fun e => ord cmp e.1 k == .eq) := by
    intro k; rw [getfirst_eq hc none hs, Option.or_none]
  have hrem : ∀ k, ∃ t', remove cmp k t true = some (t',
      (t.toList.find? fun e => ord cmp e.1 k == .eq).map (·.2)) ∧
      Rel cmp t' (t.toList.eraseP fun e => ord cmp e.1 k == .eq) := by
    intro k
    obtain ⟨p, h1, h2, h3, h4⟩ := remove_ok hc (key := k) he hs true
    exact ⟨p.1, by rw [h1, ← h4], h3, hs.sublist List.eraseP_sublist, h2⟩
  cases op with
  | put k v =>
    obtain ⟨t', h1, h2⟩ := hput k v
    exact ⟨t', by simp only [step, h1, spec]; rfl, h2⟩
  | insertIfAbsent k v =>
    simp only [step, doInsert, hget, Option.bind_some, any_find]
    rw [spec]
    by_cases hb : (t.toList.any fun e => ord cmp e.1 k == .eq) = true
    · rw [if_pos hb, if_pos hb]
      exact ⟨t, rfl, hR'⟩
    · rw [if_neg hb, if_neg hb]
      obtain ⟨t', h1, h2⟩ := hput k v
      exact ⟨t', by rw [h1]; rfl, h2⟩
  | upsert k v =>
    simp only [step, doUpsert, hget, Option.bind_some, any_find]
    rw [spec]
    by_cases hb : (t.toList.any fun e => ord cmp e.1 k == .eq) = true
    · rw [if_pos hb, if_pos hb]
      obtain ⟨t', h1, h2, -⟩ := Avls.setVal_ok hc (key := k) (val := v) hs
      exact ⟨t', by rw [h1]; rfl, h2, Avls.sorted_of_keys (Avls.setFirst_keys v) hs,
        (setVal_exact he h1).1⟩
    · rw [if_neg hb, if_neg hb]
      obtain ⟨t', h1, h2⟩ := hput k v
      exact ⟨t', by rw [h1]; rfl, h2⟩
  | get k => exact ⟨t, by simp only [step, hget, spec]; rfl, hR'⟩
  | index i => exact ⟨t, congrArg (fun r => some (t, r)) (doIndex_eq hR' i), hR'⟩
  | remove k =>
    obtain ⟨t', h1, h2⟩ := hrem k
    exact ⟨t', by simp only [step, h1, spec]; rfl, h2⟩
  | delete k =>
    obtain ⟨t', h1, h2⟩ := hrem k
    exact ⟨t', by simp only [step, h1, spec]; rfl, h2⟩
  | removeIndex i => exact doRemoveIndex_ok hR' hl.1 hl.2
  | popHead =>
    simp only [step, spec]
    cases hn : t with
    | nil => exact ⟨nil, rfl, Rel.new⟩
    | node a k v l r =>
      rw [← hn]
      have hnn : t ≠ nil := by rw [hn]; exact fun h => by cases h
      obtain ⟨p, h1, h2, h3⟩ := takeMin_ok he hnn
      have h4 := he.sz
      rw [h3] at h4 hs ⊢
      simp only [List.length_cons] at h4
      rw [if_neg (by omega)]
      exact ⟨p.1, by rw [h1]; rfl, by simp, hs.tail, h2⟩
  | popTail =>
    simp only [step, spec]
    cases hn : t with
    | nil => exact ⟨nil, rfl, Rel.new⟩
    | node a k v l r =>
      rw [← hn]
      have hnn : t ≠ nil := by rw [hn]; exact fun h => by cases h
      obtain ⟨p, h1, h2, h3⟩ := takeMax_ok he hnn
      have h4 := he.sz
      rw [h3] at h4 hs ⊢
      simp only [List.length_append, List.length_singleton] at h4
      rw [if_neg (by omega)]
      exact ⟨p.1, by rw [h1]; simp, by simp, hs.sublist (List.dropLast_sublist _), h2⟩
  | clear => exact ⟨nil, rfl, Rel.new⟩
  | size => exact ⟨t, by simp only [step, spec, he.sz], hR'⟩
  | len => exact ⟨t, by simp only [step, spec, he.sz], hR'⟩
  | traverse every => exact ⟨t, by simp only [step, spec, traverse_eq], hR'⟩
  | values =>
    refine ⟨t, ?_, hR'⟩
    simp only [step, spec, traverse_eq, seen_true]
    split
    · rename_i h
      rw [isNil_true h]
      rfl
    · rw [if_neg (by have := he.sz_nonneg; omega)]

theorem run_ok (hc : LawfulEx cmp) (os : List (Op K V))
    (hl : LegalRun (spec (ord cmp)) legal [] os) :
    ∃ t, run (step cmp) nil os = some (t, (runSpec (spec (ord cmp)) [] os).2) ∧
      Rel cmp t (runSpec (spec (ord cmp)) [] os).1 :=
  run_refines_legal (step := step cmp) (spec := spec (ord cmp)) (Rel cmp)
    (fun _ _ op h hR => step_ok hc op h hR) os _ _ hl Rel.new

/-! ### `Gets` -/

theorem collect_ok (hc : LawfulEx cmp) {key : K} {t : T K V} (hs : SortedLE (ord cmp) t.toList) :
    ∃ vs, collect cmp key t = some vs ∧
      vs.Perm ((t.toList.filter fun e => ord cmp e.1 key == .eq).map (·.2)) := by
  have := hc.trans
  induction t with
  | nil => exact ⟨[], rfl, .nil⟩
  | node a k v l r ihl ihr =>
    rw [toList_node] at hs ⊢
    obtain ⟨s1, s2, -⟩ := SortedLE.split.1 hs
    obtain ⟨vl, l1, l2⟩ := ihl s1
    obtain ⟨vr, r1, r2⟩ := ihr s2
    simp only [collect, l1, r1, Option.bind_some, Option.map_some]
    rcases cmp_cases hc k key with ⟨c, oc⟩ | ⟨c, oc⟩ | ⟨c, oc⟩
    · rw [if_pos c]
      refine ⟨_, rfl, ?_⟩
      rw [List.filter_append, List.filter_cons_of_pos (by simp [oc]), List.map_append, List.map_cons]
      exact ((l2.append r2).cons v).trans List.perm_middle.symm
    · have hn := Avls.no_right hs oc
      rw [if_neg (by omega), if_pos c, List.filter_append,
        (List.filter_eq_nil_iff (l := (k, v) :: r.toList)).2 (fun x hx => by simp [hn x hx]),
        List.append_nil]
      exact ⟨_, rfl, l2⟩
    · have hn := Avls.no_left hs oc
      rw [if_neg (by omega), if_neg (by omega), if_pos c, List.filter_append,
        (List.filter_eq_nil_iff (l := l.toList)).2 (fun x hx => by simp [hn x hx]),
        List.filter_cons_of_neg (by simp [oc]), List.nil_append]
      exact ⟨_, rfl, r2⟩

theorem gets_eq (hc : LawfulEx cmp) {key : K} (t : T K V) : gets cmp key t = collect cmp key t := by
  induction t with
  | nil => rfl
  | node a k v l r ihl ihr =>
    simp only [gets, seekRoot, collect] at *
    rcases cmp_cases hc k key with ⟨c, oc⟩ | ⟨c, oc⟩ | ⟨c, oc⟩
    · simp only [if_pos c, Option.bind_some, collect]
    · simp only [c, show ¬ (0 : Int) < 0 by omega, if_false, if_true, ihl]
    · simp only [c, show ¬ (1 : Int) < 0 by omega, show ¬ (1 : Int) = 0 by omega, if_false, if_true, ihr]

end Verif.Priority
