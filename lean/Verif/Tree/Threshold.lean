import Verif.Tree.AvlsProps
import Verif.Tree.TreeSetProps

/-! The trees of set/treeset, tree/avls and tree/avl with any threshold of at least one. The heights that the nodes
record may then be wrong, but each is positive and at most the number of nodes below it plus the number of
removals so far. This is enough that no rotation meets a nil pointer. -/

namespace Verif.Avl
open Verif.Tree
variable {K V : Type} {cmp : K → K → Int}

/-- Each node records a positive height of at most the number of nodes below it, plus `n`. -/
def Lim (n : Nat) : T K V → Prop
  | nil => True
  | node h k v l r => Lim n l ∧ Lim n r ∧ 1 ≤ h ∧ h ≤ (node h k v l r : T K V).count + n

theorem Lim.mono {n : Nat} : ∀ {t : T K V}, Lim n t → Lim (n + 1) t
  | nil, _ => trivial
  | node .., ⟨h1, h2, h3, h4⟩ => ⟨h1.mono, h2.mono, h3, by omega⟩

theorem Lim.weaken {n n' : Nat} (hn : n ≤ n') {t : T K V} (h : Lim n t) : Lim n' t := by
  induction hn with
  | refl => exact h
  | step _ ih => exact ih.mono

theorem Lim.hgt {n : Nat} : ∀ {t : T K V}, Lim n t → 0 ≤ hgt t ∧ hgt t ≤ t.count + n ∧ (t ≠ nil → 1 ≤ hgt t)
  | nil, _ => ⟨Int.le_refl 0, by simp only [Avl.hgt]; omega, fun h => absurd rfl h⟩
  | node .., ⟨_, _, h3, h4⟩ => ⟨by simp only [Avl.hgt]; omega, h4, fun _ => h3⟩

theorem Lim.newH {n : Nat} {one : Bool} {c : Nat} {l r : T K V} (hl : Lim n l) (hr : Lim n r)
    (hn : l.count + r.count + 1 + n ≤ 126) (k : K) (v : V) :
    Lim n (node (newH one c l r) k v l r) ∧ (node (Avl.newH one c l r) k v l r : T K V).count =
      l.count + r.count + 1 := by
  obtain ⟨a1, a2, -⟩ := hl.hgt
  obtain ⟨b1, b2, -⟩ := hr.hgt
  refine ⟨⟨hl, hr, ?_⟩, rfl⟩
  have w : ∀ x : Int, 0 ≤ x → x ≤ 125 → w8 (x + 1) = x + 1 := fun x h1 h2 => by
    unfold w8; rw [Int.emod_eq_of_lt (by omega) (by omega)]; omega
  unfold Avl.newH
  simp only [Tree.count]
  split
  · split <;> rw [w _ (by omega) (by omega)] <;> omega
  · split <;> rw [w _ (by omega) (by omega)] <;> omega

theorem rebalance_lim {n : Nat} {one : Bool} {d : Int} (h1 : 1 ≤ d) (h2 : d ≤ 127) {h : Int} {k : K} {v : V}
    {l r : T K V} (hl : Lim n l) (hr : Lim n r) (hn : l.count + r.count + 1 + n ≤ 126) :
    ∃ q, rebalance one d (node h k v l r) = some q ∧ Lim n q.1 ∧ q.1.count = l.count + r.count + 1 := by
  obtain ⟨a1, a2, a3⟩ := hl.hgt
  obtain ⟨b1, b2, b3⟩ := hr.hgt
  have w : ∀ x : Int, -128 ≤ x → x ≤ 127 → w8 x = x := fun x h1 h2 => by
    unfold w8; rw [Int.emod_eq_of_lt (by omega) (by omega)]; omega
  unfold rebalance
  simp only
  rw [w (Avl.hgt l - Avl.hgt r) (by omega) (by omega), w (-d) (by omega) (by omega),
    w (Avl.hgt l + 1) (by omega) (by omega), w (Avl.hgt r + 1) (by omega) (by omega)]
  split
  · cases l with
    | nil => simp only [Avl.hgt] at *; omega
    | node hs ks vs a b =>
      obtain ⟨l1, l2, -, -⟩ := hl
      simp only [kids, Option.bind_some, Tree.count] at hn ⊢
      split
      · next hg =>
        cases b with
        | nil => have := l1.hgt.1; simp only [Avl.hgt] at hg this; omega
        | node hss kss vss c0 c1 =>
          obtain ⟨m1, m2, -, -⟩ := l2
          simp only [Tree.count] at hn ⊢
          obtain ⟨g1, g2⟩ := m2.newH (one := one) (c := 1) hr (by omega) k v
          obtain ⟨g3, g4⟩ := l1.newH (one := one) (c := 0) m1 (by omega) ks vs
          obtain ⟨g5, g6⟩ := g3.newH (one := one) (c := 1) g1 (by omega) kss vss
          exact ⟨_, rfl, g5, by rw [g6]; omega⟩
      · obtain ⟨g1, g2⟩ := l2.newH (one := one) (c := 0) hr (by omega) k v
        obtain ⟨g3, g4⟩ := l1.newH (one := one) (c := 1) g1 (by omega) ks vs
        exact ⟨_, rfl, g3, by rw [g4]; omega⟩
  · split
    · cases r with
      | nil => simp only [Avl.hgt] at *; omega
      | node hs ks vs b a =>
        obtain ⟨l1, l2, -, -⟩ := hr
        simp only [kids, Option.bind_some, Tree.count] at hn ⊢
        split
        · next hg =>
          cases b with
          | nil => have := l2.hgt.1; simp only [Avl.hgt] at hg this; omega
          | node hss kss vss c0 c1 =>
            obtain ⟨m1, m2, -, -⟩ := l1
            simp only [Tree.count] at hn ⊢
            obtain ⟨g1, g2⟩ := hl.newH (one := one) (c := 0) m1 (by omega) k v
            obtain ⟨g3, g4⟩ := m2.newH (one := one) (c := 1) l2 (by omega) ks vs
            obtain ⟨g5, g6⟩ := g1.newH (one := one) (c := 0) g3 (by omega) kss vss
            exact ⟨_, rfl, g5, by rw [g6]; omega⟩
        · obtain ⟨g1, g2⟩ := hl.newH (one := one) (c := 1) l1 (by omega) k v
          obtain ⟨g3, g4⟩ := g1.newH (one := one) (c := 0) l2 (by omega) ks vs
          exact ⟨_, rfl, g3, by rw [g4]; omega⟩
    · split
      · split
        · exact ⟨_, rfl, ⟨hl, hr, by omega, by simp only [Tree.count]; omega⟩, rfl⟩
        · next hh => exact ⟨_, rfl, ⟨hl, hr, by omega, by simp only [Tree.count]; omega⟩, rfl⟩
      · split
        · exact ⟨_, rfl, ⟨hl, hr, by omega, by simp only [Tree.count]; omega⟩, rfl⟩
        · next hh => exact ⟨_, rfl, ⟨hl, hr, by omega, by simp only [Tree.count]; omega⟩, rfl⟩

theorem rebIf_lim {n : Nat} {one : Bool} {d : Int} (h1 : 1 ≤ d) (h2 : d ≤ 127) {b : Bool} {h : Int} {k : K} {v : V}
    {l r : T K V} (hl : Lim n l) (hr : Lim n r) (hn : l.count + r.count + 1 + n ≤ 126)
    (h3 : 1 ≤ h) (h4 : h ≤ l.count + r.count + 1 + n) :
    ∃ q, rebIf one d b (node h k v l r) = some q ∧ Lim n q.1 ∧ q.1.count = l.count + r.count + 1 := by
  unfold rebIf
  split
  · exact rebalance_lim h1 h2 hl hr hn
  · exact ⟨_, rfl, ⟨hl, hr, h3, by simp only [Tree.count]; omega⟩, rfl⟩

theorem put_lim (hc : LawfulEx cmp) {n : Nat} {one : Bool} {d : Int} (h1 : 1 ≤ d) (h2 : d ≤ 127) {key : K} {val : V}
    {upd : K × V → K × V} : ∀ {t : T K V} (sib : Bool), Lim n t → t.count + 1 + n ≤ 126 →
    ∃ p, put cmp one d key val upd t sib = some p ∧ Lim n p.1 ∧
      t.count ≤ p.1.count ∧ p.1.count ≤ t.count + 1
  | nil, sib, _, _ => ⟨_, rfl, ⟨trivial, trivial, Int.le_refl _, by simp [Tree.count]⟩, by simp [Tree.count]⟩
  | node h k v l r, sib, ⟨hl, hr, h3, h4⟩, hn => by
    simp only [Tree.count] at hn h4
    rw [put]
    rcases hc.range k key with hk | hk | hk
    · rw [if_pos (by omega)]
      exact ⟨_, rfl, ⟨hl, hr, h3, by simp only [Tree.count]; omega⟩, by simp only [Tree.count]; omega⟩
    · rw [if_neg (by omega), if_pos hk]
      obtain ⟨p, e, g1, g2, g3⟩ := put_lim hc h1 h2 (one := one) (key := key) (val := val) (upd := upd) r.isNil hl (by omega)
      rw [e, Option.bind_some]
      split
      · exact ⟨_, rfl, ⟨g1, hr, h3, by simp only [Tree.count]; omega⟩, by simp only [Tree.count]; omega⟩
      · obtain ⟨q, e2, g4, g5⟩ := rebalance_lim (one := one) (h := h) (k := k) (v := v) h1 h2 g1 hr (by omega)
        rw [e2]
        exact ⟨_, rfl, g4, by simp only [Tree.count]; omega⟩
    · rw [if_neg (by omega), if_neg (by omega), if_pos hk]
      obtain ⟨p, e, g1, g2, g3⟩ := put_lim hc h1 h2 (one := one) (key := key) (val := val) (upd := upd) l.isNil hr (by omega)
      rw [e, Option.bind_some]
      split
      · exact ⟨_, rfl, ⟨hl, g1, h3, by simp only [Tree.count]; omega⟩, by simp only [Tree.count]; omega⟩
      · obtain ⟨q, e2, g4, g5⟩ := rebalance_lim (one := one) (h := h) (k := k) (v := v) h1 h2 hl g1 (by omega)
        rw [e2]
        exact ⟨_, rfl, g4, by simp only [Tree.count]; omega⟩

theorem neighboring_lim {n : Nat} {one : Bool} {d : Int} (h1 : 1 ≤ d) (h2 : d ≤ 127) (right : Bool) :
    ∀ {t : T K V}, t ≠ nil → Lim n t → t.count + n ≤ 126 →
    ∃ p, neighboring one d right t = some p ∧ Lim (n + 1) p.1 ∧ p.1.count + 1 = t.count
  | nil, h, _, _ => absurd rfl h
  | node h k v l r, _, ⟨hl, hr, h3, h4⟩, hn => by
    simp only [Tree.count] at hn h4 ⊢
    unfold neighboring
    cases right with
    | true =>
      rw [if_pos rfl]
      cases r with
      | nil => exact ⟨_, rfl, hl.mono, by simp [Tree.count]⟩
      | node a b c e f =>
        obtain ⟨p, e1, g1, g2⟩ := neighboring_lim h1 h2 true (one := one) (t := node a b c e f) (by simp) hr (by omega)
        obtain ⟨q, e2, g3, g4⟩ := rebIf_lim (one := one) (b := p.2.2) (h := h) (k := k) (v := v) h1 h2 hl.mono g1
          (by omega) h3 (by omega)
        simp only [e1, Option.bind_some, e2, Option.map_some]
        exact ⟨_, rfl, g3, by simp only [g4]; omega⟩
    | false =>
      rw [if_neg (by simp)]
      cases l with
      | nil => exact ⟨_, rfl, hr.mono, by simp [Tree.count]⟩
      | node a b c e f =>
        obtain ⟨p, e1, g1, g2⟩ := neighboring_lim h1 h2 false (one := one) (t := node a b c e f) (by simp) hl (by omega)
        obtain ⟨q, e2, g3, g4⟩ := rebIf_lim (one := one) (b := p.2.2) (h := h) (k := k) (v := v) h1 h2 g1 hr.mono
          (by omega) h3 (by omega)
        simp only [e1, Option.bind_some, e2, Option.map_some]
        exact ⟨_, rfl, g3, by simp only [g4]; omega⟩

theorem removeHere_lim {n : Nat} {one : Bool} {d : Int} (h1 : 1 ≤ d) (h2 : d ≤ 127) (right : Bool)
    {h : Int} {k : K} {v : V} {l r : T K V} (hl : Lim n l) (hr : Lim n r) (hn : l.count + r.count + 1 + n ≤ 126) :
    ∃ p, removeHere one d right (node h k v l r) = some p ∧ Lim (n + 1) p.1 ∧
      p.1.count = l.count + r.count := by
  unfold removeHere
  cases l with
  | nil => exact ⟨_, rfl, hr.mono, by simp [Tree.count]⟩
  | node a b c e f =>
    cases r with
    | nil => exact ⟨_, rfl, hl.mono, by simp [Tree.count]⟩
    | node a' b' c' e' f' =>
      simp only [Tree.isNil, Bool.false_eq_true, if_false]
      cases right with
      | true =>
        obtain ⟨p, e1, g1, g2⟩ := neighboring_lim h1 h2 false (one := one) (t := node a' b' c' e' f') (by simp) hr (by omega)
        obtain ⟨q, e2, g3, g4⟩ := rebalance_lim (one := one) (h := h) (k := p.2.1.1) (v := p.2.1.2) h1 h2 hl.mono g1
          (by omega)
        simp only [e1, Option.bind_some, e2, Option.map_some, if_true]
        exact ⟨_, rfl, g3, by simp only [g4]; omega⟩
      | false =>
        obtain ⟨p, e1, g1, g2⟩ := neighboring_lim h1 h2 true (one := one) (t := node a b c e f) (by simp) hl (by omega)
        obtain ⟨q, e2, g3, g4⟩ := rebalance_lim (one := one) (h := h) (k := p.2.1.1) (v := p.2.1.2) h1 h2 g1 hr.mono
          (by omega)
        simp only [e1, Option.bind_some, e2, Option.map_some, Bool.false_eq_true, if_false]
        exact ⟨_, rfl, g3, by simp only [g4]; omega⟩

theorem removeHere_some {one : Bool} {d : Int} {right : Bool} {h : Int} {k : K} {v : V} {l r : T K V}
    {p : T K V × Option V × Bool} (e : removeHere one d right (node h k v l r) = some p) :
    p.2.1.isSome = true := by
  rw [removeHere] at e
  by_cases h1 : l.isNil = true
  · rw [if_pos h1] at e; cases e; rfl
  · rw [if_neg h1] at e
    by_cases h2 : r.isNil = true
    · rw [if_pos h2] at e; cases e; rfl
    · rw [if_neg h2] at e
      cases right <;>
      · simp only [Bool.false_eq_true, if_false, if_true, Option.bind_eq_some_iff, Option.map_eq_some_iff] at e
        obtain ⟨_, _, _, _, rfl⟩ := e
        rfl

theorem remove_lim (hc : LawfulEx cmp) {n : Nat} {one : Bool} {d : Int} (h1 : 1 ≤ d) (h2 : d ≤ 127) {key : K} :
    ∀ {t : T K V} (right : Bool), Lim n t → t.count + n ≤ 126 →
    ∃ p n', remove one d cmp key t right = some p ∧ n ≤ n' ∧ Lim n' p.1 ∧ p.1.count + n' = t.count + n
  | nil, _, _, _ => ⟨_, n, rfl, Nat.le_refl _, trivial, rfl⟩
  | node h k v l r, right, ⟨hl, hr, h3, h4⟩, hn => by
    simp only [Tree.count] at hn h4 ⊢
    rw [remove]
    rcases hc.range k key with hk | hk | hk
    · rw [if_pos (by omega)]
      obtain ⟨p, e, g1, g2⟩ := removeHere_lim (one := one) (h := h) (k := k) (v := v) h1 h2 right hl hr hn
      exact ⟨p, n + 1, e, by omega, g1, by omega⟩
    · rw [if_neg (by omega), if_pos hk]
      obtain ⟨p, n', e, g0, g1, g2⟩ := remove_lim hc h1 h2 (one := one) (key := key) false hl (by omega)
      obtain ⟨q, e2, g3, g4⟩ := rebIf_lim (one := one) (b := p.2.2) (h := h) (k := k) (v := v) h1 h2 g1 (hr.weaken g0)
          (by omega) h3 (by omega)
      simp only [e, Option.bind_some, e2, Option.map_some]
      exact ⟨_, n', rfl, g0, g3, by simp only [g4]; omega⟩
    · rw [if_neg (by omega), if_neg (by omega), if_pos hk]
      obtain ⟨p, n', e, g0, g1, g2⟩ := remove_lim hc h1 h2 (one := one) (key := key) true hr (by omega)
      obtain ⟨q, e2, g3, g4⟩ := rebIf_lim (one := one) (b := p.2.2) (h := h) (k := k) (v := v) h1 h2 (hl.weaken g0) g1
          (by omega) h3 (by omega)
      simp only [e, Option.bind_some, e2, Option.map_some]
      exact ⟨_, n', rfl, g0, g3, by simp only [g4]; omega⟩

theorem get_lim (hc : LawfulEx cmp) (key : K) : ∀ t : T K V, ∃ o, get cmp key t = some o
  | nil => ⟨_, rfl⟩
  | node h k v l r => by
    rw [get]
    rcases hc.range k key with hk | hk | hk
    · exact ⟨_, if_pos (by omega)⟩
    · rw [if_neg (by omega), if_pos hk]; exact get_lim hc key l
    · rw [if_neg (by omega), if_neg (by omega), if_pos hk]; exact get_lim hc key r

theorem setVal_lim (hc : LawfulEx cmp) {n : Nat} {key : K} {val : V} : ∀ {t : T K V}, Lim n t →
    ∃ t', setVal cmp key val t = some t' ∧ Lim n t' ∧ t'.count = t.count
  | nil, _ => ⟨_, rfl, trivial, rfl⟩
  | node h k v l r, ⟨hl, hr, h3, h4⟩ => by
    simp only [Tree.count] at h4
    rw [setVal]
    rcases hc.range k key with hk | hk | hk
    · exact ⟨_, if_pos (by omega), ⟨hl, hr, h3, h4⟩, rfl⟩
    · rw [if_neg (by omega), if_pos hk]
      obtain ⟨t', e, g1, g2⟩ := setVal_lim hc (key := key) (val := val) hl
      rw [e]
      exact ⟨_, rfl, ⟨g1, hr, h3, by simp only [Tree.count]; omega⟩, by simp only [Tree.count]; omega⟩
    · rw [if_neg (by omega), if_neg (by omega), if_pos hk]
      obtain ⟨t', e, g1, g2⟩ := setVal_lim hc (key := key) (val := val) hr
      rw [e]
      exact ⟨_, rfl, ⟨hl, g1, h3, by simp only [Tree.count]; omega⟩, by simp only [Tree.count]; omega⟩

/-- Does the call insert? -/
def Op.inserts : Op K V → Bool
  | .put _ _ | .insertIfAbsent _ _ | .set _ _ | .upsert _ _ => true
  | _ => false

/-- The recorded heights after `n` insertions. -/
def LimN (n : Nat) (m : Map K V) : Prop := ∃ r, Lim r m.root ∧ m.root.count + r ≤ n

theorem step_lim (hc : LawfulEx cmp) {n : Nat} {one : Bool} {d : Int} (h1 : 1 ≤ d) (h2 : d ≤ 127)
    {m : Map K V} (hm : LimN n m) {op : Op K V} (ha : op.abstract = true)
    (hn : n + (if op.inserts then 1 else 0) ≤ 126) :
    ∃ m' r, step cmp one d m op = some (m', r) ∧ LimN (n + if op.inserts then 1 else 0) m' := by
  obtain ⟨q, hl, hq⟩ := hm
  have hput : ∀ k v upd, n + 1 ≤ 126 → ∃ p, put cmp one d k v upd m.root false = some p ∧
      ∀ s, LimN (n + 1) ⟨p.1, s⟩ := by
    intro k v upd h3
    obtain ⟨p, e, g1, -, g2⟩ := put_lim hc h1 h2 (one := one) (key := k) (val := v) (upd := upd) false hl (by omega)
    exact ⟨p, e, fun s => ⟨q, g1, by simp only; omega⟩⟩
  have hrem : ∀ k, ∃ p, m.remove cmp one d k = some p ∧ LimN n p.1 := by
    intro k
    obtain ⟨p, n', e, -, g1, g2⟩ := remove_lim hc h1 h2 (one := one) (key := k) true hl (by
      split at hn <;> omega)
    exact ⟨_, by rw [Map.remove, e]; rfl, n', g1, by simp only; omega⟩
  have hget : ∀ k, ∃ o, m.get cmp k = some o := fun k => by
    obtain ⟨o, e⟩ := get_lim hc k m.root
    exact ⟨_, by rw [Map.get, e]; rfl⟩
  cases op with
  | put k v =>
    obtain ⟨p, e, g⟩ := hput k v id hn
    exact ⟨_, _, by rw [step, Map.put, e]; rfl, g _⟩
  | insertIfAbsent k v =>
    obtain ⟨p, e, g⟩ := hput k v id hn
    exact ⟨_, _, by rw [step, Map.put, e]; rfl, g _⟩
  | set k v =>
    obtain ⟨p, e, g⟩ := hput k v (fun _ => (k, v)) hn
    exact ⟨_, _, by rw [step, Map.set, e]; rfl, g _⟩
  | upsert k v =>
    obtain ⟨o, e⟩ := get_lim hc k m.root
    rw [step, Map.upsert, e, Option.bind_some]
    split
    · obtain ⟨t', e2, g1, g2⟩ := setVal_lim hc (key := k) (val := v) hl
      exact ⟨_, _, by rw [e2]; rfl, q, g1, by simp only [g2, Op.inserts, if_true]; omega⟩
    · obtain ⟨p, e, g⟩ := hput k v (fun _ => (k, v)) hn
      exact ⟨_, _, by rw [Map.set, e]; rfl, g _⟩
  | get k => obtain ⟨o, e⟩ := hget k; exact ⟨m, _, by rw [step, e]; rfl, q, hl, hq⟩
  | contains k => obtain ⟨o, e⟩ := hget k; exact ⟨m, _, by rw [step, e]; rfl, q, hl, hq⟩
  | remove k => obtain ⟨p, e, g⟩ := hrem k; exact ⟨_, _, by rw [step, e]; rfl, g⟩
  | delete k => obtain ⟨p, e, g⟩ := hrem k; exact ⟨_, _, by rw [step, e]; rfl, g⟩
  | clear => exact ⟨_, _, rfl, 0, trivial, by simp [Tree.count]⟩
  | height => simp [Op.abstract] at ha
  | _ => exact ⟨_, _, rfl, q, hl, hq⟩

/-- A history of at most 126 insertions never panics. -/
theorem run_lim (hc : LawfulEx cmp) {one : Bool} {d : Int} (h1 : 1 ≤ d) (h2 : d ≤ 127) :
    ∀ (os : List (Op K V)) {n : Nat} {m : Map K V}, LimN n m → (∀ op ∈ os, op.abstract = true) →
      n + (os.filter Op.inserts).length ≤ 126 → ∃ m' rs, run (step cmp one d) m os = some (m', rs)
  | [], _, m, _, _, _ => ⟨m, [], rfl⟩
  | op :: os, n, m, hm, ha, hn => by
    have e : ((op :: os).filter Op.inserts).length = (os.filter Op.inserts).length + if op.inserts then 1 else 0 := by
      rw [List.filter_cons]; split <;> simp
    obtain ⟨m', r, e1, g⟩ := step_lim (one := one) hc h1 h2 hm (ha op List.mem_cons_self) (by omega)
    obtain ⟨m'', rs, e2⟩ := run_lim (one := one) hc h1 h2 os g (fun o ho => ha o (List.mem_cons_of_mem _ ho)) (by omega)
    exact ⟨m'', r :: rs, by simp [run, e1, e2]⟩

end Verif.Avl

/-! ### tree/avls -/

namespace Verif.Avls
open Verif.Tree Verif.Avl
variable {K V : Type} {cmp : K → K → Int}

theorem put_lim (hc : LawfulEx cmp) {n : Nat} {d : Int} (h1 : 1 ≤ d) (h2 : d ≤ 127) {key : K} {val : V} :
    ∀ {t : T K V} (sib : Bool), Lim n t → t.count + 1 + n ≤ 126 →
    ∃ p, put cmp d key val t sib = some p ∧ Lim n p.1 ∧ p.1.count = t.count + 1
  | nil, sib, _, _ => ⟨_, rfl, ⟨trivial, trivial, Int.le_refl _, by simp [Tree.count]⟩, by simp [Tree.count]⟩
  | node h k v l r, sib, ⟨hl, hr, h3, h4⟩, hn => by
    simp only [Tree.count] at hn h4 ⊢
    have left : cmp k key = 0 → ∃ p, put cmp d key val (node h k v l r) sib = some p ∧ Lim n p.1 ∧
        p.1.count = l.count + r.count + 1 + 1 := by
      intro hk
      obtain ⟨p, e, g1, g2⟩ := put_lim hc h1 h2 (key := key) (val := val) r.isNil hl (by omega)
      obtain ⟨q, e2, g3, g4⟩ := rebIf_lim (one := true) (b := p.2) (h := h) (k := k) (v := v) h1 h2 g1 hr
        (by omega) h3 (by omega)
      exact ⟨q, by simp [put, hk, e, e2], g3, by omega⟩
    have right : (if cmp k key < 0 then 1 else cmp k key) = 1 →
        ∃ p, put cmp d key val (node h k v l r) sib = some p ∧ Lim n p.1 ∧
        p.1.count = l.count + r.count + 1 + 1 := by
      intro hk
      obtain ⟨p, e, g1, g2⟩ := put_lim hc h1 h2 (key := key) (val := val) l.isNil hr (by omega)
      obtain ⟨q, e2, g3, g4⟩ := rebIf_lim (one := true) (b := p.2) (h := h) (k := k) (v := v) h1 h2 hl g1
        (by omega) h3 (by omega)
      exact ⟨q, by simp [put, hk, e, e2], g3, by omega⟩
    rcases hc.range k key with hk | hk | hk
    · exact right (by rw [if_pos (by omega)])
    · exact left hk
    · exact right (by rw [if_neg (by omega), hk])

theorem remove_lim (hc : LawfulEx cmp) {n : Nat} {d : Int} (h1 : 1 ≤ d) (h2 : d ≤ 127) {key : K} :
    ∀ {t : T K V} (right : Bool), Lim n t → t.count + n ≤ 126 →
    ∃ p n', remove cmp d key t right = some p ∧ n ≤ n' ∧ Lim n' p.1 ∧ p.1.count + n' = t.count + n ∧
      (p.2.1 = none → n' = n)
  | nil, _, _, _ => ⟨_, n, rfl, Nat.le_refl _, trivial, rfl, fun _ => rfl⟩
  | node h k v l r, right, ⟨hl, hr, h3, h4⟩, hn => by
    simp only [Tree.count] at hn h4 ⊢
    have left := remove_lim hc h1 h2 (key := key) false hl (by omega)
    obtain ⟨p, n', e, g0, g1, g2, g5⟩ := left
    obtain ⟨q, e2, g3, g4⟩ := rebIf_lim (one := true) (b := p.2.2) (h := h) (k := k) (v := v) h1 h2 g1 (hr.weaken g0)
          (by omega) h3 (by omega)
    rw [remove]
    rcases hc.range k key with hk | hk | hk
    · rw [if_pos (by omega), e, Option.bind_some]
      split
      · rw [e2]
        exact ⟨_, n', rfl, g0, g3, by simp only [g4]; omega, g5⟩
      · next hs =>
        obtain rfl := g5 (by simpa using hs)
        obtain ⟨p', e3, g6, g7⟩ := removeHere_lim (one := true) (h := h) (k := k) (v := v) h1 h2 right g1 hr (by omega)
        refine ⟨p', n' + 1, e3, by omega, g6, by omega, fun hp => ?_⟩
        exact absurd (removeHere_some e3) (by simp [hp])
    · rw [if_neg (by omega), if_pos hk]
      simp only [e, Option.bind_some, e2, Option.map_some]
      exact ⟨_, n', rfl, g0, g3, by simp only [g4]; omega, g5⟩
    · rw [if_neg (by omega), if_neg (by omega), if_pos hk]
      obtain ⟨p, n', e, g0, g1, g2, g5⟩ := remove_lim hc h1 h2 (key := key) true hr (by omega)
      obtain ⟨q, e2, g3, g4⟩ := rebIf_lim (one := true) (b := p.2.2) (h := h) (k := k) (v := v) h1 h2 (hl.weaken g0) g1
          (by omega) h3 (by omega)
      simp only [e, Option.bind_some, e2, Option.map_some]
      exact ⟨_, n', rfl, g0, g3, by simp only [g4]; omega, g5⟩

theorem get_lim (hc : LawfulEx cmp) (key : K) : ∀ t : T K V, ∃ o, get cmp key t = some o
  | nil => ⟨_, rfl⟩
  | node h k v l r => by
    rw [get]
    obtain ⟨o, e⟩ := get_lim hc key l
    rcases hc.range k key with hk | hk | hk
    · rw [if_pos (by omega), e]; exact ⟨_, rfl⟩
    · rw [if_neg (by omega), if_pos hk]; exact ⟨o, e⟩
    · rw [if_neg (by omega), if_neg (by omega), if_pos hk]; exact get_lim hc key r

theorem setVal_lim (hc : LawfulEx cmp) {n : Nat} {key : K} {val : V} : ∀ {t : T K V}, Lim n t →
    ∃ p, setVal cmp key val t = some p ∧ Lim n p.1 ∧ p.1.count = t.count
  | nil, _ => ⟨_, rfl, trivial, rfl⟩
  | node h k v l r, ⟨hl, hr, h3, h4⟩ => by
    simp only [Tree.count] at h4
    rw [setVal]
    obtain ⟨p, e, g1, g2⟩ := setVal_lim hc (key := key) (val := val) hl
    rcases hc.range k key with hk | hk | hk
    · rw [if_pos (by omega), e, Option.map_some]
      split
      · exact ⟨_, rfl, ⟨g1, hr, h3, by simp only [Tree.count]; omega⟩, by simp only [Tree.count]; omega⟩
      · exact ⟨_, rfl, ⟨hl, hr, h3, h4⟩, rfl⟩
    · rw [if_neg (by omega), if_pos hk, e]
      exact ⟨_, rfl, ⟨g1, hr, h3, by simp only [Tree.count]; omega⟩, by simp only [Tree.count]; omega⟩
    · rw [if_neg (by omega), if_neg (by omega), if_pos hk]
      obtain ⟨p, e, g1, g2⟩ := setVal_lim hc (key := key) (val := val) hr
      rw [e]
      exact ⟨_, rfl, ⟨hl, g1, h3, by simp only [Tree.count]; omega⟩, by simp only [Tree.count]; omega⟩

/-- Does the call insert? -/
def Op.inserts : Op K V → Bool
  | .put _ _ | .insertIfAbsent _ _ | .set _ _ | .upsert _ _ => true
  | _ => false

theorem step_lim (hc : LawfulEx cmp) {n : Nat} {d : Int} (h1 : 1 ≤ d) (h2 : d ≤ 127)
    {m : Map K V} (hm : LimN n m) {op : Op K V} (ha : op.abstract = true)
    (hn : n + (if op.inserts then 1 else 0) ≤ 126) :
    ∃ m' r, step cmp d m op = some (m', r) ∧ LimN (n + if op.inserts then 1 else 0) m' := by
  obtain ⟨q, hl, hq⟩ := hm
  have hput : ∀ k v, n + 1 ≤ 126 → ∃ m', Map.put cmp d m k v = some m' ∧ LimN (n + 1) m' := by
    intro k v h3
    obtain ⟨p, e, g1, g2⟩ := put_lim hc h1 h2 (key := k) (val := v) false hl (by omega)
    exact ⟨_, by rw [Map.put, e]; rfl, q, g1, by simp only; omega⟩
  have hset : ∀ k v, n + 1 ≤ 126 → ∃ p, Map.set cmp d m k v = some p ∧ LimN (n + 1) p.1 := by
    intro k v h3
    obtain ⟨o, e⟩ := get_lim hc k m.root
    rw [Map.set, e, Option.bind_some]
    split
    · obtain ⟨t', e2, g1, g2⟩ := setVal_lim hc (key := k) (val := v) hl
      exact ⟨_, by rw [e2]; rfl, q, g1, by simp only; omega⟩
    · obtain ⟨m', e, g⟩ := hput k v h3
      exact ⟨_, by rw [e]; rfl, g⟩
  have hrem : ∀ k, ∃ p, Map.remove cmp d m k = some p ∧ LimN n p.1 := by
    intro k
    obtain ⟨p, n', e, -, g1, g2, -⟩ := remove_lim hc h1 h2 (key := k) true hl (by
      split at hn <;> omega)
    exact ⟨_, by rw [Map.remove, e]; rfl, n', g1, by simp only; omega⟩
  cases op with
  | put k v =>
    obtain ⟨m', e, g⟩ := hput k v hn
    exact ⟨_, _, by rw [step, e]; rfl, g⟩
  | insertIfAbsent k v =>
    obtain ⟨o, e⟩ := get_lim hc k m.root
    rw [step, Map.insertIfAbsent, e, Option.bind_some]
    split
    · exact ⟨_, _, rfl, q, hl, by simp only [Op.inserts, if_true]; omega⟩
    · obtain ⟨m', e, g⟩ := hput k v hn
      exact ⟨_, _, by rw [e]; rfl, g⟩
  | set k v =>
    obtain ⟨p, e, g⟩ := hset k v hn
    exact ⟨_, _, by rw [step, e]; rfl, g⟩
  | upsert k v =>
    obtain ⟨p, e, g⟩ := hset k v hn
    exact ⟨_, _, by rw [step, e]; rfl, g⟩
  | get k => obtain ⟨o, e⟩ := get_lim hc k m.root; exact ⟨m, _, by rw [step, e]; rfl, q, hl, hq⟩
  | remove k => obtain ⟨p, e, g⟩ := hrem k; exact ⟨_, _, by rw [step, e]; rfl, g⟩
  | delete k => obtain ⟨p, e, g⟩ := hrem k; exact ⟨_, _, by rw [step, e]; rfl, g⟩
  | clear => exact ⟨_, _, rfl, 0, trivial, by simp [Tree.count]⟩
  | height => simp [Op.abstract] at ha
  | _ => exact ⟨_, _, rfl, q, hl, hq⟩

/-- A history of at most 126 insertions never panics. -/
theorem run_lim (hc : LawfulEx cmp) {d : Int} (h1 : 1 ≤ d) (h2 : d ≤ 127) :
    ∀ (os : List (Op K V)) {n : Nat} {m : Map K V}, LimN n m → (∀ op ∈ os, op.abstract = true) →
      n + (os.filter Op.inserts).length ≤ 126 → ∃ m' rs, run (step cmp d) m os = some (m', rs)
  | [], _, m, _, _, _ => ⟨m, [], rfl⟩
  | op :: os, n, m, hm, ha, hn => by
    have e : ((op :: os).filter Op.inserts).length = (os.filter Op.inserts).length + if op.inserts then 1 else 0 := by
      rw [List.filter_cons]; split <;> simp
    obtain ⟨m', r, e1, g⟩ := step_lim hc h1 h2 hm (ha op List.mem_cons_self) (by omega)
    obtain ⟨m'', rs, e2⟩ := run_lim hc h1 h2 os g (fun o ho => ha o (List.mem_cons_of_mem _ ho)) (by omega)
    exact ⟨m'', r :: rs, by simp [run, e1, e2]⟩

end Verif.Avls
