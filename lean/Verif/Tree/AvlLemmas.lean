import Verif.Tree.AvlModel
import Mathlib.Algebra.Order.Ring.Int

/-! Lemmas on the AVL code shared by tree/avl, tree/avls and set/treeset. -/

set_option linter.unusedSectionVars false

namespace Verif.Avl
open Tree
variable {K V : Type}

/-! ### Order of the entries -/

theorem leftRotate_list {one : Bool} {t t' : T K V} (h : leftRotate one t = some t') :
    t'.toList = t.toList := by
  unfold leftRotate at h
  split at h
  · cases h; simp
  · cases h

theorem rightRotate_list {one : Bool} {t t' : T K V} (h : rightRotate one t = some t') :
    t'.toList = t.toList := by
  unfold rightRotate at h
  split at h
  · cases h; simp
  · cases h

theorem leftRotateWithRight_list {one : Bool} {t t' : T K V}
    (h : leftRotateWithRight one t = some t') : t'.toList = t.toList := by
  unfold leftRotateWithRight at h
  split at h
  · cases h; simp
  · cases h

theorem rightRotateWithLeft_list {one : Bool} {t t' : T K V}
    (h : rightRotateWithLeft one t = some t') : t'.toList = t.toList := by
  unfold rightRotateWithLeft at h
  split at h
  · cases h; simp
  · cases h

theorem rebalance_list {one : Bool} {d : Int} {t : T K V} {p : T K V × Bool}
    (h : rebalance one d t = some p) : p.1.toList = t.toList := by
  cases t with
  | nil => cases h
  | node hh k v l r =>
    simp only [rebalance] at h
    split at h
    · obtain ⟨s, -, h⟩ := Option.bind_eq_some_iff.1 h
      obtain ⟨t, h', rfl⟩ := Option.map_eq_some_iff.1 h
      split at h'
      · exact rightRotateWithLeft_list h'
      · exact rightRotate_list h'
    · split at h
      · obtain ⟨s, -, h⟩ := Option.bind_eq_some_iff.1 h
        obtain ⟨t, h', rfl⟩ := Option.map_eq_some_iff.1 h
        split at h'
        · exact leftRotateWithRight_list h'
        · exact leftRotate_list h'
      · split at h <;> split at h <;> cases h <;> rfl

theorem rebIf_list {one : Bool} {d : Int} {rb : Bool} {t : T K V} {p : T K V × Bool}
    (h : rebIf one d rb t = some p) : p.1.toList = t.toList := by
  unfold rebIf at h
  split at h
  · exact rebalance_list h
  · cases h; rfl

theorem neighboring_list {one : Bool} {d : Int} {right : Bool} {t : T K V}
    {p : T K V × (K × V) × Bool} (h : neighboring one d right t = some p) :
    if right then t.toList = p.1.toList ++ [p.2.1] else t.toList = p.2.1 :: p.1.toList := by
  induction t generalizing p with
  | nil => cases h
  | node hh k v l r ihl ihr =>
    cases right with
    | true =>
      simp only [neighboring, if_true] at h ⊢
      cases r with
      | nil => cases h; simp
      | node a b c e f =>
        obtain ⟨q, h1, h2⟩ := Option.bind_eq_some_iff.1 h
        obtain ⟨x, h3, rfl⟩ := Option.map_eq_some_iff.1 h2
        have := ihr h1
        have e := rebIf_list h3
        simp only [if_true] at this
        simp only [e, toList_node (l := l), this]
        simp
    | false =>
      simp only [neighboring, Bool.false_eq_true, if_false] at h ⊢
      cases l with
      | nil => cases h; simp
      | node a b c e f =>
        obtain ⟨q, h1, h2⟩ := Option.bind_eq_some_iff.1 h
        obtain ⟨x, h3, rfl⟩ := Option.map_eq_some_iff.1 h2
        have := ihl h1
        have e := rebIf_list h3
        simp only [Bool.false_eq_true, if_false] at this
        simp only [e, toList_node (r := r), this]
        simp

theorem removeHere_list {one : Bool} {d : Int} {right : Bool} {h : Int} {k : K} {v : V} {l r : T K V}
    {p : T K V × Option V × Bool} (hp : removeHere one d right (node h k v l r) = some p) :
    p.1.toList = l.toList ++ r.toList ∧ p.2.1 = some v := by
  simp only [removeHere] at hp
  cases l with
  | nil => simp only [isNil, if_true] at hp; cases hp; simp
  | node a b c e f =>
    cases r with
    | nil => simp only [isNil, if_true, Bool.false_eq_true, if_false] at hp; cases hp; simp
    | node a' b' c' e' f' =>
      simp only [isNil, Bool.false_eq_true, if_false] at hp
      split at hp
      · obtain ⟨q, h1, h2⟩ := Option.bind_eq_some_iff.1 hp
        obtain ⟨x, h3, rfl⟩ := Option.map_eq_some_iff.1 h2
        have h4 := neighboring_list h1
        have h5 := rebalance_list h3
        simp only [Bool.false_eq_true, if_false] at h4
        exact ⟨by rw [h5, h4]; rfl, rfl⟩
      · obtain ⟨q, h1, h2⟩ := Option.bind_eq_some_iff.1 hp
        obtain ⟨x, h3, rfl⟩ := Option.map_eq_some_iff.1 h2
        have h4 := neighboring_list h1
        have h5 := rebalance_list h3
        simp only [if_true] at h4
        exact ⟨by rw [h5, h4]; simp, rfl⟩

/-! ### Heights -/

/-- Recorded heights are the true ones. -/
def Exact : T K V → Prop
  | nil => True
  | node h _ _ l r => h = ((max l.height r.height + 1 : Nat) : Int) ∧ Exact l ∧ Exact r

/-- Sibling heights differ by less than `d`. -/
def Bal (d : Int) : T K V → Prop
  | nil => True
  | node _ _ _ l r => (l.height : Int) - r.height < d ∧ (r.height : Int) - l.height < d ∧
      Bal d l ∧ Bal d r

theorem Exact.hgt {t : T K V} (h : Exact t) : hgt t = (t.height : Int) := by
  cases t with
  | nil => rfl
  | node => exact h.1

theorem w8_id {x : Int} (h1 : -128 ≤ x) (h2 : x ≤ 127) : w8 x = x := by
  unfold w8
  rw [Int.emod_eq_of_lt (by omega) (by omega)]
  omega

/-- The configurations whose heights are exact: tree/avl with any threshold of at least one (default
1), the others with the default threshold 2. -/
structure Cfg (one : Bool) (d : Int) : Prop where
  lo : 1 ≤ d
  hi : d ≤ 127
  two : one = true → d = 2

/-- The invariant: exact heights, and balance if the threshold is at least two. -/
def Good (d : Int) (t : T K V) : Prop := Exact t ∧ (2 ≤ d → Bal d t)

theorem Good.nil {d : Int} : Good d (Tree.nil : T K V) := ⟨trivial, fun _ => trivial⟩

theorem newH_exact {one : Bool} {child : Nat} {l r : T K V} (hl : Exact l) (hr : Exact r)
    (h : l.height ≤ 126) (h' : r.height ≤ 126)
    (hc : one = true → if child = 0 then r.height ≤ l.height else l.height ≤ r.height) :
    newH one child l r = ((max l.height r.height + 1 : Nat) : Int) := by
  unfold newH
  rw [hl.hgt, hr.hgt]
  cases one with
  | true =>
    simp only [if_true]
    have := hc rfl
    split at this
    · next e => rw [if_pos e, hl.hgt, w8_id (by omega) (by omega)]; omega
    · next e => rw [if_neg e, hr.hgt, w8_id (by omega) (by omega)]; omega
  | false =>
    simp only [Bool.false_eq_true, if_false]
    split
    · rw [w8_id (by omega) (by omega)]; omega
    · rw [w8_id (by omega) (by omega)]; omega

theorem Exact.node {h : Int} {k : K} {v : V} {l r : T K V} (hl : Exact l) (hr : Exact r)
    (hh : h = ((max l.height r.height + 1 : Nat) : Int)) : Exact (node h k v l r) := ⟨hh, hl, hr⟩

/-- A node after one of its children changed: rebalancing succeeds, the heights are exact, and the
height is as expected. -/
theorem rebalance_ok {one : Bool} {d : Int} (cfg : Cfg one d) {h : Int} {k : K} {v : V}
    {l r : T K V} (hl : Good d l) (hr : Good d r) (bl : l.height ≤ 126) (br : r.height ≤ 126)
    (hd : 2 ≤ d → (l.height : Int) - r.height ≤ d ∧ (r.height : Int) - l.height ≤ d) :
    ∃ t' b, rebalance one d (Tree.node h k v l r) = some (t', b) ∧ Good d t' ∧
      max l.height r.height ≤ t'.height ∧ t'.height ≤ max l.height r.height + 1 ∧
      (b = false → (t'.height : Int) = h) ∧
      ((l.height : Int) - r.height < d → (r.height : Int) - l.height < d →
        t'.height = max l.height r.height + 1) := by
  have h1 := cfg.lo
  have h2 := cfg.hi
  have h3 := cfg.two
  have e1 := hl.1.hgt
  have e2 := hr.1.hgt
  simp only [rebalance]
  rw [e1, e2, w8_id (x := (l.height : Int) - r.height) (by omega) (by omega),
    w8_id (x := -d) (by omega) (by omega)]
  split
  · next c1 =>
    cases l with
    | nil => simp only [height] at c1; omega
    | node hh ks vs a b =>
      obtain ⟨⟨f1, f2, f3⟩, f4⟩ := hl
      have f5 := f2.hgt
      have f6 := f3.hgt
      simp only [kids, Option.bind_some, f5, f6]
      simp only [height] at *
      split
      · next c2 =>
        cases b with
        | nil => simp only [height] at c2; omega
        | node hb kb vb b0 b1 =>
          obtain ⟨g1, g2, g3⟩ := f3
          simp only [height] at *
          have u : 2 ≤ d → Bal d a ∧ Bal d b0 ∧ Bal d b1 ∧ Bal d r ∧
              (a.height : Int) - (max b0.height b1.height + 1 : Nat) < d ∧
              ((max b0.height b1.height + 1 : Nat) : Int) - a.height < d ∧
              (b0.height : Int) - b1.height < d ∧ (b1.height : Int) - b0.height < d := by
            intro hd2
            obtain ⟨x1, x2, x3, x4, x5, x6, x7⟩ := f4 hd2
            exact ⟨x3, x6, x7, hr.2 hd2, x1, x2, x4, x5⟩
          have k1 : newH one 1 b1 r = ((max b1.height r.height + 1 : Nat) : Int) :=
            newH_exact g3 hr.1 (by omega) br (by
              intro ho; have := h3 ho; rw [if_neg (by omega)]
              have := hd (by omega); have := u (by omega); omega)
          have k2 : newH one 0 a b0 = ((max a.height b0.height + 1 : Nat) : Int) :=
            newH_exact f2 g2 (by omega) (by omega) (by
              intro ho; have := h3 ho; rw [if_pos rfl]
              have := hd (by omega); have := u (by omega); omega)
          have x1 : Exact (Tree.node (newH one 1 b1 r) k v b1 r) := .node g3 hr.1 k1
          have x2 : Exact (Tree.node (newH one 0 a b0) ks vs a b0) := .node f2 g2 k2
          have k3 : newH one 1 (Tree.node (newH one 0 a b0) ks vs a b0)
              (Tree.node (newH one 1 b1 r) k v b1 r) =
              ((max (max a.height b0.height + 1) (max b1.height r.height + 1) + 1 : Nat) : Int) :=
            newH_exact x2 x1 (by simp only [height]; omega) (by simp only [height]; omega) (by
              intro ho; have := h3 ho; rw [if_neg (by omega)]; simp only [height]
              have := hd (by omega); have := u (by omega); omega)
          refine ⟨_, true, rfl, ⟨.node x2 x1 k3, ?_⟩, ?_, ?_, by simp, fun _ _ => by omega⟩
          · intro hd2
            obtain ⟨y1, y2, y3, y4, y5, y6, y7, y8⟩ := u hd2
            have := hd hd2
            simp only [Bal, height]
            refine ⟨by omega, by omega, ⟨by omega, by omega, y1, y2⟩, by omega, by omega, y3, y4⟩
          · simp only [height]; omega
          · simp only [height]; omega
      · next c2 =>
        have u : 2 ≤ d → Bal d a ∧ Bal d b ∧ Bal d r ∧
            (a.height : Int) - b.height < d ∧ (b.height : Int) - a.height < d := by
          intro hd2
          obtain ⟨x1, x2, x3, x4⟩ := f4 hd2
          exact ⟨x3, x4, hr.2 hd2, x1, x2⟩
        have k1 : newH one 0 b r = ((max b.height r.height + 1 : Nat) : Int) :=
          newH_exact f3 hr.1 (by omega) br (by
            intro ho; have := h3 ho; rw [if_pos rfl]
            have := hd (by omega); have := u (by omega); omega)
        have x1 : Exact (Tree.node (newH one 0 b r) k v b r) := .node f3 hr.1 k1
        have k3 : newH one 1 a (Tree.node (newH one 0 b r) k v b r) =
            ((max a.height (max b.height r.height + 1) + 1 : Nat) : Int) :=
          newH_exact f2 x1 (by omega) (by simp only [height]; omega) (by
            intro ho; have := h3 ho; rw [if_neg (by omega)]; simp only [height]
            have := hd (by omega); have := u (by omega); omega)
        refine ⟨_, true, rfl, ⟨.node f2 x1 k3, ?_⟩, ?_, ?_, by simp, fun _ _ => by omega⟩
        · intro hd2
          obtain ⟨y1, y2, y3, y4, y5⟩ := u hd2
          have := hd hd2
          simp only [Bal, height]
          refine ⟨by omega, by omega, y1, by omega, by omega, y2, y3⟩
        · simp only [height]; omega
        · simp only [height]; omega
  · next c1 =>
    split
    · next c1' =>
      cases r with
      | nil => simp only [height] at c1'; omega
      | node hh ks vs b a =>
        obtain ⟨⟨f1, f3, f2⟩, f4⟩ := hr
        have f5 := f2.hgt
        have f6 := f3.hgt
        simp only [kids, Option.bind_some, f5, f6]
        simp only [height] at *
        split
        · next c2 =>
          cases b with
          | nil => simp only [height] at c2; omega
          | node hb kb vb b0 b1 =>
            obtain ⟨g1, g2, g3⟩ := f3
            simp only [height] at *
            have u : 2 ≤ d → Bal d a ∧ Bal d b0 ∧ Bal d b1 ∧ Bal d l ∧
                (a.height : Int) - (max b0.height b1.height + 1 : Nat) < d ∧
                ((max b0.height b1.height + 1 : Nat) : Int) - a.height < d ∧
                (b0.height : Int) - b1.height < d ∧ (b1.height : Int) - b0.height < d := by
              intro hd2
              obtain ⟨x1, x2, ⟨x4, x5, x6, x7⟩, x3⟩ := f4 hd2
              exact ⟨x3, x6, x7, hl.2 hd2, x2, x1, x4, x5⟩
            have k1 : newH one 0 l b0 = ((max l.height b0.height + 1 : Nat) : Int) :=
              newH_exact hl.1 g2 bl (by omega) (by
                intro ho; have := h3 ho; rw [if_pos rfl]
                have := hd (by omega); have := u (by omega); omega)
            have k2 : newH one 1 b1 a = ((max b1.height a.height + 1 : Nat) : Int) :=
              newH_exact g3 f2 (by omega) (by omega) (by
                intro ho; have := h3 ho; rw [if_neg (by omega)]
                have := hd (by omega); have := u (by omega); omega)
            have x1 : Exact (Tree.node (newH one 0 l b0) k v l b0) := .node hl.1 g2 k1
            have x2 : Exact (Tree.node (newH one 1 b1 a) ks vs b1 a) := .node g3 f2 k2
            have k3 : newH one 0 (Tree.node (newH one 0 l b0) k v l b0)
                (Tree.node (newH one 1 b1 a) ks vs b1 a) =
                ((max (max l.height b0.height + 1) (max b1.height a.height + 1) + 1 : Nat) : Int) :=
              newH_exact x1 x2 (by simp only [height]; omega) (by simp only [height]; omega) (by
                intro ho; have := h3 ho; rw [if_pos rfl]; simp only [height]
                have := hd (by omega); have := u (by omega); omega)
            refine ⟨_, true, rfl, ⟨.node x1 x2 k3, ?_⟩, ?_, ?_, by simp, fun _ _ => by omega⟩
            · intro hd2
              obtain ⟨y1, y2, y3, y4, y5, y6, y7, y8⟩ := u hd2
              have := hd hd2
              simp only [Bal, height]
              refine ⟨by omega, by omega, ⟨by omega, by omega, y4, y2⟩, by omega, by omega, y3, y1⟩
            · simp only [height]; omega
            · simp only [height]; omega
        · next c2 =>
          have u : 2 ≤ d → Bal d a ∧ Bal d b ∧ Bal d l ∧
              (a.height : Int) - b.height < d ∧ (b.height : Int) - a.height < d := by
            intro hd2
            obtain ⟨x1, x2, x3, x4⟩ := f4 hd2
            exact ⟨x4, x3, hl.2 hd2, x2, x1⟩
          have k1 : newH one 1 l b = ((max l.height b.height + 1 : Nat) : Int) :=
            newH_exact hl.1 f3 bl (by omega) (by
              intro ho; have := h3 ho; rw [if_neg (by omega)]
              have := hd (by omega); have := u (by omega); omega)
          have x1 : Exact (Tree.node (newH one 1 l b) k v l b) := .node hl.1 f3 k1
          have k3 : newH one 0 (Tree.node (newH one 1 l b) k v l b) a =
              ((max (max l.height b.height + 1) a.height + 1 : Nat) : Int) :=
            newH_exact x1 f2 (by simp only [height]; omega) (by omega) (by
              intro ho; have := h3 ho; rw [if_pos rfl]; simp only [height]
              have := hd (by omega); have := u (by omega); omega)
          refine ⟨_, true, rfl, ⟨.node x1 f2 k3, ?_⟩, ?_, ?_, by simp, fun _ _ => by omega⟩
          · intro hd2
            obtain ⟨y1, y2, y3, y4, y5⟩ := u hd2
            have := hd hd2
            simp only [Bal, height]
            refine ⟨by omega, by omega, ⟨by omega, by omega, y3, y2⟩, y1⟩
          · simp only [height]; omega
          · simp only [height]; omega
    · next c1' =>
      rw [w8_id (x := (l.height : Int) + 1) (by omega) (by omega),
        w8_id (x := (r.height : Int) + 1) (by omega) (by omega)]
      have bal : 2 ≤ d → ∀ h', Bal d (Tree.node h' k v l r) := fun hd2 h' =>
        ⟨by omega, by omega, hl.2 hd2, hr.2 hd2⟩
      split
      · next c2 =>
        split
        · exact ⟨_, true, rfl, ⟨.node hl.1 hr.1 (by omega), fun hd2 => bal hd2 _⟩,
            by simp only [height]; omega, by simp only [height]; omega, by simp, fun _ _ => rfl⟩
        · next c3 =>
          have c3 : h = (l.height : Int) + 1 := by simpa using c3
          exact ⟨_, false, rfl, ⟨.node hl.1 hr.1 (by omega), fun hd2 => bal hd2 _⟩,
            by simp only [height]; omega, by simp only [height]; omega,
            fun _ => by simp only [height]; omega, fun _ _ => rfl⟩
      · next c2 =>
        split
        · exact ⟨_, true, rfl, ⟨.node hl.1 hr.1 (by omega), fun hd2 => bal hd2 _⟩,
            by simp only [height]; omega, by simp only [height]; omega, by simp, fun _ _ => rfl⟩
        · next c3 =>
          have c3 : h = (r.height : Int) + 1 := by simpa using c3
          exact ⟨_, false, rfl, ⟨.node hl.1 hr.1 (by omega), fun hd2 => bal hd2 _⟩,
            by simp only [height]; omega, by simp only [height]; omega,
            fun _ => by simp only [height]; omega, fun _ _ => rfl⟩

/-- The same with the flag. -/
theorem rebIf_ok {one : Bool} {d : Int} (cfg : Cfg one d) {h : Int} {k : K} {v : V}
    {l r : T K V} (rb : Bool) (hl : Good d l) (hr : Good d r) (bl : l.height ≤ 126)
    (br : r.height ≤ 126)
    (hd : 2 ≤ d → (l.height : Int) - r.height ≤ d ∧ (r.height : Int) - l.height ≤ d)
    (hf : rb = false → Good d (Tree.node h k v l r)) :
    ∃ t' b, rebIf one d rb (Tree.node h k v l r) = some (t', b) ∧ Good d t' ∧
      max l.height r.height ≤ t'.height ∧ t'.height ≤ max l.height r.height + 1 ∧
      (b = false → (t'.height : Int) = h) ∧
      ((l.height : Int) - r.height < d → (r.height : Int) - l.height < d →
        t'.height = max l.height r.height + 1) := by
  unfold rebIf
  cases rb with
  | true => exact rebalance_ok cfg hl hr bl br hd
  | false =>
    have := hf rfl
    exact ⟨_, false, rfl, this, by simp only [height]; omega, by simp only [height]; omega,
      fun _ => by rw [this.1.1]; rfl, fun _ _ => rfl⟩

theorem neighboring_ok {one : Bool} {d : Int} (cfg : Cfg one d) (right : Bool) {t : T K V}
    (ht : Good d t) (hb : t.height ≤ 127) (hn : t ≠ nil) :
    ∃ t' e b, neighboring one d right t = some (t', e, b) ∧ Good d t' ∧
      t'.height ≤ t.height ∧ (2 ≤ d → t.height ≤ t'.height + 1) ∧ (b = false → t'.height = t.height) := by
  induction t with
  | nil => exact absurd rfl hn
  | node h k v l r ihl ihr =>
    obtain ⟨⟨e0, e1, e2⟩, e3⟩ := ht
    have gl : Good d l := ⟨e1, fun h => (e3 h).2.2.1⟩
    have gr : Good d r := ⟨e2, fun h => (e3 h).2.2.2⟩
    simp only [height] at hb
    simp only [neighboring]
    cases right with
    | true =>
      simp only [if_true]
      cases r with
      | nil => exact ⟨_, _, _, rfl, gl, by simp only [height]; omega,
          fun hd => by have := e3 hd; simp only [Bal, height] at this ⊢; omega, by simp⟩
      | node a b c e f =>
        obtain ⟨t', x, rb, h1, h2, h3, h4, h5⟩ := ihr gr (by omega) (by simp)
        obtain ⟨t'', b'', g1, g2, g3, g4, g5, g6⟩ := rebIf_ok cfg (h := h) (k := k) (v := v) rb gl h2
          (by omega) (by omega) (fun hd => by have := e3 hd; simp only [Bal] at this; omega) (by
            intro hrb
            have := h5 hrb
            refine ⟨.node e1 h2.1 (by rw [e0, this]), fun hd => ?_⟩
            have u := e3 hd
            simp only [Bal] at u ⊢
            rw [this]
            exact ⟨u.1, u.2.1, gl.2 hd, h2.2 hd⟩)
        refine ⟨t'', x, b'', ?_, g2, ?_, ?_, ?_⟩
        · simp only [h1, Option.bind_some, g1, Option.map_some]
        · rw [Tree.height]; omega
        · intro hd
          have u := e3 hd
          simp only [Bal] at u
          rw [Tree.height]; omega
        · intro hb'
          have := g5 hb'
          rw [e0] at this
          rw [Tree.height]; omega
    | false =>
      simp only [Bool.false_eq_true, if_false]
      cases l with
      | nil => exact ⟨_, _, _, rfl, gr, by simp only [height]; omega,
          fun hd => by have := e3 hd; simp only [Bal, height] at this ⊢; omega, by simp⟩
      | node a b c e f =>
        obtain ⟨t', x, rb, h1, h2, h3, h4, h5⟩ := ihl gl (by omega) (by simp)
        obtain ⟨t'', b'', g1, g2, g3, g4, g5, g6⟩ := rebIf_ok cfg (h := h) (k := k) (v := v) rb h2 gr
          (by omega) (by omega) (fun hd => by have := e3 hd; simp only [Bal] at this; omega) (by
            intro hrb
            have := h5 hrb
            refine ⟨.node h2.1 e2 (by rw [e0, this]), fun hd => ?_⟩
            have u := e3 hd
            simp only [Bal] at u ⊢
            rw [this]
            exact ⟨u.1, u.2.1, h2.2 hd, gr.2 hd⟩)
        refine ⟨t'', x, b'', ?_, g2, ?_, ?_, ?_⟩
        · simp only [h1, Option.bind_some, g1, Option.map_some]
        · rw [Tree.height]; omega
        · intro hd
          have u := e3 hd
          simp only [Bal] at u
          rw [Tree.height]; omega
        · intro hb'
          have := g5 hb'
          rw [e0] at this
          rw [Tree.height]; omega

theorem removeHere_ok {one : Bool} {d : Int} (cfg : Cfg one d) (right : Bool) {t : T K V}
    (ht : Good d t) (hb : t.height ≤ 127) (hn : t ≠ nil) :
    ∃ t' e b, removeHere one d right t = some (t', e, b) ∧ Good d t' ∧
      t'.height ≤ t.height ∧ (2 ≤ d → t.height ≤ t'.height + 1) ∧ (b = false → t'.height = t.height) := by
  cases t with
  | nil => exact absurd rfl hn
  | node h k v l r =>
    obtain ⟨⟨e0, e1, e2⟩, e3⟩ := ht
    have gl : Good d l := ⟨e1, fun h => (e3 h).2.2.1⟩
    have gr : Good d r := ⟨e2, fun h => (e3 h).2.2.2⟩
    simp only [height] at hb
    simp only [removeHere]
    cases hl : l.isNil with
    | true =>
      have : l = nil := by cases l <;> simp_all [isNil]
      subst this
      exact ⟨_, _, _, by simp only [if_true]; rfl, gr, by simp only [height]; omega,
        fun hd => by have := e3 hd; simp only [Bal, height] at this ⊢; omega, by simp⟩
    | false =>
      have hl' : l ≠ nil := by rintro rfl; simp [isNil] at hl
      cases hr : r.isNil with
      | true =>
        have : r = nil := by cases r <;> simp_all [isNil]
        subst this
        exact ⟨_, _, _, by simp only [Bool.false_eq_true, if_false, if_true]; rfl, gl,
          by simp only [height]; omega,
          fun hd => by have := e3 hd; simp only [Bal, height] at this ⊢; omega, by simp⟩
      | false =>
        have hr' : r ≠ nil := by rintro rfl; simp [isNil] at hr
        simp only [Bool.false_eq_true, if_false]
        cases right with
        | true =>
          simp only [if_true]
          obtain ⟨t', x, rb, h1, h2, h3, h4, h5⟩ := neighboring_ok cfg false gr (by omega) hr'
          obtain ⟨t'', b'', g1, g2, g3, g4, g5, g6⟩ := rebalance_ok cfg (h := h) (k := x.1) (v := x.2)
            gl h2 (by omega) (by omega)
            (fun hd => by have := e3 hd; simp only [Bal] at this; omega)
          refine ⟨t'', some v, b'', ?_, g2, ?_, ?_, ?_⟩
          · simp only [h1, Option.bind_some, g1, Option.map_some]
          · rw [Tree.height]; omega
          · intro hd
            have u := e3 hd
            simp only [Bal] at u
            rw [Tree.height]; omega
          · intro hb'
            have := g5 hb'
            rw [e0] at this
            rw [Tree.height]; omega
        | false =>
          simp only [Bool.false_eq_true, if_false]
          obtain ⟨t', x, rb, h1, h2, h3, h4, h5⟩ := neighboring_ok cfg true gl (by omega) hl'
          obtain ⟨t'', b'', g1, g2, g3, g4, g5, g6⟩ := rebalance_ok cfg (h := h) (k := x.1) (v := x.2)
            h2 gr (by omega) (by omega)
            (fun hd => by have := e3 hd; simp only [Bal] at this; omega)
          refine ⟨t'', some v, b'', ?_, g2, ?_, ?_, ?_⟩
          · simp only [h1, Option.bind_some, g1, Option.map_some]
          · rw [Tree.height]; omega
          · intro hd
            have u := e3 hd
            simp only [Bal] at u
            rw [Tree.height]; omega
          · intro hb'
            have := g5 hb'
            rw [e0] at this
            rw [Tree.height]; omega

/-! ### `put`, `get`, `remove` -/

section
variable {cmp : K → K → Int} (hc : LawfulEx cmp)

/-- The order described by the comparator. -/
abbrev ord (cmp : K → K → Int) (a b : K) : Ordering := exOrd (cmp a b)

theorem cmp_cases (hc : LawfulEx cmp) (a b : K) :
    (cmp a b < 0 ∧ ord cmp a b = .eq) ∨ (cmp a b = 0 ∧ ord cmp a b = .gt) ∨
      (cmp a b = 1 ∧ ord cmp a b = .lt) := by
  rcases hc.range a b with h | h | h <;> simp [ord, exOrd, h]

include hc

/-- The entries after `put`. -/
theorem put_list {one : Bool} {d : Int} {key : K} {val : V} {upd : K × V → K × V} {t : T K V}
    {sib : Bool} {p : T K V × Bool × Bool} (hs : Sorted (ord cmp) t.toList)
    (h : put cmp one d key val upd t sib = some p) :
    p.1.toList = below (ord cmp) key t.toList ++
      (if (same (ord cmp) key t.toList).isEmpty then [(key, val)]
        else (same (ord cmp) key t.toList).map upd) ++ above (ord cmp) key t.toList ∧
    p.2.1 = !(same (ord cmp) key t.toList).isEmpty := by
  have := hc.trans
  induction t generalizing sib p with
  | nil => cases h; simp
  | node hh k v l r ihl ihr =>
    have hs' := hs
    rw [toList_node] at hs'
    obtain ⟨s1, s2, -⟩ := Sorted.split.1 hs'
    simp only [put] at h
    rcases cmp_cases hc k key with ⟨c, oc⟩ | ⟨c, oc⟩ | ⟨c, oc⟩
    · rw [if_pos c] at h
      cases h
      obtain ⟨x1, x2, x3⟩ := split_eq' hs' (k := key) oc
      rw [← toList_node hh] at x1 x2 x3
      simp only [x1, x2, x3]
      simp
    · rw [if_neg (by omega), if_pos c] at h
      obtain ⟨q, h1, h2⟩ := Option.bind_eq_some_iff.1 h
      obtain ⟨i1, i2⟩ := ihl s1 h1
      have hq : p.1.toList = q.1.toList ++ (k, v) :: r.toList ∧ p.2.1 = q.2.1 := by
        split at h2
        · cases h2; exact ⟨rfl, rfl⟩
        · obtain ⟨x, h3, rfl⟩ := Option.map_eq_some_iff.1 h2
          exact ⟨rebalance_list h3, rfl⟩
      obtain ⟨x1, x2, x3⟩ := split_gt hs'.le (k := key) oc
      rw [hq.1, hq.2, i1, i2, toList_node, x1, x2, x3]
      simp
    · rw [if_neg (by omega), if_neg (by omega), if_pos c] at h
      obtain ⟨q, h1, h2⟩ := Option.bind_eq_some_iff.1 h
      obtain ⟨i1, i2⟩ := ihr s2 h1
      have hq : p.1.toList = l.toList ++ (k, v) :: q.1.toList ∧ p.2.1 = q.2.1 := by
        split at h2
        · cases h2; exact ⟨rfl, rfl⟩
        · obtain ⟨x, h3, rfl⟩ := Option.map_eq_some_iff.1 h2
          exact ⟨rebalance_list h3, rfl⟩
      obtain ⟨x1, x2, x3⟩ := split_lt hs'.le (k := key) oc
      rw [hq.1, hq.2, i1, i2, toList_node, x1, x2, x3]
      simp

theorem get_eq {key : K} {t : T K V} (hs : Sorted (ord cmp) t.toList) :
    get cmp key t = some (same (ord cmp) key t.toList).head? := by
  have := hc.trans
  induction t with
  | nil => rfl
  | node hh k v l r ihl ihr =>
    have hs' := hs
    rw [toList_node] at hs'
    obtain ⟨s1, s2, -⟩ := Sorted.split.1 hs'
    simp only [get]
    rcases cmp_cases hc k key with ⟨c, oc⟩ | ⟨c, oc⟩ | ⟨c, oc⟩
    · rw [if_pos c, toList_node, (split_eq' hs' (k := key) oc).2.1]; rfl
    · rw [if_neg (by omega), if_pos c, ihl s1, toList_node, (split_gt hs'.le (k := key) oc).2.1]
    · rw [if_neg (by omega), if_neg (by omega), if_pos c, ihr s2, toList_node,
        (split_lt hs'.le (k := key) oc).2.1]

theorem setVal_ok {key : K} {val : V} {t : T K V} (hs : Sorted (ord cmp) t.toList) :
    ∃ t', setVal cmp key val t = some t' ∧
      t'.toList = below (ord cmp) key t.toList ++
        (same (ord cmp) key t.toList).map (fun e => (e.1, val)) ++ above (ord cmp) key t.toList ∧
      t'.height = t.height ∧ (Exact t → Exact t') ∧ ∀ d, Bal d t → Bal d t' := by
  have := hc.trans
  induction t with
  | nil => exact ⟨_, rfl, rfl, rfl, id, fun _ => id⟩
  | node hh k v l r ihl ihr =>
    have hs' := hs
    rw [toList_node] at hs'
    obtain ⟨s1, s2, -⟩ := Sorted.split.1 hs'
    simp only [setVal]
    rcases cmp_cases hc k key with ⟨c, oc⟩ | ⟨c, oc⟩ | ⟨c, oc⟩
    · obtain ⟨x1, x2, x3⟩ := split_eq' hs' (k := key) oc
      rw [if_pos c]
      exact ⟨_, rfl, by simp only [toList_node]; rw [x1, x2, x3]; simp, rfl, id, fun _ => id⟩
    · obtain ⟨t', h1, h2, h3, h4, h5⟩ := ihl s1
      obtain ⟨x1, x2, x3⟩ := split_gt hs'.le (k := key) oc
      refine ⟨node hh k v t' r, by rw [if_neg (by omega), if_pos c, h1]; rfl, ?_, ?_, ?_, ?_⟩
      · rw [toList_node, h2, toList_node, x1, x2, x3]; simp
      · simp only [height, h3]
      · rintro ⟨a, b, c⟩; exact ⟨by rw [a, h3], h4 b, c⟩
      · rintro d ⟨a, a', b, c⟩; exact ⟨by rw [h3]; exact a, by rw [h3]; exact a', h5 d b, c⟩
    · obtain ⟨t', h1, h2, h3, h4, h5⟩ := ihr s2
      obtain ⟨x1, x2, x3⟩ := split_lt hs'.le (k := key) oc
      refine ⟨node hh k v l t', by rw [if_neg (by omega), if_neg (by omega), if_pos c, h1]; rfl,
        ?_, ?_, ?_, ?_⟩
      · rw [toList_node, h2, toList_node, x1, x2, x3]; simp
      · simp only [height, h3]
      · rintro ⟨a, b, c⟩; exact ⟨by rw [a, h3], b, h4 c⟩
      · rintro d ⟨a, a', b, c⟩; exact ⟨by rw [h3]; exact a, by rw [h3]; exact a', b, h5 d c⟩

/-- The entries after `remove`. -/
theorem remove_list {one : Bool} {d : Int} {key : K} {t : T K V} {right : Bool}
    {p : T K V × Option V × Bool} (hs : Sorted (ord cmp) t.toList)
    (h : remove one d cmp key t right = some p) :
    p.1.toList = below (ord cmp) key t.toList ++ above (ord cmp) key t.toList ∧
    p.2.1 = (same (ord cmp) key t.toList).head?.map (·.2) := by
  have := hc.trans
  induction t generalizing right p with
  | nil => cases h; exact ⟨rfl, rfl⟩
  | node hh k v l r ihl ihr =>
    have hs' := hs
    rw [toList_node] at hs'
    obtain ⟨s1, s2, -⟩ := Sorted.split.1 hs'
    simp only [remove] at h
    rcases cmp_cases hc k key with ⟨c, oc⟩ | ⟨c, oc⟩ | ⟨c, oc⟩
    · rw [if_pos c] at h
      obtain ⟨h1, h2⟩ := removeHere_list h
      obtain ⟨x1, x2, x3⟩ := split_eq' hs' (k := key) oc
      rw [toList_node, x1, x2, x3]
      exact ⟨h1, h2⟩
    · rw [if_neg (by omega), if_pos c] at h
      obtain ⟨q, h1, h2⟩ := Option.bind_eq_some_iff.1 h
      obtain ⟨x, h3, rfl⟩ := Option.map_eq_some_iff.1 h2
      obtain ⟨i1, i2⟩ := ihl s1 h1
      have e := rebIf_list h3
      obtain ⟨x1, x2, x3⟩ := split_gt hs'.le (k := key) oc
      rw [toList_node, x1, x2, x3]
      exact ⟨by rw [e, toList_node, i1]; simp, i2⟩
    · rw [if_neg (by omega), if_neg (by omega), if_pos c] at h
      obtain ⟨q, h1, h2⟩ := Option.bind_eq_some_iff.1 h
      obtain ⟨x, h3, rfl⟩ := Option.map_eq_some_iff.1 h2
      obtain ⟨i1, i2⟩ := ihr s2 h1
      have e := rebIf_list h3
      obtain ⟨x1, x2, x3⟩ := split_lt hs'.le (k := key) oc
      rw [toList_node, x1, x2, x3]
      exact ⟨by rw [e, toList_node, i1]; simp, i2⟩

omit hc in
/-- `put` succeeds and keeps the heights exact; the order of the keys does not matter. -/
theorem put_ok_range (hr : ∀ a b, cmp a b < 0 ∨ cmp a b = 0 ∨ cmp a b = 1) {one : Bool} {d : Int} (cfg : Cfg one d) {key : K} {val : V} {upd : K × V → K × V}
    {t : T K V} {sib : Bool} (ht : Good d t) (hb : t.height ≤ 126) :
    ∃ t' ex rb, put cmp one d key val upd t sib = some (t', ex, rb) ∧ Good d t' ∧
      (2 ≤ d → t.height ≤ t'.height) ∧ t'.height ≤ t.height + 1 ∧ (ex = true → rb = false) ∧
      (rb = false → t'.height = t.height ∨ (t = nil ∧ sib = false)) := by
  induction t generalizing sib with
  | nil => exact ⟨_, false, sib, rfl, ⟨⟨rfl, trivial, trivial⟩, fun hd => ⟨by simp [height]; omega,
      by simp [height]; omega, trivial, trivial⟩⟩, by simp [height], by simp [height], by simp,
      fun h => .inr ⟨rfl, h⟩⟩
  | node h k v l r ihl ihr =>
    obtain ⟨⟨e0, e1, e2⟩, e3⟩ := ht
    have gl : Good d l := ⟨e1, fun h => (e3 h).2.2.1⟩
    have gr : Good d r := ⟨e2, fun h => (e3 h).2.2.2⟩
    simp only [height] at hb
    simp only [put]
    rcases hr k key with c | c | c
    · rw [if_pos c]
      exact ⟨_, _, _, rfl, ⟨⟨e0, e1, e2⟩, e3⟩, fun _ => by simp only [height]; omega,
        by simp only [height]; omega, fun _ => rfl, fun _ => .inl rfl⟩
    · rw [if_neg (by omega), if_pos c]
      obtain ⟨t', ex, rb, h1, h2, h3, h4, h5, h6⟩ := ihl (sib := r.isNil) gl (by omega)
      simp only [h1, Option.bind_some]
      by_cases hx : rb = false
      · subst hx
        rw [if_pos (by simp)]
        have key : max t'.height r.height = max l.height r.height ∧
            (2 ≤ d → (t'.height : Int) - r.height < d ∧ (r.height : Int) - t'.height < d) := by
          rcases h6 rfl with e | ⟨e', e⟩
          · rw [e]; exact ⟨rfl, fun hd => ⟨(e3 hd).1, (e3 hd).2.1⟩⟩
          · have q1 : 1 ≤ r.height := by cases r <;> simp_all [isNil, height]
            have q2 : l.height = 0 := by rw [e']; rfl
            refine ⟨by omega, fun hd => ?_⟩
            have q3 := (e3 hd).1
            have q4 := (e3 hd).2.1
            omega
        refine ⟨_, _, _, rfl, ⟨⟨by rw [e0, key.1], h2.1, e2⟩, fun hd => ⟨(key.2 hd).1, (key.2 hd).2,
          h2.2 hd, gr.2 hd⟩⟩, ?_, ?_, fun _ => rfl, ?_⟩
        · intro _; simp only [height]; omega
        · simp only [height]; omega
        · intro _; left; simp only [height]; omega
      · have hex : ex = false := by
          cases ex
          · rfl
          · exact absurd (h5 rfl) hx
        rw [Bool.not_eq_false] at hx
        subst hx hex
        rw [if_neg (by simp)]
        obtain ⟨t'', b'', g1, g2, g3, g4, g5, g6⟩ := rebalance_ok cfg (h := h) (k := k) (v := v)
            h2 gr (by omega) (by omega)
            (fun hd => by have := h3 hd; have := (e3 hd).1; have := (e3 hd).2.1; omega)
        refine ⟨t'', false, b'', by rw [g1]; rfl, g2, ?_, ?_, by simp, ?_⟩
        · intro hd
          have := h3 hd; have := (e3 hd).1; have := (e3 hd).2.1
          rw [Tree.height]; omega
        · rw [Tree.height]; omega
        · intro hb'
          left
          have := g5 hb'
          rw [e0] at this
          rw [Tree.height]; omega
    · rw [if_neg (by omega), if_neg (by omega), if_pos c]
      obtain ⟨t', ex, rb, h1, h2, h3, h4, h5, h6⟩ := ihr (sib := l.isNil) gr (by omega)
      simp only [h1, Option.bind_some]
      by_cases hx : rb = false
      · subst hx
        rw [if_pos (by simp)]
        have key : max l.height t'.height = max l.height r.height ∧
            (2 ≤ d → (l.height : Int) - t'.height < d ∧ (t'.height : Int) - l.height < d) := by
          rcases h6 rfl with e | ⟨e', e⟩
          · rw [e]; exact ⟨rfl, fun hd => ⟨(e3 hd).1, (e3 hd).2.1⟩⟩
          · have q1 : 1 ≤ l.height := by cases l <;> simp_all [isNil, height]
            have q2 : r.height = 0 := by rw [e']; rfl
            refine ⟨by omega, fun hd => ?_⟩
            have q3 := (e3 hd).1
            have q4 := (e3 hd).2.1
            omega
        refine ⟨_, _, _, rfl, ⟨⟨by rw [e0, key.1], e1, h2.1⟩, fun hd => ⟨(key.2 hd).1, (key.2 hd).2,
          gl.2 hd, h2.2 hd⟩⟩, ?_, ?_, fun _ => rfl, ?_⟩
        · intro _; simp only [height]; omega
        · simp only [height]; omega
        · intro _; left; simp only [height]; omega
      · have hex : ex = false := by
          cases ex
          · rfl
          · exact absurd (h5 rfl) hx
        rw [Bool.not_eq_false] at hx
        subst hx hex
        rw [if_neg (by simp)]
        obtain ⟨t'', b'', g1, g2, g3, g4, g5, g6⟩ := rebalance_ok cfg (h := h) (k := k) (v := v)
            gl h2 (by omega) (by omega)
            (fun hd => by have := h3 hd; have := (e3 hd).1; have := (e3 hd).2.1; omega)
        refine ⟨t'', false, b'', by rw [g1]; rfl, g2, ?_, ?_, by simp, ?_⟩
        · intro hd
          have := h3 hd; have := (e3 hd).1; have := (e3 hd).2.1
          rw [Tree.height]; omega
        · rw [Tree.height]; omega
        · intro hb'
          left
          have := g5 hb'
          rw [e0] at this
          rw [Tree.height]; omega

/-- `put` succeeds and keeps the heights exact. -/
theorem put_ok {one : Bool} {d : Int} (cfg : Cfg one d) {key : K} {val : V} {upd : K × V → K × V}
    {t : T K V} {sib : Bool} (ht : Good d t) (hb : t.height ≤ 126) :
    ∃ t' ex rb, put cmp one d key val upd t sib = some (t', ex, rb) ∧ Good d t' ∧
      (2 ≤ d → t.height ≤ t'.height) ∧ t'.height ≤ t.height + 1 ∧ (ex = true → rb = false) ∧
      (rb = false → t'.height = t.height ∨ (t = nil ∧ sib = false)) :=
  put_ok_range (fun a b => (hc.range a b).imp_left fun h => by omega) cfg ht hb

/-- `remove` succeeds and keeps the heights exact. -/
theorem remove_ok {one : Bool} {d : Int} (cfg : Cfg one d) {key : K} {t : T K V} {right : Bool}
    (ht : Good d t) (hb : t.height ≤ 127) :
    ∃ t' o b, remove one d cmp key t right = some (t', o, b) ∧ Good d t' ∧
      t'.height ≤ t.height ∧ (2 ≤ d → t.height ≤ t'.height + 1) ∧
      (b = false → t'.height = t.height) := by
  induction t generalizing right with
  | nil => exact ⟨_, _, _, rfl, ht, Nat.le_refl _, fun _ => by omega, fun _ => rfl⟩
  | node h k v l r ihl ihr =>
    simp only [remove]
    rcases cmp_cases hc k key with ⟨c, oc⟩ | ⟨c, oc⟩ | ⟨c, oc⟩
    · rw [if_pos c]
      exact removeHere_ok cfg right ht hb (by simp)
    · obtain ⟨⟨e0, e1, e2⟩, e3⟩ := ht
      have gl : Good d l := ⟨e1, fun h => (e3 h).2.2.1⟩
      have gr : Good d r := ⟨e2, fun h => (e3 h).2.2.2⟩
      simp only [height] at hb
      rw [if_neg (by omega), if_pos c]
      obtain ⟨t', o, rb, h1, h2, h3, h4, h5⟩ := ihl (right := false) gl (by omega)
      simp only [h1, Option.bind_some]
      obtain ⟨t'', b'', g1, g2, g3, g4, g5, g6⟩ := rebIf_ok cfg (h := h) (k := k) (v := v) rb
          h2 gr (by omega) (by omega)
          (fun hd => by have := h4 hd; have := (e3 hd).1; have := (e3 hd).2.1; omega)
          (fun hb' => ⟨.node h2.1 e2 (by rw [e0, h5 hb']), fun hd => by simp only [Bal]; rw [h5 hb']; exact ⟨(e3 hd).1, (e3 hd).2.1, h2.2 hd, gr.2 hd⟩⟩)
      refine ⟨t'', o, b'', by rw [g1]; rfl, g2, ?_, ?_, ?_⟩
      · rw [Tree.height]; omega
      · intro hd
        have := h4 hd; have := (e3 hd).1; have := (e3 hd).2.1
        rw [Tree.height]; omega
      · intro hb'
        have := g5 hb'
        rw [e0] at this
        rw [Tree.height]; omega
    · obtain ⟨⟨e0, e1, e2⟩, e3⟩ := ht
      have gl : Good d l := ⟨e1, fun h => (e3 h).2.2.1⟩
      have gr : Good d r := ⟨e2, fun h => (e3 h).2.2.2⟩
      simp only [height] at hb
      rw [if_neg (by omega), if_neg (by omega), if_pos c]
      obtain ⟨t', o, rb, h1, h2, h3, h4, h5⟩ := ihr (right := true) gr (by omega)
      simp only [h1, Option.bind_some]
      obtain ⟨t'', b'', g1, g2, g3, g4, g5, g6⟩ := rebIf_ok cfg (h := h) (k := k) (v := v) rb
          gl h2 (by omega) (by omega)
          (fun hd => by have := h4 hd; have := (e3 hd).1; have := (e3 hd).2.1; omega)
          (fun hb' => ⟨.node e1 h2.1 (by rw [e0, h5 hb']), fun hd => by simp only [Bal]; rw [h5 hb']; exact ⟨(e3 hd).1, (e3 hd).2.1, gl.2 hd, h2.2 hd⟩⟩)
      refine ⟨t'', o, b'', by rw [g1]; rfl, g2, ?_, ?_, ?_⟩
      · rw [Tree.height]; omega
      · intro hd
        have := h4 hd; have := (e3 hd).1; have := (e3 hd).2.1
        rw [Tree.height]; omega
      · intro hb'
        have := g5 hb'
        rw [e0] at this
        rw [Tree.height]; omega

end

end Verif.Avl
