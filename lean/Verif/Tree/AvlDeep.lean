import Verif.Tree.AvlSpec
import Mathlib.Tactic.SplitIfs

/-! Shapes of trees of tree/avl with the default threshold 1, and calls that lead from one to another. A shape is a
tree with its recorded heights and without its keys. -/

namespace Verif.Avl.Deep

open Tree

/-- A tree without keys. -/
abbrev S := T Unit Unit

abbrev nd (h : Int) (l r : S) : S := node h () () l r

/-- The shapes that one call makes of a shape: a leaf put at an empty place (first argument `true`), or a node
without left child removed. The flag is `isRebalance`; `sib` as for `put`. -/
inductive Ev : Bool → Bool → S → S → Bool → Prop
  | ins (sib : Bool) : Ev true sib nil (nd 1 nil nil) sib
  | del (sib : Bool) (h : Int) (r : S) : Ev false sib (nd h nil r) r true
  | leftF {k sib : Bool} {h : Int} {l l' r : S} : Ev k r.isNil l l' false →
      Ev k sib (nd h l r) (nd h l' r) false
  | rightF {k sib : Bool} {h : Int} {l r r' : S} : Ev k l.isNil r r' false →
      Ev k sib (nd h l r) (nd h l r') false
  | leftT {k sib : Bool} {h : Int} {l l' r t : S} {f : Bool} : Ev k r.isNil l l' true →
      rebalance false 1 (nd h l' r) = some (t, f) → Ev k sib (nd h l r) t f
  | rightT {k sib : Bool} {h : Int} {l r r' t : S} {f : Bool} : Ev k l.isNil r r' true →
      rebalance false 1 (nd h l r') = some (t, f) → Ev k sib (nd h l r) t f

/-- The same wherever the subtree is. -/
def E (s s' : S) (f : Bool) : Prop := ∃ k, ∀ sib, Ev k sib s s' f

theorem E.of {s s' : S} {f : Bool} (k : Bool) (h : ∀ sib, Ev k sib s s' f) : E s s' f := ⟨k, h⟩
theorem E.leftF {h : Int} {l l' r : S} : E l l' false → E (nd h l r) (nd h l' r) false :=
  fun ⟨k, e⟩ => ⟨k, fun _ => .leftF (e _)⟩
theorem E.leftT {h : Int} {l l' r t : S} {f : Bool} : E l l' true →
    rebalance false 1 (nd h l' r) = some (t, f) → E (nd h l r) t f :=
  fun ⟨k, e⟩ hr => ⟨k, fun _ => .leftT (e _) hr⟩
theorem E.rightT {h : Int} {l r r' t : S} {f : Bool} : E r r' true →
    rebalance false 1 (nd h l r') = some (t, f) → E (nd h l r) t f :=
  fun ⟨k, e⟩ hr => ⟨k, fun _ => .rightT (e _) hr⟩
theorem E.del {h : Int} {r : S} : E (nd h nil r) r true := ⟨false, fun _ => .del _ _ _⟩

/-! ### Rebalancing -/

/-- The height recorded above children of heights `x` and `y`. -/
def mk (x y : Int) : Int := if x > y then w8 (x + 1) else w8 (y + 1)

theorem newH_eq {c : Nat} {l r : S} : newH false c l r = mk (hgt l) (hgt r) := rfl

theorem hgt_nil : hgt (nil : S) = 0 := rfl
theorem hgt_nd {h : Int} {l r : S} : hgt (nd h l r) = h := rfl

theorem reb_left {h hl : Int} {a b r : S} (h1 : 1 ≤ w8 (hl - hgt r)) :
    rebalance false 1 (nd h (nd hl a b) r) =
      (if hgt b > hgt a then rightRotateWithLeft false (nd h (nd hl a b) r)
        else rightRotate false (nd h (nd hl a b) r)).map fun t => (t, true) := by
  show (if w8 (hl - hgt r) ≥ 1 then _ else _) = _
  rw [if_pos h1]; rfl

theorem reb_right {h hr : Int} {l b a : S} (h1 : w8 (hgt l - hr) ≤ -1) :
    rebalance false 1 (nd h l (nd hr b a)) =
      (if hgt b > hgt a then leftRotateWithRight false (nd h l (nd hr b a))
        else leftRotate false (nd h l (nd hr b a))).map fun t => (t, true) := by
  show (if w8 (hgt l - hr) ≥ 1 then _ else if w8 (hgt l - hr) ≤ w8 (-1) then _ else _) = _
  rw [if_neg (by omega), if_pos (by simpa [w8] using h1)]; rfl

theorem reb_rr {h hl x y : Int} {a b r : S} (h1 : 1 ≤ w8 (hl - hgt r)) (h2 : hgt b ≤ hgt a)
    (hy : mk (hgt b) (hgt r) = y) (hx : mk (hgt a) y = x) :
    rebalance false 1 (nd h (nd hl a b) r) = some (nd x a (nd y b r), true) := by
  rw [reb_left h1, if_neg (by omega)]
  simp only [rightRotate, newH_eq, hy, hgt_nd, hx, Option.map_some]

theorem reb_dr {h hl hb x y z : Int} {a c0 c1 r : S} (h1 : 1 ≤ w8 (hl - hgt r)) (h2 : hgt a < hb)
    (hy : mk (hgt a) (hgt c0) = y) (hz : mk (hgt c1) (hgt r) = z) (hx : mk y z = x) :
    rebalance false 1 (nd h (nd hl a (nd hb c0 c1)) r) = some (nd x (nd y a c0) (nd z c1 r), true) := by
  rw [reb_left h1, if_pos (by exact h2)]
  simp only [rightRotateWithLeft, newH_eq, hy, hz, hgt_nd, hx, Option.map_some]

theorem reb_ll {h hr x y : Int} {l b a : S} (h1 : w8 (hgt l - hr) ≤ -1) (h2 : hgt b ≤ hgt a)
    (hy : mk (hgt l) (hgt b) = y) (hx : mk y (hgt a) = x) :
    rebalance false 1 (nd h l (nd hr b a)) = some (nd x (nd y l b) a, true) := by
  rw [reb_right h1, if_neg (by omega)]
  simp only [leftRotate, newH_eq, hy, hgt_nd, hx, Option.map_some]

theorem reb_same {h : Int} {l r : S} (h1 : hgt l = hgt r) :
    rebalance false 1 (nd h l r) = if h ≠ w8 (hgt r + 1) then some (nd (w8 (hgt r + 1)) l r, true)
      else some (nd h l r, false) := by
  have h0 : w8 (hgt l - hgt r) = 0 := by rw [h1]; simp [w8]
  show (if w8 (hgt l - hgt r) ≥ 1 then _ else if w8 (hgt l - hgt r) ≤ w8 (-1) then _ else
    if hgt l > hgt r then _ else _) = _
  rw [h0, if_neg (by omega), if_neg (by simp [w8]), if_neg (by omega)]

theorem reb_eq {h : Int} {l r : S} (h1 : hgt l = hgt r) (h2 : h = w8 (hgt r + 1)) :
    rebalance false 1 (nd h l r) = some (nd h l r, false) := by
  rw [reb_same h1, if_neg (by simp [h2])]

theorem reb_eq' {h : Int} {l r : S} (h1 : hgt l = hgt r) :
    ∃ f, rebalance false 1 (nd h l r) = some (nd (w8 (hgt r + 1)) l r, f) := by
  rw [reb_same h1]
  by_cases h2 : h = w8 (hgt r + 1)
  · exact ⟨false, by rw [if_neg (by simp [h2]), h2]⟩
  · exact ⟨true, by rw [if_pos h2]⟩

/-! ### Families of shapes -/

/-- Only right children. -/
def V : Nat → S
  | 0 => nil
  | k + 1 => nd (k + 1) nil (V k)

/-- Every left subtree as high as the right one. -/
def G : Nat → S
  | 0 => nil
  | k + 1 => nd (w8 (k + 1)) (G k) (V k)

/-- Every left subtree higher by one than the right one. -/
def D : Nat → S
  | 0 => nil
  | k + 1 => nd (k + 1) (D k) (V (k - 1))

/-- `D (j + 2)` with one more leaf. -/
def P : Nat → S
  | 0 => nd 2 (nd 1 nil nil) (nd 1 nil nil)
  | j + 1 => nd (j + 3) (P j) (V (j + 1))

/-- The record above an `a + 1` and an `a`. -/
def rt (a : Nat) : Int := mk (w8 (a + 1)) a

def nT (a : Nat) (s q : S) : S := nd (rt a) s (nd (w8 (a + 1)) q (V a))
def nD (a : Nat) (s q : S) : S := nd (rt a) (nd (w8 (a + 1)) s q) (V a)

def Tt (a : Nat) : S := nT a (D a) (V (a - 1))

theorem hgt_V : ∀ k, hgt (V k) = k
  | 0 => rfl
  | k + 1 => by simp [V, hgt]
theorem hgt_D : ∀ k, hgt (D k) = k
  | 0 => rfl
  | k + 1 => by simp [D, hgt]
theorem hgt_P : ∀ j, hgt (P j) = j + 2
  | 0 => rfl
  | j + 1 => by simp only [P, hgt]; omega
theorem hgt_G : ∀ k, k ≤ 127 → hgt (G k) = k
  | 0, _ => rfl
  | k + 1, h => by simp only [G, hgt, w8]; omega
theorem hgt_nT {a : Nat} {s q : S} : hgt (nT a s q) = rt a := rfl

theorem hgt_Tt {a : Nat} : hgt (Tt a) = rt a := rfl

theorem rt_eq {a : Nat} (h : a ≤ 125) : rt a = a + 2 := by
  simp only [rt, mk, w8]; split_ifs <;> omega
theorem w8_eq {x : Int} (h : -128 ≤ x) (h' : x ≤ 127) : w8 x = x := by simp only [w8]; omega

/-- Arithmetic of recorded heights. -/
local macro "ar" : tactic => `(tactic| first | omega |
  (simp only [hgt_nil, hgt_nd, hgt_V, hgt_D, hgt_P, hgt_nT, hgt_Tt, rt, mk, w8]; (try split_ifs) <;> omega))

/-! ### Growing, shrinking -/

theorem stepT {a : Nat} (h : a ≤ 126) {x : Int} :
    rebalance false 1 (nd x (Tt a) (V (a + 1))) = some (Tt (a + 1), true) := by
  refine reb_dr (x := rt (a + 1)) (y := (a + 1 : Nat)) (z := w8 ((a + 1 : Nat) + 1)) ?_ ?_ ?_ ?_ ?_ <;> ar

theorem growPut : ∀ a, a ≤ 127 → ∀ sib, Ev true sib (G (a + 1)) (Tt a) true
  | 0, _, _ => .leftT (.ins _) rfl
  | a + 1, h, _ => .leftT (growPut a (by omega) _) (stepT (by omega))

theorem grow (a : Nat) (h : a ≤ 127) : E (G (a + 1)) (Tt a) true := ⟨true, growPut a h⟩

theorem shrinkD : ∀ k, k ≤ 126 → E (D (k + 1)) (G k) true
  | 0, _ => .del
  | k + 1, h => by
    refine (shrinkD k (by omega)).leftT ?_
    have hg := hgt_G k (by omega)
    rw [reb_same (by rw [hg]; ar), if_pos (by ar)]
    simp only [G, Nat.add_sub_cancel, hgt_V]

theorem shrinkT : ∀ a, a ≤ 127 → E (Tt a) (G (a + 1)) true
  | 0, _ => .del
  | a + 1, h => by
    have hg := hgt_G a (by omega)
    refine (shrinkD a (by omega)).leftT ?_
    refine reb_ll (x := w8 ((a + 1 : Nat) + 1)) (y := w8 (a + 1)) ?_ ?_ ?_ ?_ <;> (try rw [hg]) <;> ar

theorem touch1 : ∀ j, E (D (j + 2)) (P j) false
  | 0 => ⟨true, fun _ => .rightF (.ins _)⟩
  | j + 1 => by
    have := (touch1 j).leftF (h := (j + 3 : Nat)) (r := V (j + 1))
    have h : ((j + 3 : Nat) : Int) = j + 3 := by omega
    rw [h] at this; exact this

theorem touch2 : ∀ j, j ≤ 125 → E (P (j + 1)) (Tt (j + 1)) true
  | 0, _ => E.leftT (l' := D 2) (E.leftT .del rfl) rfl
  | j + 1, h => (touch2 j (by omega)).leftT (stepT (by omega))

/-! ### A subtree and its surroundings -/

theorem N_u {a : Nat} {s s' q : S} (e : E s s' false) :
    E (nT a s q) (nT a s' q) false ∧ E (nD a s q) (nD a s' q) false := ⟨e.leftF, e.leftF.leftF⟩

theorem N_T {a : Nat} (h : a ≤ 127) {s s' q : S} (e : E s s' true) (hs : hgt s' = a) (hq : 0 ≤ hgt q)
    (hq' : hgt q ≤ a) : E (nT a s q) (nD a s' q) true := by
  refine e.leftT (reb_ll ?_ ?_ ?_ ?_)
  · rw [hs]; ar
  · rw [hgt_V]; exact hq'
  · rw [hs]; ar
  · ar

theorem N_D {a : Nat} (h : a ≤ 127) {s q y0 y1 : S} (e : E s (nd a y0 y1) true) (h0 : hgt y0 = a - 1)
    (h1 : 0 ≤ hgt y1) (h1' : hgt y1 ≤ a - 1) (hq : hgt q = a - 1) :
    E (nD a s q) (nT a (nd a y0 y1) q) true := by
  refine (e.leftT (reb_rr (x := w8 (a + 1)) (y := a) ?_ ?_ ?_ ?_)).leftT (reb_dr ?_ ?_ ?_ ?_ ?_)
  all_goals ((try rw [h0]); (try rw [hq]); ar)

theorem thin {b j : Nat} (h : b ≤ 126) (hj : j + 1 ≤ b) :
    E (nD (b + 1) (G (b + 1)) (V (j + 1))) (nT (b + 1) (G (b + 1)) (V j)) true := by
  have hg := hgt_G b (by omega)
  refine (E.rightT .del (reb_rr (x := w8 (b + 1 + 1)) (y := (b + 1 : Nat)) ?_ ?_ ?_ ?_)).leftT
    (reb_dr ?_ ?_ ?_ ?_ ?_)
  all_goals ((try rw [hg]); ar)

theorem flip1 {a : Nat} (h : a ≤ 125) {q : S} :
    E (nT (a + 1) (G (a + 1)) q) (nd (rt (a + 1)) (Tt a) (nd (w8 ((a + 1 : Nat) + 1)) q (V (a + 1)))) false := by
  refine (grow a (by omega)).leftT (reb_eq ?_ ?_) <;> ar

theorem flip1' {a : Nat} (h : a ≤ 126) {q : S} :
    ∃ x f, E (nT (a + 1) (G (a + 1)) q) (nd x (Tt a) (nd (w8 ((a + 1 : Nat) + 1)) q (V (a + 1)))) f := by
  obtain ⟨f, hf⟩ := reb_eq' (h := rt (a + 1)) (l := Tt a) (r := nd (w8 ((a + 1 : Nat) + 1)) q (V (a + 1)))
    (by ar)
  exact ⟨_, f, (grow a (by omega)).leftT hf⟩

theorem flip2 {a : Nat} (h : a ≤ 126) {x : Int} {q : S} (hq : 0 ≤ hgt q) (hq' : hgt q ≤ a) :
    E (nd x (Tt a) (nd (w8 ((a + 1 : Nat) + 1)) q (V (a + 1)))) (nD (a + 1) (G (a + 1)) q) true := by
  have hg := hgt_G (a + 1) (by omega)
  refine (shrinkT a (by omega)).leftT (reb_ll ?_ ?_ ?_ ?_)
  all_goals ((try rw [hg]); ar)

/-! ### Runs -/

/-- The left subtree is at least as high as the right one. -/
def LH (a : Nat) (t : S) : Prop := ∃ y0 y1, t = nd a y0 y1 ∧ hgt y0 = a - 1 ∧ 0 ≤ hgt y1 ∧ hgt y1 ≤ a - 1

/-- Calls on a subtree. Every call with `isRebalance` makes the surroundings change from one form to the other; the
last two arguments tell which one it is before and after. `c = false`: there are no surroundings. -/
inductive Run (c : Bool) (a : Nat) (s : S) (p : Bool) : S → Bool → Prop
  | refl : Run c a s p s p
  | u {t t' : S} {q : Bool} : Run c a s p t q → E t t' false → Run c a s p t' q
  | right {t t' : S} : Run c a s p t true → E t t' true → (c = true → hgt t' = a) → Run c a s p t' false
  | left {t t' : S} : Run c a s p t false → E t t' true → (c = true → LH a t') → Run c a s p t' true
  | any {t t' : S} {q f : Bool} (q' : Bool) : c = false → Run c a s p t q → E t t' f → Run c a s p t' q'

theorem Run.trans {c : Bool} {a : Nat} {s t t' : S} {p q r : Bool} (h1 : Run c a s p t q) (h2 : Run c a t q t' r) :
    Run c a s p t' r := by
  induction h2 with
  | refl => exact h1
  | u _ e ih => exact ih.u e
  | right _ e hh ih => exact ih.right e hh
  | left _ e hh ih => exact ih.left e hh
  | any q' hc _ e ih => exact ih.any q' hc e

/-- One call after another. -/
inductive Reach (s : S) : S → Prop
  | refl : Reach s s
  | step {t t' : S} {f : Bool} : Reach s t → E t t' f → Reach s t'

theorem Reach.trans {s t u : S} (h1 : Reach s t) (h2 : Reach t u) : Reach s u := by
  induction h2 with
  | refl => exact h1
  | step _ e ih => exact ih.step e

theorem Run.reach {c : Bool} {a : Nat} {s t : S} {p q : Bool} (h : Run c a s p t q) : Reach s t := by
  induction h with
  | refl => exact .refl
  | u _ e ih => exact ih.step e
  | right _ e _ ih => exact ih.step e
  | left _ e _ ih => exact ih.step e
  | any _ _ _ e ih => exact ih.step e

def N (a : Nat) (q : S) (p : Bool) (s : S) : S := if p then nT a s q else nD a s q

theorem Run.lift {c : Bool} {a : Nat} (ha : 1 ≤ a) (h : a ≤ 127) (hc : c = true → a ≤ 125) {s t : S} {p q : Bool}
    (hr : Run true a s p t q) :
    Run c (a + 2) (N a (V (a - 1)) p s) (!p) (N a (V (a - 1)) q t) (!q) := by
  have hv : hgt (V (a - 1)) = a - 1 := by rw [hgt_V]; omega
  induction hr with
  | refl => exact .refl
  | @u t t' q _ e ih =>
    refine ih.u ?_
    cases q
    · exact (N_u e).2
    · exact (N_u e).1
  | @right t t' _ e hh ih =>
    refine ih.left (t' := nD a t' (V (a - 1))) (N_T h e (hh rfl) (by omega) (by omega)) fun h' => ?_
    have := hc h'
    refine ⟨_, _, by rw [nD, rt_eq this]; rfl, ?_, ?_, ?_⟩ <;> ar
  | @left t t' _ e hh ih =>
    obtain ⟨y0, y1, rfl, h0, h1, h1'⟩ := hh rfl
    refine ih.right (t' := nT a _ (V (a - 1))) (N_D h e h0 h1 h1' hv) fun h' => ?_
    have := hc h'
    rw [hgt_nT, rt_eq this]; omega
  | any _ hc => cases hc

/-- Beside a subtree of the same height nothing is seen of the calls. -/
theorem Run.free {c : Bool} {a b : Nat} (h : a ≤ 127) {s t r : S} {p q : Bool} (hr : Run true a s p t q)
    (hh : hgt r = a) (p' : Bool) : Run c b (nd (w8 (a + 1)) s r) p' (nd (w8 (a + 1)) t r) p' := by
  induction hr with
  | refl => exact .refl
  | u _ e ih => exact ih.u e.leftF
  | right _ e h1 ih => exact ih.u (e.leftT (reb_eq (by rw [h1 rfl, hh]) (by rw [hh])))
  | left _ e h1 ih =>
    obtain ⟨y0, y1, rfl, _⟩ := h1 rfl
    exact ih.u (e.leftT (reb_eq (by rw [hh]; rfl) (by rw [hh])))
  | any _ hc => cases hc

theorem flip {c : Bool} {a : Nat} (h : a ≤ 126) (hc : c = true → a ≤ 124) {q : S} (hq : 0 ≤ hgt q)
    (hq' : hgt q ≤ a) : Run c (a + 3) (nT (a + 1) (G (a + 1)) q) false (nD (a + 1) (G (a + 1)) q) true := by
  cases c with
  | true =>
    have h' := hc rfl
    refine (Run.refl.u (flip1 (by omega))).left (flip2 h hq hq') fun _ => ?_
    refine ⟨_, _, by rw [nD, rt_eq (by omega)]; rfl, ?_, ?_, ?_⟩ <;> ar
  | false =>
    obtain ⟨x, f, e⟩ := flip1' h (q := q)
    exact (Run.refl.any false rfl e).any true rfl (flip2 h hq hq')

theorem thins {c : Bool} {b : Nat} (h : b ≤ 126) (hc : c = true → b ≤ 124) : ∀ j, j ≤ b →
    Run c (b + 3) (nT (b + 1) (G (b + 1)) (V j)) false (nT (b + 1) (G (b + 1)) nil) false
  | 0, _ => .refl
  | j + 1, hj => by
    have h1 := flip h hc (q := V (j + 1)) (by ar) (by rw [hgt_V]; omega)
    refine (h1.right (thin h hj) fun h' => ?_).trans (thins h hc j (by omega))
    rw [hgt_nT, rt_eq (by have := hc h'; omega)]; omega

/-- `D` becomes `G`, and what the surroundings look like then. -/
def B (k : Nat) : Prop := ∃ p, Run true k (D k) true (G k) p ∧ (p = false → 3 ≤ k)

/-- From a subtree with its surroundings to the one whose right part has only right children. -/
theorem finish {c : Bool} {b : Nat} (h : b ≤ 126) (hc : c = true → b ≤ 124) (hB : B (b + 1)) :
    Run c (b + 3) (Tt (b + 1)) false (nT (b + 1) (G (b + 1)) nil) false := by
  obtain ⟨p, hr, hp⟩ := hB
  have h1 := hr.lift (c := c) (by omega) (by omega) (fun h' => by have := hc h'; omega)
  cases p with
  | true => exact h1.trans (thins h hc b (by omega))
  | false =>
    have h3 := hp rfl
    obtain ⟨b', rfl⟩ : ∃ b', b = b' + 1 := ⟨b - 1, by omega⟩
    refine (h1.right (thin h (by omega)) fun h' => ?_).trans (thins h hc b' (by omega))
    rw [hgt_nT, rt_eq (by have := hc h'; omega)]; omega

theorem nT_nil {b : Nat} (h : b ≤ 125) :
    nT (b + 1) (G (b + 1)) nil = nd (w8 ((b + 2 : Nat) + 1)) (G (b + 1)) (V (b + 2)) := by
  have h1 : rt (b + 1) = w8 ((b + 2 : Nat) + 1) := by ar
  have h2 : w8 ((b + 1 : Nat) + 1) = (b + 1 : Nat) + 1 := w8_eq (by omega) (by omega)
  rw [nT, h1, h2]; rfl

/-- `T` becomes `G`, one level higher. -/
theorem climb {c : Bool} {b : Nat} (h : b ≤ 125) (hc : c = true → b ≤ 124) (hB : B (b + 1))
    (hA : Run true (b + 2) (Tt b) false (G (b + 2)) false) :
    Run c (b + 3) (Tt (b + 1)) false (G (b + 3)) false := by
  have h1 := finish (c := c) (by omega) hc hB
  rw [nT_nil h] at h1
  refine (h1.u ((grow b (by omega)).leftT (reb_eq ?_ ?_))).trans ?_
  · ar
  · rw [hgt_V]
  · exact hA.free (a := b + 2) (by omega) (hgt_V _) false

theorem A_B : ∀ b, b ≤ 125 → Run true (b + 2) (Tt b) false (G (b + 2)) false ∧ B (b + 1) ∧ B (b + 2)
  | 0, _ => by
    refine ⟨.u .refl ⟨true, fun _ => .leftF (.ins _)⟩, ⟨true, .refl, by simp⟩, ⟨true, 
      .u .refl ⟨true, fun _ => .rightF (.ins _)⟩, by simp⟩⟩
  | b + 1, h => by
    obtain ⟨h1, h2, h3⟩ := A_B b (by omega)
    have h4 := climb (c := true) (by omega) (fun _ => by omega) h2 h1
    refine ⟨h4, h3, false, ?_, by omega⟩
    refine ((Run.refl.u (touch1 (b + 1))).right (touch2 b (by omega)) fun _ => ?_).trans h4
    rw [Tt, hgt_nT, rt_eq (by omega)]; omega

/-! ### From the empty tree -/

/-- The last shape: the next leaf put at its left end makes the program fail. -/
def last : S := nD 127 (G 127) nil

theorem reach_G : ∀ k, k ≤ 127 → Reach (G 1) (G (k + 1))
  | 0, _ => .refl
  | 1, _ => (Reach.refl.step (grow 0 (by omega))).step ⟨true, fun _ => .leftF (.ins _)⟩
  | k + 2, h => by
    have h1 := (reach_G (k + 1) (by omega)).step (grow (k + 1) (by omega))
    obtain ⟨hA, hB, _⟩ := A_B k (by omega)
    exact h1.trans (climb (c := false) (by omega) (by simp) hB hA).reach

theorem reach_last : Reach (G 1) last := by
  have h1 := (reach_G 127 (by omega)).step (grow 127 (by omega))
  have h2 := finish (c := false) (b := 126) (by omega) (by simp) (A_B 125 (by omega)).2.2
  have h3 := flip (c := false) (a := 126) (by omega) (by simp) (q := nil) (by ar) (by ar)
  exact (h1.trans h2.reach).trans h3.reach

theorem last_fails {x : Int} : rebalance false 1 (nd x (Tt 126) nil) = none := by
  have h : w8 (hgt (Tt 126) - hgt (nil : S)) = -128 := by decide
  simp only [rebalance, h]
  rfl

theorem length_V : ∀ k, (V k).toList.length = k
  | 0 => rfl
  | k + 1 => by simp [V, toList, length_V k]

theorem length_G : ∀ k, (G k).toList.length * 2 = k * (k + 1)
  | 0 => rfl
  | k + 1 => by
    have := length_G k
    simp only [G, toList, List.length_append, List.length_cons, length_V]
    grind

theorem length_nD (a : Nat) (s q : S) :
    (nD a s q).toList.length = s.toList.length + q.toList.length + a + 2 := by
  simp only [nD, toList, List.length_append, List.length_cons, length_V]; omega

theorem length_last : last.toList.length = 8257 := by
  have h1 := length_nD 127 (G 127) nil
  have h2 := length_G 127
  have h3 : (nil : S).toList.length = 0 := rfl
  rw [last, h1]
  omega

end Verif.Avl.Deep
