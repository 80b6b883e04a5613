import Verif.List.LinkedWalk
import Verif.Common.History

/-! C20, C22 - C24: the linked list. -/

set_option linter.unusedSectionVars false

namespace Verif.LList
open Verif.DLL
variable {T : Type} [Inhabited T]

/-! ### The ideal list

A sequence of elements; an element has an identity (a number, given in order of creation, from 2
on) and a value. An iterator is at an element, or at the end (1), or before the beginning (0). -/

structure Sp (T : Type) where
  xs : List (Nat × T)
  fresh : Nat
  cur : Nat → Option Nat

def Sp.new : Sp T := ⟨[], 2, fun _ => none⟩

/-- The elements in order. -/
def Sp.ids (t : Sp T) : List Nat := t.xs.map (·.1)
/-- The positions an iterator may have, in order. -/
def Sp.all (t : Sp T) : List Nat := 0 :: (t.ids ++ [1])

/-- New elements. -/
def fresh (n : Nat) (vs : List T) : List (Nat × T) := (vs.zipIdx n).map fun e => (e.2, e.1)

/-- Insert before the element `c` (at the end if there is none). -/
def insBefore (c : Nat) (new xs : List (Nat × T)) : List (Nat × T) :=
  xs.takeWhile (·.1 != c) ++ new ++ xs.dropWhile (·.1 != c)

/-- Insert after the element `c`; 0 stands for the beginning. -/
def insAfter (c : Nat) (new xs : List (Nat × T)) : List (Nat × T) :=
  if c = 0 then new ++ xs
  else xs.takeWhile (·.1 != c) ++ (xs.dropWhile (·.1 != c)).take 1 ++ new ++
    (xs.dropWhile (·.1 != c)).drop 1

/-- The value of element `c`. -/
def lookup (xs : List (Nat × T)) (c : Nat) : Option T := (xs.find? (·.1 == c)).map (·.2)

def without (c : Nat) (xs : List (Nat × T)) : List (Nat × T) := xs.filter (·.1 != c)

/-- The position `n` steps from `c`, stopping at the sentinels. -/
def stepsFrom (all : List Nat) (c : Nat) (n : Int) : Option Nat :=
  all[(max 0 (min ((all.idxOf c : Int) + n) (all.length - 1))).toNat]?

def Sp.list (t : Sp T) (xs : List (Nat × T)) : Sp T × Res T := ({ t with xs := xs }, .unit)
def Sp.move (t : Sp T) (j : Nat) (c : Option Nat) : Sp T × Res T :=
  ({ t with cur := fun i => if i = j then c else t.cur i }, .unit)

/-- The specification; the iterator operations are given for iterators that are somewhere. -/
def specAt (t : Sp T) (c : Nat) : Op T → Sp T × Res T
  | .next j => t.move j (stepsFrom t.all c 1)
  | .prev j => t.move j (stepsFrom t.all c (-1))
  | .move j n => t.move j (stepsFrom t.all c n)
  | .value _ => (t, .val (lookup t.xs c))
  | .valid _ => (t, .bool (c ∈ t.ids))
  | .setValue _ v => t.list (t.xs.map fun e => if e.1 = c then (c, v) else e)
  | .insertBefore _ vs =>
    ({ t with xs := insBefore c (fresh t.fresh vs) t.xs, fresh := t.fresh + vs.length }, .unit)
  | .insertAfter _ vs =>
    ({ t with xs := insAfter c (fresh t.fresh vs) t.xs, fresh := t.fresh + vs.length }, .unit)
  | .removeToNext j => (t.list (without c t.xs)).1.move j (stepsFrom t.all c 1)
  | .removeToPrev j => (t.list (without c t.xs)).1.move j (stepsFrom t.all c (-1))
  | .cnext j => t.move j (if t.xs = [] then some c else
      t.ids[min (t.all.idxOf c) t.xs.length % t.xs.length]?)
  | .cprev j => t.move j (if t.xs = [] then some c else
      t.ids[(max (t.all.idxOf c) 1 + t.xs.length - 2) % t.xs.length]?)
  | .cmove j n => t.move j t.ids[(((t.ids.idxOf c : Int) + n) % t.xs.length).toNat]?
  | .cremoveToNext j =>
    let ys := without c t.xs
    (t.list ys).1.move j (if ys = [] then some 1 else (ys.map (·.1))[t.ids.idxOf c % ys.length]?)
  | .cremoveToPrev j =>
    let ys := without c t.xs
    (t.list ys).1.move j (if ys = [] then some 0 else
      (ys.map (·.1))[(t.ids.idxOf c + ys.length - 1) % ys.length]?)
  | _ => (t, .unit)

/-- The specification of the operations with two iterators. -/
def specAt2 (t : Sp T) (c d : Nat) : Op T → Sp T × Res T
  | .swap _ _ => t.list (t.xs.map fun e =>
      if e.1 = d then (d, (lookup t.xs c).getD e.2)
      else if e.1 = c then (c, (lookup t.xs d).getD e.2) else e)
  | .moveBefore _ _ => t.list (if c = d then t.xs else
      insBefore d (t.xs.filter (·.1 == c)) (without c t.xs))
  | .moveAfter _ _ => t.list (if c = d then t.xs else
      insAfter d (t.xs.filter (·.1 == c)) (without c t.xs))
  | _ => (t, .unit)

/-- The iterator an operation works on. -/
def iterOf : Op T → Nat
  | .next j | .prev j | .move j _ | .value j | .valid j | .setValue j _ | .insertBefore j _
  | .insertAfter j _ | .removeToNext j | .removeToPrev j | .cnext j | .cprev j | .cmove j _
  | .cremoveToNext j | .cremoveToPrev j | .swap j _ | .moveBefore j _ | .moveAfter j _ => j
  | _ => 0

def spec (t : Sp T) : Op T → Sp T × Res T
  | .push v => ({ t with xs := t.xs ++ fresh t.fresh [v], fresh := t.fresh + 1 }, .unit)
  | .pushFront vs =>
    ({ t with xs := (fresh t.fresh vs).reverse ++ t.xs, fresh := t.fresh + vs.length }, .unit)
  | .pushBack vs =>
    ({ t with xs := t.xs ++ fresh t.fresh vs, fresh := t.fresh + vs.length }, .unit)
  | .popFront => ({ t with xs := t.xs.tail }, .val (t.xs.head?.map (·.2)))
  | .popBack => ({ t with xs := t.xs.dropLast }, .val (t.xs.getLast?.map (·.2)))
  | .front => (t, .val (t.xs.head?.map (·.2)))
  | .back => (t, .val (t.xs.getLast?.map (·.2)))
  | .index i => (t, .val (if 0 ≤ i then (t.xs.map (·.2))[i.toNat]? else none))
  | .contains comp vs =>
    (t, .nat ((t.xs.map fun e => vs.countP fun v => comp e.2 v = -1).sum))
  | .values => (t, .list (t.xs.map (·.2)))
  | .traverse every => (t, .list (upTo every (t.xs.map (·.2))))
  | .clear => ({ t with xs := [] }, .unit)
  | .empty => (t, .bool t.xs.isEmpty)
  | .size => (t, .nat t.xs.length)
  | .toHead j => t.move j (t.ids ++ [1]).head?
  | .toTail j => t.move j (0 :: t.ids).getLast?
  | .swap j k => specAt2 t ((t.cur j).getD 0) ((t.cur k).getD 0) (.swap j k)
  | .moveBefore j k => specAt2 t ((t.cur j).getD 0) ((t.cur k).getD 0) (.moveBefore j k)
  | .moveAfter j k => specAt2 t ((t.cur j).getD 0) ((t.cur k).getD 0) (.moveAfter j k)
  | o => specAt t ((t.cur (iterOf o)).getD 0) o

/-- What a caller must respect. The documentation asks for a valid iterator, that is, one at an
element of the list: for `Value`, `SetValue`, `Swap`, the removals, `Move` of the circular iterator
and the element that is moved. The others also work with an iterator at one of the ends, and their
use there is covered. Iterators at an element that was removed are excluded. -/
def legal (t : Sp T) (o : Op T) : Prop :=
  match o with
  | .next j => ∃ c ∈ t.all, c ≠ 1 ∧ t.cur j = some c
  | .prev j => ∃ c ∈ t.all, c ≠ 0 ∧ t.cur j = some c
  | .move j n => (∃ c ∈ t.all, t.cur j = some c) ∧ -2 ^ 63 < n
  | .valid j | .cnext j | .cprev j => ∃ c ∈ t.all, t.cur j = some c
  | .value j | .setValue j _ | .removeToNext j | .removeToPrev j | .cremoveToNext j
  | .cremoveToPrev j => ∃ c ∈ t.ids, t.cur j = some c
  | .cmove j n => (∃ c ∈ t.ids, t.cur j = some c) ∧ -2 ^ 63 < n
  | .swap j k => (∃ c ∈ t.ids, t.cur j = some c) ∧ ∃ d ∈ t.ids, t.cur k = some d
  | .insertBefore j vs => (∃ c ∈ t.all, c ≠ 0 ∧ t.cur j = some c) ∧ vs ≠ []
  | .insertAfter j vs => (∃ c ∈ t.all, c ≠ 1 ∧ t.cur j = some c) ∧ vs ≠ []
  | .moveBefore j k => (∃ c ∈ t.ids, t.cur j = some c) ∧ ∃ d ∈ t.all, d ≠ 0 ∧ t.cur k = some d
  | .moveAfter j k => (∃ c ∈ t.ids, t.cur j = some c) ∧ ∃ d ∈ t.all, d ≠ 1 ∧ t.cur k = some d
  | _ => True

/-! ### Simulation -/

structure R (s : St T) (t : Sp T) : Prop where
  inv : Inv s.l t.xs
  fr : s.l.fresh = t.fresh
  cur : s.cur = t.cur

section
variable {l : LL T} {xs : List (Nat × T)}

theorem Inv.split (h : Inv l xs) {c : Nat} (hc : c ∈ xs.map (·.1)) :
    ∃ ys v zs, xs = ys ++ (c, v) :: zs ∧ c ∉ ys.map (·.1) ∧ c ∉ zs.map (·.1) := by
  obtain ⟨⟨c', v⟩, hm, rfl⟩ := List.mem_map.1 hc
  obtain ⟨ys, zs, rfl⟩ := List.append_of_mem hm
  refine ⟨ys, v, zs, rfl, ?_, ?_⟩
  all_goals
    have := h.nd
    simp only [full, List.map_append, List.map_cons, List.nodup_cons, List.nodup_append,
      List.mem_cons] at this
    intro hx
  · exact this.2.1.2.2 _ hx c' (.inl rfl) rfl
  · exact this.2.1.2.1.1 hx

end

section
variable {ys zs : List (Nat × T)} {c : Nat} {v : T}

theorem ne_of_not_mem (h : c ∉ ys.map (·.1)) : ∀ e ∈ ys, (e.1 != c) = true := by
  intro e he
  rw [bne_iff_ne]
  rintro rfl
  exact h (List.mem_map_of_mem he)

theorem takeWhile_at (h1 : c ∉ ys.map (·.1)) :
    (ys ++ (c, v) :: zs).takeWhile (·.1 != c) = ys := by
  rw [List.takeWhile_append_of_pos (ne_of_not_mem h1)]
  simp

theorem dropWhile_at (h1 : c ∉ ys.map (·.1)) :
    (ys ++ (c, v) :: zs).dropWhile (·.1 != c) = (c, v) :: zs := by
  rw [List.dropWhile_append_of_pos (ne_of_not_mem h1)]
  simp

theorem takeWhile_none (h1 : c ∉ ys.map (·.1)) : ys.takeWhile (·.1 != c) = ys := by
  induction ys with
  | nil => rfl
  | cons e ys ih =>
    simp only [List.map_cons, List.mem_cons, not_or] at h1
    rw [List.takeWhile_cons_of_pos (by simpa using Ne.symm h1.1), ih h1.2]

theorem dropWhile_none (h1 : c ∉ ys.map (·.1)) : ys.dropWhile (·.1 != c) = [] := by
  induction ys with
  | nil => rfl
  | cons e ys ih =>
    simp only [List.map_cons, List.mem_cons, not_or] at h1
    rw [List.dropWhile_cons_of_pos (by simpa using Ne.symm h1.1), ih h1.2]

theorem without_at (h1 : c ∉ ys.map (·.1)) (h2 : c ∉ zs.map (·.1)) :
    without c (ys ++ (c, v) :: zs) = ys ++ zs := by
  simp only [without, List.filter_append, List.filter_cons, bne_self_eq_false, Bool.false_eq_true,
    if_false]
  rw [List.filter_eq_self.2 (ne_of_not_mem h1), List.filter_eq_self.2 (ne_of_not_mem h2)]

theorem only_at (h1 : c ∉ ys.map (·.1)) (h2 : c ∉ zs.map (·.1)) :
    (ys ++ (c, v) :: zs).filter (·.1 == c) = [(c, v)] := by
  have aux : ∀ us : List (Nat × T), c ∉ us.map (·.1) → us.filter (·.1 == c) = [] := by
    intro us hu
    rw [List.filter_eq_nil_iff]
    intro e he
    have := ne_of_not_mem hu e he
    rw [bne_iff_ne] at this
    simpa using this
  simp [List.filter_append, aux ys h1, aux zs h2]

theorem lookup_at (h1 : c ∉ ys.map (·.1)) : lookup (ys ++ (c, v) :: zs) c = some v := by
  unfold lookup
  rw [List.find?_append]
  have : ys.find? (·.1 == c) = none := by
    rw [List.find?_eq_none]
    intro e he
    have := ne_of_not_mem h1 e he
    rw [bne_iff_ne] at this
    simpa using this
  simp [this]

theorem idxOf_at (h1 : c ∉ ys.map (·.1)) :
    ((ys ++ (c, v) :: zs).map (·.1)).idxOf c = ys.length := by
  rw [List.map_append, List.idxOf_append_of_notMem h1]
  simp

end

theorem R.find {t : Sp T} {c : Nat} (hc : c ∈ t.all) :
    ∃ hp : t.all.idxOf c < t.xs.length + 2, c = (full t.xs)[t.all.idxOf c]'(by
      rw [full_length]; exact hp) := by
  obtain ⟨hp, e⟩ := full_pos (xs := t.xs) (c := c) hc
  have hl := full_length t.xs
  exact ⟨by have : t.all.idxOf c < (full t.xs).length := hp
            omega, e.symm⟩

theorem R.cursor {s : St T} {t : Sp T} (h : R s t) (j : Nat) (c : Option Nat) :
    R { s with cur := upd s.cur j c } (t.move j c).1 :=
  ⟨h.inv, h.fr, by simp only [Sp.move, h.cur]; rfl⟩

theorem Sp.all_eq (t : Sp T) : t.all = full t.xs := rfl

theorem R.stepsFrom {t : Sp T} (c : Nat) (n : Int) :
    stepsFrom t.all c n = (full t.xs)[(max 0 (min ((t.all.idxOf c : Int) + n)
      (t.xs.length + 1))).toNat]? := by
  have hl := full_length t.xs
  unfold LList.stepsFrom
  rw [t.all_eq] at *
  congr 3
  rw [hl]; push_cast; omega

theorem R.ids_get {t : Sp T} (k : Nat) (hk : k < t.xs.length) :
    t.ids[k]? = (full t.xs)[k + 1]? := by
  rw [ids_at _ _ hk]
  simp [Sp.ids, hk]

theorem step_next {s : St T} {t : Sp T} {j : Nat} (h : R s t) (hl : legal t (.next j)) :
    ∃ s', step s (.next j) = some (s', (spec t (.next j)).2) ∧ R s' (spec t (.next j)).1 := by
  obtain ⟨c, hc, hc1, hj⟩ := hl
  obtain ⟨hp, e⟩ := R.find hc
  have hlen := full_length t.xs
  have hp1 : t.all.idxOf c ≠ t.xs.length + 1 := by
    intro e'
    apply hc1
    rw [e]
    exact (h.inv.at1 (by omega)).2 e'
  have hn : (s.l.heap c).next = LList.stepsFrom t.all c 1 := by
    rw [R.stepsFrom]
    conv_lhs => rw [e]
    rw [linked_next h.inv.link _ (by omega)]
    rw [List.getElem?_eq_getElem (by omega)]
    congr 2
    omega
  refine ⟨_, ?_, h.cursor j _⟩
  simp only [step, h.cur, hj, Option.map_some, onCur, spec, specAt, iterOf, Option.getD_some, hn]
  rfl

theorem step_prev {s : St T} {t : Sp T} {j : Nat} (h : R s t) (hl : legal t (.prev j)) :
    ∃ s', step s (.prev j) = some (s', (spec t (.prev j)).2) ∧ R s' (spec t (.prev j)).1 := by
  obtain ⟨c, hc, hc1, hj⟩ := hl
  obtain ⟨hp, e⟩ := R.find hc
  have hlen := full_length t.xs
  have hp1 : t.all.idxOf c ≠ 0 := by
    intro e'
    apply hc1
    rw [e]
    exact (h.inv.at0 (by omega)).2 e'
  have hn : (s.l.heap c).prev = LList.stepsFrom t.all c (-1) := by
    rw [R.stepsFrom]
    obtain ⟨q, hq⟩ : ∃ q, t.all.idxOf c = q + 1 := ⟨t.all.idxOf c - 1, by omega⟩
    conv_lhs => rw [e]
    simp only [hq]
    rw [linked_prev h.inv.link q (by omega), List.getElem?_eq_getElem (by omega)]
    congr 2
    omega
  refine ⟨_, ?_, h.cursor j _⟩
  simp only [step, h.cur, hj, Option.map_some, onCur, spec, specAt, iterOf, Option.getD_some, hn]
  rfl

theorem step_move {s : St T} {t : Sp T} {j : Nat} {n : Int} (h : R s t)
    (hl : legal t (.move j n)) :
    ∃ s', step s (.move j n) = some (s', (spec t (.move j n)).2) ∧
      R s' (spec t (.move j n)).1 := by
  obtain ⟨⟨c, hc, hj⟩, hn⟩ := hl
  obtain ⟨hp, e⟩ := R.find hc
  have hlen := full_length t.xs
  have key : s.l.move (some c) n = some (LList.stepsFrom t.all c n) := by
    rw [R.stepsFrom]
    unfold LL.move
    by_cases hpos : n > 0
    · rw [if_pos hpos]
      by_cases h1 : c = 1
      · subst h1
        have := (h.inv.at1 (p := t.all.idxOf 1) (by omega)).1 e.symm
        rw [if_pos rfl, this, show (max 0 (min (((t.xs.length + 1 : Nat) : Int) + n)
          (t.xs.length + 1))).toNat = t.xs.length + 1 by omega, List.getElem?_eq_getElem (by omega)]
        rw [(h.inv.at1 (by omega)).2 rfl]
      · have hp1 : t.all.idxOf c ≠ t.xs.length + 1 := by
          intro e'
          apply h1
          rw [e]
          exact (h.inv.at1 (by omega)).2 e'
        rw [if_neg (by simpa using h1)]
        conv_lhs => rw [e]
        rw [h.inv.moveNext _ _ (by omega)]
        congr 2; omega
    · rw [if_neg hpos]
      by_cases h1 : c = 0
      · subst h1
        have := (h.inv.at0 (p := t.all.idxOf 0) (by omega)).1 e.symm
        rw [if_pos rfl, this, show (max 0 (min (((0 : Nat) : Int) + n)
          (t.xs.length + 1))).toNat = 0 by omega]
        rfl
      · have hp1 : t.all.idxOf c ≠ 0 := by
          intro e'
          apply h1
          rw [e]
          exact (h.inv.at0 (by omega)).2 e'
        rw [if_neg (by simpa using h1)]
        conv_lhs => rw [e]
        rw [h.inv.movePrev _ _ (by omega) (by omega), negRounds, if_neg (by omega)]
        congr 2; omega
  refine ⟨_, ?_, h.cursor j _⟩
  simp only [step, h.cur, hj, key, Option.map_some, onCur, spec, specAt, iterOf, Option.getD_some]
  rfl

theorem step_cnext {s : St T} {t : Sp T} {j : Nat} (h : R s t) (hl : legal t (.cnext j)) :
    ∃ s', step s (.cnext j) = some (s', (spec t (.cnext j)).2) ∧ R s' (spec t (.cnext j)).1 := by
  obtain ⟨c, hc, hj⟩ := hl
  obtain ⟨hp, e⟩ := R.find hc
  have hlen := full_length t.xs
  have key : s.l.cnext (some c) = some (if t.xs = [] then some c else
      t.ids[min (t.all.idxOf c) t.xs.length % t.xs.length]?) := by
    unfold LL.cnext
    rw [h.inv.sz]
    by_cases h0 : t.xs = []
    · simp [h0]
    · have hpos : 0 < t.xs.length := List.length_pos_iff.2 h0
      rw [if_neg (by omega), if_neg h0, R.ids_get _ (Nat.mod_lt _ hpos)]
      by_cases h1 : c = 1
      · subst h1
        have := (h.inv.at1 (p := t.all.idxOf 1) (by omega)).1 e.symm
        rw [if_pos rfl, this, h.inv.toHead', show min (t.xs.length + 1) t.xs.length = t.xs.length by
          omega, Nat.mod_self]
      · have hp1 : t.all.idxOf c ≠ t.xs.length + 1 := by
          intro e'
          apply h1
          rw [e]
          exact (h.inv.at1 (by omega)).2 e'
        rw [if_neg (by simpa using h1)]
        simp only [Option.bind_eq_bind, Option.bind_some]
        have := h.inv.cstep (p := t.all.idxOf c) (by omega)
        rw [← e] at this
        rw [this, show min (t.all.idxOf c) t.xs.length = t.all.idxOf c by omega]
  refine ⟨_, ?_, h.cursor j _⟩
  simp only [step, h.cur, hj, key, Option.map_some, onCur, spec, specAt, iterOf, Option.getD_some]
  rfl

theorem step_cprev {s : St T} {t : Sp T} {j : Nat} (h : R s t) (hl : legal t (.cprev j)) :
    ∃ s', step s (.cprev j) = some (s', (spec t (.cprev j)).2) ∧ R s' (spec t (.cprev j)).1 := by
  obtain ⟨c, hc, hj⟩ := hl
  obtain ⟨hp, e⟩ := R.find hc
  have hlen := full_length t.xs
  have key : s.l.cprev (some c) = some (if t.xs = [] then some c else
      t.ids[(max (t.all.idxOf c) 1 + t.xs.length - 2) % t.xs.length]?) := by
    unfold LL.cprev
    rw [h.inv.sz]
    by_cases h0 : t.xs = []
    · simp [h0]
    · have hpos : 0 < t.xs.length := List.length_pos_iff.2 h0
      rw [if_neg (by omega), if_neg h0, R.ids_get _ (Nat.mod_lt _ hpos)]
      by_cases h1 : c = 0
      · subst h1
        have := (h.inv.at0 (p := t.all.idxOf 0) (by omega)).1 e.symm
        rw [if_pos rfl, this, h.inv.toTail', show max 0 1 + t.xs.length - 2 = t.xs.length - 1 by
          omega, Nat.mod_eq_of_lt (by omega)]
        rw [show t.xs.length - 1 + 1 = t.xs.length by omega]
      · have hp1 : t.all.idxOf c ≠ 0 := by
          intro e'
          apply h1
          rw [e]
          exact (h.inv.at0 (by omega)).2 e'
        rw [if_neg (by simpa using h1)]
        simp only [Option.bind_eq_bind, Option.bind_some]
        have := h.inv.cstepBack (p := t.all.idxOf c) (by omega) (by omega) hpos
        rw [← e] at this
        rw [this, show max (t.all.idxOf c) 1 = t.all.idxOf c by omega]
  refine ⟨_, ?_, h.cursor j _⟩
  simp only [step, h.cur, hj, key, Option.map_some, onCur, spec, specAt, iterOf, Option.getD_some]
  rfl

theorem R.find_elem {t : Sp T} {c : Nat} (hc : c ∈ t.ids) :
    ∃ hq : t.ids.idxOf c < t.xs.length, c = (t.xs[t.ids.idxOf c]).1 := by
  have hq : t.ids.idxOf c < t.ids.length := List.idxOf_lt_length_iff.2 hc
  have e : t.ids[t.ids.idxOf c] = c := List.getElem_idxOf hq
  have hl : t.ids.length = t.xs.length := by simp [Sp.ids]
  refine ⟨by omega, ?_⟩
  simp only [Sp.ids, List.getElem_map] at e
  exact e.symm

theorem step_cmove {s : St T} {t : Sp T} {j : Nat} {n : Int} (h : R s t)
    (hl : legal t (.cmove j n)) :
    ∃ s', step s (.cmove j n) = some (s', (spec t (.cmove j n)).2) ∧
      R s' (spec t (.cmove j n)).1 := by
  obtain ⟨⟨c, hc, hj⟩, hn⟩ := hl
  obtain ⟨hq, e⟩ := R.find_elem hc
  have hlen := full_length t.xs
  have hpos : 0 < t.xs.length := by omega
  have hs := h.inv.sent
  have hc0 : c ≠ 0 := fun e => hs.1 (e ▸ hc)
  have hc1 : c ≠ 1 := fun e => hs.2 (e ▸ hc)
  have hmod : 0 ≤ ((t.ids.idxOf c : Int) + n) % t.xs.length ∧
      ((t.ids.idxOf c : Int) + n) % t.xs.length < t.xs.length :=
    ⟨Int.emod_nonneg _ (by omega), Int.emod_lt_of_pos _ (by omega)⟩
  have key : s.l.cmove (some c) n =
      some t.ids[(((t.ids.idxOf c : Int) + n) % t.xs.length).toNat]? := by
    unfold LL.cmove
    rw [h.inv.sz, if_neg (by omega), R.ids_get _ (by omega)]
    by_cases hp : n > 0
    · rw [if_pos hp, if_neg (by simpa using hc1)]
      conv_lhs => rw [e]
      rw [h.inv.cmoveNext _ _ hq]
      congr 3
      obtain ⟨m, rfl⟩ := Int.eq_ofNat_of_zero_le (show 0 ≤ n by omega)
      rw [← Int.natCast_add, ← Int.natCast_emod, Int.toNat_natCast, Int.toNat_natCast]
    · rw [if_neg hp, if_neg (by simpa using hc0), negRounds, if_neg (by omega)]
      conv_lhs => rw [e]
      obtain ⟨r, h1, h2, h3⟩ := h.inv.cmovePrev (-n).toNat _ hq
      rw [h3]
      congr 3
      have : ((t.ids.idxOf c : Int) + n) % t.xs.length = r := by
        rw [← h2]
        obtain ⟨m, hm⟩ := Int.eq_ofNat_of_zero_le (show 0 ≤ -n by omega)
        rw [hm, Int.toNat_natCast, show n = -(m : Int) by omega, Int.natCast_emod]
        rw [Int.emod_add_emod] 
        rw [show ((r + m : Nat) : Int) + -(m : Int) = r by omega]
        exact Int.emod_eq_of_lt (by omega) (by omega)
      rw [this, Int.toNat_natCast]
  refine ⟨_, ?_, h.cursor j _⟩
  simp only [step, h.cur, hj, key, Option.map_some, onCur, spec, specAt, iterOf, Option.getD_some]
  rfl

theorem R.list {s : St T} {t : Sp T} (h : R s t) {l' : LL T} {xs : List (Nat × T)}
    (h1 : Inv l' xs) (h2 : l'.fresh = s.l.fresh) : R { s with l := l' } { t with xs := xs } :=
  ⟨h1, by simp only [h2, h.fr], h.cur⟩

theorem remove_ok {s : St T} {t : Sp T} (h : R s t) {c : Nat} (hc : c ∈ t.ids) :
    ∃ ys v zs h', t.xs = ys ++ (c, v) :: zs ∧ c ∉ ys.map (·.1) ∧ c ∉ zs.map (·.1) ∧
      rm s.l.heap c = some h' ∧
      Inv { s.l with heap := h', size := s.l.size - 1 } (ys ++ zs) ∧ s.l.size ≠ 0 ∧
      (s.l.heap c).prev = (0 :: ys.map (fun e : Nat × T => e.1)).getLast? ∧
      (s.l.heap c).next = (zs.map (fun e : Nat × T => e.1) ++ [1]).head? := by
  obtain ⟨ys, v, zs, hxs, h1, h2⟩ := h.inv.split hc
  have hi := h.inv
  rw [hxs] at hi
  obtain ⟨A, a, ha⟩ := snoc_of_cons 0 (ys.map (·.1))
  obtain ⟨b, B, hb⟩ := cons_of_snoc (zs.map (·.1)) 1
  obtain ⟨h', g1, g2⟩ := rm_ok hi ha hb
  obtain ⟨-, f2, f3, -⟩ := hi.around ha hb
  refine ⟨ys, v, zs, h', hxs, h1, h2, g1, g2, ?_, ?_, ?_⟩
  · rw [hi.sz]; simp
  · rw [f2, ha, List.getLast?_concat]
  · rw [f3, hb]; rfl

theorem stepsFrom_next {s : St T} {t : Sp T} (h : R s t) {ys zs : List (Nat × T)} {c : Nat} {v : T}
    (hxs : t.xs = ys ++ (c, v) :: zs) (h1 : c ∉ ys.map (·.1)) :
    LList.stepsFrom t.all c 1 = (zs.map (fun e : Nat × T => e.1) ++ [1]).head? ∧
    LList.stepsFrom t.all c (-1) = (0 :: ys.map (fun e : Nat × T => e.1)).getLast? := by
  have hs := h.inv.sent
  have hc0 : c ≠ 0 := by
    rintro rfl; apply hs.1; rw [hxs]; simp
  have hi : t.all.idxOf c = ys.length + 1 := by
    rw [Sp.all, List.idxOf_cons_ne _ (Ne.symm hc0), Sp.ids, hxs, List.idxOf_append_of_mem (by simp),
      idxOf_at h1]
  have hlen : t.xs.length = ys.length + zs.length + 1 := by rw [hxs]; simp; omega
  constructor
  · rw [R.stepsFrom, hi, show (max 0 (min (((ys.length + 1 : Nat) : Int) + 1)
      (t.xs.length + 1))).toNat = ys.length + 1 + 1 by omega, hxs]
    simp only [full, List.map_append, List.map_cons, List.append_assoc, List.cons_append,
      List.getElem?_cons_succ]
    rw [List.getElem?_append_right (by simp)]
    simp only [List.length_map, show ys.length + 1 - ys.length = 0 + 1 by omega,
      List.getElem?_cons_succ]
    rw [List.head?_eq_getElem?]
  · rw [R.stepsFrom, hi, show (max 0 (min (((ys.length + 1 : Nat) : Int) + -1)
      (t.xs.length + 1))).toNat = ys.length by omega, hxs]
    simp only [full, List.map_append, List.map_cons, List.append_assoc]
    rw [← List.cons_append, List.getElem?_append_left (by simp), List.getLast?_eq_getElem?]
    simp

theorem step_removeToNext {s : St T} {t : Sp T} {j : Nat} (h : R s t)
    (hl : legal t (.removeToNext j)) :
    ∃ s', step s (.removeToNext j) = some (s', (spec t (.removeToNext j)).2) ∧
      R s' (spec t (.removeToNext j)).1 := by
  obtain ⟨c, hc, hj⟩ := hl
  obtain ⟨ys, v, zs, h', hxs, h1, h2, h3, h4, h5, h6, h7⟩ := remove_ok h hc
  have hw : without c t.xs = ys ++ zs := by rw [hxs, without_at h1 h2]
  have hst := (stepsFrom_next h hxs h1).1
  have hsp : spec t (.removeToNext j) =
      (Sp.move { t with xs := ys ++ zs } j ((zs.map (fun e : Nat × T => e.1) ++ [1]).head?)) := by
    simp only [spec, specAt, iterOf, hj, Option.getD_some, hw, hst]
    rfl
  rw [hsp]
  refine ⟨_, ?_, (h.list h4 rfl).cursor j _⟩
  simp only [step, h.cur, hj, Option.bind_some, LL.removeToNext, h3, Option.bind_eq_bind, if_neg h5,
    onBoth, Option.map_some, h7]
  rfl

theorem step_removeToPrev {s : St T} {t : Sp T} {j : Nat} (h : R s t)
    (hl : legal t (.removeToPrev j)) :
    ∃ s', step s (.removeToPrev j) = some (s', (spec t (.removeToPrev j)).2) ∧
      R s' (spec t (.removeToPrev j)).1 := by
  obtain ⟨c, hc, hj⟩ := hl
  obtain ⟨ys, v, zs, h', hxs, h1, h2, h3, h4, h5, h6, h7⟩ := remove_ok h hc
  have hw : without c t.xs = ys ++ zs := by rw [hxs, without_at h1 h2]
  have hst := (stepsFrom_next h hxs h1).2
  have hsp : spec t (.removeToPrev j) =
      (Sp.move { t with xs := ys ++ zs } j ((0 :: ys.map (fun e : Nat × T => e.1)).getLast?)) := by
    simp only [spec, specAt, iterOf, hj, Option.getD_some, hw, hst]
    rfl
  rw [hsp]
  refine ⟨_, ?_, (h.list h4 rfl).cursor j _⟩
  simp only [step, h.cur, hj, Option.bind_some, LL.removeToPrev, h3, Option.bind_eq_bind, if_neg h5,
    onBoth, Option.map_some, h6]
  rfl

theorem step_cremoveToNext {s : St T} {t : Sp T} {j : Nat} (h : R s t)
    (hl : legal t (.cremoveToNext j)) :
    ∃ s', step s (.cremoveToNext j) = some (s', (spec t (.cremoveToNext j)).2) ∧
      R s' (spec t (.cremoveToNext j)).1 := by
  obtain ⟨c, hc, hj⟩ := hl
  obtain ⟨ys, v, zs, h', hxs, h1, h2, h3, h4, h5, h6, h7⟩ := remove_ok h hc
  have hw : without c t.xs = ys ++ zs := by rw [hxs, without_at h1 h2]
  have hix : t.ids.idxOf c = ys.length := by rw [Sp.ids, hxs, idxOf_at h1]
  have hs1 := h4.sent.2
  have hhead := h4.toHead
  have hcur : (if (s.l.heap c).next = some 1 then (h' 0).next else (s.l.heap c).next) =
      if ys ++ zs = [] then some 1 else
        ((ys ++ zs).map (·.1))[t.ids.idxOf c % (ys ++ zs).length]? := by
    rw [h7, hix]
    cases zs with
    | nil =>
      simp only [List.map_nil, List.nil_append, List.head?_cons, if_true, List.append_nil] at hhead ⊢
      rw [hhead]
      cases ys with
      | nil => rfl
      | cons y ys => simp
    | cons z zs =>
      have hz : z.1 ≠ 1 := by
        intro e; apply hs1; simp [← e]
      simp only [List.map_cons, List.cons_append, List.head?_cons, Option.some.injEq, if_neg hz]
      rw [if_neg (by simp), Nat.mod_eq_of_lt (by simp)]
      simp
  have hsp : spec t (.cremoveToNext j) =
      (Sp.move { t with xs := ys ++ zs } j (if ys ++ zs = [] then some 1 else
        ((ys ++ zs).map (·.1))[t.ids.idxOf c % (ys ++ zs).length]?)) := by
    simp only [spec, specAt, iterOf, hj, Option.getD_some, hw]
    rfl
  rw [hsp]
  refine ⟨_, ?_, (h.list h4 rfl).cursor j _⟩
  simp only [step, h.cur, hj, Option.bind_some, LL.cremoveToNext, h3, Option.bind_eq_bind, if_neg h5,
    onBoth, Option.map_some, hcur]
  rfl

theorem step_cremoveToPrev {s : St T} {t : Sp T} {j : Nat} (h : R s t)
    (hl : legal t (.cremoveToPrev j)) :
    ∃ s', step s (.cremoveToPrev j) = some (s', (spec t (.cremoveToPrev j)).2) ∧
      R s' (spec t (.cremoveToPrev j)).1 := by
  obtain ⟨c, hc, hj⟩ := hl
  obtain ⟨ys, v, zs, h', hxs, h1, h2, h3, h4, h5, h6, h7⟩ := remove_ok h hc
  have hw : without c t.xs = ys ++ zs := by rw [hxs, without_at h1 h2]
  have hix : t.ids.idxOf c = ys.length := by rw [Sp.ids, hxs, idxOf_at h1]
  have hs1 := h4.sent.1
  have htail := h4.toTail
  have hcur : (if (s.l.heap c).prev = some 0 then (h' 1).prev else (s.l.heap c).prev) =
      if ys ++ zs = [] then some 0 else
        ((ys ++ zs).map (·.1))[(t.ids.idxOf c + (ys ++ zs).length - 1) % (ys ++ zs).length]? := by
    rw [h6, hix]
    rcases List.eq_nil_or_concat ys with rfl | ⟨ys', y, rfl⟩
    · simp only [List.map_nil, List.getLast?_singleton, if_true, List.nil_append] at htail ⊢
      rw [htail]
      cases zs with
      | nil => rfl
      | cons z zs =>
        rw [if_neg (by simp), List.length_nil, Nat.zero_add, Nat.mod_eq_of_lt (by simp),
          List.getLast?_eq_getElem?]
        simp
    · rw [List.concat_eq_append] at *
      have hy : y.1 ≠ 0 := by
        intro e; apply hs1; simp [← e]
      have hg : (0 :: (ys' ++ [y]).map (fun e : Nat × T => e.1)).getLast? = some y.1 := by
        rw [List.map_append, ← List.cons_append]
        exact List.getLast?_concat
      rw [hg, if_neg (by simpa using hy), if_neg (by simp)]
      have e : (ys' ++ [y]).length + (ys' ++ [y] ++ zs).length - 1 =
          ys'.length + (ys' ++ [y] ++ zs).length := by
        simp only [List.length_append, List.length_cons, List.length_nil]; omega
      rw [e, Nat.add_mod_right, Nat.mod_eq_of_lt (by
        simp only [List.length_append, List.length_cons, List.length_nil]; omega)]
      simp
  have hsp : spec t (.cremoveToPrev j) =
      (Sp.move { t with xs := ys ++ zs } j (if ys ++ zs = [] then some 0 else
        ((ys ++ zs).map (·.1))[(t.ids.idxOf c + (ys ++ zs).length - 1) % (ys ++ zs).length]?)) := by
    simp only [spec, specAt, iterOf, hj, Option.getD_some, hw]
    rfl
  rw [hsp]
  refine ⟨_, ?_, (h.list h4 rfl).cursor j _⟩
  simp only [step, h.cur, hj, Option.bind_some, LL.cremoveToPrev, h3, Option.bind_eq_bind, if_neg h5,
    onBoth, Option.map_some, hcur]
  rfl

theorem R.listNew {s : St T} {t : Sp T} (h : R s t) {l' : LL T} {xs : List (Nat × T)} {n : Nat}
    (h1 : Inv l' xs) (h2 : l'.fresh = s.l.fresh + n) :
    R { s with l := l' } { t with xs := xs, fresh := t.fresh + n } :=
  ⟨h1, by simp only [h2, h.fr], h.cur⟩

theorem mem_all {t : Sp T} {c : Nat} (hc : c ∈ t.all) : c = 0 ∨ c ∈ t.ids ∨ c = 1 := by
  simpa [Sp.all] using hc

/-- Where a new piece goes, before an element or the end. -/
theorem before_at {l : LL T} {xs : List (Nat × T)} (h : Inv l xs) {c : Nat}
    (hc : c ∈ xs.map (·.1) ∨ c = 1) :
    ∃ ys zs B, xs = ys ++ zs ∧ zs.map (·.1) ++ [1] = c :: B ∧
      ∀ new, insBefore c new xs = ys ++ new ++ zs := by
  rcases hc with hc | rfl
  · obtain ⟨ys, v, zs, hxs, h1, h2⟩ := h.split hc
    refine ⟨ys, (c, v) :: zs, zs.map (·.1) ++ [1], hxs, rfl, ?_⟩
    intro new
    rw [insBefore, hxs, takeWhile_at h1, dropWhile_at h1]
  · refine ⟨xs, [], [], by simp, rfl, ?_⟩
    intro new
    rw [insBefore, takeWhile_none h.sent.2, dropWhile_none h.sent.2]

theorem after_at {l : LL T} {xs : List (Nat × T)} (h : Inv l xs) {c : Nat}
    (hc : c ∈ xs.map (·.1) ∨ c = 0) :
    ∃ ys zs A, xs = ys ++ zs ∧ 0 :: ys.map (·.1) = A ++ [c] ∧
      ∀ new, insAfter c new xs = ys ++ new ++ zs := by
  rcases hc with hc | rfl
  · obtain ⟨ys, v, zs, hxs, h1, h2⟩ := h.split hc
    refine ⟨ys ++ [(c, v)], zs, 0 :: ys.map (·.1), by simp [hxs], by simp, ?_⟩
    intro new
    have : c ≠ 0 := by rintro rfl; exact h.sent.1 hc
    rw [insAfter, if_neg this, hxs, takeWhile_at h1, dropWhile_at h1]
    simp
  · refine ⟨[], xs, [], by simp, rfl, ?_⟩
    intro new
    rw [insAfter, if_pos rfl]; rfl

theorem step_insertBefore {s : St T} {t : Sp T} {j : Nat} {vs : List T} (h : R s t)
    (hl : legal t (.insertBefore j vs)) :
    ∃ s', step s (.insertBefore j vs) = some (s', (spec t (.insertBefore j vs)).2) ∧
      R s' (spec t (.insertBefore j vs)).1 := by
  obtain ⟨⟨c, hc, hc0, hj⟩, hvs⟩ := hl
  obtain ⟨ys, zs, B, hxs, hB, hins⟩ := before_at h.inv (c := c) (by
    rcases mem_all hc with h | h | h
    · exact absurd h hc0
    · exact .inl h
    · exact .inr h)
  obtain ⟨l', h1, h2, h3⟩ := insertBefore_ok h.inv hxs hB hvs
  have hsp : spec t (.insertBefore j vs) =
      ({ t with xs := ys ++ tag s.l.fresh vs ++ zs, fresh := t.fresh + vs.length }, .unit) := by
    simp only [spec, specAt, iterOf, hj, Option.getD_some, hins, h.fr]
    rfl
  rw [hsp]
  refine ⟨_, ?_, h.listNew h3 h2⟩
  simp only [step, h.cur, hj, Option.bind_some, h1, onList, Option.map_some]

theorem step_insertAfter {s : St T} {t : Sp T} {j : Nat} {vs : List T} (h : R s t)
    (hl : legal t (.insertAfter j vs)) :
    ∃ s', step s (.insertAfter j vs) = some (s', (spec t (.insertAfter j vs)).2) ∧
      R s' (spec t (.insertAfter j vs)).1 := by
  obtain ⟨⟨c, hc, hc0, hj⟩, hvs⟩ := hl
  obtain ⟨ys, zs, A, hxs, hA, hins⟩ := after_at h.inv (c := c) (by
    rcases mem_all hc with h | h | h
    · exact .inr h
    · exact .inl h
    · exact absurd h hc0)
  obtain ⟨l', h1, h2, h3⟩ := insertAfter_ok h.inv hxs hA hvs
  have hsp : spec t (.insertAfter j vs) =
      ({ t with xs := ys ++ tag s.l.fresh vs ++ zs, fresh := t.fresh + vs.length }, .unit) := by
    simp only [spec, specAt, iterOf, hj, Option.getD_some, hins, h.fr]
    rfl
  rw [hsp]
  refine ⟨_, ?_, h.listNew h3 h2⟩
  simp only [step, h.cur, hj, Option.bind_some, h1, onList, Option.map_some]

theorem step_moveBefore {s : St T} {t : Sp T} {j k : Nat} (h : R s t)
    (hl : legal t (.moveBefore j k)) :
    ∃ s', step s (.moveBefore j k) = some (s', (spec t (.moveBefore j k)).2) ∧
      R s' (spec t (.moveBefore j k)).1 := by
  obtain ⟨⟨c, hc, hj⟩, d, hd, hd0, hk⟩ := hl
  by_cases hcd : c = d
  · subst hcd
    have hsp : spec t (.moveBefore j k) = ({ t with xs := t.xs }, .unit) := by
      simp [spec, specAt2, hj, hk, Sp.list]
    rw [hsp]
    refine ⟨_, ?_, h.list h.inv rfl⟩
    simp only [step, h.cur, hj, hk, Option.bind_some, LL.moveBefore, if_true, onList, Option.map_some]
  · obtain ⟨ys, v, zs, h', hxs, h1, h2, h3, h4, h5, h6, h7⟩ := remove_ok h hc
    have hi := h.inv
    rw [hxs] at hi
    have hd' : d ∈ (ys ++ zs).map (·.1) ∨ d = 1 := by
      rcases mem_all hd with h | h | h
      · exact absurd h hd0
      · left
        rw [Sp.ids, hxs] at h
        simp only [List.map_append, List.map_cons, List.mem_append, List.mem_cons] at h ⊢
        rcases h with h | h | h
        · exact .inl h
        · exact absurd h.symm hcd
        · exact .inr h
      · exact .inr h
    obtain ⟨us, ws, B, hus, hB, hins⟩ := before_at h4 hd'
    obtain ⟨l', g1, g2, g3⟩ := moveBefore_ok hi hus hB
    have hsp : spec t (.moveBefore j k) = ({ t with xs := us ++ (c, v) :: ws }, .unit) := by
      simp only [spec, specAt2, hj, hk, Option.getD_some, if_neg hcd, Sp.list]
      rw [hxs, only_at h1 h2, without_at h1 h2, hins]
      simp
    rw [hsp]
    refine ⟨_, ?_, h.list g3 g2⟩
    simp only [step, h.cur, hj, hk, Option.bind_some, g1, onList, Option.map_some]

theorem step_moveAfter {s : St T} {t : Sp T} {j k : Nat} (h : R s t)
    (hl : legal t (.moveAfter j k)) :
    ∃ s', step s (.moveAfter j k) = some (s', (spec t (.moveAfter j k)).2) ∧
      R s' (spec t (.moveAfter j k)).1 := by
  obtain ⟨⟨c, hc, hj⟩, d, hd, hd0, hk⟩ := hl
  by_cases hcd : c = d
  · subst hcd
    have hsp : spec t (.moveAfter j k) = ({ t with xs := t.xs }, .unit) := by
      simp [spec, specAt2, hj, hk, Sp.list]
    rw [hsp]
    refine ⟨_, ?_, h.list h.inv rfl⟩
    simp only [step, h.cur, hj, hk, Option.bind_some, LL.moveAfter, if_true, onList, Option.map_some]
  · obtain ⟨ys, v, zs, h', hxs, h1, h2, h3, h4, h5, h6, h7⟩ := remove_ok h hc
    have hi := h.inv
    rw [hxs] at hi
    have hd' : d ∈ (ys ++ zs).map (·.1) ∨ d = 0 := by
      rcases mem_all hd with h | h | h
      · exact .inr h
      · left
        rw [Sp.ids, hxs] at h
        simp only [List.map_append, List.map_cons, List.mem_append, List.mem_cons] at h ⊢
        rcases h with h | h | h
        · exact .inl h
        · exact absurd h.symm hcd
        · exact .inr h
      · exact absurd h hd0
    obtain ⟨us, ws, A, hus, hA, hins⟩ := after_at h4 hd'
    obtain ⟨l', g1, g2, g3⟩ := moveAfter_ok hi hus hA
    have hsp : spec t (.moveAfter j k) = ({ t with xs := us ++ (c, v) :: ws }, .unit) := by
      simp only [spec, specAt2, hj, hk, Option.getD_some, if_neg hcd, Sp.list]
      rw [hxs, only_at h1 h2, without_at h1 h2, hins]
      simp
    rw [hsp]
    refine ⟨_, ?_, h.list g3 g2⟩
    simp only [step, h.cur, hj, hk, Option.bind_some, g1, onList, Option.map_some]

/-- Changing values only. -/
theorem Inv.values' {l : LL T} {xs : List (Nat × T)} (h : Inv l xs) {h' : Store T}
    (f : Nat × T → Nat × T) (hf : ∀ e ∈ xs, (f e).1 = e.1)
    (hn : ∀ y, (h' y).next = (l.heap y).next) (hp : ∀ y, (h' y).prev = (l.heap y).prev)
    (hv : ∀ e ∈ xs, (h' e.1).val = (f e).2) : Inv { l with heap := h' } (xs.map f) := by
  have e : full (xs.map f) = full xs := by
    simp only [full, List.map_map]
    congr 2
    exact List.map_congr_left hf
  refine ⟨?_, by rw [e]; exact h.nd, by rw [e]; exact h.lt, by simpa using h.sz, ?_⟩
  · rw [e]; exact h.link.congr (fun a _ => hn a) (fun a _ => hp a)
  · intro x hx
    obtain ⟨y, hy, rfl⟩ := List.mem_map.1 hx
    simp only [hf y hy]
    exact hv y hy

theorem Inv.lookup {l : LL T} {xs : List (Nat × T)} (h : Inv l xs) {c : Nat}
    (hc : c ∈ xs.map (·.1)) : lookup xs c = some (l.heap c).val := by
  obtain ⟨ys, v, zs, hxs, h1, -⟩ := h.split hc
  have := h.val (c, v) (by simp [hxs])
  rw [hxs, lookup_at h1, this]

theorem step_setValue {s : St T} {t : Sp T} {j : Nat} {v : T} (h : R s t)
    (hl : legal t (.setValue j v)) :
    ∃ s', step s (.setValue j v) = some (s', (spec t (.setValue j v)).2) ∧
      R s' (spec t (.setValue j v)).1 := by
  obtain ⟨c, hc, hj⟩ := hl
  have hi := h.inv.values' (h' := s.l.heap.setVal c v) (fun e => if e.1 = c then (c, v) else e)
    (by intro e _; split <;> simp [*])
    (by intro y; simp [next_setVal]) (by intro y; simp [prev_setVal])
    (by
      intro e he
      simp only [val_setVal]
      split
      · rfl
      · exact h.inv.val e he)
  have hsp : spec t (.setValue j v) =
      ({ t with xs := t.xs.map fun e => if e.1 = c then (c, v) else e }, .unit) := by
    simp only [spec, specAt, iterOf, hj, Option.getD_some, Sp.list]
  rw [hsp]
  refine ⟨_, ?_, h.list hi rfl⟩
  simp only [step, h.cur, hj, Option.map_some, onList]
  rfl

theorem step_swap {s : St T} {t : Sp T} {j k : Nat} (h : R s t) (hl : legal t (.swap j k)) :
    ∃ s', step s (.swap j k) = some (s', (spec t (.swap j k)).2) ∧
      R s' (spec t (.swap j k)).1 := by
  obtain ⟨⟨c, hc, hj⟩, d, hd, hk⟩ := hl
  have hi := h.inv.values' (h' := (s.l.swap c d).heap)
    (fun e => if e.1 = d then (d, (LList.lookup t.xs c).getD e.2)
      else if e.1 = c then (c, (LList.lookup t.xs d).getD e.2) else e)
    (by intro e _; split <;> [simp [*]; split <;> simp [*]])
    (by intro y; simp [LL.swap, next_setVal]) (by intro y; simp [LL.swap, prev_setVal])
    (by
      intro e he
      simp only [LL.swap, val_setVal, h.inv.lookup hc, h.inv.lookup hd, Option.getD_some]
      split
      · rfl
      · split
        · rfl
        · exact h.inv.val e he)
  have hsp : spec t (.swap j k) =
      ({ t with xs := t.xs.map fun e => if e.1 = d then (d, (LList.lookup t.xs c).getD e.2)
      else if e.1 = c then (c, (LList.lookup t.xs d).getD e.2) else e }, .unit) := by
    simp only [spec, specAt2, hj, hk, Option.getD_some, Sp.list]
  rw [hsp]
  refine ⟨_, ?_, h.list hi rfl⟩
  simp only [step, h.cur, hj, hk, Option.map_some, Option.bind_some, onList]
  rfl

theorem contains_eq {U : Type} (comp : U → U → Int) (xs vs : List U) (n : Nat) :
    xs.foldl (fun count e => vs.foldl (fun c v => if comp e v = -1 then c + 1 else c) count) n
      = n + (xs.map fun e => vs.countP fun v => comp e v = -1).sum := by
  have inner : ∀ (e : U) (vs : List U) (n : Nat),
      vs.foldl (fun c v => if comp e v = -1 then c + 1 else c) n
        = n + vs.countP fun v => comp e v = -1 := by
    intro e vs
    induction vs with
    | nil => intro n; simp
    | cons v vs ih =>
      intro n
      simp only [List.foldl_cons, ih, List.countP_cons]
      by_cases h : comp e v = -1 <;> simp [h]; omega
  induction xs generalizing n with
  | nil => simp
  | cons x xs ih =>
    rw [List.foldl_cons, ih, inner, List.map_cons, List.sum_cons]
    omega

theorem resize {l : LL T} {n : Nat} {xs : List (Nat × T)} (h : Inv l xs) :
    Inv { ({ l with size := n } : LL T) with size := xs.length } xs :=
  ⟨h.link, h.nd, h.lt, rfl, h.val⟩

theorem resize' {l : LL T} {n : Nat} {xs : List (Nat × T)} (h : Inv { l with size := n } xs)
    (hn : l.size = n) : Inv l xs := by
  subst hn; exact h

theorem step_ok (s : St T) (t : Sp T) (o : Op T) (hl : legal t o) (h : R s t) :
    ∃ s', step s o = some (s', (spec t o).2) ∧ R s' (spec t o).1 := by
  have same : ∀ t', t' = t → R s t' := fun t' e => e ▸ h
  cases o with
  | push v =>
    obtain ⟨l', h1, h2, h3, h4⟩ := back1_ok (l := { s.l with size := s.l.size + 1 })
      (resize h.inv) v
    refine ⟨_, ?_, h.listNew (n := 1) (l' := l') (xs := t.xs ++ tag t.fresh [v]) ?_ h3⟩
    · simp only [step, LL.push, h1, onList, Option.map_some]; rfl
    · rw [← h.fr]; exact resize' h4 (by rw [h2]; simp [h.inv.sz])
  | pushFront vs =>
    obtain ⟨l', h1, h2, h3, h4⟩ := pushFront_ok vs (l := { s.l with size := s.l.size + vs.length })
      (resize h.inv)
    refine ⟨_, ?_, h.listNew (l' := l') (xs := (tag t.fresh vs).reverse ++ t.xs) ?_ h3⟩
    · simp only [step, LL.pushFront, h1, onList, Option.map_some]; rfl
    · rw [← h.fr]; exact resize' h4 (by rw [h2]; simp [h.inv.sz])
  | pushBack vs =>
    obtain ⟨l', h1, h2, h3, h4⟩ := pushBack_ok vs (l := { s.l with size := s.l.size + vs.length })
      (resize h.inv)
    refine ⟨_, ?_, h.listNew (l' := l') (xs := t.xs ++ tag t.fresh vs) ?_ h3⟩
    · simp only [step, LL.pushBack, h1, onList, Option.map_some]; rfl
    · rw [← h.fr]; exact resize' h4 (by rw [h2]; simp [h.inv.sz])
  | popFront =>
    cases hx : t.xs with
    | nil =>
      have : s.l.popFront = some (s.l, none) := by simp [LL.popFront, h.inv.sz, hx]
      refine ⟨s, by simp [step, this, spec, hx], same _ ?_⟩
      simp only [spec, hx, List.tail_nil]; rw [← hx]
    | cons e zs =>
      obtain ⟨c, v⟩ := e
      have hi := h.inv
      rw [hx] at hi
      obtain ⟨l', h1, h2, h3⟩ := popFront_ok hi
      refine ⟨_, ?_, h.list (xs := t.xs.tail) (by rw [hx]; exact h3) h2⟩
      simp [step, h1, spec, hx]
  | popBack =>
    rcases List.eq_nil_or_concat t.xs with hx | ⟨ys, ⟨c, v⟩, hx⟩
    · have : s.l.popBack = some (s.l, none) := by simp [LL.popBack, h.inv.sz, hx]
      refine ⟨s, by simp [step, this, spec, hx], same _ ?_⟩
      simp only [spec, hx, List.dropLast_nil]; rw [← hx]
    · rw [List.concat_eq_append] at hx
      have hi := h.inv
      rw [hx] at hi
      obtain ⟨l', h1, h2, h3⟩ := popBack_ok hi
      refine ⟨_, ?_, h.list (xs := t.xs.dropLast) (by rw [hx]; simpa using h3) h2⟩
      simp [step, h1, spec, hx]
  | front =>
    refine ⟨s, ?_, h⟩
    have : s.l.front = some (t.xs.head?.map (·.2)) := by
      unfold LL.front
      rw [h.inv.sz, h.inv.toHead]
      cases hx : t.xs with
      | nil => rfl
      | cons e zs =>
        have := h.inv.val e (by simp [hx])
        simp [this]
    simp [step, this, onRead, spec]
  | back =>
    refine ⟨s, ?_, h⟩
    have : s.l.back = some (t.xs.getLast?.map (·.2)) := by
      unfold LL.back
      rw [h.inv.sz, h.inv.toTail]
      rcases List.eq_nil_or_concat t.xs with hx | ⟨ys, e, hx⟩
      · rw [hx]; rfl
      · rw [List.concat_eq_append] at hx
        have := h.inv.val e (by simp [hx])
        have hg : (0 :: (ys ++ [e]).map (fun e : Nat × T => e.1)).getLast? = some e.1 := by
          rw [List.map_append, ← List.cons_append]
          exact List.getLast?_concat
        rw [hx, hg]
        simp [this]
    simp [step, this, onRead, spec]
  | index i => exact ⟨s, by simp [step, h.inv.index, onRead, spec], h⟩
  | contains comp vs =>
    refine ⟨s, ?_, h⟩
    simp only [step, LL.contains, h.inv.traverse, upTo_true, Option.map_some, onRead, spec,
      contains_eq, Nat.zero_add, List.map_map]
    rfl
  | values => exact ⟨s, by simp [step, LL.values, h.inv.traverse, upTo_true, onRead, spec], h⟩
  | traverse every => exact ⟨s, by simp [step, h.inv.traverse, onRead, spec], h⟩
  | clear => exact ⟨_, rfl, h.list (clear_inv h.inv) rfl⟩
  | empty =>
    refine ⟨s, ?_, h⟩
    simp only [step, onRead, Option.map_some, h.inv.sz, spec]
    cases t.xs <;> rfl
  | size => exact ⟨s, by simp [step, h.inv.sz, onRead, spec], h⟩
  | toHead j =>
    refine ⟨_, ?_, h.cursor j _⟩
    simp only [step, onCur, Option.map_some, h.inv.toHead]
    rfl
  | toTail j =>
    refine ⟨_, ?_, h.cursor j _⟩
    simp only [step, onCur, Option.map_some, h.inv.toTail]
    rfl
  | next j => exact step_next h hl
  | prev j => exact step_prev h hl
  | move j n => exact step_move h hl
  | value j =>
    obtain ⟨c, hc, hj⟩ := hl
    refine ⟨s, ?_, h⟩
    simp [step, h.cur, hj, onRead, spec, specAt, iterOf, h.inv.lookup hc]
  | valid j =>
    obtain ⟨c, hc, hj⟩ := hl
    refine ⟨s, ?_, h⟩
    have : LList.valid (some c) = decide (c ∈ t.ids) := by
      have hs := h.inv.sent
      rcases mem_all hc with rfl | hc | rfl
      · have : (0 : Nat) ∉ t.ids := hs.1
        simp [LList.valid, this]
      · have h0 : c ≠ 0 := by rintro rfl; exact hs.1 hc
        have h1 : c ≠ 1 := by rintro rfl; exact hs.2 hc
        simp [LList.valid, hc, h0, h1]
      · have : (1 : Nat) ∉ t.ids := hs.2
        simp [LList.valid, this]
    simp [step, h.cur, hj, onRead, spec, specAt, iterOf, this]
  | setValue j v => exact step_setValue h hl
  | swap j k => exact step_swap h hl
  | insertBefore j vs => exact step_insertBefore h hl
  | insertAfter j vs => exact step_insertAfter h hl
  | removeToNext j => exact step_removeToNext h hl
  | removeToPrev j => exact step_removeToPrev h hl
  | moveBefore j k => exact step_moveBefore h hl
  | moveAfter j k => exact step_moveAfter h hl
  | cnext j => exact step_cnext h hl
  | cprev j => exact step_cprev h hl
  | cmove j n => exact step_cmove h hl
  | cremoveToNext j => exact step_cremoveToNext h hl
  | cremoveToPrev j => exact step_cremoveToPrev h hl

theorem new_R : R (St.new : St T) Sp.new := ⟨new_inv, rfl, rfl⟩

/-! ### Theorems -/

/-- The state and the results of the ideal list after `os`. -/
def ideal (os : List (Op T)) : Sp T × List (Res T) := runSpec spec Sp.new os

/-- The values in order. -/
def Sp.vals (t : Sp T) : List T := t.xs.map (·.2)

theorem reach (os : List (Op T)) (hl : LegalRun spec legal Sp.new os) :
    ∃ s', run step (St.new : St T) os = some (s', (ideal os).2) ∧ R s' (ideal os).1 :=
  run_refines_legal R step_ok os _ _ hl new_R

/-- The calls on the list itself. -/
def listOp : Op T → Prop
  | .push _ | .pushFront _ | .pushBack _ | .popFront | .popBack | .front | .back | .index _
  | .contains _ _ | .values | .traverse _ | .clear | .empty | .size => True
  | _ => False

/-- What a list call does to a plain sequence of values. -/
def seqStep (xs : List T) : Op T → List T × Res T
  | .push v => (xs ++ [v], .unit)
  | .pushFront vs => (vs.reverse ++ xs, .unit)
  | .pushBack vs => (xs ++ vs, .unit)
  | .popFront => (xs.tail, .val xs.head?)
  | .popBack => (xs.dropLast, .val xs.getLast?)
  | .front => (xs, .val xs.head?)
  | .back => (xs, .val xs.getLast?)
  | .index i => (xs, .val (if 0 ≤ i then xs[i.toNat]? else none))
  | .contains comp vs => (xs, .nat ((xs.map fun e => vs.countP fun v => comp e v = -1).sum))
  | .values => (xs, .list xs)
  | .traverse every => (xs, .list (upTo every xs))
  | .clear => ([], .unit)
  | .empty => (xs, .bool xs.isEmpty)
  | .size => (xs, .nat xs.length)
  | _ => (xs, .unit)

theorem fresh_vals (n : Nat) (vs : List T) : (fresh n vs).map (·.2) = vs := by
  simp only [fresh, List.map_map]
  exact List.zipIdx_map_fst n vs

theorem spec_seq (t : Sp T) (o : Op T) (ho : listOp o) :
    (spec t o).1.vals = (seqStep t.vals o).1 ∧ (spec t o).2 = (seqStep t.vals o).2 := by
  cases o <;> simp only [listOp] at ho <;>
    simp [spec, seqStep, Sp.vals, fresh_vals, List.map_tail, List.map_dropLast, Function.comp_def]

theorem legal_listOp (t : Sp T) (o : Op T) (ho : listOp o) : legal t o := by
  cases o <;> trivial

/-- C22: every history of calls on the list (`Push`, `PushFront`, `PushBack`, `PopFront`, `PopBack`,
`Clear`, `Front`, `Back`, `Index`, `Contains`, `Values`, `Traverse`, `Empty`, `Size`) gives the
results of a plain sequence, without a panic. -/
theorem C22_list_history (os : List (Op T)) (ho : ∀ o ∈ os, listOp o) :
    ∃ s', run step (St.new : St T) os = some (s', (runSpec seqStep [] os).2) := by
  have hl : ∀ (t : Sp T) (xs : List T), t.vals = xs → (∀ o ∈ os, listOp o) →
      LegalRun spec legal t os ∧ (runSpec spec t os).2 = (runSpec seqStep xs os).2 := by
    clear ho
    induction os with
    | nil => intro t xs h ho; exact ⟨trivial, rfl⟩
    | cons o os ih =>
      intro t xs h ho
      subst h
      have ho' := ho o (by simp)
      have hs := spec_seq t o ho'
      obtain ⟨h1, h2⟩ := ih (spec t o).1 _ hs.1 (fun o h => ho o (by simp [h]))
      refine ⟨⟨legal_listOp t o ho', h1⟩, ?_⟩
      simp only [runSpec, h2, hs.2]
  obtain ⟨h1, h2⟩ := hl Sp.new [] rfl ho
  obtain ⟨s', h3, -⟩ := reach os h1
  exact ⟨s', by rw [h3, ideal, h2]⟩

example : ∃ s', run step (St.new : St Nat)
    [.push 1, .pushFront [2, 3], .pushBack [4], .popFront, .index 1, .back, .values] =
    some (s', [.unit, .unit, .unit, .val (some 3), .val (some 1), .val (some 4),
      .list [2, 1, 4]]) :=
  C22_list_history _ (by simp [listOp])

/-- C22: the links agree in both directions. After any legal history, walking `next` from the head
sentinel visits the elements in order and ends at the tail sentinel, and walking `prev` from the
tail sentinel visits them in the opposite order and ends at the head; no node occurs twice. -/
theorem C22_links_agree (os : List (Op T)) (hl : LegalRun spec legal Sp.new os) :
    ∃ s', run step (St.new : St T) os = some (s', (ideal os).2) ∧
      (0 :: ((ideal os).1.ids ++ [1])).Nodup ∧ s'.l.size = (ideal os).1.ids.length ∧
      (∀ i a b, (ideal os).1.all[i]? = some a → (ideal os).1.all[i + 1]? = some b →
        (s'.l.heap a).next = some b ∧ (s'.l.heap b).prev = some a) ∧
      ∀ e ∈ (ideal os).1.xs, (s'.l.heap e.1).val = e.2 := by
  obtain ⟨s', h, hr⟩ := reach os hl
  refine ⟨s', h, hr.inv.nd, by simp [hr.inv.sz, Sp.ids], ?_, hr.inv.val⟩
  intro i a b ha hb
  rw [Sp.all_eq] at ha hb
  obtain ⟨h1, rfl⟩ := List.getElem?_eq_some_iff.1 ha
  obtain ⟨h2, rfl⟩ := List.getElem?_eq_some_iff.1 hb
  exact ⟨linked_next hr.inv.link i h2, linked_prev hr.inv.link i h2⟩

/-- C22, C23, C24: every legal history of calls on a list and any number of iterators gives the
results of the ideal list; no call panics or loops. -/
theorem C23_history (os : List (Op T)) (hl : LegalRun spec legal Sp.new os) :
    ∃ s', run step (St.new : St T) os = some (s', (ideal os).2) := by
  obtain ⟨s', h, -⟩ := reach os hl
  exact ⟨s', h⟩

/-- Iterator `j` is at the element with index `i`. -/
def At (t : Sp T) (j i : Nat) : Prop := ∃ c, t.ids[i]? = some c ∧ t.cur j = some c

/-- What the edits do to the sequence of values, in terms of the positions of the iterators. -/
inductive Edit (t : Sp T) : Op T → List T → Prop
  | setValue {j i v} : At t j i → Edit t (.setValue j v) (t.vals.set i v)
  | swap {j i k m a b} : At t j i → At t k m → t.vals[i]? = some a → t.vals[m]? = some b →
      Edit t (.swap j k) ((t.vals.set i b).set m a)
  | insertBefore {j i vs} : At t j i → vs ≠ [] →
      Edit t (.insertBefore j vs) (t.vals.take i ++ vs ++ t.vals.drop i)
  | insertAfter {j i vs} : At t j i → vs ≠ [] →
      Edit t (.insertAfter j vs) (t.vals.take (i + 1) ++ vs ++ t.vals.drop (i + 1))
  | removeToNext {j i} : At t j i → Edit t (.removeToNext j) (t.vals.eraseIdx i)
  | removeToPrev {j i} : At t j i → Edit t (.removeToPrev j) (t.vals.eraseIdx i)
  | cremoveToNext {j i} : At t j i → Edit t (.cremoveToNext j) (t.vals.eraseIdx i)
  | cremoveToPrev {j i} : At t j i → Edit t (.cremoveToPrev j) (t.vals.eraseIdx i)
  | moveBefore {j i k m a} : At t j i → At t k m → i ≠ m → t.vals[i]? = some a →
      Edit t (.moveBefore j k)
        ((t.vals.eraseIdx i).insertIdx (if i < m then m - 1 else m) a)
  | moveAfter {j i k m a} : At t j i → At t k m → i ≠ m → t.vals[i]? = some a →
      Edit t (.moveAfter j k)
        ((t.vals.eraseIdx i).insertIdx (if i < m then m else m + 1) a)

theorem At.split {s : St T} {t : Sp T} {j i : Nat} (h : R s t) (ha : At t j i) :
    ∃ c ys v zs, c ∈ t.ids ∧ t.cur j = some c ∧ t.xs = ys ++ (c, v) :: zs ∧ ys.length = i ∧
      c ∉ ys.map (·.1) ∧ c ∉ zs.map (·.1) := by
  obtain ⟨c, h1, h2⟩ := ha
  have hm := List.mem_of_getElem? h1
  obtain ⟨ys, v, zs, hx, h3, h4⟩ := h.inv.split hm
  refine ⟨c, ys, v, zs, hm, h2, hx, ?_, h3, h4⟩
  have nd : t.ids.Nodup := by
    have := h.inv.nd
    simp only [full, List.nodup_cons, List.nodup_append] at this
    exact this.2.1
  obtain ⟨hi, e⟩ := List.getElem?_eq_some_iff.1 h1
  have e2 := nd.idxOf_getElem i hi
  rw [e] at e2
  rw [← e2, Sp.ids, hx, idxOf_at h3]

theorem eraseIdx_at {U : Type} (a : List U) (x : U) (b : List U) :
    (a ++ x :: b).eraseIdx a.length = a ++ b := by
  rw [List.eraseIdx_append_of_length_le (by simp)]; simp

theorem insertIdx_at {U : Type} (a b : List U) (x : U) :
    (a ++ b).insertIdx a.length x = a ++ x :: b := by
  induction a with
  | nil => simp
  | cons y a ih => simp [ih]

theorem rest_split {ys zs us ws : List (Nat × T)} {c d : Nat} {v w : T}
    (e0 : ys ++ (c, v) :: zs = us ++ (d, w) :: ws) (hcd : c ≠ d) (hd : d ∉ us.map (·.1)) :
    ∃ us' ws', ys ++ zs = us' ++ (d, w) :: ws' ∧ d ∉ us'.map (·.1) ∧
      us'.length = if ys.length < us.length then us.length - 1 else us.length := by
  rcases List.append_eq_append_iff.1 e0 with ⟨r, e1, e2⟩ | ⟨r, e1, e2⟩
  · cases r with
    | nil => simp at e2; exact absurd e2.1.1 hcd
    | cons x r =>
      simp only [List.cons_append, List.cons.injEq] at e2
      obtain ⟨rfl, rfl⟩ := e2
      subst e1
      refine ⟨ys ++ r, ws, by simp, ?_, by simp⟩
      simp only [List.map_append, List.map_cons, List.mem_append, List.mem_cons] at hd ⊢
      tauto
  · cases r with
    | nil => simp at e2; exact absurd e2.1.1.symm hcd
    | cons x r =>
      simp only [List.cons_append, List.cons.injEq] at e2
      obtain ⟨rfl, rfl⟩ := e2
      subst e1
      exact ⟨us, r ++ zs, by simp, hd, by simp⟩

theorem Edit.ok {s : St T} {t : Sp T} {o : Op T} {ws : List T} (h : R s t) (he : Edit t o ws) :
    legal t o ∧ (spec t o).1.vals = ws := by
  have all : ∀ {c}, c ∈ t.ids → c ∈ t.all ∧ c ≠ 0 ∧ c ≠ 1 := by
    intro c hc
    exact ⟨by simp [Sp.all, hc], by rintro rfl; exact h.inv.sent.1 hc,
      by rintro rfl; exact h.inv.sent.2 hc⟩
  have set_at : ∀ {ys zs : List (Nat × T)} {c : Nat} {v w : T},
      t.xs = ys ++ (c, v) :: zs → c ∉ ys.map (·.1) → c ∉ zs.map (·.1) →
      t.xs.map (fun e => if e.1 = c then (c, w) else e) = ys ++ (c, w) :: zs := by
    intro ys zs c v w hx h1 h2
    have aux : ∀ us : List (Nat × T), c ∉ us.map (·.1) →
        us.map (fun e => if e.1 = c then (c, w) else e) = us := by
      intro us hu
      conv_rhs => rw [← List.map_id us]
      refine List.map_congr_left fun e hm => if_neg ?_
      rintro rfl
      exact hu (List.mem_map_of_mem hm)
    rw [hx, List.map_append, List.map_cons, aux _ h1, aux _ h2]; simp
  cases he with
  | setValue ha =>
    obtain ⟨c, ys, v, zs, hm, hc, hx, hi, h1, h2⟩ := ha.split h
    refine ⟨⟨c, hm, hc⟩, ?_⟩
    simp only [spec, specAt, iterOf, hc, Option.getD_some, Sp.list, Sp.vals]
    rw [set_at hx h1 h2, hx, ← hi]
    simp
  | @swap j i k m a b ha hb hva hvb =>
    obtain ⟨c, ys, v, zs, hm, hc, hx, hi, h1, h2⟩ := ha.split h
    obtain ⟨d, us, w, ws, hm', hd, hx', hi', h1', h2'⟩ := hb.split h
    refine ⟨⟨⟨c, hm, hc⟩, d, hm', hd⟩, ?_⟩
    have ea : lookup t.xs c = some a := by
      rw [hx, lookup_at h1]
      rw [Sp.vals, hx, ← hi] at hva
      simpa using hva
    have eb : lookup t.xs d = some b := by
      rw [hx', lookup_at h1']
      rw [Sp.vals, hx', ← hi'] at hvb
      simpa using hvb
    simp only [spec, specAt2, hc, hd, Option.getD_some, Sp.list, Sp.vals, ea, eb, List.map_map]
    have nd : t.ids.Nodup := by
      have := h.inv.nd
      simp only [full, List.nodup_cons, List.nodup_append] at this
      exact this.2.1
    obtain ⟨c', g1, g2⟩ := ha
    obtain ⟨d', g3, g4⟩ := hb
    rw [hc] at g2; rw [hd] at g4
    cases g2; cases g4
    apply List.ext_getElem?
    intro n
    have key : ∀ (n : Nat) {e : Nat × T} {q : Nat} {x : Nat}, t.xs[n]? = some e → t.ids[q]? = some x →
        (e.1 = x ↔ q = n) := by
      intro n e q x he hx
      have hx' : t.ids[n]? = some e.1 := by simp [Sp.ids, he]
      constructor
      · intro eq
        rw [eq] at hx'
        have := (List.getElem?_eq_some_iff.1 hx).1
        exact (List.getElem?_inj this nd).1 (hx.trans hx'.symm)
      · rintro rfl
        rw [hx] at hx'; exact (Option.some.inj hx').symm
    rw [List.getElem?_map, List.getElem?_set, List.getElem?_set]
    simp only [List.length_set, List.length_map, List.getElem?_map]
    cases hn : t.xs[n]? with
    | none =>
      have : t.xs.length ≤ n := List.getElem?_eq_none_iff.1 hn
      simp only [Option.map_none]
      split
      · rw [if_neg (by omega)]
      · split
        · rw [if_neg (by omega)]
        · rfl
    | some e =>
      have hlt : n < t.xs.length := (List.getElem?_eq_some_iff.1 hn).1
      simp only [Option.map_some, Function.comp]
      simp only [key n hn g3, key n hn g1]
      by_cases e1 : m = n
      · simp [e1, hlt]
      · by_cases e2 : i = n <;> simp [e1, e2, hlt]
  | insertBefore ha hv =>
    obtain ⟨c, ys, v, zs, hm, hc, hx, hi, h1, h2⟩ := ha.split h
    refine ⟨⟨⟨c, (all hm).1, (all hm).2.1, hc⟩, hv⟩, ?_⟩
    simp only [spec, specAt, iterOf, hc, Option.getD_some, Sp.vals, insBefore]
    rw [hx, takeWhile_at h1, dropWhile_at h1, ← hi]
    simp [fresh_vals]
  | insertAfter ha hv =>
    obtain ⟨c, ys, v, zs, hm, hc, hx, hi, h1, h2⟩ := ha.split h
    refine ⟨⟨⟨c, (all hm).1, (all hm).2.2, hc⟩, hv⟩, ?_⟩
    simp only [spec, specAt, iterOf, hc, Option.getD_some, Sp.vals, insAfter, if_neg (all hm).2.1]
    rw [hx, takeWhile_at h1, dropWhile_at h1, ← hi]
    rw [show ys.length + 1 = ((ys ++ [(c, v)]).map (fun e => e.2)).length by simp,
      show ys ++ (c, v) :: zs = (ys ++ [(c, v)]) ++ zs by simp, List.map_append (l₂ := zs),
      List.take_left, List.drop_left]
    simp [fresh_vals]
  | removeToNext ha =>
    obtain ⟨c, ys, v, zs, hm, hc, hx, hi, h1, h2⟩ := ha.split h
    refine ⟨⟨c, hm, hc⟩, ?_⟩
    simp only [spec, specAt, iterOf, hc, Option.getD_some, Sp.list, Sp.move, Sp.vals]
    rw [hx, without_at h1 h2, ← hi, List.map_append, List.map_append, List.map_cons]
    rw [show ys.length = (ys.map (·.2)).length by simp, eraseIdx_at]
  | removeToPrev ha =>
    obtain ⟨c, ys, v, zs, hm, hc, hx, hi, h1, h2⟩ := ha.split h
    refine ⟨⟨c, hm, hc⟩, ?_⟩
    simp only [spec, specAt, iterOf, hc, Option.getD_some, Sp.list, Sp.move, Sp.vals]
    rw [hx, without_at h1 h2, ← hi, List.map_append, List.map_append, List.map_cons]
    rw [show ys.length = (ys.map (·.2)).length by simp, eraseIdx_at]
  | cremoveToNext ha =>
    obtain ⟨c, ys, v, zs, hm, hc, hx, hi, h1, h2⟩ := ha.split h
    refine ⟨⟨c, hm, hc⟩, ?_⟩
    simp only [spec, specAt, iterOf, hc, Option.getD_some, Sp.list, Sp.move, Sp.vals]
    rw [hx, without_at h1 h2, ← hi, List.map_append, List.map_append, List.map_cons]
    rw [show ys.length = (ys.map (·.2)).length by simp, eraseIdx_at]
  | cremoveToPrev ha =>
    obtain ⟨c, ys, v, zs, hm, hc, hx, hi, h1, h2⟩ := ha.split h
    refine ⟨⟨c, hm, hc⟩, ?_⟩
    simp only [spec, specAt, iterOf, hc, Option.getD_some, Sp.list, Sp.move, Sp.vals]
    rw [hx, without_at h1 h2, ← hi, List.map_append, List.map_append, List.map_cons]
    rw [show ys.length = (ys.map (·.2)).length by simp, eraseIdx_at]
  | @moveBefore j i k m a ha hb hne hva =>
    obtain ⟨c, ys, v, zs, hm, hc, hx, hi, h1, h2⟩ := ha.split h
    obtain ⟨d, us, w, ws, hm', hd, hx', hi', h1', h2'⟩ := hb.split h
    refine ⟨⟨⟨c, hm, hc⟩, d, (all hm').1, (all hm').2.1, hd⟩, ?_⟩
    have ea : v = a := by
      rw [Sp.vals, hx, ← hi] at hva
      simpa using hva
    subst ea
    have hcd : c ≠ d := by
      rintro rfl
      apply hne
      rw [← hi, ← hi', ← idxOf_at h1 (v := v) (zs := zs), ← idxOf_at h1' (v := w) (zs := ws), ← hx,
        ← hx']
    have e0 := hx.symm.trans hx'
    obtain ⟨us', ws', g1, g2, g3⟩ := rest_split e0 hcd h1'
    simp only [spec, specAt2, hc, hd, Option.getD_some, Sp.list, Sp.vals, if_neg hcd]
    rw [hx, only_at h1 h2, without_at h1 h2, g1, insBefore, takeWhile_at g2, dropWhile_at g2, ← hi,
      ← hi', ← g3, List.map_append (l₁ := ys), List.map_cons]
    rw [show ys.length = (ys.map (fun e => e.2)).length by simp, eraseIdx_at, ← List.map_append, g1,
      show us'.length = (us'.map (fun e => e.2)).length by simp,
      List.map_append (l₁ := us') (l₂ := (d, w) :: ws'), insertIdx_at]
    simp
  | @moveAfter j i k m a ha hb hne hva =>
    obtain ⟨c, ys, v, zs, hm, hc, hx, hi, h1, h2⟩ := ha.split h
    obtain ⟨d, us, w, ws, hm', hd, hx', hi', h1', h2'⟩ := hb.split h
    refine ⟨⟨⟨c, hm, hc⟩, d, (all hm').1, (all hm').2.2, hd⟩, ?_⟩
    have ea : v = a := by
      rw [Sp.vals, hx, ← hi] at hva
      simpa using hva
    subst ea
    have hcd : c ≠ d := by
      rintro rfl
      apply hne
      rw [← hi, ← hi', ← idxOf_at h1 (v := v) (zs := zs), ← idxOf_at h1' (v := w) (zs := ws), ← hx,
        ← hx']
    have e0 := hx.symm.trans hx'
    obtain ⟨us', ws', g1, g2, g3⟩ := rest_split e0 hcd h1'
    have g4 : us'.length + 1 = if i < m then m else m + 1 := by
      rw [g3, ← hi, ← hi']
      split <;> omega
    simp only [spec, specAt2, hc, hd, Option.getD_some, Sp.list, Sp.vals, if_neg hcd]
    rw [hx, only_at h1 h2, without_at h1 h2, g1, insAfter, if_neg (all hm').2.1, takeWhile_at g2,
      dropWhile_at g2, ← g4, ← hi, List.map_append (l₁ := ys), List.map_cons]
    rw [show ys.length = (ys.map (fun e => e.2)).length by simp, eraseIdx_at, ← List.map_append, g1,
      show us'.length + 1 = ((us' ++ [(d, w)]).map (fun e => e.2)).length by simp,
      show us' ++ (d, w) :: ws' = (us' ++ [(d, w)]) ++ ws' by simp, List.map_append (l₂ := ws'),
      insertIdx_at]
    simp

theorem legal_append (os₁ os₂ : List (Op T)) (t : Sp T) :
    LegalRun spec legal t (os₁ ++ os₂) ↔
      LegalRun spec legal t os₁ ∧ LegalRun spec legal (runSpec spec t os₁).1 os₂ := by
  induction os₁ generalizing t with
  | nil => simp [LegalRun, runSpec]
  | cons o os ih => simp [LegalRun, runSpec, ih, and_assoc]

theorem ideal_append (os₁ os₂ : List (Op T)) :
    ideal (os₁ ++ os₂) = ((runSpec spec (ideal os₁).1 os₂).1,
      (ideal os₁).2 ++ (runSpec spec (ideal os₁).1 os₂).2) := by
  have : ∀ t : Sp T, runSpec spec t (os₁ ++ os₂) = ((runSpec spec (runSpec spec t os₁).1 os₂).1,
      (runSpec spec t os₁).2 ++ (runSpec spec (runSpec spec t os₁).1 os₂).2) := by
    induction os₁ with
    | nil => intro t; simp [runSpec]
    | cons o os ih => intro t; simp [runSpec, ih]
  exact this _

theorem reach_append (os₁ os₂ : List (Op T)) (h₁ : LegalRun spec legal Sp.new os₁)
    (h₂ : LegalRun spec legal (ideal os₁).1 os₂) :
    ∃ s', run step (St.new : St T) (os₁ ++ os₂) = some (s', (ideal (os₁ ++ os₂)).2) ∧
      R s' (ideal (os₁ ++ os₂)).1 :=
  reach _ ((legal_append _ _ _).2 ⟨h₁, h₂⟩)

/-- C23: after any legal history, an edit through an iterator changes the sequence exactly at the
position of the iterator: what `Values` returns next is the old sequence with that change.
Missing: `InsertBefore` and `InsertAfter` without values, which panic
(`C23_insert_nothing_panics`). -/
theorem C23_edits_partial (os : List (Op T)) (hl : LegalRun spec legal Sp.new os) (o : Op T) (ws : List T)
    (he : Edit (ideal os).1 o ws) :
    ∃ s' r, run step (St.new : St T) (os ++ [o, .values]) =
      some (s', (ideal os).2 ++ [r, .list ws]) := by
  obtain ⟨s, -, hr⟩ := reach os hl
  obtain ⟨h1, h2⟩ := he.ok hr
  obtain ⟨s', h3, -⟩ := reach_append os [o, .values] hl ⟨h1, trivial, trivial⟩
  refine ⟨s', (spec (ideal os).1 o).2, ?_⟩
  rw [h3, ideal_append]
  simp only [runSpec, spec, ← h2]
  rfl

/-- C23, nothing to insert: `InsertBefore` and `InsertAfter` without values panic. -/
theorem C23_insert_nothing_panics (os : List (Op T)) (s : St T) (rs : List (Res T)) (j : Nat)
    (h : run step (St.new : St T) os = some (s, rs)) :
    run step (St.new : St T) (os ++ [.insertBefore j []]) = none ∧
      run step (St.new : St T) (os ++ [.insertAfter j []]) = none := by
  constructor <;> rw [run_append, h] <;>
    cases hj : s.cur j <;> simp [run, step, hj, LL.insertBefore, LL.insertAfter, onList]

theorem At.idxOf {s : St T} {t : Sp T} {j i : Nat} (h : R s t) (ha : At t j i) :
    ∃ c, c ∈ t.ids ∧ t.cur j = some c ∧ t.ids.idxOf c = i ∧ i < t.xs.length ∧
      t.all.idxOf c = i + 1 := by
  obtain ⟨c, ys, v, zs, h1, h2, h3, h4, h5, h6⟩ := ha.split h
  have e : t.ids.idxOf c = i := by rw [Sp.ids, h3, idxOf_at h5, h4]
  refine ⟨c, h1, h2, e, by rw [h3, ← h4]; simp, ?_⟩
  have : c ≠ 0 := by rintro rfl; exact h.inv.sent.1 h1
  rw [Sp.all, List.idxOf_cons_ne _ (Ne.symm this), List.idxOf_append_of_mem h1, e]

theorem At.intro {t : Sp T} {j i : Nat} (hi : i < t.xs.length) (h : t.cur j = t.ids[i]?) :
    At t j i := by
  have hi' : i < t.ids.length := by simpa [Sp.ids] using hi
  exact ⟨t.ids[i], List.getElem?_eq_getElem hi', by rw [h, List.getElem?_eq_getElem hi']⟩

theorem at_cmove {s : St T} {t : Sp T} {j i : Nat} (h : R s t) (ha : At t j i) (d : Int)
    (hd : -2 ^ 63 < d) : legal t (.cmove j d) ∧ (spec t (.cmove j d)).1.xs = t.xs ∧
      At (spec t (.cmove j d)).1 j (((i : Int) + d) % t.xs.length).toNat := by
  obtain ⟨c, h1, h2, h3, h4, h5⟩ := ha.idxOf h
  refine ⟨⟨⟨c, h1, h2⟩, hd⟩, rfl, At.intro ?_ ?_⟩
  · have := Int.emod_lt_of_pos ((i : Int) + d) (show (0 : Int) < t.xs.length by omega)
    have := Int.emod_nonneg ((i : Int) + d) (show (t.xs.length : Int) ≠ 0 by omega)
    show _ < t.xs.length
    omega
  · simp only [spec, specAt, iterOf, h2, Option.getD_some, h3, Sp.move, if_true]
    rfl

theorem at_cnext {s : St T} {t : Sp T} {j i : Nat} (h : R s t) (ha : At t j i) :
    legal t (.cnext j) ∧ (spec t (.cnext j)).1.xs = t.xs ∧
      At (spec t (.cnext j)).1 j ((i + 1) % t.xs.length) := by
  obtain ⟨c, h1, h2, h3, h4, h5⟩ := ha.idxOf h
  refine ⟨⟨c, by simp [Sp.all, h1], h2⟩, rfl, At.intro ?_ ?_⟩
  · exact Nat.mod_lt _ (show 0 < t.xs.length by omega)
  · have : t.xs ≠ [] := by intro e; simp [e] at h4
    simp only [spec, specAt, iterOf, h2, Option.getD_some, h5, Sp.move, if_true, if_neg this]
    rw [Nat.min_eq_left (by omega)]
    rfl

theorem at_cprev {s : St T} {t : Sp T} {j i : Nat} (h : R s t) (ha : At t j i) :
    legal t (.cprev j) ∧ (spec t (.cprev j)).1.xs = t.xs ∧
      At (spec t (.cprev j)).1 j ((i + t.xs.length - 1) % t.xs.length) := by
  obtain ⟨c, h1, h2, h3, h4, h5⟩ := ha.idxOf h
  refine ⟨⟨c, by simp [Sp.all, h1], h2⟩, rfl, At.intro ?_ ?_⟩
  · exact Nat.mod_lt _ (show 0 < t.xs.length by omega)
  · have : t.xs ≠ [] := by intro e; simp [e] at h4
    simp only [spec, specAt, iterOf, h2, Option.getD_some, h5, Sp.move, if_true, if_neg this]
    rw [Nat.max_eq_left (by omega), show i + 1 + t.xs.length - 2 = i + t.xs.length - 1 by omega]
    rfl

/-- C24: a circular iterator at the last element goes to the first with `Next`, one at the first
element goes to the last with `Prev`. -/
theorem C24_wrap (os : List (Op T)) (hl : LegalRun spec legal Sp.new os) (j : Nat) :
    (At (ideal os).1 j ((ideal os).1.xs.length - 1) →
      ∃ s' rs, run step (St.new : St T) (os ++ [.cnext j]) = some (s', rs) ∧
        s'.cur j = (ideal os).1.ids.head?) ∧
    (At (ideal os).1 j 0 →
      ∃ s' rs, run step (St.new : St T) (os ++ [.cprev j]) = some (s', rs) ∧
        s'.cur j = (ideal os).1.ids.getLast?) := by
  obtain ⟨s, -, hr⟩ := reach os hl
  constructor
  · intro ha
    obtain ⟨h1, h2, h3⟩ := at_cnext hr ha
    obtain ⟨s', g1, g2⟩ := reach_append os [.cnext j] hl ⟨h1, trivial⟩
    refine ⟨s', _, g1, ?_⟩
    rw [g2.cur, ideal_append]
    obtain ⟨c, -, -, -, hlt, -⟩ := ha.idxOf hr
    rw [show (ideal os).1.xs.length - 1 + 1 = (ideal os).1.xs.length by omega, Nat.mod_self] at h3
    obtain ⟨c, e1, e2⟩ := h3
    rw [Sp.ids, h2] at e1
    simp only [runSpec]
    rw [e2, List.head?_eq_getElem?, Sp.ids, e1]
  · intro ha
    obtain ⟨h1, h2, h3⟩ := at_cprev hr ha
    obtain ⟨s', g1, g2⟩ := reach_append os [.cprev j] hl ⟨h1, trivial⟩
    refine ⟨s', _, g1, ?_⟩
    rw [g2.cur, ideal_append]
    obtain ⟨c, -, -, -, hlt, -⟩ := ha.idxOf hr
    rw [Nat.zero_add, Nat.mod_eq_of_lt (by omega)] at h3
    obtain ⟨c, e1, e2⟩ := h3
    rw [Sp.ids, h2] at e1
    simp only [runSpec]
    rw [e2, List.getLast?_eq_getElem?, Sp.ids, List.length_map, e1]

/-- `m` steps forward. -/
theorem at_steps (j : Nat) (m : Nat) : ∀ {s : St T} {t : Sp T} {i : Nat}, R s t → At t j i →
    LegalRun spec legal t (List.replicate m (.cnext j)) ∧
      (runSpec spec t (List.replicate m (.cnext j))).1.xs = t.xs ∧
      At (runSpec spec t (List.replicate m (.cnext j))).1 j ((i + m) % t.xs.length) := by
  induction m with
  | zero =>
    intro s t i h ha
    obtain ⟨c, -, -, -, h4, -⟩ := ha.idxOf h
    exact ⟨trivial, rfl, by simpa [runSpec, Nat.mod_eq_of_lt h4] using ha⟩
  | succ m ih =>
    intro s t i h ha
    obtain ⟨h1, h2, h3⟩ := at_cnext h ha
    obtain ⟨s', -, h'⟩ := step_ok s t _ h1 h
    obtain ⟨g1, g2, g3⟩ := ih h' h3
    refine ⟨⟨h1, g1⟩, by rw [List.replicate_succ]; exact g2.trans h2, ?_⟩
    rw [h2, Nat.mod_add_mod, Nat.add_right_comm] at g3
    exact g3

theorem at_steps_back (j : Nat) (m : Nat) : ∀ {s : St T} {t : Sp T} {i : Nat}, R s t → At t j i →
    LegalRun spec legal t (List.replicate m (.cprev j)) ∧
      (runSpec spec t (List.replicate m (.cprev j))).1.xs = t.xs ∧
      ∃ i', At (runSpec spec t (List.replicate m (.cprev j))).1 j i' ∧ i' < t.xs.length ∧
        (i' + m) % t.xs.length = i % t.xs.length := by
  induction m with
  | zero =>
    intro s t i h ha
    obtain ⟨c, -, -, -, h4, -⟩ := ha.idxOf h
    exact ⟨trivial, rfl, i, by simpa [runSpec] using ha, h4, rfl⟩
  | succ m ih =>
    intro s t i h ha
    obtain ⟨c, -, -, -, h4, -⟩ := ha.idxOf h
    obtain ⟨h1, h2, h3⟩ := at_cprev h ha
    obtain ⟨s', -, h'⟩ := step_ok s t _ h1 h
    obtain ⟨g1, g2, i', g3, g4, g5⟩ := ih h' h3
    rw [h2] at g4 g5
    refine ⟨⟨h1, g1⟩, by rw [List.replicate_succ]; exact g2.trans h2, i', g3, g4, ?_⟩
    rw [← Nat.add_assoc, Nat.add_mod, g5, Nat.mod_mod, ← Nat.add_mod,
      show i + t.xs.length - 1 + 1 = i + t.xs.length by omega, Nat.add_mod_right]

/-- C24: from any element of a list of `n` elements, `n` steps of the circular iterator in either
direction, and any `Move` by a multiple of `n`, return to the same element. -/
theorem C24_full_circle (os : List (Op T)) (hl : LegalRun spec legal Sp.new os) (j i : Nat)
    (ha : At (ideal os).1 j i) :
    ∃ s, run step (St.new : St T) os = some (s, (ideal os).2) ∧
      (∃ s' rs, run step (St.new : St T)
          (os ++ List.replicate (ideal os).1.xs.length (.cnext j)) = some (s', rs) ∧
        s'.cur j = s.cur j) ∧
      (∃ s' rs, run step (St.new : St T)
          (os ++ List.replicate (ideal os).1.xs.length (.cprev j)) = some (s', rs) ∧
        s'.cur j = s.cur j) ∧
      ∀ k : Int, -2 ^ 63 < (ideal os).1.xs.length * k →
        ∃ s' rs, run step (St.new : St T) (os ++ [.cmove j ((ideal os).1.xs.length * k)]) =
          some (s', rs) ∧ s'.cur j = s.cur j := by
  obtain ⟨s, hs, hr⟩ := reach os hl
  obtain ⟨c, -, hc, -, hlt, -⟩ := ha.idxOf hr
  have back : ∀ t' : Sp T, t'.xs = (ideal os).1.xs → At t' j i → t'.cur j = s.cur j := by
    intro t' hx hat
    obtain ⟨a, h1, h2⟩ := hat
    obtain ⟨b, h3, h4⟩ := ha
    rw [Sp.ids, hx] at h1
    rw [hr.cur, h2, h4, ← h1, ← h3]
    rfl
  refine ⟨s, hs, ?_, ?_, ?_⟩
  · obtain ⟨h1, h2, h3⟩ := at_steps j (ideal os).1.xs.length hr ha
    obtain ⟨s', g1, g2⟩ := reach_append os _ hl h1
    refine ⟨s', _, g1, ?_⟩
    rw [g2.cur, ideal_append]
    refine back _ h2 ?_
    rwa [Nat.add_mod_right, Nat.mod_eq_of_lt hlt] at h3
  · obtain ⟨h1, h2, i', h3, h4, h5⟩ := at_steps_back j (ideal os).1.xs.length hr ha
    obtain ⟨s', g1, g2⟩ := reach_append os _ hl h1
    refine ⟨s', _, g1, ?_⟩
    rw [g2.cur, ideal_append]
    refine back _ h2 ?_
    rw [Nat.add_mod_right, Nat.mod_eq_of_lt hlt, Nat.mod_eq_of_lt h4] at h5
    rwa [h5] at h3
  · intro k hk
    obtain ⟨h1, h2, h3⟩ := at_cmove hr ha _ hk
    obtain ⟨s', g1, g2⟩ := reach_append os [.cmove j _] hl ⟨h1, trivial⟩
    refine ⟨s', _, g1, ?_⟩
    rw [g2.cur, ideal_append]
    refine back _ h2 ?_
    rwa [Int.add_mul_emod_self_left, Int.emod_eq_of_lt (by omega) (by omega), Int.toNat_natCast] at h3

/-- C24: `Move(d)` of the circular iterator goes `d` elements forward, modulo the length. -/
theorem C24_move (os : List (Op T)) (hl : LegalRun spec legal Sp.new os) (j i : Nat)
    (ha : At (ideal os).1 j i) (d : Int) (hd : -2 ^ 63 < d) :
    ∃ s' rs, run step (St.new : St T) (os ++ [.cmove j d]) = some (s', rs) ∧
      s'.cur j = (ideal os).1.ids[(((i : Int) + d) % (ideal os).1.xs.length).toNat]? := by
  obtain ⟨s, hs, hr⟩ := reach os hl
  obtain ⟨h1, h2, c, h3, h4⟩ := at_cmove hr ha _ hd
  obtain ⟨s', g1, g2⟩ := reach_append os [.cmove j _] hl ⟨h1, trivial⟩
  refine ⟨s', _, g1, ?_⟩
  rw [g2.cur, ideal_append]
  simp only [runSpec]
  rw [h4, ← h3, Sp.ids, h2, Sp.ids]

/-- A list of three elements and iterators at its first and last. -/
def sample : List (Op Nat) := [.pushBack [10, 20, 30], .toHead 0, .toTail 1]

theorem sample_ok : LegalRun spec legal Sp.new sample ∧ At (ideal sample).1 0 0 ∧
    At (ideal sample).1 1 2 := by
  refine ⟨⟨trivial, trivial, trivial, trivial⟩, ⟨2, rfl, rfl⟩, 4, rfl, rfl⟩

example : ∃ s' r, run step (St.new : St Nat) (sample ++ [.moveBefore 1 0, .values]) =
    some (s', (ideal sample).2 ++ [r, .list [30, 10, 20]]) :=
  C23_edits_partial sample sample_ok.1 _ _ (.moveBefore sample_ok.2.2 sample_ok.2.1 (by decide) rfl)

example : ∃ s' r, run step (St.new : St Nat) (sample ++ [.insertAfter 0 [1, 2], .values]) =
    some (s', (ideal sample).2 ++ [r, .list [10, 1, 2, 20, 30]]) :=
  C23_edits_partial sample sample_ok.1 _ _ (.insertAfter sample_ok.2.1 (by decide))

example : At (ideal sample).1 1 ((ideal sample).1.xs.length - 1) := sample_ok.2.2

/-! ### C20 for the linked list -/

/-- C20, linked list: with the comparators of package `compare` for basic types in the "Ex"
convention (negative means equal), or any comparator that answers `-1` exactly on a match, `Contains`
counts the pairs (element, value) that match. Missing: the ordinary comparators, see
`C20_linked_contains_ordinary`. -/
theorem C20_linked_contains_partial (os : List (Op T)) (ho : ∀ o ∈ os, listOp o)
    (comp : T → T → Int) (eqv : T → T → Prop) [DecidableRel eqv]
    (hc : ∀ a b, comp a b = -1 ↔ eqv a b) (vs : List T) :
    ∃ s', run step (St.new : St T) (os ++ [.contains comp vs]) =
      some (s', (runSpec seqStep [] os).2 ++
        [.nat (((runSpec seqStep [] os).1.map fun e => vs.countP fun v => eqv e v).sum)]) := by
  obtain ⟨s', h⟩ := C22_list_history (os ++ [.contains comp vs]) (by
    intro o hm
    rcases List.mem_append.1 hm with hm | hm
    · exact ho o hm
    · rw [List.mem_singleton.1 hm]; trivial)
  refine ⟨s', ?_⟩
  rw [h]
  have : ∀ xs : List T, (runSpec seqStep xs (os ++ [.contains comp vs])).2 =
      (runSpec seqStep xs os).2 ++
        [.nat (((runSpec seqStep xs os).1.map fun e => vs.countP fun v => eqv e v).sum)] := by
    clear ho h
    induction os with
    | nil => intro xs; simp [runSpec, seqStep, hc]
    | cons o os ih => intro xs; simp [runSpec, ih]
  rw [this]

/-- C20, linked list: with an ordinary comparator (negative, zero, positive) the element that is
there is not counted, and an element that is not there is. -/
theorem C20_linked_contains_ordinary :
    ∃ s s' : St Int, ∃ r r',
      run step (St.new : St Int) [.push 5, .contains (fun a b => if a < b then -1 else if a = b then 0 else 1) [5]]
        = some (s, [.unit, r]) ∧ r = .nat 0 ∧
      run step (St.new : St Int) [.push 5, .contains (fun a b => if a < b then -1 else if a = b then 0 else 1) [7]]
        = some (s', [.unit, r']) ∧ r' = .nat 1 := by
  obtain ⟨s, h⟩ := C22_list_history (T := Int) [.push 5, .contains (fun a b => if a < b then -1 else if a = b then 0 else 1) [5]] (by simp [listOp])
  obtain ⟨s', h'⟩ := C22_list_history (T := Int) [.push 5, .contains (fun a b => if a < b then -1 else if a = b then 0 else 1) [7]] (by simp [listOp])
  exact ⟨s, s', _, _, h, by simp, h', by simp⟩

end Verif.LList
