import Verif.Queue.RingModel
import Verif.Common.Tac

/-! Helper lemmas for C07 and C08. -/

set_option linter.unusedSectionVars false

namespace Verif.Queue
variable {α : Type} [Inhabited α]

/-- Position of the `i`-th element from the front. -/
def Ring.pos (q : Ring α) (i : Nat) : Nat :=
  if q.start + i < q.cap then q.start + i else q.start + i - q.cap

/-- Representation of the sequence `l`, not assuming `fin < cap` spare room. -/
structure Ring.Rep (q : Ring α) (l : List α) : Prop where
  len : q.data.length = q.cap
  cap : 1 ≤ q.cap
  start : q.start < q.cap
  size : q.size = l.length
  size_le : q.size ≤ q.cap
  fin : q.fin = q.pos q.size
  get : ∀ i, i < l.length → q.data[q.pos i]? = l[i]?

theorem Ring.new_rep : (Ring.new : Ring α).Rep [] := by
  constructor <;> simp [Ring.new, Ring.pos]

theorem Ring.pos_lt {q : Ring α} (hs : q.start < q.cap) {i : Nat} (hi : i < q.cap) :
    q.pos i < q.cap := by
  unfold pos; split <;> omega

theorem copy_length (dst src : List α) (h : src.length ≤ dst.length) :
    (copy dst src).length = dst.length := by
  simp [copy]; omega

theorem copy_get (dst src : List α) (h : src.length ≤ dst.length) (i : Nat) (hi : i < src.length) :
    (copy dst src)[i]? = src[i]? := by
  simp only [copy, List.take_of_length_le h]
  rw [List.getElem?_append_left hi]

theorem copyAt_eq (dst src : List α) (k : Nat) (h : k + src.length ≤ dst.length) :
    ∃ r, copyAt dst k src = some r ∧ r.length = dst.length ∧
      (∀ i, i < k → r[i]? = dst[i]?) ∧
      (∀ i, k ≤ i → i < k + src.length → r[i]? = src[i - k]?) := by
  have hk : k ≤ dst.length := by omega
  refine ⟨_, if_pos hk, ?_, ?_, ?_⟩
  · simp [copy]; omega
  · intro i hi
    rw [List.getElem?_append_left (by simp; omega)]
    simp [List.getElem?_take, hi]
  · intro i h1 h2
    rw [List.getElem?_append_right (by simp; omega)]
    have : (dst.take k).length = k := by simp; omega
    rw [this, copy_get _ _ (by simp; omega) _ (by omega)]

theorem slice_get (s : List α) (a b : Nat) (h : a ≤ b ∧ b ≤ s.length) :
    ∃ r, slice s a b = some r ∧ r.length = b - a ∧ ∀ i, i < b - a → r[i]? = s[a + i]? := by
  refine ⟨_, if_pos h, ?_, ?_⟩
  · simp; omega
  · intro i hi
    rw [List.getElem?_drop, List.getElem?_take, if_pos (by omega)]

theorem Ring.grow_ok (q : Ring α) (l : List α) (h : q.Rep l) :
    ∃ q', q.grow = some q' ∧ q'.Rep l ∧ q'.size < q'.cap := by
  obtain ⟨hlen, hcap, hstart, hsize, hsle, hfin, hget⟩ := h
  unfold grow
  split
  · rename_i hfull
    obtain ⟨s1, e1, l1, g1⟩ := slice_get q.data q.start q.data.length (by omega)
    obtain ⟨s2, e2, l2, g2⟩ := slice_get q.data 0 q.start (by omega)
    have hc1 : (copy (List.replicate (q.cap * 2) default) s1).length = q.cap * 2 := by
      rw [copy_length] <;> simp <;> omega
    obtain ⟨r, e3, l3, g3, g4⟩ := copyAt_eq (copy (List.replicate (q.cap * 2) default) s1) s2
      (q.cap - q.start) (by omega)
    refine ⟨_, by simp [e1, e2, e3]; rfl, ?_, by simp only; omega⟩
    refine ⟨by simp only; omega, by simp only; omega, by simp only; omega, hsize,
      by simp only; omega, ?_, ?_⟩
    · simp only [Ring.pos]; split <;> omega
    · intro i hi
      have hp : Ring.pos { size := q.size, data := r, cap := q.cap * 2, start := 0, fin := q.cap } i
          = i := by simp only [Ring.pos]; split <;> omega
      simp only [hp]
      rw [← hget i hi]
      simp only [Ring.pos]
      by_cases hlt : q.start + i < q.cap
      · rw [if_pos hlt, g3 i (by omega), copy_get _ _ (by simp; omega) _ (by omega), g1 i (by omega)]
      · rw [if_neg hlt, g4 i (by omega) (by omega), g2 _ (by omega)]
        congr 1; omega
  · exact ⟨q, rfl, ⟨hlen, hcap, hstart, hsize, hsle, hfin, hget⟩, by omega⟩

theorem Ring.slimming_ok (q : Ring α) (l : List α) (h : q.Rep l) :
    ∃ q', q.slimming = some q' ∧ q'.Rep l := by
  obtain ⟨hlen, hcap, hstart, hsize, hsle, hfin, hget⟩ := h
  unfold slimming
  split
  · rename_i hsm
    have key : ∀ r : List α, r.length = q.cap - q.cap / 4 →
        (∀ i, i < q.size → r[i]? = q.data[q.pos i]?) →
        Ring.Rep { q with data := r, start := 0, fin := q.size, cap := q.cap - q.cap / 4 } l := by
      intro r hr hg
      refine ⟨hr, by simp only; omega, by simp only; omega, hsize, by simp only; omega, ?_, ?_⟩
      · simp only [Ring.pos]; split <;> omega
      · intro i hi
        have hp : Ring.pos { q with data := r, start := 0, fin := q.size, cap := q.cap - q.cap / 4 } i
            = i := by simp only [Ring.pos]; split <;> omega
        simp only [hp]
        rw [hg i (by omega), hget i hi]
    have hfin' : q.fin = q.pos q.size := hfin
    simp only [Ring.pos] at hfin
    by_cases hw : q.start > q.fin
    · have hwr : ¬ q.start + q.size < q.cap := by
        intro hc; rw [if_pos hc] at hfin; omega
      rw [if_neg hwr] at hfin
      obtain ⟨s1, e1, l1, g1⟩ := slice_get q.data q.start q.data.length (by omega)
      obtain ⟨s2, e2, l2, g2⟩ := slice_get q.data 0 q.fin (by omega)
      have hc1 : (copy (List.replicate (q.cap - q.cap / 4) default) s1).length
          = q.cap - q.cap / 4 := by
        rw [copy_length] <;> simp <;> omega
      obtain ⟨r, e3, l3, g3, g4⟩ := copyAt_eq
        (copy (List.replicate (q.cap - q.cap / 4) default) s1) s2 (q.cap - q.start) (by omega)
      refine ⟨_, by simp [slimCopy, hw, e1, e2, e3], key r (by omega) ?_⟩
      intro i hi
      simp only [Ring.pos]
      by_cases hlt : q.start + i < q.cap
      · rw [if_pos hlt, g3 i (by omega), copy_get _ _ (by simp; omega) _ (by omega), g1 i (by omega)]
      · rw [if_neg hlt, g4 i (by omega) (by omega), g2 _ (by omega)]
        congr 1; omega
    · have hwr : q.start + q.size < q.cap := by
        by_contra hc; rw [if_neg hc] at hfin; omega
      rw [if_pos hwr] at hfin
      obtain ⟨s1, e1, l1, g1⟩ := slice_get q.data q.start q.fin (by omega)
      refine ⟨_, by simp [slimCopy, hw, e1]; rfl, key _ ?_ ?_⟩
      · rw [copy_length] <;> simp <;> omega
      · intro i hi
        rw [copy_get _ _ (by simp; omega) _ (by omega), g1 i (by omega)]
        simp only [Ring.pos]
        rw [if_pos (by omega)]
  · exact ⟨q, rfl, ⟨hlen, hcap, hstart, hsize, hsle, hfin, hget⟩⟩

theorem Ring.pushBack_ok (q : Ring α) (l : List α) (v : α) (h : q.Rep l) :
    ∃ q', q.pushBack v = some q' ∧ q'.Rep (l ++ [v]) := by
  obtain ⟨g, hg, ⟨hlen, hcap, hstart, hsize, hsle, hfin, hget⟩, hlt⟩ := grow_ok q l h
  have hfl : g.fin < g.data.length := by
    rw [hfin, hlen]; exact pos_lt hstart hlt
  have hfin0 := hfin
  simp only [Ring.pos] at hfin
  refine ⟨_, by simp [pushBack, hg, write, hfl]; rfl, ?_⟩
  refine ⟨by simpa using hlen, hcap, hstart, by simp [hsize], by simp only; omega, ?_, ?_⟩
  · simp only [Ring.pos]
    split_ifs at hfin ⊢ <;> omega
  · intro i hi
    simp only [List.length_append, List.length_cons, List.length_nil, Nat.zero_add] at hi
    simp only [List.getElem?_set]
    have hpp : ∀ d s f, Ring.pos (⟨s, d, g.cap, g.start, f⟩ : Ring α) i = g.pos i := fun _ _ _ => rfl
    by_cases hil : i < l.length
    · have hne : g.fin ≠ g.pos i := by
        simp only [Ring.pos]; split_ifs at hfin ⊢ <;> omega
      simp only [hpp, if_neg hne]
      rw [List.getElem?_append_left hil]
      exact hget i hil
    · have : i = g.size := by omega
      have e : g.fin = g.pos i := by rw [this]; exact hfin0
      simp only [hpp, if_pos e]
      have : g.pos i < g.data.length := by omega
      rw [if_pos (by omega), List.getElem?_append_right (by omega)]
      have : i - l.length = 0 := by omega
      simp [this]

theorem Ring.pushFront_ok (q : Ring α) (l : List α) (v : α) (h : q.Rep l) :
    ∃ q', q.pushFront v = some q' ∧ q'.Rep (v :: l) := by
  obtain ⟨g, hg, ⟨hlen, hcap, hstart, hsize, hsle, hfin, hget⟩, hlt⟩ := grow_ok q l h
  simp only [Ring.pos] at hfin
  have hsl : (if g.start = 0 then g.cap - 1 else g.start - 1) < g.data.length := by
    split <;> omega
  refine ⟨_, by simp only [pushFront, hg, write, Option.bind_eq_bind, Option.bind_some,
    if_pos hsl]; rfl, ?_⟩
  refine ⟨by simpa using hlen, hcap, by simp only; omega, by simp [hsize], by simp only; omega,
    ?_, ?_⟩
  · simp only [Ring.pos]
    split_ifs at hfin ⊢ <;> omega
  · intro i hi
    simp only [List.length_cons] at hi
    simp only [List.getElem?_set]
    cases i with
    | zero =>
      have : Ring.pos (⟨g.size + 1, g.data.set (if g.start = 0 then g.cap - 1 else g.start - 1) v,
        g.cap, if g.start = 0 then g.cap - 1 else g.start - 1, g.fin⟩ : Ring α) 0 =
          if g.start = 0 then g.cap - 1 else g.start - 1 := by
        simp only [Ring.pos]; split_ifs <;> omega
      rw [this, if_pos rfl, if_pos hsl]; rfl
    | succ i =>
      have hil : i < l.length := by omega
      have : Ring.pos (⟨g.size + 1, g.data.set (if g.start = 0 then g.cap - 1 else g.start - 1) v,
        g.cap, if g.start = 0 then g.cap - 1 else g.start - 1, g.fin⟩ : Ring α) (i + 1) =
          g.pos i := by
        simp only [Ring.pos]; split_ifs <;> omega
      have hne : (if g.start = 0 then g.cap - 1 else g.start - 1) ≠ g.pos i := by
        simp only [Ring.pos]; split_ifs <;> omega
      rw [this, if_neg hne, hget i hil]
      simp

theorem Ring.popBack_nil (q : Ring α) (h : q.Rep []) : q.popBack = some (q, .val none) := by
  have : q.size = 0 := by simpa using h.size
  simp [popBack, this]

theorem Ring.popFront_nil (q : Ring α) (h : q.Rep []) : q.popFront = some (q, .val none) := by
  have : q.size = 0 := by simpa using h.size
  simp [popFront, this]

theorem Ring.back_get (q : Ring α) (l : List α) (v : α) (h : q.Rep (l ++ [v])) :
    q.data[if q.fin = 0 then q.cap - 1 else q.fin - 1]? = some v ∧
    (if q.fin = 0 then q.cap - 1 else q.fin - 1) = q.pos l.length := by
  obtain ⟨hlen, hcap, hstart, hsize, hsle, hfin, hget⟩ := h
  simp only [List.length_append, List.length_cons, List.length_nil, Nat.zero_add] at hsize hget
  have e : (if q.fin = 0 then q.cap - 1 else q.fin - 1) = q.pos l.length := by
    simp only [Ring.pos] at hfin ⊢
    split_ifs at hfin ⊢ <;> omega
  refine ⟨?_, e⟩
  rw [e, hget l.length (by omega)]
  simp

theorem Ring.popBack_concat (q : Ring α) (l : List α) (v : α) (h : q.Rep (l ++ [v])) :
    ∃ q', q.popBack = some (q', .val (some v)) ∧ q'.Rep l := by
  obtain ⟨hb1, hb2⟩ := back_get q l v h
  obtain ⟨hlen, hcap, hstart, hsize, hsle, hfin, hget⟩ := h
  simp only [List.length_append, List.length_cons, List.length_nil, Nat.zero_add] at hsize hget
  have hs0 : q.size ≠ 0 := by omega
  have hs1 : q.size - 1 = l.length := by omega
  have hR : Ring.Rep { q with fin := q.pos l.length, size := q.size - 1 } l := by
    refine ⟨hlen, hcap, hstart, by simp only; omega, by simp only; omega, ?_, ?_⟩
    · simp only [Ring.pos, hs1]
    · intro i hi
      have := hget i (by omega)
      rw [List.getElem?_append_left hi] at this
      exact this
  obtain ⟨q', h1, h2⟩ := slimming_ok _ l hR
  refine ⟨q', ?_, h2⟩
  simp only [popBack, if_neg hs0]
  rw [hb1, hb2]
  simp [h1]

theorem Ring.popFront_cons (q : Ring α) (l : List α) (v : α) (h : q.Rep (v :: l)) :
    ∃ q', q.popFront = some (q', .val (some v)) ∧ q'.Rep l := by
  obtain ⟨hlen, hcap, hstart, hsize, hsle, hfin, hget⟩ := h
  simp only [List.length_cons] at hsize hget
  have hs0 : q.size ≠ 0 := by omega
  have hf : q.data[q.start]? = some v := by
    have := hget 0 (by omega)
    simp only [Ring.pos, Nat.add_zero, if_pos hstart] at this
    simpa using this
  have hR : Ring.Rep { q with start := if q.start + 1 ≥ q.cap then 0 else q.start + 1,
                              size := q.size - 1 } l := by
    refine ⟨hlen, hcap, ?_, by simp only; omega, by simp only; omega, ?_, ?_⟩
    · simp only; split <;> omega
    · simp only [Ring.pos] at hfin ⊢
      split_ifs at hfin ⊢ <;> omega
    · intro i hi
      have := hget (i + 1) (by omega)
      simp only [List.getElem?_cons_succ] at this
      rw [← this]
      simp only
      congr 1
      simp only [Ring.pos]
      split_ifs <;> omega
  obtain ⟨q', h1, h2⟩ := slimming_ok _ l hR
  refine ⟨q', ?_, h2⟩
  simp [popFront, hs0, hf, h1]

theorem Ring.front_eq (q : Ring α) (v : α) (l : List α) (h : q.Rep (v :: l)) :
    q.front = some v := by
  have := h.get 0 (by simp)
  have hs := h.start
  simp only [Ring.pos, Nat.add_zero, if_pos hs] at this
  simpa [front] using this

theorem Ring.index_eq (q : Ring α) (l : List α) (h : q.Rep l) (i : Nat) : q.index i = l[i]? := by
  have hs := h.size
  have hst := h.start
  have hle := h.size_le
  unfold index
  by_cases hi : i < l.length
  · rw [if_pos (by omega), ← h.get i hi]
    simp only [Ring.pos]
    by_cases hlt : q.start + i < q.cap
    · have h1 : ¬ ((q.start : Int) + i ≥ q.cap) := by omega
      have h2 : ¬ ((q.start : Int) + i < 0) := by omega
      simp only [if_neg h1, if_neg h2, if_pos hlt]
      congr 1
    · have h1 : ((q.start : Int) + i ≥ q.cap) := by omega
      have h2 : ¬ ((q.start : Int) + i - q.cap < 0) := by omega
      simp only [if_pos h1, if_neg h2, if_neg hlt]
      congr 1; omega
  · rw [if_neg (by omega)]
    simp; omega

theorem Ring.index_ge (q : Ring α) (i : Int) (hi : (q.size : Int) ≤ i) : q.index i = none := by
  unfold index
  rw [if_neg (by omega)]

theorem loop1_eq (data : List α) (size : Nat) (n : Nat) : ∀ (i count : Nat), i + n ≤ data.length →
    count ≤ size → loop1 data size n i count =
      some (((data.drop i).take n).take (size - count), count + min n (size - count)) := by
  induction n with
  | zero => intro i count _ _; simp [loop1]
  | succ n ih =>
    intro i count hi hc
    simp only [loop1]
    by_cases hlt : count < size
    · rw [if_pos hlt]
      have hil : i < data.length := by omega
      rw [List.getElem?_eq_getElem hil, ih (i + 1) (count + 1) (by omega) (by omega)]
      have e : size - count = (size - (count + 1)) + 1 := by omega
      rw [List.drop_eq_getElem_cons hil, e]
      simp only [List.take_succ_cons, Option.bind_eq_bind, Option.bind_some, Option.pure_def,
        Option.some.injEq, Prod.mk.injEq, true_and]
      omega
    · rw [if_neg hlt]
      have : size - count = 0 := by omega
      simp [this]

theorem loop2_eq (data : List α) (n : Nat) : ∀ i, i + n ≤ data.length →
    loop2 data n i = some ((data.drop i).take n) := by
  induction n with
  | zero => intro i _; simp [loop2]
  | succ n ih =>
    intro i hi
    have hil : i < data.length := by omega
    simp only [loop2]
    rw [List.getElem?_eq_getElem hil, ih (i + 1) (by omega), List.drop_eq_getElem_cons hil]
    rfl

/-- The sequence is the two runs of the buffer. -/
theorem Ring.rep_runs (q : Ring α) (l : List α) (h : q.Rep l) :
    (if q.start + q.size < q.cap then
      ((q.data.drop q.start).take (q.cap - q.start)).take q.size
     else (q.data.drop q.start).take (q.cap - q.start) ++ q.data.take q.fin) = l := by
  obtain ⟨hlen, hcap, hstart, hsize, hsle, hfin, hget⟩ := h
  simp only [Ring.pos] at hfin hget
  apply List.ext_getElem?
  intro i
  by_cases hi : i < l.length
  · rw [← hget i hi]
    split_ifs at hfin ⊢ with h1 h2 h2
    · simp only [List.getElem?_take, List.getElem?_drop]
      rw [if_pos (by omega), if_pos (by omega)]
    · omega
    · rw [List.getElem?_append_left (by simp; omega), List.getElem?_take, if_pos (by omega),
        List.getElem?_drop]
    · rw [List.getElem?_append_right (by simp; omega), List.getElem?_take]
      simp only [List.length_take, List.length_drop]
      rw [if_pos (by omega)]
      congr 1; omega
  · rw [List.getElem?_eq_none (by omega : l.length ≤ i)]
    apply List.getElem?_eq_none
    split_ifs at hfin ⊢
    · simp; omega
    · simp; omega

theorem Ring.values_eq (q : Ring α) (l : List α) (h : q.Rep l) : q.values = some l := by
  have hr := rep_runs q l h
  obtain ⟨hlen, hcap, hstart, hsize, hsle, hfin, hget⟩ := h
  simp only [Ring.pos] at hfin
  unfold values
  rw [loop1_eq _ _ _ _ _ (by omega) (by omega)]
  simp only [Nat.sub_zero, Nat.zero_add, Option.bind_eq_bind, Option.bind_some]
  by_cases hw : q.start + q.size < q.cap
  · rw [if_pos hw] at hr hfin
    rw [if_neg (by omega), hr]; rfl
  · rw [if_neg hw] at hr hfin
    have ht : ((q.data.drop q.start).take (q.cap - q.start)).take q.size
        = (q.data.drop q.start).take (q.cap - q.start) := by
      apply List.take_of_length_le; simp; omega
    by_cases hc : min (q.cap - q.start) q.size < q.size
    · rw [if_pos hc, loop2_eq _ _ _ (by omega)]
      simp only [ht, List.drop_zero, Option.bind_some, hr]; rfl
    · rw [if_neg hc]
      have : q.fin = 0 := by omega
      rw [this] at hr
      rw [ht]
      simpa using hr

/-- The calls a traversal of `l` makes: up to and including the first on which the callback
returns false; indices from `i`. -/
def visit (cb : Nat → α → Bool) : Nat → List α → List (Nat × α)
  | _, [] => []
  | i, v :: l => if cb i v then (i, v) :: visit cb (i + 1) l else [(i, v)]

/-- Whether the callback stops the traversal. -/
def stops (cb : Nat → α → Bool) : Nat → List α → Bool
  | _, [] => false
  | i, v :: l => if cb i v then stops cb (i + 1) l else true

theorem visit_append (cb : Nat → α → Bool) (a b : List α) : ∀ i, visit cb i (a ++ b) =
    if stops cb i a then visit cb i a else visit cb i a ++ visit cb (i + a.length) b := by
  induction a with
  | nil => intro i; simp [stops, visit]
  | cons v a ih =>
    intro i
    simp only [List.cons_append, visit, stops]
    by_cases hc : cb i v
    · simp only [if_pos hc, ih]
      split
      · rfl
      · simp [Nat.add_assoc, Nat.add_comm 1]
    · simp [hc]

theorem trav1_eq (data : List α) (size : Nat) (cb : Nat → α → Bool) (n : Nat) :
    ∀ (i count : Nat), i + n ≤ data.length → count ≤ size →
    ∃ c, trav1 data size cb n i count =
      some (visit cb count (((data.drop i).take n).take (size - count)), c,
        stops cb count (((data.drop i).take n).take (size - count))) ∧
      (stops cb count (((data.drop i).take n).take (size - count)) = false →
        c = count + min n (size - count)) := by
  induction n with
  | zero => intro i count _ _; exact ⟨count, by simp [trav1, visit, stops], by simp⟩
  | succ n ih =>
    intro i count hi hc
    simp only [trav1]
    by_cases hlt : count < size
    · rw [if_pos hlt]
      have hil : i < data.length := by omega
      have e : size - count = (size - (count + 1)) + 1 := by omega
      obtain ⟨c, h1, h2⟩ := ih (i + 1) (count + 1) (by omega) (by omega)
      rw [List.getElem?_eq_getElem hil, List.drop_eq_getElem_cons hil, e]
      simp only [List.take_succ_cons, visit, stops]
      by_cases hcb : cb count data[i]
      · refine ⟨c, by simp [hcb, h1], ?_⟩
        simp only [hcb, if_true]
        intro hs
        rw [h2 hs]; omega
      · exact ⟨count, by simp [hcb], by simp [hcb]⟩
    · rw [if_neg hlt]
      have : size - count = 0 := by omega
      exact ⟨count, by simp [this, visit, stops], by simp [this]⟩

theorem trav2_eq (data : List α) (cb : Nat → α → Bool) (n : Nat) : ∀ i idx, i + n ≤ data.length →
    trav2 data cb n i idx = some (visit cb idx ((data.drop i).take n)) := by
  induction n with
  | zero => intro i idx _; simp [trav2, visit]
  | succ n ih =>
    intro i idx hi
    have hil : i < data.length := by omega
    simp only [trav2]
    rw [List.getElem?_eq_getElem hil, ih (i + 1) (idx + 1) (by omega), List.drop_eq_getElem_cons hil]
    simp only [List.take_succ_cons, visit]
    by_cases hcb : cb idx data[i] <;> simp [hcb]

theorem Ring.traverse_eq (q : Ring α) (l : List α) (h : q.Rep l) (cb : Nat → α → Bool) :
    q.traverse cb = some (visit cb 0 l) := by
  have hr := rep_runs q l h
  obtain ⟨hlen, hcap, hstart, hsize, hsle, hfin, hget⟩ := h
  simp only [Ring.pos] at hfin
  unfold traverse
  obtain ⟨c, h1, h2⟩ := trav1_eq q.data q.size cb (q.cap - q.start) q.start 0 (by omega) (by omega)
  rw [h1]
  simp only [Nat.sub_zero, Nat.zero_add] at h2 ⊢
  simp only [Option.bind_eq_bind, Option.bind_some]
  by_cases hw : q.start + q.size < q.cap
  · rw [if_pos hw] at hr hfin
    rw [hr] at h2 ⊢
    by_cases hs : stops cb 0 l
    · simp [hs]
    · have := h2 (by simpa using hs)
      rw [if_neg hs, if_neg (by omega)]; rfl
  · rw [if_neg hw] at hr hfin
    have ht : ((q.data.drop q.start).take (q.cap - q.start)).take q.size
        = (q.data.drop q.start).take (q.cap - q.start) := by
      apply List.take_of_length_le; simp; omega
    rw [ht] at h2 ⊢
    rw [← hr, visit_append]
    by_cases hs : stops cb 0 ((q.data.drop q.start).take (q.cap - q.start))
    · simp [hs]
    · have hcc := h2 (by simpa using hs)
      rw [if_neg hs, if_neg hs]
      have hl1 : ((q.data.drop q.start).take (q.cap - q.start)).length = q.cap - q.start := by
        simp; omega
      by_cases hc : c < q.size
      · rw [if_pos hc, trav2_eq _ _ _ _ _ (by omega)]
        simp only [List.drop_zero, Option.bind_some, hl1]
        have : c = 0 + (q.cap - q.start) := by omega
        rw [this]; rfl
      · rw [if_neg hc]
        have : q.fin = 0 := by omega
        simp [this, visit]

end Verif.Queue
