import Verif.List.ArrayProps
import Verif.Common.Tac

/-! C21, C85: placing an array list iterator by index, swapping between lists, and loops that remove
elements through the iterator. -/

namespace Verif.AList
variable {T : Type} [Inhabited T]

/-- iterator.go:28-35 `Swap`, circular_iterator.go:12-19, for iterators of two different lists. -/
def swap2 (l m : AL T) (c o : Nat) : Except Fail (AL T × AL T) := do
  let cidx := add64 (add64 c l.headidx) 1
  let oidx := add64 (add64 o m.headidx) 1
  let temp ← at' l.data cidx
  let ov ← at' m.data oidx
  let data ← setAt l.data cidx ov
  let data' ← setAt m.data oidx temp
  return ({ l with data := data }, { m with data := data' })

/-! The loops of a caller. `none` stands for a `log.Panic` of a call, and for a loop that is not
finished after `n` rounds. -/

/-- `for it.ToHead(); it.Valid(); { if p(it.Value()) { it.RemoveToNext() } else { it.Next() } }`,
from the cursor `c`; also gives the values `it.Value()` had. -/
def sweep (M : Nat) (p : T → Bool) : Nat → AL T → Nat → Except Fail (Option (AL T × List T))
  | 0, _, _ => .ok none
  | n + 1, l, c =>
    if valid l c then
      match value l c with
      | .error e => .error e
      | .ok none => .ok none
      | .ok (some v) =>
        (if p v then
          match removeToNext M l c with
          | .error e => .error e
          | .ok (_, none) => .ok none
          | .ok (l, some c) => sweep M p n l c
        else sweep M p n l (next c)).map fun r => r.map fun q => (q.1, v :: q.2)
    else .ok (some (l, []))

/-- `for it.ToTail(); it.Valid(); { if p(it.Value()) { it.RemoveToPrev() } else { it.Prev() } }`. -/
def sweepBack (M : Nat) (p : T → Bool) : Nat → AL T → Nat → Except Fail (Option (AL T × List T))
  | 0, _, _ => .ok none
  | n + 1, l, c =>
    if valid l c then
      match value l c with
      | .error e => .error e
      | .ok none => .ok none
      | .ok (some v) =>
        (if p v then
          match removeToPrev M l c with
          | .error e => .error e
          | .ok (_, none) => .ok none
          | .ok (l, some c) => sweepBack M p n l c
        else sweepBack M p n l (prev c)).map fun r => r.map fun q => (q.1, v :: q.2)
    else .ok (some (l, []))

variable {M : Nat} {p : T → Bool}

theorem Reach.removeAt (h8 : 8 ≤ M) (hM : M ≤ 2 ^ 62) {l : AL T} {xs : List T}
    (h : Reach M l xs) {c : Nat} (hc : c < xs.length) :
    ∃ l', l.remove M c = .ok (l', some xs[c]) ∧ Reach M l' (xs.eraseIdx c) := by
  obtain ⟨l', h1, h2⟩ := (h.holds h8 hM).remove hM c
  rw [List.getElem?_eq_getElem hc] at h1
  exact ⟨l', h1, Reach.call (o := .remove c) h trivial
    (show l.step M (.remove c) = .ok (l', .val (some xs[c])) by
      simp [AL.step, h1, Except.map, orPanic])⟩

theorem Reach.valid_eq (h8 : 8 ≤ M) (hM : M ≤ 2 ^ 62) {l : AL T} {xs : List T}
    (h : Reach M l xs) (c : Nat) : valid l c = decide (c < xs.length) := by
  simp [valid, (h.holds h8 hM).size]

theorem Reach.value_eq (h8 : 8 ≤ M) (hM : M ≤ 2 ^ 62) {l : AL T} {xs : List T}
    (h : Reach M l xs) (c : Nat) : value l c = .ok xs[c]? := (h.holds h8 hM).index hM c

/-- A cursor outside the list ends the loop. -/
theorem sweep_end (h8 : 8 ≤ M) (hM : M ≤ 2 ^ 62) {l : AL T} {xs : List T} (h : Reach M l xs)
    {c n : Nat} (hc : xs.length ≤ c) : sweep M p (n + 1) l c = .ok (some (l, [])) := by
  rw [sweep, if_neg (by rw [h.valid_eq h8 hM]; simpa using hc)]

theorem sweepBack_end (h8 : 8 ≤ M) (hM : M ≤ 2 ^ 62) {l : AL T} {xs : List T} (h : Reach M l xs)
    {c n : Nat} (hc : xs.length ≤ c) : sweepBack M p (n + 1) l c = .ok (some (l, [])) := by
  rw [sweepBack, if_neg (by rw [h.valid_eq h8 hM]; simpa using hc)]

/-- A round of the loop at an element that stays. -/
theorem sweep_keep (h8 : 8 ≤ M) (hM : M ≤ 2 ^ 62) {l : AL T} {xs : List T} (h : Reach M l xs)
    {c n : Nat} (hc : c < xs.length) (hp : p xs[c] = false) :
    sweep M p (n + 1) l c =
      (sweep M p n l (c + 1)).map fun r => r.map fun q => (q.1, xs[c] :: q.2) := by
  have hlen := (h.holds h8 hM).length_le
  rw [sweep, if_pos (by rw [h.valid_eq h8 hM]; simpa using hc), h.value_eq h8 hM,
    List.getElem?_eq_getElem hc]
  simp only [hp, Bool.false_eq_true, if_false, next, add64_eq (show c + 1 < 2 ^ 64 by omega)]

theorem sweepBack_keep (h8 : 8 ≤ M) (hM : M ≤ 2 ^ 62) {l : AL T} {xs : List T} (h : Reach M l xs)
    {c n : Nat} (hc : c < xs.length) (hp : p xs[c] = false) :
    sweepBack M p (n + 1) l c =
      (sweepBack M p n l (sub64 c 1)).map fun r => r.map fun q => (q.1, xs[c] :: q.2) := by
  rw [sweepBack, if_pos (by rw [h.valid_eq h8 hM]; simpa using hc), h.value_eq h8 hM,
    List.getElem?_eq_getElem hc]
  simp only [hp, Bool.false_eq_true, if_false, prev]

/-- A round of the loop at an element that goes. -/
theorem sweep_drop (h8 : 8 ≤ M) (hM : M ≤ 2 ^ 62) {l : AL T} {xs : List T} (h : Reach M l xs)
    {c : Nat} (hc : c < xs.length) (hp : p xs[c] = true) :
    ∃ l', Reach M l' (xs.eraseIdx c) ∧ ∀ n, sweep M p (n + 1) l c =
      (sweep M p n l' (if c + 1 = xs.length then sub64 c 1 else c)).map
        fun r => r.map fun q => (q.1, xs[c] :: q.2) := by
  obtain ⟨l', h1, h2⟩ := h.removeAt h8 hM hc
  refine ⟨l', h2, fun n => ?_⟩
  have hl' : (xs.eraseIdx c).length = xs.length - 1 := by rw [List.length_eraseIdx, if_pos hc]
  have hi : (c = l'.size) ↔ c + 1 = xs.length := by rw [(h2.holds h8 hM).size, hl']; omega
  rw [sweep, if_pos (by rw [h.valid_eq h8 hM]; simpa using hc), h.value_eq h8 hM,
    List.getElem?_eq_getElem hc]
  simp only [hp, if_true, removeToNext, h1, Bind.bind, Except.bind, Pure.pure, Except.pure,
    Option.map_some, hi]

theorem sweepBack_drop (h8 : 8 ≤ M) (hM : M ≤ 2 ^ 62) {l : AL T} {xs : List T} (h : Reach M l xs)
    {c : Nat} (hc : c < xs.length) (hp : p xs[c] = true) :
    ∃ l', Reach M l' (xs.eraseIdx c) ∧ ∀ n, sweepBack M p (n + 1) l c =
      (sweepBack M p n l' (if c = 0 then 0 else c - 1)).map
        fun r => r.map fun q => (q.1, xs[c] :: q.2) := by
  obtain ⟨l', h1, h2⟩ := h.removeAt h8 hM hc
  have hlen := (h.holds h8 hM).length_le
  refine ⟨l', h2, fun n => ?_⟩
  rw [sweepBack, if_pos (by rw [h.valid_eq h8 hM]; simpa using hc), h.value_eq h8 hM,
    List.getElem?_eq_getElem hc]
  have e : (if c = 0 then c else sub64 c 1) = if c = 0 then 0 else c - 1 := by
    split
    · assumption
    · rw [sub64_eq (by omega) (by omega)]
  simp only [hp, if_true, removeToPrev, h1, Bind.bind, Except.bind, Pure.pure, Except.pure,
    Option.map_some, e]

/-- The element seen a second time when the last one is removed. -/
def again (p : T → Bool) (last : Option T) (left : Option T) : List T :=
  if last.any p then left.toList else []

theorem sub64_zero_one : sub64 0 1 = 2 ^ 64 - 1 := by decide

theorem sweep_ok (h8 : 8 ≤ M) (hM : M ≤ 2 ^ 62) (rest : List T) : ∀ (kept : List T) (l : AL T)
    (n : Nat), Reach M l (kept ++ rest) → (∀ x ∈ kept, p x = false) → rest.length + 2 ≤ n →
    ∃ l', sweep M p n l kept.length = .ok (some (l', rest ++
        again p rest.getLast? (kept ++ rest.filter fun x => !p x).getLast?)) ∧
      Reach M l' (kept ++ rest.filter fun x => !p x) := by
  induction rest with
  | nil =>
    intro kept l n h hk hn
    obtain ⟨n, rfl⟩ : ∃ m, n = m + 1 := ⟨n - 1, by simp at hn; omega⟩
    exact ⟨l, by rw [sweep_end h8 hM h (by simp)]; simp [again], by simpa using h⟩
  | cons x rest ih =>
    intro kept l n h hk hn
    obtain ⟨n, rfl⟩ : ∃ m, n = m + 1 := ⟨n - 1, by simp at hn; omega⟩
    have hc : kept.length < (kept ++ x :: rest).length := by simp
    have hx : (kept ++ x :: rest)[kept.length] = x := by simp
    simp only [List.length_cons] at hn
    by_cases hp : p x = true
    · obtain ⟨l1, h1, h2⟩ := sweep_drop (p := p) h8 hM h hc (by rw [hx]; exact hp)
      have he : (kept ++ x :: rest).eraseIdx kept.length = kept ++ rest := by
        rw [List.eraseIdx_append_of_length_le (Nat.le_refl _)]; simp
      rw [he] at h1
      rw [h2 n, hx]
      cases rest with
      | nil =>
        rw [if_pos (by simp)]
        simp only [List.append_nil] at h1
        refine ⟨l1, ?_, by simpa [hp] using h1⟩
        obtain ⟨m, rfl⟩ : ∃ m, n = m + 1 := ⟨n - 1, by simp at hn; omega⟩
        have hlen := (h1.holds h8 hM).length_le
        rcases List.eq_nil_or_concat kept with rfl | ⟨ks, k, rfl⟩
        · rw [List.length_nil, sub64_zero_one, sweep_end h8 hM h1 (by simp)]
          simp [Except.map, again, hp]
        · obtain ⟨m, rfl⟩ : ∃ m', m = m' + 1 := ⟨m - 1, by simp at hn; omega⟩
          simp only [List.concat_eq_append] at h1 hk hlen ⊢
          rw [show (ks ++ [k]).length = ks.length + 1 by simp,
            sub64_eq (by omega) (by simp at hlen; omega), Nat.add_sub_cancel]
          rw [sweep_keep h8 hM h1 (by simp) (by simpa using hk k (by simp)),
            sweep_end h8 hM h1 (by simp)]
          simp [Except.map, again, hp]
      | cons y rest =>
        rw [if_neg (by simp)]
        obtain ⟨l', h3, h4⟩ := ih kept l1 n h1 hk (by omega)
        refine ⟨l', ?_, by simpa [hp] using h4⟩
        rw [h3]
        simp [Except.map, hp]
    · have hp' : p x = false := by simpa using hp
      rw [sweep_keep h8 hM h hc (by rw [hx]; exact hp'), hx]
      obtain ⟨l', h3, h4⟩ := ih (kept ++ [x]) l n (by simpa using h)
        (by intro y hy; simp only [List.mem_append, List.mem_singleton] at hy
            rcases hy with hy | rfl
            · exact hk y hy
            · exact hp') (by omega)
      rw [show (kept ++ [x]).length = kept.length + 1 by simp] at h3
      refine ⟨l', ?_, by simpa [hp'] using h4⟩
      rw [h3]
      cases rest with
      | nil => simp [Except.map, again, hp']
      | cons y rest => simp [Except.map, hp']

theorem sweepBack_ok (h8 : 8 ≤ M) (hM : M ≤ 2 ^ 62) (rest : List T) : ∀ (kept : List T) (l : AL T)
    (n : Nat), Reach M l (rest.reverse ++ kept) → (∀ x ∈ kept, p x = false) → rest.length + 2 ≤ n →
    ∃ l', sweepBack M p n l (sub64 rest.length 1) = .ok (some (l', rest ++
        again p rest.getLast? ((rest.reverse.filter fun x => !p x) ++ kept).head?)) ∧
      Reach M l' ((rest.reverse.filter fun x => !p x) ++ kept) := by
  induction rest with
  | nil =>
    intro kept l n h hk hn
    obtain ⟨n, rfl⟩ : ∃ m, n = m + 1 := ⟨n - 1, by simp at hn; omega⟩
    have hlen := (h.holds h8 hM).length_le
    refine ⟨l, ?_, by simpa using h⟩
    rw [List.length_nil, sub64_zero_one, sweepBack_end h8 hM h (by omega)]
    simp [again]
  | cons x rest ih =>
    intro kept l n h hk hn
    obtain ⟨n, rfl⟩ : ∃ m, n = m + 1 := ⟨n - 1, by simp at hn; omega⟩
    have hlen := (h.holds h8 hM).length_le
    simp only [List.reverse_cons, List.append_assoc, List.singleton_append] at h hlen ⊢
    have hc : rest.length < (rest.reverse ++ x :: kept).length := by simp
    have hx : (rest.reverse ++ x :: kept)[rest.length] = x := by
      rw [List.getElem_append_right (by simp)]; simp
    simp only [List.length_cons] at hn ⊢
    simp only [List.length_append, List.length_reverse, List.length_cons] at hlen
    rw [sub64_eq (by omega) (by omega), Nat.add_sub_cancel]
    by_cases hp : p x = true
    · have hf : (rest.reverse ++ [x]).filter (fun x => !p x) = rest.reverse.filter fun x => !p x := by
        rw [List.filter_append]; simp [hp]
      rw [hf]
      obtain ⟨l1, h1, h2⟩ := sweepBack_drop (p := p) h8 hM h hc (by rw [hx]; exact hp)
      have he : (rest.reverse ++ x :: kept).eraseIdx rest.length = rest.reverse ++ kept := by
        rw [List.eraseIdx_append_of_length_le (by simp)]; simp
      rw [he] at h1
      rw [h2 n, hx]
      cases rest with
      | nil =>
        rw [if_pos (by simp)]
        simp only [List.reverse_nil, List.nil_append] at h1
        refine ⟨l1, ?_, by simpa [hp] using h1⟩
        obtain ⟨m, rfl⟩ : ∃ m, n = m + 1 := ⟨n - 1, by simp at hn; omega⟩
        cases kept with
        | nil =>
          rw [sweepBack_end h8 hM h1 (by simp)]
          simp [Except.map, again, hp]
        | cons k kept =>
          obtain ⟨m, rfl⟩ : ∃ m', m = m' + 1 := ⟨m - 1, by simp at hn; omega⟩
          rw [sweepBack_keep h8 hM h1 (by simp) (by simpa using hk k (by simp)), sub64_zero_one,
            sweepBack_end h8 hM h1 (by simp at hlen ⊢; omega)]
          simp [Except.map, again, hp]
      | cons y rest =>
        rw [if_neg (by simp)]
        obtain ⟨l', h3, h4⟩ := ih kept l1 n h1 hk (by omega)
        refine ⟨l', ?_, h4⟩
        rw [← sub64_eq (a := (y :: rest).length) (b := 1) (by simp) (by simp at hlen ⊢; omega), h3, List.getLast?_cons_cons]
        rfl
    · have hp' : p x = false := by simpa using hp
      have hf : (rest.reverse ++ [x]).filter (fun x => !p x) ++ kept =
          (rest.reverse.filter fun x => !p x) ++ x :: kept := by
        rw [List.filter_append]; simp [hp']
      rw [hf]
      rw [sweepBack_keep h8 hM h hc (by rw [hx]; exact hp'), hx]
      obtain ⟨l', h3, h4⟩ := ih (x :: kept) l n h
        (by intro y hy; simp only [List.mem_cons] at hy
            rcases hy with rfl | hy
            · exact hp'
            · exact hk y hy) (by omega)
      refine ⟨l', ?_, h4⟩
      rw [h3]
      cases rest with
      | nil => simp [Except.map, again, hp']
      | cons y rest => rw [List.getLast?_cons_cons]; rfl

/-! ### Theorems -/

/-- C21: `IndexTo` places an iterator at any element, and panics outside the list. -/
theorem C21_index_to (h8 : 8 ≤ M) (hM : M ≤ 2 ^ 62) {l : AL T} {xs : List T} (h : Reach M l xs)
    (i : Nat) :
    (∀ hi : i < xs.length, ∃ c, indexTo l i = some c ∧ valid l c = true ∧
      value l c = .ok (some xs[i])) ∧
    (xs.length ≤ i → indexTo l i = none) := by
  have hs := (h.holds h8 hM).size
  constructor
  · intro hi
    refine ⟨i, ?_, by rw [h.valid_eq h8 hM]; simpa using hi, ?_⟩
    · rw [indexTo, hs, if_neg (by omega)]
    · rw [h.value_eq h8 hM, List.getElem?_eq_getElem hi]
  · intro hi
    rw [indexTo, hs, if_pos hi]

/-- C21: `Swap` of iterators of two lists exchanges the two elements and nothing else. -/
theorem C21_swap_lists (h8 : 8 ≤ M) (hM : M ≤ 2 ^ 62) {l m : AL T} {xs ys : List T}
    (h : Reach M l xs) (h' : Reach M m ys) {c d : Nat} (hc : c < xs.length) (hd : d < ys.length) :
    ∃ l' m', swap2 l m c d = .ok (l', m') ∧ Reach M l' (xs.set c ys[d]) ∧
      Reach M m' (ys.set d xs[c]) := by
  obtain ⟨l', g1, g2⟩ := (C21_edit h8 hM h hc hc ys[d]).1
  obtain ⟨m', k1, k2⟩ := (C21_edit h8 hM h' hd hd xs[c]).1
  refine ⟨l', m', ?_, g2, k2⟩
  obtain ⟨pre, post, hr⟩ := h.holds h8 hM
  obtain ⟨pre', post', hr'⟩ := h'.holds h8 hM
  simp only [setValue, Bind.bind, Except.bind, Pure.pure, Except.pure] at g1 k1
  simp only [swap2, hr.at hM hc, hr'.at hM hd, Bind.bind, Except.bind, Pure.pure, Except.pure]
  cases e1 : setAt l.data (add64 (add64 c l.headidx) 1) ys[d] with
  | error e => rw [e1] at g1; simp at g1
  | ok data =>
    cases e2 : setAt m.data (add64 (add64 d m.headidx) 1) xs[c] with
    | error e => rw [e2] at k1; simp at k1
    | ok data' =>
      rw [e1] at g1
      rw [e2] at k1
      simp only [Except.ok.injEq] at g1 k1 ⊢
      rw [g1, k1]

/-- C85, array list: a loop from the head that removes through `RemoveToNext` ends, whatever it
removes, and leaves the other elements in order. It looks at every element in order; if the last
element was removed it looks once more at the last element left. Missing: that every element is
looked at once, which is false, see `C85_array_seen_twice`. -/
theorem C85_array_forward_partial (h8 : 8 ≤ M) (hM : M ≤ 2 ^ 62) {l : AL T} {xs : List T}
    (h : Reach M l xs) (p : T → Bool) (n : Nat) (hn : xs.length + 2 ≤ n) :
    ∃ l', sweep M p n l toHead = .ok (some (l', xs ++
        if xs.getLast?.any p then (xs.filter fun x => !p x).getLast?.toList else [])) ∧
      Reach M l' (xs.filter fun x => !p x) :=
  sweep_ok h8 hM xs [] l n h (by simp) hn

/-- C85, array list: the same for a loop from the tail with `RemoveToPrev`; if the first element was
removed it looks once more at the first element left, which is what is missing. -/
theorem C85_array_backward_partial (h8 : 8 ≤ M) (hM : M ≤ 2 ^ 62) {l : AL T} {xs : List T}
    (h : Reach M l xs) (p : T → Bool) (n : Nat) (hn : xs.length + 2 ≤ n) :
    ∃ l', sweepBack M p n l (toTail l) = .ok (some (l', xs.reverse ++
        if xs.head?.any p then (xs.filter fun x => !p x).head?.toList else [])) ∧
      Reach M l' (xs.filter fun x => !p x) := by
  have := sweepBack_ok (p := p) h8 hM xs.reverse [] l n (by simpa using h) (by simp) (by simpa using hn)
  rw [toTail, (h.holds h8 hM).size]
  simpa [again] using this

theorem reach_four : ∃ l : AL Nat, Reach 1000 l [1, 2, 3, 4] := by
  obtain ⟨l, h⟩ := C18_pushes_fit (M := 1000) (by decide) [.pushBack [1, 2, 3, 4]]
    (by simp [LegalRun, legal]) (by simp [keeps]) (by simp [pushed])
  simp only [runE] at h
  cases hs : (AL.new : AL Nat).step 1000 (.pushBack [1, 2, 3, 4]) with
  | error e => rw [hs] at h; simp at h
  | ok q =>
    obtain ⟨l', r⟩ := q
    exact ⟨l', Reach.call .new (by simp [legal]) hs⟩

/-- A list with content. -/
example : ∃ l : AL Nat, Reach 1000 l [1, 2, 3, 4] ∧ 8 ≤ 1000 ∧ 1000 ≤ 2 ^ 62 :=
  let ⟨l, h⟩ := reach_four
  ⟨l, h, by decide, by decide⟩

/-- C85 fails in that an element may be looked at twice: a loop that removes the even ones of
1, 2, 3, 4 sees 3 twice. -/
theorem C85_array_seen_twice : ∃ l : AL Nat, Reach 1000 l [1, 2, 3, 4] ∧
    ∃ l', sweep 1000 (fun x => x % 2 == 0) 10 l toHead = .ok (some (l', [1, 2, 3, 4, 3])) := by
  obtain ⟨l, hr⟩ := reach_four
  obtain ⟨l', h1, -⟩ := C85_array_forward_partial (by decide) (by decide) hr (fun x => x % 2 == 0) 10 (by decide)
  exact ⟨l, hr, l', h1⟩

end Verif.AList
