import Verif.Heap.Stop
import Verif.Heap.Weak
import Verif.Heap.Props
import Mathlib.Data.List.Perm.Basic

/-! C107 for tree/heap: a panic of the comparator leaves a trace, and how great it can be. -/

set_option linter.unusedSectionVars false

namespace Verif.Heap
variable {α : Type} [Inhabited α] {cmp : α → α → Int}

/-- The values in the heap, in the order of the slots. -/
def PQ.held (h : PQ α) : List α := h.elements.take h.size

/-- Moving the value of slot `j` to the free slot `i` makes `j` the free slot. -/
theorem move_perm (l : List α) {i j : Nat} (hi : i < l.length) (hj : j < l.length) (hij : i ≠ j) :
    ((l.set i l[j]).eraseIdx j).Perm (l.eraseIdx i) := by
  have h1 := List.getElem_cons_eraseIdx_perm (l := l.set i l[j]) (n := j) (by simpa using hj)
  have h2 := List.getElem_cons_eraseIdx_perm (l := l.set i l[j]) (n := i) (by simpa using hi)
  rw [List.getElem_set_ne (by omega)] at h1
  rw [List.getElem_set_self, List.eraseIdx_set_eq] at h2
  exact (List.perm_cons _).1 (h1.trans h2.symm)

theorem move_take {els : List α} {n i j : Nat} (hn : n ≤ els.length) (hi : i < n) (hj : j < n) (hij : i ≠ j)
    {v : α} (hv : els[j]? = some v) :
    (((els.set i v).take n).eraseIdx j).Perm ((els.take n).eraseIdx i) := by
  have := move_perm (els.take n) (i := i) (j := j) (by simp; omega) (by simp; omega) hij
  rw [List.getElem_take, show els[j] = v from by
    rw [List.getElem?_eq_getElem (by omega)] at hv; exact Option.some.inj hv] at this
  rwa [List.take_set]

theorem up_stop {bad : Nat → Bool} {v : α} {n : Nat} {R : List α} : ∀ (cur : Nat) (els : List α),
    n ≤ els.length → cur < n → ((els.take n).eraseIdx cur).Perm R →
    upB bad cmp v els cur = .of (up cmp v els cur) ∨
    ∃ els' x, upB bad cmp v els cur = .stopped els' ∧ (∃ a, bad a = true) ∧ els'.length = els.length ∧
      (els'.take n).Perm (x :: R) := by
  intro cur
  induction cur using Nat.strongRecOn with
  | _ cur ih =>
    intro els hn hcur hp
    rw [upB, up]
    split
    · exact .inl rfl
    · next h0 =>
      have hpl : (cur - 1) / 2 < els.length := by omega
      rw [List.getElem?_eq_getElem hpl]
      dsimp only
      cases hb : bad cur with
      | true =>
        refine .inr ⟨els, (els.take n)[cur]'(by simp; omega), if_pos rfl, ⟨cur, hb⟩, rfl, ?_⟩
        exact (List.getElem_cons_eraseIdx_perm (by simp; omega)).symm.trans (hp.cons _)
      | false =>
        rw [if_neg (by simp)]
        split
        · have hw : write els cur els[(cur - 1) / 2] = some (els.set cur els[(cur - 1) / 2]) := by
            rw [write, if_pos (by omega)]
          rw [hw]
          rcases ih ((cur - 1) / 2) (by omega) (els.set cur els[(cur - 1) / 2]) (by simpa using hn) (by omega)
            ((move_take hn hcur (by omega) (by omega) (List.getElem?_eq_getElem hpl)).trans hp) with h | h
          · exact .inl h
          · obtain ⟨els', x, h1, h2, h3, h4⟩ := h
            exact .inr ⟨els', x, h1, h2, by simpa using h3, h4⟩
        · exact .inl rfl

theorem down_none {dv : α} {n : Nat} {els : List α} {cur : Nat} (h : child cmp n els cur = none) :
    down cmp dv n els cur = none := by
  rw [down]
  split <;> next h' => first | rfl | (rw [h] at h'; cases h')

theorem down_leaf {dv : α} {n : Nat} {els : List α} {cur : Nat} (h : child cmp n els cur = some none) :
    down cmp dv n els cur = write els cur dv := by
  rw [down]
  split <;> next h' => first | rfl | (rw [h] at h'; cases h')

theorem down_child {dv : α} {n : Nat} {els : List α} {cur c : Nat} (h : child cmp n els cur = some (some c)) :
    down cmp dv n els cur = match els[c]? with
      | none => none
      | some cv =>
        if cmp cv dv ≤ 0 then
          match write els cur cv with
          | none => none
          | some els' => down cmp dv n els' c
        else write els cur dv := by
  rw [down]
  split <;> next h' => first | (rw [h] at h'; cases h'; rfl) | (rw [h] at h'; cases h')

theorem down_stop {bad : Bad} {dv : α} {n : Nat} {R : List α} : ∀ (k cur : Nat) (els : List α),
    n - cur ≤ k → n ≤ els.length → cur < n → ((els.take n).eraseIdx cur).Perm R →
    downB bad cmp dv n els cur = .of (down cmp dv n els cur) ∨
    ∃ els' x, downB bad cmp dv n els cur = .stopped els' ∧ bad.some ∧ els'.length = els.length ∧
      (els'.take n).Perm (x :: R) := by
  intro k
  induction k with
  | zero => intro cur els hk hn hcur; omega
  | succ k ih =>
    intro cur els hk hn hcur hp
    have hstop : (els.take n).Perm ((els.take n)[cur]'(by simp; omega) :: R) :=
      (List.getElem_cons_eraseIdx_perm (by simp; omega)).symm.trans (hp.cons _)
    rw [downB]
    cases hb : bad 0 cur && decide (cur * 2 + 2 < n) with
    | true =>
      exact .inr ⟨els, _, if_pos rfl, ⟨0, cur, (Bool.and_eq_true_iff.1 hb).1⟩, rfl, hstop⟩
    | false =>
      rw [if_neg (by simp)]
      split
      · next hc => rw [down_none hc]; exact .inl rfl
      · next hc => rw [down_leaf hc]; exact .inl rfl
      · next c hc =>
        have hcb := child_bounds hc
        have hcl : c < els.length := by omega
        rw [down_child hc, List.getElem?_eq_getElem hcl]
        dsimp only
        cases hb1 : bad 1 cur with
        | true => exact .inr ⟨els, _, if_pos rfl, ⟨1, cur, hb1⟩, rfl, hstop⟩
        | false =>
          rw [if_neg (by simp)]
          split
          · have hw : write els cur els[c] = some (els.set cur els[c]) := by
              rw [write, if_pos (by omega)]
            rw [hw]
            rcases ih c (els.set cur els[c]) (by omega) (by simpa using hn) (by omega)
              ((move_take hn hcur (by omega) (by omega) (List.getElem?_eq_getElem hcl)).trans hp) with h | h
            · exact .inl h
            · obtain ⟨els', x, h1, h2, h3, h4⟩ := h
              exact .inr ⟨els', x, h1, h2, by simpa using h3, h4⟩
          · exact .inl rfl

/-- What a call leaves behind when the comparator panics in it: after `Put`, all values are still there and
there is one more; after `Pop`, two values are taken out and one is put in. -/
def Trail (old new : List α) : Op α → Prop
  | .put _ => ∃ x, new.Perm (x :: old)
  | .pop => ∃ x y z R, old.Perm (y :: z :: R) ∧ new.Perm (x :: R)
  | _ => False

/-- The slots are enough. -/
def PQ.Fine (h : PQ α) : Prop := 16 ≤ h.elements.length ∧ h.size ≤ h.elements.length

theorem stepB_cases (bad : Bad) (cmp : α → α → Int) {h : PQ α} (hf : h.Fine) (op : Op α) :
    h.stepB bad cmp op = .of (h.step cmp op) ∨
    ∃ h', h.stepB bad cmp op = .stopped h' ∧ bad.some ∧ h'.Fine ∧ Trail h.held h'.held op := by
  obtain ⟨hf1, hf2⟩ := hf
  have hr : Wk.Rep (fun _ _ => True) h h.held := ⟨hf1, hf2, fun _ _ _ => trivial, .refl _⟩
  cases op with
  | put v =>
    obtain ⟨g1, g2, g3⟩ := Wk.grow_ok h _ hr
    have hs : (h.grow.elements.take (h.grow.size + 1)).eraseIdx h.grow.size = h.grow.elements.take h.grow.size := by
      rw [List.take_add_one, List.getElem?_eq_getElem g3, Option.toList_some,
        List.eraseIdx_append_of_length_le (by simp), List.length_take, Nat.min_eq_left (by omega)]
      simp
    rcases up_stop (bad := bad 0) (cmp := cmp) (v := v) (n := h.grow.size + 1) h.grow.size h.grow.elements
      (by omega) (by omega) (.of_eq hs) with e | ⟨els', x, e, ⟨a, ha⟩, hl, hp⟩
    · left
      simp only [PQ.stepB, PQ.putB, PQ.step, PQ.put, e]
      cases up cmp v h.grow.elements h.grow.size <;> rfl
    · refine .inr ⟨⟨h.grow.size + 1, els'⟩, ?_, ⟨0, a, ha⟩, ⟨?_, ?_⟩, x, ?_⟩
      · simp only [PQ.stepB, PQ.putB, e]; rfl
      · have := g1.cap; simp only; omega
      · simp only; omega
      · exact hp.trans (g1.perm.cons x)
  | pop =>
    simp only [PQ.stepB, PQ.popB, PQ.step, PQ.pop]
    by_cases h0 : h.size = 0
    · left; simp [h0, Out.of]
    · rw [if_neg h0, if_neg h0]
      obtain ⟨s1, s2, s3, s4⟩ := slim_take ({ h with size := h.size - 1 } : PQ α) (by simp only; omega)
      simp only at s1 s2 s3 s4
      rw [show h.size - 1 + 1 = h.size by omega] at s4
      generalize PQ.slimming { h with size := h.size - 1 } = q at s1 s2 s3 s4 ⊢
      rw [List.getElem?_eq_getElem (show 0 < h.elements.length by omega)]
      by_cases hq : q.size = 0
      · left; simp [hq, Out.of, Out.bind]
      · have hql : q.size < q.elements.length := by omega
        rw [List.getElem?_eq_getElem hql]
        rcases down_stop (bad := bad) (cmp := cmp) (dv := q.elements[q.size]) (n := q.size) q.size 0 q.elements
          (by omega) (by omega) (by omega) (.refl _) with e | ⟨els', x, e, ha, hl, hp⟩
        · left
          simp only [Out.of, Out.bind, if_neg hq, e]
          cases hd : down cmp q.elements[q.size] q.size q.elements 0 <;> simp [Out.lift, Out.map, Out.bind, hq, hd]
        · refine .inr ⟨⟨q.size, els'⟩, ?_, ha, ⟨?_, ?_⟩, x, (q.elements.take q.size)[0]'(by simp; omega),
            q.elements[q.size], _, ?_, hp⟩
          · simp only [Out.of, Out.bind, if_neg hq, e]; rfl
          · have := s3 hf1; simp only; omega
          · simp only; omega
          · have e1 : h.held = q.elements.take q.size ++ [q.elements[q.size]] := by
              rw [PQ.held, ← s4, show h.size = q.size + 1 by omega, List.take_add_one,
                List.getElem?_eq_getElem hql]
              rfl
            rw [e1]
            refine (List.perm_append_singleton _ _).trans ?_
            refine List.Perm.trans ?_ (List.Perm.swap _ _ _)
            exact (List.getElem_cons_eraseIdx_perm (by simp; omega)).symm.cons _
  | _ => exact .inl rfl

theorem step_fine (cmp : α → α → Int) {h : PQ α} (hf : h.Fine) (op : Op α) :
    ∃ h' r, h.step cmp op = some (h', r) ∧ h'.Fine := by
  obtain ⟨hf1, hf2⟩ := hf
  have hr : Wk.Rep (fun _ _ => True) h h.held := ⟨hf1, hf2, fun _ _ _ => trivial, .refl _⟩
  cases op with
  | put v =>
    obtain ⟨h', h1, h2⟩ := Wk.put_ok (Wk.Weak.all cmp) h _ v hr
    exact ⟨h', .unit, by simp [PQ.step, h1], h2.cap, h2.size_le⟩
  | pop =>
    by_cases h0 : h.held = []
    · rw [h0] at hr
      exact ⟨_, _, Wk.pop_empty h hr, hf1, hf2⟩
    · obtain ⟨h', m', h1, h2, -⟩ := Wk.pop_ok (Wk.Weak.all cmp) h _ hr h0
      exact ⟨h', _, h1, h2.cap, h2.size_le⟩
  | top =>
    simp only [PQ.step, PQ.top]
    split
    · rw [List.getElem?_eq_getElem (show 0 < h.elements.length by omega)]
      exact ⟨_, _, rfl, hf1, hf2⟩
    · exact ⟨_, _, rfl, hf1, hf2⟩
  | size => exact ⟨_, _, rfl, hf1, hf2⟩
  | empty => exact ⟨_, _, rfl, hf1, hf2⟩
  | clear => exact ⟨_, _, rfl, hf1, Nat.zero_le _⟩
  | reset => exact ⟨_, _, rfl, by simp, by simp⟩

theorem runStop_fine (cmp : α → α → Int) : ∀ (os : List (Op α × Bad)) (h : PQ α), h.Fine →
    ∃ h' rs, runStop (fun b h => h.stepB b cmp) h os = some (h', rs) ∧ h'.Fine ∧ Justified Bad.some os rs
  | [], h, hf => ⟨h, [], rfl, hf, trivial⟩
  | (o, b) :: os, h, hf => by
    rcases stepB_cases b cmp hf o with e | ⟨h1, e, hb, hf1, -⟩
    · obtain ⟨h1, r, e1, hf1⟩ := step_fine cmp hf o
      obtain ⟨h', rs, e2, h2, h3⟩ := runStop_fine cmp os h1 hf1
      exact ⟨h', some r :: rs, by simp [runStop, e, e1, Out.of, e2], h2, h3⟩
    · obtain ⟨h', rs, e2, h2, h3⟩ := runStop_fine cmp os h1 hf1
      exact ⟨h', none :: rs, by simp [runStop, e, e2], h2, hb, h3⟩

/-- C107 for tree/heap with any comparison, in any state that is reached with any panics of the comparator:
no call fails other than by such a panic, a call in which it does not panic does what it does in the heap
without panics, and a `Put` or `Pop` in which it panics leaves no more than a `Trail`. Missing from the
full statement: the heap should be unchanged, which is false, see `C107_heap_put_spoils` and
`C107_heap_pop_spoils`. -/
theorem C107_heap_partial (cmp : α → α → Int) (os : List (Op α × Bad)) :
    ∃ h rs, runStop (fun b h => h.stepB b cmp) (PQ.new : PQ α) os = some (h, rs) ∧
      Justified Bad.some os rs ∧
      ∀ (op : Op α) (b : Bad), (∃ h' r, h.stepB b cmp op = .done (h', r) ∧ h.step cmp op = some (h', r)) ∨
        ∃ h', h.stepB b cmp op = .stopped h' ∧ b.some ∧ Trail h.held h'.held op := by
  obtain ⟨h, rs, h1, h2, h3⟩ := runStop_fine cmp os (PQ.new : PQ α) (by simp [PQ.Fine, PQ.new])
  refine ⟨h, rs, h1, h3, fun op b => ?_⟩
  rcases stepB_cases b cmp h2 op with e | ⟨h', e, hb, -, ht⟩
  · obtain ⟨h', r, e1, -⟩ := step_fine cmp h2 op
    exact .inl ⟨h', r, by rw [e, e1]; rfl, e1⟩
  · exact .inr ⟨h', e, hb, ht⟩

/-- C107 for tree/heap: whatever panics there were, after `Clear` or `Reset` the heap is again a right
priority queue. -/
theorem C107_heap_recovers (hc : Lawful cmp) (os : List (Op α × Bad)) {op : Op α}
    (ho : op = .clear ∨ op = .reset) (os' : List (Op α)) :
    ∃ h rs, runStop (fun b h => h.stepB b cmp) (PQ.new : PQ α) os = some (h, rs) ∧
      ∃ h' rs' m, run (PQ.step cmp) h (op :: os') = some (h', .unit :: rs') ∧
        Trace (Spec cmp) [] os' rs' m := by
  obtain ⟨h, rs, h1, h2, -⟩ := runStop_fine cmp os (PQ.new : PQ α) (by simp [PQ.Fine, PQ.new])
  refine ⟨h, rs, h1, ?_⟩
  obtain ⟨h0, e0, hr⟩ : ∃ h0, h.step cmp op = some (h0, .unit) ∧ h0.Rep cmp [] := by
    rcases ho with rfl | rfl
    · exact ⟨_, rfl, h2.1, Nat.zero_le _, fun i _ hi => absurd hi (Nat.not_lt_zero _), by simp⟩
    · exact ⟨_, rfl, by simp, by simp, fun i _ hi => absurd hi (Nat.not_lt_zero _), by simp⟩
  obtain ⟨h', rs', m, g1, g2, -⟩ := run_refines_rel (fun h m => h.Rep cmp m)
    (fun h m o hr => PQ.step_ok hc h m o hr) os' h0 [] hr
  exact ⟨h', rs', m, by simp [run, e0, g1], g2⟩

/-- The comparator never panics. -/
def quiet : Bad := fun _ _ => false

/-- C107 fails for `Put`: the call panicked, but the heap has one entry more, the zero value, which was
never put into it. -/
theorem C107_heap_put_spoils :
    (runStop (fun b h => h.stepB b Compare.any) (PQ.new : PQ Int)
      [(.put 5, quiet), (.put 7, fun _ _ => true), (.size, quiet), (.pop, quiet), (.pop, quiet)]).map (·.2) =
      some [some .unit, none, some (.nat 2), some (.val 5 true), some (.val 0 true)] := by
  decide +kernel

/-- C107 fails for `Pop`: the call panicked, but an entry is lost, and it is not even the one that `Pop`
would have taken out. -/
theorem C107_heap_pop_spoils :
    (runStop (fun b h => h.stepB b Compare.any) (PQ.new : PQ Int)
      [(.put 5, quiet), (.put 6, quiet), (.put 7, quiet), (.pop, fun _ _ => true), (.size, quiet),
        (.pop, quiet), (.pop, quiet), (.pop, quiet)]).map (·.2) =
      some [some .unit, some .unit, some .unit, none, some (.nat 2), some (.val 5 true), some (.val 6 true),
        some (.val 0 false)] := by
  decide +kernel

/-- A history with two panics after which `Clear` makes the heap right again. -/
example : (runStop (fun b h => h.stepB b Compare.any) (PQ.new : PQ Int)
      [(.put 5, quiet), (.put 7, fun _ _ => true), (.pop, quiet), (.put 1, fun _ _ => true), (.clear, quiet),
        (.put 3, quiet), (.put 2, quiet), (.pop, quiet), (.pop, quiet), (.pop, quiet)]).map (·.2) =
      some [some .unit, none, some (.val 5 true), none, some .unit, some .unit, some .unit,
        some (.val 2 true), some (.val 3 true), some (.val 0 false)] := by
  decide +kernel

end Verif.Heap
