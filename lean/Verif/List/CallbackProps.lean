import Verif.List.Callback
import Verif.List.ArrayProps
import Verif.List.LinkedProps
import Verif.Queue.RingProps

/-! C105: callbacks of `Traverse` that change the list or queue they are handed elements of. -/

set_option linter.unusedSectionVars false

namespace Verif

section
variable {T Op Res : Type}

/-- The ideal walk by index: in round `i` the callback gets the element that has index `i` at that
time; the walk is over when there is none. The result as for the walks of the model. -/
def rounds (spec : List T → Op → List T × Res) (every : Nat → T → Prog Op Res Bool) :
    Nat → Nat → List T → List T × List (Nat × T) × Bool
  | 0, _, xs => (xs, [], false)
  | n + 1, i, xs =>
    match xs[i]? with
    | none => (xs, [], true)
    | some v =>
      let r := (every i v).runSpec spec xs
      if r.2.1 then
        let w := rounds spec every n (i + 1) r.1
        (w.1, (i, v) :: w.2.1, w.2.2)
      else (r.1, [(i, v)], true)

/-- All calls made during the ideal walk are legal. -/
def LegalRounds (spec : List T → Op → List T × Res) (legal : List T → Op → Prop)
    (every : Nat → T → Prog Op Res Bool) : Nat → Nat → List T → Prop
  | 0, _, _ => True
  | n + 1, i, xs => ∀ v, xs[i]? = some v → (every i v).Legal spec legal xs ∧
      LegalRounds spec legal every n (i + 1) ((every i v).runSpec spec xs).1

/-- The elements of `xs` with their indices. -/
def indexed (xs : List T) : List (Nat × T) := xs.zipIdx.map fun e => (e.2, e.1)

/-- `seen` is what a walk over a list shows that has become `final` by appending: the first elements
in order, and all of them if the walk is over, unless it was cut after `n` elements. -/
structure Shows (final : List T) (n : Nat) (seen : List (Nat × T)) (fin : Bool) : Prop where
  first : seen = (indexed final).take seen.length
  all : fin = true → seen.length = final.length
  cut : fin = false → seen.length = n

theorem indexed_length (xs : List T) : (indexed xs).length = xs.length := by simp [indexed]

theorem indexed_get (xs : List T) (i : Nat) : (indexed xs)[i]? = xs[i]?.map fun v => (i, v) := by
  simp only [indexed, List.getElem?_map, List.getElem?_zipIdx, Option.map_map]
  cases xs[i]? <;> simp

/-- A callback that only appends: what the ideal walk shows. -/
theorem rounds_appends {spec : List T → Op → List T × Res} {every : Nat → T → Prog Op Res Bool}
    (happ : ∀ i v xs, xs <+: ((every i v).runSpec spec xs).1)
    (hret : ∀ i v xs, ((every i v).runSpec spec xs).2.1 = true) (n : Nat) : ∀ (i : Nat) (xs : List T),
    i ≤ xs.length →
    xs <+: (rounds spec every n i xs).1 ∧
    (rounds spec every n i xs).2.1 =
      ((indexed (rounds spec every n i xs).1).drop i).take (rounds spec every n i xs).2.1.length ∧
    ((rounds spec every n i xs).2.2 = true →
      i + (rounds spec every n i xs).2.1.length = (rounds spec every n i xs).1.length) ∧
    ((rounds spec every n i xs).2.2 = false → (rounds spec every n i xs).2.1.length = n) := by
  induction n with
  | zero => intro i xs hi; simp [rounds]
  | succ n ih =>
    intro i xs hi
    rcases Nat.lt_or_ge i xs.length with hlt | hge
    · have hv : xs[i]? = some xs[i] := List.getElem?_eq_getElem hlt
      have hp := happ i xs[i] xs
      have hr := hret i xs[i] xs
      obtain ⟨h1, h2, h3, h4⟩ := ih (i + 1) _ (Nat.succ_le_of_lt (Nat.lt_of_lt_of_le hlt hp.length_le))
      simp only [rounds, hv, hr, if_true]
      have hpre := hp.trans h1
      refine ⟨hpre, ?_, ?_, ?_⟩
      · have hg : (indexed (rounds spec every n (i + 1) ((every i xs[i]).runSpec spec xs).1).1)[i]?
            = some (i, xs[i]) := by
          obtain ⟨t, ht⟩ := hpre
          rw [indexed_get, ← ht, List.getElem?_append_left hlt, hv]; rfl
        have hd := List.drop_eq_getElem?_toList_append (l := indexed (rounds spec every n (i + 1) ((every i xs[i]).runSpec spec xs).1).1) (i := i)
        rw [hd, hg]
        simp only [Option.toList_some, List.cons_append, List.nil_append, List.length_cons,
          List.take_succ_cons, List.cons.injEq, true_and]
        exact h2
      · intro h; have := h3 h; simp only [List.length_cons]; omega
      · intro h; have := h4 h; simp only [List.length_cons]; omega
    · have hv : xs[i]? = none := List.getElem?_eq_none hge
      simp only [rounds, hv]
      refine ⟨List.prefix_refl _, by simp, ?_, by simp⟩
      intro _; simp only [List.length_nil]; omega
end

end Verif

namespace Verif.AList
variable {T : Type} [Inhabited T]

theorem walk_ok {M : Nat} (hM : M ≤ 2 ^ 62) (every : Nat → T → Prog (Op T) (Res T) Bool) (n : Nat) :
    ∀ (i : Nat) (l : AL T) (xs : List T), Holds M l xs → LegalRounds spec legal every n i xs →
    l.walk M every n i = .error .oom ∨
      ∃ l', l.walk M every n i = .ok (l', (rounds spec every n i xs).2) ∧
        Holds M l' (rounds spec every n i xs).1 := by
  induction n with
  | zero => intro i l xs h _; exact .inr ⟨l, rfl, h⟩
  | succ n ih =>
    intro i l xs h hl
    rcases Nat.lt_or_ge i xs.length with hlt | hge
    · have hv : xs[i]? = some xs[i] := List.getElem?_eq_getElem hlt
      obtain ⟨hl1, hl2⟩ := hl _ hv
      have hat : at' l.data (add64 (add64 i l.headidx) 1) = .ok xs[i] := by
        obtain ⟨pre, post, h⟩ := h; exact h.at hM hlt
      rcases Prog.runE_refines (step := AL.step M) (spec := spec) (legal := legal) .oom
        (fun l xs => Holds M l xs) (fun l xs o hl h => AL.step_ok hM l xs o hl h) (every i xs[i]) h hl1
        with h1 | ⟨l1, h1, h2⟩
      · left
        simp only [AL.walk, h.size, if_pos hlt, hat, h1]
      · cases hb : ((every i xs[i]).runSpec spec xs).2.1 with
        | false =>
          right
          refine ⟨l1, ?_, ?_⟩
          · simp only [AL.walk, h.size, if_pos hlt, hat, h1, hb, rounds, hv, Bool.false_eq_true, if_false]
          · simpa only [rounds, hv, hb, Bool.false_eq_true, if_false] using h2
        | true =>
          rcases ih (i + 1) l1 _ h2 hl2 with h3 | ⟨l2, h3, h4⟩
          · left
            simp only [AL.walk, h.size, if_pos hlt, hat, h1, hb, h3]
          · right
            refine ⟨l2, ?_, ?_⟩
            · simp only [AL.walk, h.size, if_pos hlt, hat, h1, hb, h3, rounds, hv, if_true]
            · simpa only [rounds, hv, hb, if_true] using h4
    · have hv : xs[i]? = none := List.getElem?_eq_none hge
      right
      refine ⟨l, ?_, ?_⟩
      · simp only [AL.walk, h.size, if_neg (Nat.not_lt.2 hge), rounds, hv]
      · simpa only [rounds, hv] using h

/-- C105, array list, all callbacks whose calls are legal (see `legal`): unless an allocation is
refused, every round gets the element that has the index of the round at that time, the answers the
callback gets are those of the ideal sequence, and so is the list afterwards. -/
theorem C105_array_rounds {M : Nat} (h8 : 8 ≤ M) (hM : M ≤ 2 ^ 62) {os : List (Op T)} {l : AL T}
    {rs : List (Res T)} (hl : LegalRun spec legal [] os)
    (hr : runE (AL.step M) (AL.new : AL T) os = .ok (l, rs))
    (every : Nat → T → Prog (Op T) (Res T) Bool) (n : Nat)
    (hw : LegalRounds spec legal every n 0 (runSpec spec [] os).1) :
    l.walk M every n 0 = .error .oom ∨
      ∃ l', l.walk M every n 0 = .ok (l', (rounds spec every n 0 (runSpec spec [] os).1).2) ∧
        l'.values M = .ok (rounds spec every n 0 (runSpec spec [] os).1).1 := by
  rcases walk_ok hM every n 0 l _ (reach h8 hM hl hr) hw with h | ⟨l', h, h'⟩
  · exact .inl h
  · exact .inr ⟨l', h, h'.values⟩

/-- The calls that read or append. -/
def appends : Op T → Prop
  | .push _ | .front | .back | .index _ | .contains _ _ | .values | .traverse _ | .empty | .size => True
  | .pushBack vs => vs.length ≤ 2 ^ 62
  | _ => False

theorem spec_appends (xs ys : List T) (o : Op T) (h : ys <+: xs) (ho : appends o) :
    legal xs o ∧ ys <+: (spec xs o).1 := by
  cases o <;> simp only [appends] at ho <;>
    first
    | exact ho.elim
    | exact ⟨trivial, h⟩
    | exact ⟨trivial, h.trans (List.prefix_append _ _)⟩
    | exact ⟨ho, h.trans (List.prefix_append _ _)⟩

/-- C105, array list, callbacks that read and append (the elements of a work list, for instance):
every element, also those appended during the walk, is handed over once and in order. -/
theorem C105_array_appends {M : Nat} (h8 : 8 ≤ M) (hM : M ≤ 2 ^ 62) {os : List (Op T)} {l : AL T}
    {rs : List (Res T)} (hl : LegalRun spec legal [] os)
    (hr : runE (AL.step M) (AL.new : AL T) os = .ok (l, rs))
    (every : Nat → T → Prog (Op T) (Res T) Bool) (hc : ∀ i v, (every i v).Calls appends)
    (ht : ∀ i v, (every i v).Returns (· = true)) (n : Nat) :
    l.walk M every n 0 = .error .oom ∨
      ∃ l' seen fin final, l.walk M every n 0 = .ok (l', seen, fin) ∧ l'.values M = .ok final ∧
        (runSpec spec [] os).1 <+: final ∧ Shows final n seen fin := by
  have hkeep : ∀ i v (xs : List T),
      (every i v).Legal spec legal xs ∧ xs <+: ((every i v).runSpec spec xs).1 := fun i v xs =>
    Prog.calls_legal (P := fun ys => xs <+: ys) (fun ys o h ho => spec_appends ys xs o h ho) _
      (List.prefix_refl _) (hc i v)
  have hleg : ∀ n i (xs : List T), LegalRounds spec legal every n i xs := by
    intro n
    induction n with
    | zero => intro i xs; trivial
    | succ n ih => intro i xs v _; exact ⟨(hkeep i v xs).1, ih _ _⟩
  rcases C105_array_rounds h8 hM hl hr every n (hleg _ _ _) with h | ⟨l', h, h'⟩
  · exact .inl h
  · obtain ⟨h1, h2, h3, h4⟩ := rounds_appends (spec := spec) (fun i v xs => (hkeep i v xs).2)
      (fun i v xs => Prog.returns (every i v) xs (ht i v)) n 0 (runSpec spec [] os).1 (by omega)
    exact .inr ⟨l', _, _, _, h, h', h1, ⟨h2, by simpa only [Nat.zero_add] using h3, h4⟩⟩

/-- A callback that appends twice the number it gets, up to 20. -/
def doubling (v : Nat) : Prog (Op Nat) (Res Nat) Bool :=
  if v ≤ 10 then .call (.push (2 * v)) fun _ => .ret true else .call .size fun _ => .ret true

/-- Non-vacuity: the list 1, 3 becomes 1, 3, 2, 6, 4, 12, 8, 16 while it is walked over. -/
example : (∀ v, (doubling v).Calls appends) ∧ (∀ v, (doubling v).Returns (· = true)) ∧
    (((AL.new : AL Nat).pushBack 64 [1, 3]).toOption.bind fun l =>
      (l.walk 64 (fun _ v => doubling v) 20 0).toOption.map (·.2)) =
      some ([(0, 1), (1, 3), (2, 2), (3, 6), (4, 4), (5, 12), (6, 8), (7, 16)], true) := by
  refine ⟨fun v => ?_, fun v => ?_, by decide +kernel⟩
  · unfold doubling; split <;> exact ⟨trivial, fun _ => trivial⟩
  · unfold doubling; split <;> exact fun _ => rfl

/-- A callback that removes the odd elements. -/
def dropOdd (i v : Nat) : Prog (Op Nat) (Res Nat) Bool :=
  if v % 2 = 1 then .call (.remove i) fun _ => .ret true else .ret true

/-- C105 fails for callbacks that remove the element they are handed: of 1, 3, 5 the element 3 is
never handed over and stays. -/
theorem C105_array_remove_skips :
    (((AL.new : AL Nat).pushBack 64 [1, 3, 5]).toOption.bind fun l =>
      (l.walk 64 dropOdd 20 0).toOption.bind fun r => (r.1.values 64).toOption.map (r.2, ·)) =
      some (([(0, 1), (1, 5)], true), [3]) := by decide +kernel

/-- C105 fails for callbacks that push to the front: 1 is handed over twice. -/
theorem C105_array_front_repeats :
    (((AL.new : AL Nat).pushBack 64 [1, 2]).toOption.bind fun l =>
      (l.walk 64 (fun i _ => if i = 0 then .call (.pushFront [7]) fun _ => .ret true else .ret true)
        20 0).toOption.map (·.2)) =
      some ([(0, 1), (1, 1), (2, 2)], true) := by decide +kernel

end Verif.AList

namespace Verif.LList
variable {T : Type} [Inhabited T]

/-- The element after `c`. -/
def after (c : Nat) (xs : List (Nat × T)) : Option Nat := ((xs.dropWhile (·.1 != c))[1]?).map (·.1)

/-- The ideal walk from element to element: when the callback is done with an element, the next one
is the one that comes after it then. -/
def follow (every : T → Prog (Op T) (Res T) Bool) :
    Nat → Option Nat → Sp T → Sp T × List T × Bool
  | 0, _, t => (t, [], false)
  | _ + 1, none, t => (t, [], true)
  | n + 1, some c, t =>
    let v := (lookup t.xs c).getD default
    let r := (every v).runSpec spec t
    if r.2.1 then
      let w := follow every n (after c r.1.xs) r.1
      (w.1, v :: w.2.1, w.2.2)
    else (r.1, [v], true)

/-- The calls during the ideal walk are legal, and the element handed over is still in the list when
the callback returns. -/
def LegalFollow (every : T → Prog (Op T) (Res T) Bool) : Nat → Option Nat → Sp T → Prop
  | 0, _, _ => True
  | _ + 1, none, _ => True
  | n + 1, some c, t =>
    let v := (lookup t.xs c).getD default
    let r := (every v).runSpec spec t
    (every v).Legal spec legal t ∧
      (r.2.1 = true → c ∈ r.1.ids ∧ LegalFollow every n (after c r.1.xs) r.1)

theorem after_at' {ys zs : List (Nat × T)} {c : Nat} {v : T} (h1 : c ∉ ys.map (·.1)) :
    after c (ys ++ (c, v) :: zs) = zs.head?.map (·.1) := by
  rw [after, dropWhile_at h1]
  simp [List.head?_eq_getElem?]

theorem next_after {s : St T} {t : Sp T} (h : R s t) {c : Nat} (hc : c ∈ t.ids) :
    (s.l.heap c).next = some ((after c t.xs).getD 1) ∧ ∀ d, after c t.xs = some d → d ∈ t.ids := by
  obtain ⟨ys, v, zs, h', hxs, h1, -, -, -, -, -, h2⟩ := remove_ok h hc
  rw [h2, Sp.ids, hxs, after_at' h1]
  cases zs with
  | nil => simp
  | cons z zs => simp

theorem walk_ok (every : T → Prog (Op T) (Res T) Bool) (n : Nat) : ∀ (e : Option Nat) (s : St T)
    (t : Sp T), R s t → (∀ c, e = some c → c ∈ t.ids) → LegalFollow every n e t →
    ∃ s', walk every n (some (e.getD 1)) s = some (s', (follow every n e t).2) ∧
      R s' (follow every n e t).1 := by
  induction n with
  | zero => intro e s t h _ _; exact ⟨s, by cases e <;> rfl, h⟩
  | succ n ih =>
    intro e s t h he hl
    cases e with
    | none => exact ⟨s, by simp [walk, follow], h⟩
    | some c =>
      have hc := he c rfl
      have hc1 : c ≠ 1 := by rintro rfl; exact h.inv.sent.2 hc
      have hv := h.inv.lookup hc
      simp only [LegalFollow, hv, Option.getD_some] at hl
      obtain ⟨s1, h1, h2⟩ := Prog.run_refines_legal (step := step) (spec := spec) (legal := legal) R
        step_ok (every (s.l.heap c).val) h hl.1
      simp only [Option.getD_some, walk, if_neg hc1, h1, follow, hv]
      obtain ⟨hl1, hl2⟩ := hl
      generalize (every (s.l.heap c).val).runSpec spec t = r at *
      obtain ⟨t1, b, log⟩ := r
      cases b with
      | false => exact ⟨s1, by simp, by simpa using h2⟩
      | true =>
        obtain ⟨hk, hl3⟩ := hl2 rfl
        obtain ⟨hn, hd⟩ := next_after h2 hk
        obtain ⟨s2, h3, h4⟩ := ih (after c t1.xs) s1 t1 h2 hd hl3
        refine ⟨s2, ?_, by simpa using h4⟩
        simp only at hn ⊢
        rw [hn, h3]
        simp

/-- C105, linked list: if no callback removes the element it is handed (other calls, also the
insertion and removal of other elements with iterators, are free), the walk goes from each element
to the one that comes after it when the callback is done, no pointer is nil, the answers the callback
gets and the list afterwards are those of the ideal list. -/
theorem C105_linked_follow (os : List (Op T)) (hl : LegalRun spec legal Sp.new os)
    (every : T → Prog (Op T) (Res T) Bool) (n : Nat)
    (hw : LegalFollow every n (ideal os).1.ids.head? (ideal os).1) :
    ∃ s, run step (St.new : St T) os = some (s, (ideal os).2) ∧
      ∃ s', traverseWith every n s =
        some (s', (follow every n (ideal os).1.ids.head? (ideal os).1).2) ∧
      s'.l.values = some (follow every n (ideal os).1.ids.head? (ideal os).1).1.vals := by
  obtain ⟨s, hs, hR⟩ := reach os hl
  obtain ⟨s', h1, h2⟩ := walk_ok every n _ s _ hR
    (fun c hc => List.mem_of_mem_head? hc) hw
  refine ⟨s, hs, s', ?_, ?_⟩
  · rw [traverseWith, hR.inv.toHead, ← h1]
    congr 1
    simp only [Sp.ids]
    cases (ideal os).1.xs <;> simp
  · obtain ⟨s'', h3, -⟩ := step_ok s' _ .values trivial h2
    simp only [step, onRead, spec, Option.map_map, Option.map_eq_some_iff, Function.comp_apply,
      Prod.mk.injEq, Res.list.injEq] at h3
    obtain ⟨xs, h4, -, h5⟩ := h3
    rw [h4, h5]; rfl

/-- The calls that read or append. -/
def appends : Op T → Prop
  | .push _ | .pushBack _ | .front | .back | .index _ | .contains _ _ | .values | .traverse _
  | .empty | .size => True
  | _ => False

theorem spec_appends (t : Sp T) (ys : List (Nat × T)) (o : Op T) (h : ys <+: t.xs) (ho : appends o) :
    legal t o ∧ ys <+: (spec t o).1.xs := by
  cases o <;> simp only [appends] at ho <;>
    first
    | exact ⟨trivial, h⟩
    | exact ⟨trivial, h.trans (List.prefix_append _ _)⟩

theorem follow_appends (every : T → Prog (Op T) (Res T) Bool) (hc : ∀ v, (every v).Calls appends)
    (ht : ∀ v, (every v).Returns (· = true)) (n : Nat) : ∀ (i : Nat) (s : St T) (t : Sp T), R s t →
    i ≤ t.xs.length →
    LegalFollow every n (t.ids[i]?) t ∧
    t.xs <+: (follow every n (t.ids[i]?) t).1.xs ∧
    (follow every n (t.ids[i]?) t).2.1 = ((follow every n (t.ids[i]?) t).1.vals.drop i).take
      (follow every n (t.ids[i]?) t).2.1.length ∧
    ((follow every n (t.ids[i]?) t).2.2 = true → i + (follow every n (t.ids[i]?) t).2.1.length =
      (follow every n (t.ids[i]?) t).1.vals.length) ∧
    ((follow every n (t.ids[i]?) t).2.2 = false →
      (follow every n (t.ids[i]?) t).2.1.length = n) := by
  induction n with
  | zero => intro i s t h _; exact ⟨trivial, List.prefix_refl _, by simp [follow], by simp [follow], by simp [follow]⟩
  | succ n ih =>
    intro i s t h hi
    rcases Nat.lt_or_ge i t.xs.length with hlt | hge
    · obtain ⟨c, v, hx⟩ : ∃ c v, t.xs[i] = (c, v) := ⟨_, _, rfl⟩
      have hg : t.xs[i]? = some (c, v) := by rw [List.getElem?_eq_getElem hlt, hx]
      have hid : t.ids[i]? = some c := by rw [Sp.ids, List.getElem?_map, hg]; rfl
      have hcm : c ∈ t.ids := List.mem_of_getElem? hid
      have hv : lookup t.xs c = some v := by
        rw [h.inv.lookup hcm, h.inv.val (c, v) (List.mem_of_getElem? hg)]
      obtain ⟨hl1, hl2⟩ := Prog.calls_legal (spec := spec) (legal := legal)
        (P := fun t' => t.xs <+: t'.xs) (fun t' o h ho => spec_appends t' t.xs o h ho) (every v) (t := t)
        (List.prefix_refl _) (hc v)
      have hr := Prog.returns (spec := spec) (every v) t (ht v)
      obtain ⟨s1, -, h2⟩ := Prog.run_refines_legal (step := step) (spec := spec) (legal := legal) R
        step_ok (every v) h hl1
      have hlen := hl2.length_le
      obtain ⟨g0, g1, g2, g3, g4⟩ := ih (i + 1) s1 _ h2 (by omega)
      have hg1 : ((every v).runSpec spec t).1.xs[i]? = some (c, v) := by
        obtain ⟨w, hw⟩ := hl2
        rw [← hw, List.getElem?_append_left hlt, hg]
      have hc1 : c ∈ ((every v).runSpec spec t).1.ids :=
        List.mem_of_getElem? (i := i) (by rw [Sp.ids, List.getElem?_map, hg1]; rfl)
      have haft : after c ((every v).runSpec spec t).1.xs = ((every v).runSpec spec t).1.ids[i + 1]? := by
        have hi' : i < ((every v).runSpec spec t).1.xs.length := by omega
        have hsplit := List.take_append_drop i ((every v).runSpec spec t).1.xs
        rw [List.drop_eq_getElem_cons hi'] at hsplit
        have he : ((every v).runSpec spec t).1.xs[i] = (c, v) := by
          rw [List.getElem?_eq_getElem hi'] at hg1; exact Option.some.inj hg1
        rw [he] at hsplit
        have hnd := h2.inv.nd
        have hnot : c ∉ (((every v).runSpec spec t).1.xs.take i).map (·.1) := by
          intro hm
          rw [← hsplit] at hnd
          simp only [full, List.map_append, List.map_cons, List.nodup_cons, List.nodup_append,
            List.mem_cons] at hnd
          exact hnd.2.1.2.2 _ hm c (.inl rfl) rfl
        conv_lhs => rw [← hsplit]
        rw [after_at' hnot, Sp.ids, List.getElem?_map, List.head?_drop]
      have hpre := hl2.trans g1
      simp only [hid, LegalFollow, follow, hv, Option.getD_some, hr, if_true, haft]
      refine ⟨⟨hl1, fun _ => ⟨hc1, g0⟩⟩, hpre, ?_, ?_, ?_⟩
      · have hgv : (follow every n (((every v).runSpec spec t).1.ids[i + 1]?)
            ((every v).runSpec spec t).1).1.vals[i]? = some v := by
          obtain ⟨w, hw⟩ := hpre
          rw [Sp.vals, List.getElem?_map, ← hw, List.getElem?_append_left hlt, hg]; rfl
        rw [List.drop_eq_getElem?_toList_append, hgv]
        simp only [Option.toList_some, List.cons_append, List.nil_append, List.length_cons,
          List.take_succ_cons, List.cons.injEq, true_and]
        exact g2
      · intro h; have := g3 h; simp only [List.length_cons]; omega
      · intro h; have := g4 h; simp only [List.length_cons]; omega
    · have hid : t.ids[i]? = none := by
        rw [Sp.ids, List.getElem?_map, List.getElem?_eq_none hge]; rfl
      simp only [hid, LegalFollow, follow]
      refine ⟨trivial, List.prefix_refl _, by simp, ?_, by simp⟩
      intro _; simp only [List.length_nil, Sp.vals, List.length_map]; omega

/-- C105, linked list, callbacks that read and append: every element, also those appended during the
walk, is handed over once and in order. -/
theorem C105_linked_appends (os : List (Op T)) (hl : LegalRun spec legal Sp.new os)
    (every : T → Prog (Op T) (Res T) Bool) (hc : ∀ v, (every v).Calls appends)
    (ht : ∀ v, (every v).Returns (· = true)) (n : Nat) :
    ∃ s, run step (St.new : St T) os = some (s, (ideal os).2) ∧
      ∃ s' seen fin final, traverseWith every n s = some (s', seen, fin) ∧
        s'.l.values = some final ∧ (ideal os).1.vals <+: final ∧
        seen = final.take seen.length ∧ (fin = true → seen.length = final.length) ∧
        (fin = false → seen.length = n) := by
  obtain ⟨s, hs, hR⟩ := reach os hl
  obtain ⟨g0, g1, g2, g3, g4⟩ := follow_appends every hc ht n 0 s _ hR (Nat.zero_le _)
  rw [← List.head?_eq_getElem?] at g0 g1 g2 g3 g4
  obtain ⟨s1, hs1, s', h1, h2⟩ := C105_linked_follow os hl every n g0
  refine ⟨s1, hs1, s', _, _, _, h1, h2, ?_, ?_, ?_, g4⟩
  · exact g1.map _
  · simpa using g2
  · simpa using g3

/-- A callback that appends twice the number it gets, up to 20. -/
def doubling (v : Nat) : Prog (Op Nat) (Res Nat) Bool :=
  if v ≤ 10 then .call (.push (2 * v)) fun _ => .ret true else .call .size fun _ => .ret true

/-- Non-vacuity of `C105_linked_appends`. -/
example : LegalRun spec legal Sp.new [.pushBack [1, 3]] ∧ (∀ v, (doubling v).Calls appends) ∧
    (∀ v, (doubling v).Returns (· = true)) ∧
    ((run step (St.new : St Nat) [.pushBack [1, 3]]).bind fun s =>
      (traverseWith doubling 20 s.1).map (·.2)) = some ([1, 3, 2, 6, 4, 12, 8, 16], true) := by
  refine ⟨⟨trivial, trivial⟩, fun v => ?_, fun v => ?_, rfl⟩
  · unfold doubling; split <;> exact ⟨trivial, fun _ => trivial⟩
  · unfold doubling; split <;> exact fun _ => rfl

/-- A callback that removes the element after the first one, and inserts 5 there. -/
def replaceSecond (v : Nat) : Prog (Op Nat) (Res Nat) Bool :=
  if v = 1 then .call (.toHead 0) fun _ => .call (.next 0) fun _ => .call (.removeToNext 0) fun _ =>
    .call (.insertBefore 0 [5]) fun _ => .ret true
  else .ret true

/-- Non-vacuity of `C105_linked_follow`. -/
example : LegalRun spec legal Sp.new [.pushBack [1, 2, 3]] ∧
    LegalFollow replaceSecond 20 (ideal [.pushBack [1, 2, 3]]).1.ids.head?
      (ideal [.pushBack [1, 2, 3]]).1 ∧
    (follow replaceSecond 20 (ideal [.pushBack [1, 2, 3]]).1.ids.head?
      (ideal [.pushBack [1, 2, 3]]).1).2 = ([1, 5, 3], true) := by
  refine ⟨⟨trivial, trivial⟩, ?_, rfl⟩
  refine ⟨⟨trivial, ⟨2, by decide, by decide, rfl⟩, ⟨3, by decide, rfl⟩,
    ⟨⟨4, by decide, by decide, rfl⟩, by decide⟩, trivial⟩, fun _ => ⟨by decide, trivial, fun _ => ⟨by decide,
    trivial, fun _ => ⟨by decide, trivial⟩⟩⟩⟩

/-- C105 fails for callbacks that remove the element they are handed with an iterator: its `next` is
nil then, and `Traverse` panics. -/
theorem C105_linked_remove_panics :
    ∃ s, run step (St.new : St Nat) [.pushBack [1, 2, 3]] = some (s, [.unit]) ∧
      traverseWith (fun v => if v = 1 then
        .call (.toHead 0) fun _ => .call (.removeToNext 0) fun _ => .ret true else .ret true) 20 s
        = none :=
  ⟨_, rfl, rfl⟩

/-- C105 fails for callbacks that clear the list: the removed elements are handed over. -/
theorem C105_linked_clear_goes_on :
    ∃ s, run step (St.new : St Nat) [.pushBack [1, 2, 3]] = some (s, [.unit]) ∧
      (traverseWith (fun v => if v = 1 then .call .clear fun _ => .ret true else .ret true) 20 s).map
        (·.2) = some ([1, 2, 3], true) :=
  ⟨_, rfl, rfl⟩

end Verif.LList

namespace Verif.Queue
variable {α : Type} [Inhabited α]

/-- The calls that change nothing at the front; the ends are not read in an empty queue. -/
def backLegal (l : List α) : Op α → Prop
  | .pushBack _ | .popBack | .size => True
  | .front | .back => l ≠ []
  | .pushFront _ | .popFront => False

/-- The calls that only read, in a queue that is not empty. -/
def reads : Op α → Prop
  | .front | .back | .size => True
  | _ => False

/-- The calls that append or read. -/
def appends : Op α → Prop
  | .pushBack _ => True
  | o => reads o

theorem Ring.grow_start {q q' : Ring α} (h : q.grow = some q') (h0 : q.start = 0) : q'.start = 0 := by
  unfold Ring.grow at h
  split at h
  · simp only [Option.bind_eq_bind, Option.bind_eq_some_iff] at h
    obtain ⟨a, -, b, -, c, -, h⟩ := h
    cases h; rfl
  · cases h; exact h0

theorem Ring.slimming_start {q q' : Ring α} (h : q.slimming = some q') (h0 : q.start = 0) :
    q'.start = 0 := by
  unfold Ring.slimming at h
  split at h
  · simp only [Option.bind_eq_bind, Option.bind_eq_some_iff] at h
    obtain ⟨a, -, h⟩ := h
    cases h; rfl
  · cases h; exact h0

theorem Ring.step_start {q q' : Ring α} {l : List α} {o : Op α} {r : Res α} (ho : backLegal l o)
    (h : q.step o = some (q', r)) (h0 : q.start = 0) : q'.start = 0 := by
  cases o <;> simp only [backLegal] at ho
  case pushBack v =>
    simp only [Ring.step, Ring.pushBack, Option.map_eq_some_iff, Option.bind_eq_bind,
      Option.bind_eq_some_iff] at h
    obtain ⟨q1, ⟨q2, h1, d, -, h2⟩, h3⟩ := h
    cases h2; cases h3
    exact (Ring.grow_start h1 h0 : q2.start = 0)
  case popBack =>
    simp only [Ring.step, Ring.popBack] at h
    split at h
    · cases h; exact h0
    · simp only [Option.bind_eq_bind, Option.bind_eq_some_iff] at h
      obtain ⟨v, -, q1, h1, h2⟩ := h
      cases h2
      exact Ring.slimming_start h1 h0
  case size => cases h; exact h0
  case front =>
    simp only [Ring.step, Option.map_eq_some_iff, Prod.mk.injEq] at h
    obtain ⟨v, -, rfl, -⟩ := h; exact h0
  case back =>
    simp only [Ring.step, Option.map_eq_some_iff, Prod.mk.injEq] at h
    obtain ⟨v, -, rfl, -⟩ := h; exact h0

theorem Ring.step_back (q : Ring α) (l : List α) (o : Op α) (ho : backLegal l o)
    (h : q.Rep l ∧ q.start = 0) :
    ∃ q', q.step o = some (q', (spec l o).2) ∧ q'.Rep (spec l o).1 ∧ q'.start = 0 := by
  obtain ⟨q', h1, h2⟩ := Ring.step_ok q l o h.1 (by rintro (rfl | rfl) <;> exact ho)
  exact ⟨q', h1, h2, Ring.step_start ho h1 h.2⟩

theorem walk1_back (every : Nat → α → Prog (Op α) (Res α) Bool) (n : Nat) : ∀ (i : Nat) (q : Ring α)
    (l : List α), q.Rep l ∧ q.start = 0 → LegalRounds spec backLegal every n i l →
    ∃ q', Ring.walk1 every n i i q = some (q', (rounds spec every n i l).2) ∧
      q'.Rep (rounds spec every n i l).1 := by
  induction n with
  | zero => intro i q l h _; exact ⟨q, rfl, h.1⟩
  | succ n ih =>
    intro i q l h hl
    have hsz := h.1.size
    have hle := h.1.size_le
    rcases Nat.lt_or_ge i l.length with hlt | hge
    · have hv : l[i]? = some l[i] := List.getElem?_eq_getElem hlt
      obtain ⟨hl1, hl2⟩ := hl _ hv
      have hd : q.data[i]? = some l[i] := by
        have := h.1.get i hlt
        simp only [Ring.pos, h.2, Nat.zero_add] at this
        rw [if_pos (by omega), hv] at this; exact this
      obtain ⟨q1, h1, h2⟩ := Prog.run_refines_legal (step := Ring.step) (spec := spec)
        (legal := backLegal) (fun q l => q.Rep l ∧ q.start = 0)
        (fun q l o ho h => Ring.step_back q l o ho h) (every i l[i]) h hl1
      simp only [Ring.walk1, if_pos (show i < q.cap ∧ i < q.size by omega), hd, h1, rounds, hv]
      generalize (every i l[i]).runSpec spec l = r at *
      obtain ⟨l1, b, log⟩ := r
      cases b with
      | false => exact ⟨q1, by simp, by simpa using h2.1⟩
      | true =>
        obtain ⟨q2, h3, h4⟩ := ih (i + 1) q1 l1 h2 hl2
        exact ⟨q2, by simp [h3], by simpa using h4⟩
    · have hv : l[i]? = none := List.getElem?_eq_none hge
      refine ⟨q, ?_, by simpa only [rounds, hv] using h.1⟩
      simp only [Ring.walk1, if_neg (show ¬ (i < q.cap ∧ i < q.size) by omega),
        if_neg (show ¬ i < q.size by omega), rounds, hv]

/-- C105, circular queue, for histories and callbacks that change nothing at the front: every round
gets the element that has the index of the round at that time. Missing: calls at the front before
the walk or during it, see `C105_queue_append_skips`. -/
theorem C105_queue_rounds_partial (os : List (Op α)) (hl : LegalRun spec backLegal [] os)
    (every : Nat → α → Prog (Op α) (Res α) Bool) (n : Nat)
    (hw : LegalRounds spec backLegal every n 0 (runSpec spec [] os).1) :
    ∃ q, run Ring.step (Ring.new : Ring α) os = some (q, (runSpec spec [] os).2) ∧
      ∃ q', q.traverseWith every n = some (q', (rounds spec every n 0 (runSpec spec [] os).1).2) ∧
        q'.values = some (rounds spec every n 0 (runSpec spec [] os).1).1 := by
  obtain ⟨q, h1, h2⟩ := run_refines_legal (step := Ring.step) (spec := spec) (legal := backLegal)
    (fun q l => q.Rep l ∧ q.start = 0) (fun q l o ho h => Ring.step_back q l o ho h) os Ring.new [] hl
    ⟨Ring.new_rep, rfl⟩
  obtain ⟨q', h3, h4⟩ := walk1_back every n 0 q _ h2 hw
  exact ⟨q, h1, q', by rw [Ring.traverseWith, h2.2, h3], Ring.values_eq _ _ h4⟩

theorem spec_appends (xs ys : List α) (o : Op α) (h : ys <+: xs ∧ xs ≠ []) (ho : appends o) :
    backLegal xs o ∧ ys <+: (spec xs o).1 ∧ (spec xs o).1 ≠ [] := by
  cases o <;> simp only [appends, reads] at ho
  case pushBack v => exact ⟨trivial, h.1.trans (List.prefix_append _ _), by simp [spec]⟩
  case front => exact ⟨h.2, h⟩
  case back => exact ⟨h.2, h⟩
  case size => exact ⟨trivial, h⟩

/-- C105, circular queue without calls at the front, callbacks that read and append. Missing: queues
with calls at the front before the walk. -/
theorem C105_queue_appends_partial (os : List (Op α)) (hl : LegalRun spec backLegal [] os)
    (every : Nat → α → Prog (Op α) (Res α) Bool) (hc : ∀ i v, (every i v).Calls appends)
    (ht : ∀ i v, (every i v).Returns (· = true)) (n : Nat) :
    ∃ q, run Ring.step (Ring.new : Ring α) os = some (q, (runSpec spec [] os).2) ∧
      ∃ q' seen fin final, q.traverseWith every n = some (q', seen, fin) ∧
        q'.values = some final ∧ (runSpec spec [] os).1 <+: final ∧ Shows final n seen fin := by
  have hkeep : ∀ i v (xs : List α), xs ≠ [] →
      (every i v).Legal spec backLegal xs ∧ xs <+: ((every i v).runSpec spec xs).1 ∧
        ((every i v).runSpec spec xs).1 ≠ [] := fun i v xs hx =>
    Prog.calls_legal (P := fun ys => xs <+: ys ∧ ys ≠ []) (fun ys o h ho => spec_appends ys xs o h ho) _
      ⟨List.prefix_refl _, hx⟩ (hc i v)
  have hleg : ∀ n i (xs : List α), LegalRounds spec backLegal every n i xs := by
    intro n
    induction n with
    | zero => intro i xs; trivial
    | succ n ih =>
      intro i xs v hv
      have hx : xs ≠ [] := by rintro rfl; simp at hv
      exact ⟨(hkeep i v xs hx).1, ih _ _⟩
  have happ : ∀ (p : Prog (Op α) (Res α) Bool), p.Calls appends → ∀ (xs : List α),
      xs <+: (p.runSpec spec xs).1 := by
    intro p hp xs
    exact (Prog.calls_legal (spec := spec) (legal := fun _ _ => True) (P := fun ys => xs <+: ys)
      (fun ys o h ho => ⟨trivial, by
        cases o <;> simp only [appends, reads] at ho
        case pushBack v => exact h.trans (List.prefix_append _ _)
        all_goals exact h⟩) p (List.prefix_refl _) hp).2
  obtain ⟨q, h1, q', h2, h3⟩ := C105_queue_rounds_partial os hl every n (hleg _ _ _)
  obtain ⟨g1, g2, g3, g4⟩ := rounds_appends (spec := spec) (fun i v xs => happ (every i v) (hc i v) xs)
    (fun i v xs => Prog.returns (every i v) xs (ht i v)) n 0 (runSpec spec [] os).1 (by omega)
  exact ⟨q, h1, q', _, _, _, h2, h3, g1, ⟨g2, by simpa only [Nat.zero_add] using g3, g4⟩⟩

theorem run_reads {q : Ring α} {l : List α} (h : q.Rep l) (hne : l ≠ []) :
    ∀ (p : Prog (Op α) (Res α) Bool), p.Calls reads →
      p.run Ring.step q = some (q, (p.runSpec spec l).2) ∧ (p.runSpec spec l).1 = l
  | .ret _, _ => ⟨rfl, rfl⟩
  | .call op next, hc => by
    have h1 : q.step op = some (q, (spec l op).2) ∧ (spec l op).1 = l := by
      have hc1 := hc.1
      obtain ⟨q', g1, g2⟩ := Ring.step_ok q l op h (fun _ => hne)
      cases op <;> simp only [reads] at hc1
      case front =>
        refine ⟨?_, rfl⟩
        rw [g1]
        simp only [Ring.step, Option.map_eq_some_iff, Prod.mk.injEq] at g1
        obtain ⟨v, -, rfl, -⟩ := g1; rfl
      case back =>
        refine ⟨?_, rfl⟩
        rw [g1]
        simp only [Ring.step, Option.map_eq_some_iff, Prod.mk.injEq] at g1
        obtain ⟨v, -, rfl, -⟩ := g1; rfl
      case size =>
        refine ⟨?_, rfl⟩
        rw [g1]
        simp only [Ring.step, Option.some.injEq, Prod.mk.injEq] at g1
        obtain ⟨rfl, -⟩ := g1; rfl
    obtain ⟨h2, h3⟩ := run_reads h hne (next (spec l op).2) (hc.2 _)
    refine ⟨?_, ?_⟩
    · simp only [Prog.run, h1.1, Option.bind_some, h2, Option.map_some, Prog.runSpec, h1.2]
    · simp only [Prog.runSpec, h1.2, h3]

theorem walk2_reads {q : Ring α} {l : List α} (h : q.Rep l)
    {every : Nat → α → Prog (Op α) (Res α) Bool} (hc : ∀ i v, (every i v).Calls reads) (n : Nat) :
    ∀ (i idx : Nat), q.start + idx = q.cap + i → idx ≤ l.length → l.length + q.start ≥ q.cap →
    Ring.walk2 every n i idx q = some (q, (rounds spec every n idx l).2) ∧
      (rounds spec every n idx l).1 = l := by
  have hsz := h.size
  have hle := h.size_le
  have hst := h.start
  have hfin := h.fin
  induction n with
  | zero => intro i idx _ _ _; exact ⟨rfl, rfl⟩
  | succ n ih =>
    intro i idx hi hx hw
    simp only [Ring.pos] at hfin
    rw [if_neg (by omega)] at hfin
    rcases Nat.lt_or_ge idx l.length with hlt | hge
    · have hv : l[idx]? = some l[idx] := List.getElem?_eq_getElem hlt
      have hd : q.data[i]? = some l[idx] := by
        have := h.get idx hlt
        simp only [Ring.pos] at this
        rw [if_neg (by omega), hv, show q.start + idx - q.cap = i by omega] at this; exact this
      have hne : l ≠ [] := by rintro rfl; simp at hlt
      obtain ⟨h1, h2⟩ := run_reads h hne (every idx l[idx]) (hc _ _)
      simp only [Ring.walk2, if_pos (show i < q.fin by omega), hd, h1, rounds, hv]
      obtain ⟨h3, h4⟩ := ih (i + 1) (idx + 1) (by omega) (by omega) hw
      cases hb : ((every idx l[idx]).runSpec spec l).2.1 with
      | false =>
        have : ((every idx l[idx]).runSpec spec l).2 =
            (false, ((every idx l[idx]).runSpec spec l).2.2) := by rw [← hb]
        rw [this]; exact ⟨by simp, by simpa using h2⟩
      | true =>
        have : ((every idx l[idx]).runSpec spec l).2 =
            (true, ((every idx l[idx]).runSpec spec l).2.2) := by rw [← hb]
        rw [this]; simp only [h2, h3, h4, if_true]; exact ⟨trivial, trivial⟩
    · have hv : l[idx]? = none := List.getElem?_eq_none hge
      simp only [Ring.walk2, if_neg (show ¬ i < q.fin by omega), rounds, hv]
      exact ⟨trivial, trivial⟩

theorem walk1_reads {q : Ring α} {l : List α} (h : q.Rep l)
    {every : Nat → α → Prog (Op α) (Res α) Bool} (hc : ∀ i v, (every i v).Calls reads) (n : Nat) :
    ∀ (i idx : Nat), i = q.start + idx → i ≤ q.cap → idx ≤ l.length →
    Ring.walk1 every n i idx q = some (q, (rounds spec every n idx l).2) ∧
      (rounds spec every n idx l).1 = l := by
  have hsz := h.size
  have hle := h.size_le
  have hst := h.start
  induction n with
  | zero => intro i idx _ _ _; exact ⟨rfl, rfl⟩
  | succ n ih =>
    intro i idx hi hcap hx
    rcases Nat.lt_or_ge idx l.length with hlt | hge
    · rcases Nat.lt_or_ge i q.cap with hic | hic
      · have hv : l[idx]? = some l[idx] := List.getElem?_eq_getElem hlt
        have hd : q.data[i]? = some l[idx] := by
          have := h.get idx hlt
          simp only [Ring.pos] at this
          rw [if_pos (by omega), hv, ← hi] at this; exact this
        have hne : l ≠ [] := by rintro rfl; simp at hlt
        obtain ⟨h1, h2⟩ := run_reads h hne (every idx l[idx]) (hc _ _)
        simp only [Ring.walk1, if_pos (show i < q.cap ∧ idx < q.size by omega), hd, h1, rounds, hv]
        obtain ⟨h3, h4⟩ := ih (i + 1) (idx + 1) (by omega) (by omega) (by omega)
        cases hb : ((every idx l[idx]).runSpec spec l).2.1 with
        | false =>
          have : ((every idx l[idx]).runSpec spec l).2 =
              (false, ((every idx l[idx]).runSpec spec l).2.2) := by rw [← hb]
          rw [this]; exact ⟨by simp, by simpa using h2⟩
        | true =>
          have : ((every idx l[idx]).runSpec spec l).2 =
              (true, ((every idx l[idx]).runSpec spec l).2.2) := by rw [← hb]
          rw [this]; simp only [h2, h3, h4, if_true]; exact ⟨trivial, trivial⟩
      · rw [Ring.walk1, if_neg (by omega), if_pos (by omega)]
        exact walk2_reads h hc (n + 1) 0 idx (by omega) hx (by omega)
    · have hv : l[idx]? = none := List.getElem?_eq_none hge
      simp only [Ring.walk1, if_neg (show ¬ (i < q.cap ∧ idx < q.size) by omega),
        if_neg (show ¬ idx < q.size by omega), rounds, hv]
      exact ⟨trivial, trivial⟩

/-- C105, circular queue, all histories, callbacks that only read it: the elements in order, and the
queue is the same afterwards. -/
theorem C105_queue_reads (os : List (Op α)) (hl : Legal [] os)
    (every : Nat → α → Prog (Op α) (Res α) Bool) (hc : ∀ i v, (every i v).Calls reads) (n : Nat) :
    ∃ q, run Ring.step (Ring.new : Ring α) os = some (q, (runSpec spec [] os).2) ∧
      q.traverseWith every n = some (q, (rounds spec every n 0 (runSpec spec [] os).1).2) ∧
      (rounds spec every n 0 (runSpec spec [] os).1).1 = (runSpec spec [] os).1 := by
  obtain ⟨q, h1, h2⟩ := Ring.run_ok os Ring.new [] Ring.new_rep hl
  exact ⟨q, h1, walk1_reads h2 hc n q.start 0 rfl (Nat.le_of_lt h2.start) (Nat.zero_le _)⟩

/-- Non-vacuity: a queue of two elements that becomes one of ten, more than the first capacity. -/
example : LegalRun spec backLegal [] ([.pushBack 1, .pushBack 3] : List (Op Nat)) ∧
    ((run Ring.step (Ring.new : Ring Nat) [.pushBack 1, .pushBack 3]).bind fun s =>
      (s.1.traverseWith (fun _ v => if v ≤ 10 then .call (.pushBack (2 * v)) fun _ =>
        .call .front fun _ => .ret true else .ret true) 20).map (·.2)) =
      some ([(0, 1), (1, 3), (2, 2), (3, 6), (4, 4), (5, 12), (6, 8), (7, 16)], true) := by
  refine ⟨⟨trivial, trivial, trivial⟩, by decide +kernel⟩

/-- A full queue 2, ..., 9 that starts in the middle of its array. -/
def wrapped : List (Op Nat) :=
  (List.range' 1 8).map .pushBack ++ [.popFront, .pushBack 9]

/-- Non-vacuity of `C105_queue_reads`: a walk that goes around the end of the array. -/
example : Legal [] wrapped ∧ ((run Ring.step (Ring.new : Ring Nat) wrapped).bind fun s =>
      (s.1.traverseWith (fun _ _ => .call .back fun _ => .ret true) 20).map (·.2.1.map (·.2))) =
      some [2, 3, 4, 5, 6, 7, 8, 9] := by
  refine ⟨by simp [wrapped, Legal, List.range'], by decide +kernel⟩

/-- C105 fails for the circular queue: the callback appends 10 when it gets the first of 2, ..., 9.
The array grows and the elements move in it, so 3 is not handed over, and after 10 comes a 0 that
never was in the queue. -/
theorem C105_queue_append_skips :
    ((run Ring.step (Ring.new : Ring Nat) wrapped).bind fun s =>
      (s.1.traverseWith (fun _ v => if v = 2 then .call (.pushBack 10) fun _ => .ret true
        else .ret true) 20).bind fun r => r.1.values.map (r.2.1.map (·.2), r.2.2, ·)) =
      some ([2, 4, 5, 6, 7, 8, 9, 10, 0], true, [2, 3, 4, 5, 6, 7, 8, 9, 10]) := by decide +kernel

end Verif.Queue
