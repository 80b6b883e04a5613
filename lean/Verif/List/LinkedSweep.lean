import Verif.List.LinkedProps
import Verif.Common.Tac

/-! C85: loops that remove elements through a linked list iterator. -/

namespace Verif.LList
variable {T : Type} [Inhabited T]

/-- `for it.Valid() { if p(it.Value()) { <gone> } else { <stays> } }` with iterator `j`; also gives
the values `it.Value()` had. `none` stands for a panic, and for a loop that is not finished after `n`
rounds. -/
def loop (p : T → Bool) (j : Nat) (gone stays : Op T) : Nat → St T → Option (St T × List T)
  | 0, _ => none
  | n + 1, s =>
    match step s (.valid j) with
    | some (s, .bool true) =>
      match step s (.value j) with
      | some (s, .val (some v)) =>
        ((step s (if p v then gone else stays)).bind fun r => loop p j gone stays n r.1).map
          fun q => (q.1, v :: q.2)
      | _ => none
    | some (s, .bool false) => some (s, [])
    | _ => none

/-- From the head with `RemoveToNext` and `Next`. -/
def sweep (p : T → Bool) (j : Nat) (n : Nat) (s : St T) : Option (St T × List T) :=
  loop p j (.removeToNext j) (.next j) n s

/-- From the tail with `RemoveToPrev` and `Prev`. -/
def sweepBack (p : T → Bool) (j : Nat) (n : Nat) (s : St T) : Option (St T × List T) :=
  loop p j (.removeToPrev j) (.prev j) n s

variable {p : T → Bool} {j : Nat}

theorem loop_end {s : St T} {t : Sp T} (h : R s t) {c : Nat} (hc : c = 0 ∨ c = 1)
    (hj : t.cur j = some c) (gone stays : Op T) (n : Nat) :
    loop p j gone stays (n + 1) s = some (s, []) := by
  have : step s (.valid j) = some (s, .bool false) := by
    simp only [step, onRead, Option.map_some, h.cur, hj]
    rcases hc with rfl | rfl <;> rfl
  simp only [loop, this]

theorem loop_round {s : St T} {t : Sp T} (h : R s t) {ys zs : List (Nat × T)} {c : Nat} {v : T}
    (hxs : t.xs = ys ++ (c, v) :: zs) (hj : t.cur j = some c) (gone stays : Op T) (n : Nat) :
    loop p j gone stays (n + 1) s =
      ((step s (if p v then gone else stays)).bind fun r => loop p j gone stays n r.1).map
        fun q => (q.1, v :: q.2) := by
  have hs := h.inv.sent
  have h0 : c ≠ 0 := by rintro rfl; apply hs.1; rw [hxs]; simp
  have h1 : c ≠ 1 := by rintro rfl; apply hs.2; rw [hxs]; simp
  have e1 : step s (.valid j) = some (s, .bool true) := by
    simp only [step, onRead, Option.map_some, h.cur, hj, LList.valid]
    simp [h0, h1]
  have hv : (s.l.heap c).val = v := h.inv.val (c, v) (by rw [hxs]; simp)
  have e2 : step s (.value j) = some (s, .val (some v)) := by
    simp only [step, onRead, Option.map_some, h.cur, hj, hv]
  simp only [loop, e1, e2]

theorem Sp.pos {t : Sp T} {s : St T} (h : R s t) {ys zs : List (Nat × T)} {c : Nat} {v : T}
    (hxs : t.xs = ys ++ (c, v) :: zs) : c ∉ ys.map (·.1) ∧ c ∉ zs.map (·.1) ∧ c ∈ t.ids ∧
      c ≠ 0 ∧ c ≠ 1 := by
  have hs := h.inv.sent
  have hc : c ∈ t.ids := by rw [Sp.ids, hxs]; simp
  have hnd : (t.xs.map (·.1)).Nodup := by
    have := h.inv.nd
    simp only [List.nodup_cons] at this
    exact (List.nodup_append.1 this.2).1
  rw [hxs] at hnd
  simp only [List.map_append, List.map_cons] at hnd
  have h2 := List.nodup_append.1 hnd
  refine ⟨fun hm => h2.2.2 c hm c (by simp) rfl, (List.nodup_cons.1 h2.2.1).1, hc, ?_, ?_⟩
  · rintro rfl; exact hs.1 hc
  · rintro rfl; exact hs.2 hc

/-- What the loops do, as a history. -/
structure Swept (p : T → Bool) (j : Nat) (s : St T) (t : Sp T) (r : Option (St T × List T))
    (seen : List T) (left : List (Nat × T)) : Prop where
  ex : ∃ s' os rs, r = some (s', seen) ∧ LegalRun spec legal t os ∧ run step s os = some (s', rs) ∧
    R s' (runSpec spec t os).1 ∧ (runSpec spec t os).1.xs = left ∧
    ∀ i, i ≠ j → (runSpec spec t os).1.cur i = t.cur i

theorem Swept.cons {s s1 : St T} {t : Sp T} {r : Option (St T × List T)} {o : Op T} {re : Res T}
    {seen : List T} {left : List (Nat × T)} {v : T} (hl : legal t o)
    (hs : step s o = some (s1, re)) (hc : ∀ i, i ≠ j → (spec t o).1.cur i = t.cur i)
    (h : Swept p j s1 (spec t o).1 r seen left) :
    Swept p j s t (r.map fun q => (q.1, v :: q.2)) (v :: seen) left := by
  obtain ⟨s', os, rs, h1, h2, h3, h4, h5, h6⟩ := h.ex
  refine ⟨s', o :: os, re :: rs, by rw [h1]; rfl, ⟨hl, h2⟩, by simp [run, hs, h3], h4, h5, ?_⟩
  intro i hi
  exact (h6 i hi).trans (hc i hi)

theorem sweep_ok (rest : List (Nat × T)) : ∀ (kept : List (Nat × T)) (s : St T) (t : Sp T) (n : Nat),
    R s t → t.xs = kept ++ rest → t.cur j = (rest.map (fun e : Nat × T => e.1) ++ [1]).head? →
    rest.length + 1 ≤ n →
    Swept p j s t (sweep p j n s) (rest.map (·.2)) (kept ++ rest.filter fun e => !p e.2) := by
  induction rest with
  | nil =>
    intro kept s t n h hxs hj hn
    obtain ⟨n, rfl⟩ : ∃ m, n = m + 1 := ⟨n - 1, by simp at hn; omega⟩
    exact ⟨s, [], [], loop_end h (.inr rfl) hj _ _ _, trivial, rfl, h, by simpa [runSpec] using hxs,
      fun _ _ => rfl⟩
  | cons e rest ih =>
    obtain ⟨c, v⟩ := e
    intro kept s t n h hxs hj hn
    obtain ⟨n, rfl⟩ : ∃ m, n = m + 1 := ⟨n - 1, by simp at hn; omega⟩
    simp only [List.map_cons, List.cons_append, List.head?_cons] at hj
    simp only [List.length_cons] at hn
    obtain ⟨g1, g2, g3, g4, g5⟩ := Sp.pos h hxs
    rw [sweep, loop_round h hxs hj]
    have hst := (stepsFrom_next h hxs g1).1
    by_cases hp : p v = true
    · have hl : legal t (.removeToNext j) := ⟨c, g3, hj⟩
      obtain ⟨s1, h1, h2⟩ := step_ok s t (.removeToNext j) hl h
      have hw : without c t.xs = kept ++ rest := by rw [hxs, without_at g1 g2]
      rw [if_pos hp, h1]
      refine Swept.cons hl h1 ?_ ?_
      · intro i hi
        simp [spec, specAt, iterOf, Sp.move, Sp.list, hi]
      · have := ih kept s1 _ n h2
          (by simp only [spec, specAt, iterOf, hj, Option.getD_some, Sp.move, Sp.list, hw])
          (by simp only [spec, specAt, iterOf, hj, Option.getD_some, Sp.move, Sp.list, hst, if_true])
          (by omega)
        simpa [hp, sweep] using this
    · have hp' : p v = false := by simpa using hp
      have hl : legal t (.next j) := ⟨c, by simp [Sp.all, g3], g5, hj⟩
      obtain ⟨s1, h1, h2⟩ := step_ok s t (.next j) hl h
      rw [if_neg hp, h1]
      refine Swept.cons hl h1 ?_ ?_
      · intro i hi
        simp [spec, specAt, iterOf, Sp.move, hi]
      · have := ih (kept ++ [(c, v)]) s1 _ n h2
          (by simp only [spec, specAt, iterOf, hj, Option.getD_some, Sp.move]; simpa using hxs)
          (by simp only [spec, specAt, iterOf, hj, Option.getD_some, Sp.move, hst, if_true])
          (by omega)
        simpa [hp', sweep] using this

theorem sweepBack_ok (rest : List (Nat × T)) : ∀ (kept : List (Nat × T)) (s : St T) (t : Sp T)
    (n : Nat), R s t → t.xs = rest.reverse ++ kept →
    t.cur j = (0 :: rest.reverse.map (fun e : Nat × T => e.1)).getLast? → rest.length + 1 ≤ n →
    Swept p j s t (sweepBack p j n s) (rest.map (·.2))
      ((rest.reverse.filter fun e => !p e.2) ++ kept) := by
  induction rest with
  | nil =>
    intro kept s t n h hxs hj hn
    obtain ⟨n, rfl⟩ : ∃ m, n = m + 1 := ⟨n - 1, by simp at hn; omega⟩
    exact ⟨s, [], [], loop_end h (.inl rfl) hj _ _ _, trivial, rfl, h, by simpa [runSpec] using hxs,
      fun _ _ => rfl⟩
  | cons e rest ih =>
    obtain ⟨c, v⟩ := e
    intro kept s t n h hxs hj hn
    obtain ⟨n, rfl⟩ : ∃ m, n = m + 1 := ⟨n - 1, by simp at hn; omega⟩
    simp only [List.reverse_cons, List.append_assoc, List.singleton_append] at hxs
    rw [List.reverse_cons, List.map_append, ← List.cons_append, List.map_singleton,
      List.getLast?_concat] at hj
    simp only [List.length_cons] at hn
    obtain ⟨g1, g2, g3, g4, g5⟩ := Sp.pos h hxs
    rw [sweepBack, loop_round h hxs hj]
    have hst := (stepsFrom_next h hxs g1).2
    by_cases hp : p v = true
    · have hl : legal t (.removeToPrev j) := ⟨c, g3, hj⟩
      obtain ⟨s1, h1, h2⟩ := step_ok s t (.removeToPrev j) hl h
      have hw : without c t.xs = rest.reverse ++ kept := by rw [hxs, without_at g1 g2]
      have hf : ((c, v) :: rest).reverse.filter (fun e => !p e.2) =
          rest.reverse.filter fun e => !p e.2 := by
        rw [List.reverse_cons, List.filter_append]; simp [hp]
      rw [if_pos hp, h1, hf]
      refine Swept.cons hl h1 ?_ ?_
      · intro i hi
        simp [spec, specAt, iterOf, Sp.move, Sp.list, hi]
      · exact ih kept s1 _ n h2
          (by simp only [spec, specAt, iterOf, hj, Option.getD_some, Sp.move, Sp.list, hw])
          (by simp only [spec, specAt, iterOf, hj, Option.getD_some, Sp.move, Sp.list, hst, if_true])
          (by omega)
    · have hp' : p v = false := by simpa using hp
      have hl : legal t (.prev j) := ⟨c, by simp [Sp.all, g3], g4, hj⟩
      obtain ⟨s1, h1, h2⟩ := step_ok s t (.prev j) hl h
      have hf : ((c, v) :: rest).reverse.filter (fun e => !p e.2) ++ kept =
          (rest.reverse.filter fun e => !p e.2) ++ (c, v) :: kept := by
        rw [List.reverse_cons, List.filter_append]; simp [hp']
      rw [if_neg hp, h1, hf]
      refine Swept.cons hl h1 ?_ ?_
      · intro i hi
        simp [spec, specAt, iterOf, Sp.move, hi]
      · exact ih ((c, v) :: kept) s1 _ n h2
          (by simp only [spec, specAt, iterOf, hj, Option.getD_some, Sp.move]; exact hxs)
          (by simp only [spec, specAt, iterOf, hj, Option.getD_some, Sp.move, hst, if_true])
          (by omega)

theorem legalRun_append (os os' : List (Op T)) : ∀ t : Sp T, LegalRun spec legal t os →
    LegalRun spec legal (runSpec spec t os).1 os' → LegalRun spec legal t (os ++ os') := by
  induction os with
  | nil => intro t _ h; exact h
  | cons o os ih => intro t h h'; exact ⟨h.1, ih _ h.2 h'⟩

theorem runSpec_append (os os' : List (Op T)) : ∀ t : Sp T,
    (runSpec spec t (os ++ os')).1 = (runSpec spec (runSpec spec t os).1 os').1 := by
  induction os with
  | nil => intro t; rfl
  | cons o os ih => intro t; exact ih _

theorem swept_history {os : List (Op T)} (hl : LegalRun spec legal Sp.new os) {s : St T}
    {rs : List (Res T)} (hr : run step (St.new : St T) os = some (s, rs)) {o : Op T}
    (ho : legal (ideal os).1 o) (hc : ∀ i, i ≠ j → (spec (ideal os).1 o).1.cur i = (ideal os).1.cur i)
    {r : Option (St T × List T)} {seen : List T} {left : List (Nat × T)} {s1 : St T}
    (h1 : step s o = some (s1, .unit))
    (h : Swept p j s1 (spec (ideal os).1 o).1 r seen left) :
    ∃ s' os', r = some (s', seen) ∧
      LegalRun spec legal Sp.new (os ++ o :: os') ∧
      (∃ rs', run step (St.new : St T) (os ++ o :: os') = some (s', rs')) ∧
      (ideal (os ++ o :: os')).1.xs = left ∧
      ∀ i, i ≠ j → (ideal (os ++ o :: os')).1.cur i = (ideal os).1.cur i := by
  obtain ⟨s', os', rs', g1, g2, g3, g4, g5, g6⟩ := h.ex
  refine ⟨s', os', g1, legalRun_append os _ _ hl ⟨ho, g2⟩, ?_, ?_, ?_⟩
  · refine ⟨rs ++ .unit :: rs', ?_⟩
    rw [run_append, hr]
    simp [run, h1, g3]
  · rw [ideal, runSpec_append]; exact g5
  · intro i hi
    rw [ideal, runSpec_append]
    exact (g6 i hi).trans (hc i hi)

/-! ### Theorems -/

/-- C85, linked list: after any legal history, a loop from the head with iterator `j` that removes
through `RemoveToNext` ends, whatever it removes; it looks at every element once, in order, leaves the
other elements in order, and does not move the other iterators. It is itself a legal history, so that
C22 - C24 hold for what follows. -/
theorem C85_linked_forward (os : List (Op T)) (hl : LegalRun spec legal Sp.new os) (s : St T)
    (rs : List (Res T)) (hr : run step (St.new : St T) os = some (s, rs)) (p : T → Bool) (j n : Nat)
    (hn : (ideal os).1.xs.length + 1 ≤ n) :
    ∃ s1 s' os', step s (.toHead j) = some (s1, .unit) ∧
      sweep p j n s1 = some (s', (ideal os).1.vals) ∧
      LegalRun spec legal Sp.new (os ++ .toHead j :: os') ∧
      (∃ rs', run step (St.new : St T) (os ++ .toHead j :: os') = some (s', rs')) ∧
      (ideal (os ++ .toHead j :: os')).1.xs = (ideal os).1.xs.filter (fun e => !p e.2) ∧
      ∀ i, i ≠ j → (ideal (os ++ .toHead j :: os')).1.cur i = (ideal os).1.cur i := by
  obtain ⟨s0, h0, hR⟩ := reach os hl
  obtain rfl : s = s0 := by rw [hr] at h0; simp at h0; exact h0.1
  obtain ⟨s1, h1, h2⟩ := step_ok s _ (.toHead j) trivial hR
  have := sweep_ok (p := p) (j := j) (ideal os).1.xs [] s1 _ n h2 rfl (by simp [spec, Sp.move, Sp.ids]) hn
  obtain ⟨s', os', g⟩ := swept_history hl hr (o := .toHead j) trivial
    (by intro i hi; simp [spec, Sp.move, hi]) h1 this
  exact ⟨s1, s', os', h1, g⟩

/-- C85, linked list: the same from the tail with `RemoveToPrev`. -/
theorem C85_linked_backward (os : List (Op T)) (hl : LegalRun spec legal Sp.new os) (s : St T)
    (rs : List (Res T)) (hr : run step (St.new : St T) os = some (s, rs)) (p : T → Bool) (j n : Nat)
    (hn : (ideal os).1.xs.length + 1 ≤ n) :
    ∃ s1 s' os', step s (.toTail j) = some (s1, .unit) ∧
      sweepBack p j n s1 = some (s', (ideal os).1.vals.reverse) ∧
      LegalRun spec legal Sp.new (os ++ .toTail j :: os') ∧
      (∃ rs', run step (St.new : St T) (os ++ .toTail j :: os') = some (s', rs')) ∧
      (ideal (os ++ .toTail j :: os')).1.xs = (ideal os).1.xs.filter (fun e => !p e.2) ∧
      ∀ i, i ≠ j → (ideal (os ++ .toTail j :: os')).1.cur i = (ideal os).1.cur i := by
  obtain ⟨s0, h0, hR⟩ := reach os hl
  obtain rfl : s = s0 := by rw [hr] at h0; simp at h0; exact h0.1
  obtain ⟨s1, h1, h2⟩ := step_ok s _ (.toTail j) trivial hR
  have := sweepBack_ok (p := p) (j := j) (ideal os).1.xs.reverse [] s1 _ n h2
    (by simp [spec, Sp.move]) (by simp [spec, Sp.move, Sp.ids]) (by simpa using hn)
  simp only [List.reverse_reverse, List.append_nil, List.map_reverse] at this
  obtain ⟨s', os', g⟩ := swept_history hl hr (o := .toTail j) trivial
    (by intro i hi; simp [spec, Sp.move, hi]) h1 this
  exact ⟨s1, s', os', h1, g⟩

/-- The even ones go. -/
example : ∃ s1 s' : St Nat, ∃ s rs, run step (St.new : St Nat) [.pushBack [1, 2, 3, 4]] = some (s, rs) ∧
    step s (.toHead 0) = some (s1, .unit) ∧
    sweep (fun x => x % 2 == 0) 0 5 s1 = some (s', [1, 2, 3, 4]) := by
  obtain ⟨s, h⟩ := C23_history (T := Nat) [.pushBack [1, 2, 3, 4]] (by simp [LegalRun, legal])
  obtain ⟨s1, s', -, h1, h2, -⟩ := C85_linked_forward _ (by simp [LegalRun, legal]) s _ h
    (fun x => x % 2 == 0) 0 5 (by decide)
  exact ⟨s1, s', s, _, h, h1, h2⟩

end Verif.LList
