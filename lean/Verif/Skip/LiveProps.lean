import Verif.Skip.Live

/-! Property C81: iterators of skip lists that are modified during the iteration. -/

namespace Verif.Skip

open Verif.Size (ord ord_lt ord_gt ord_eq)
open IndexTree (any_lawful)

variable {K V : Type} {cmp : K → K → Int}

/-- What happens while an iterator is in use: a call on the list, or `Next`. -/
inductive Ev (K V : Type) where
  | op (o : Op K V)
  | next

/-- The list and the iterator at all moments: at first and after each event; none for a panic. -/
def moments (cmp : K → K → Int) : SL K V → Iter → List (Ev K V) → Option (List (SL K V × Iter))
  | s, it, [] => some [(s, it)]
  | s, it, .op o :: es => (step cmp s o).bind fun p => (moments cmp p.1 it es).map fun ms => (s, it) :: ms
  | s, it, .next :: es => (istep cmp s it .next).bind fun p => (moments cmp s p.1 es).map fun ms => (s, it) :: ms

/-- What `Slices` answers. -/
def Holds (cmp : K → K → Int) (s : SL K V) (xs : List (K × V)) : Prop := step cmp s .slices = some (s, .list xs)

/-- What `Key` and `Value` answer; none if `Valid` is false. -/
def shown (m : SL K V × Iter) : Option (K × V) := m.2.node.map m.1.ent

/-- The entries that the iterator comes to by `Next`; `ms` are the moments after each of the events. -/
def after : List (Ev K V) → List (SL K V × Iter) → List (K × V)
  | .next :: es, m :: ms => (shown m).toList ++ after es ms
  | .op _ :: es, _ :: ms => after es ms
  | _, _ => []

/-- The entries that the iterator comes to: the one where it is at first and those after each `Next`. -/
def visited (es : List (Ev K V)) : List (SL K V × Iter) → List (K × V)
  | [] => []
  | m :: ms => (shown m).toList ++ after es ms

/-- `live` are nodes that have been in the list since the iteration began. -/
structure Ready (cmp : K → K → Int) (s : SL K V) (as : List Nat) (ht : Nat → Nat) (live : Nat → Prop)
    (past : K × V → Prop) : Prop where
  good : Good cmp s as ht
  incl : ∀ a ∈ as, live a
  lt : ∀ a, live a → a < s.free ∧ a ≠ s.header
  fwd : ∀ a, live a → ∃ q, (s.heap a).fwd[0]? = some q ∧
    ∀ b, q = some b → live b ∧ ord cmp (s.heap a).key (s.heap b).key = .lt
  past : ∀ a, live a → past (s.ent a)

/-- The node `t` has been in the list all the time, and is not skipped. -/
structure Tracks (cmp : K → K → Int) (s : SL K V) (as : List Nat) (live : Nat → Prop) (t : Nat) : Prop where
  mem : t ∈ as
  next : ∀ a, live a → ord cmp (s.heap a).key (s.heap t).key = .lt →
    ∃ b, (s.heap a).fwd[0]? = some (some b) ∧ ord cmp (s.heap b).key (s.heap t).key ≠ .gt

variable {s s' : SL K V} {as as' : List Nat} {ht ht' : Nat → Nat} {live : Nat → Prop} {past : K × V → Prop}

theorem Good.fwd_mem (g : Good cmp s as ht) {a : Nat} (ha : a ∈ as) :
    ∃ q, (s.heap a).fwd[0]? = some q ∧ ∀ b, q = some b → b ∈ as ∧ ord cmp (s.heap a).key (s.heap b).key = .lt := by
  obtain ⟨L, R, rfl⟩ := List.append_of_mem ha
  have hp := g.pairwise
  rw [List.pairwise_append, List.pairwise_cons] at hp
  refine ⟨R.head?, g.fwd0, fun b hb => ?_⟩
  have hbR := List.mem_of_mem_head? hb
  exact ⟨by simp [hbR], hp.2.1.1 b hbR⟩

theorem Good.fwd_next (hc : Lawful cmp) (g : Good cmp s as ht) {a t : Nat} (ha : a ∈ as) (ht' : t ∈ as)
    (h : ord cmp (s.heap a).key (s.heap t).key = .lt) :
    ∃ b, (s.heap a).fwd[0]? = some (some b) ∧ ord cmp (s.heap b).key (s.heap t).key ≠ .gt := by
  have := hc.transCmp
  obtain ⟨L, R, rfl⟩ := List.append_of_mem ha
  have hp := g.pairwise
  rw [List.pairwise_append, List.pairwise_cons] at hp
  have hf := g.fwd0
  have htR : t ∈ R := by
    rcases List.mem_append.1 ht' with h1 | h1
    · have := hp.2.2 t h1 a (by simp)
      rw [Ord.lt_iff (o := ord cmp), h] at this
      cases this
    · rcases List.mem_cons.1 h1 with rfl | h1
      · rw [Ord.refl (o := ord cmp)] at h; cases h
      · exact h1
  cases R with
  | nil => cases htR
  | cons b R =>
    refine ⟨b, hf, ?_⟩
    rcases List.mem_cons.1 htR with rfl | htR
    · rw [Ord.refl (o := ord cmp)]; simp
    · rw [(List.pairwise_cons.1 hp.2.1.2).1 t htR]; simp

theorem Good.holds (g : Good cmp s as ht) : Holds cmp s (as.map s.ent) := by
  rw [Holds, step, g.nodes]; rfl

theorem Holds.eq (g : Good cmp s as ht) {xs : List (K × V)} (h : Holds cmp s xs) : xs = as.map s.ent := by
  have := g.holds
  rw [Holds] at this h
  rw [this] at h
  simpa using h.symm

/-- A call on the list. -/
theorem Ready.step (hc : Lawful cmp) (h : Ready cmp s as ht live past) (g' : Good cmp s' as' ht')
    (e : Eff cmp s as s' as') :
    Ready cmp s' as' ht' (fun a => live a ∨ a ∈ as') (fun x => past x ∨ x ∈ as'.map s'.ent) ∧
    (∀ a, live a → (s'.heap a).key = (s.heap a).key) ∧
    ∀ t, Tracks cmp s as live t → t ∈ as' → Tracks cmp s' as' (fun a => live a ∨ a ∈ as') t := by
  have := hc.transCmp
  have hlt : ∀ a, live a ∨ a ∈ as' → a < s'.free ∧ a ≠ s'.header := by
    rintro a (ha | ha)
    · have h1 := h.lt a ha
      have h2 := e.free
      refine ⟨by omega, ?_⟩
      rcases e.header with h3 | ⟨h3, -⟩
      · rw [h3]; exact h1.2
      · omega
    · exact ⟨g'.mem_lt ha, by rintro rfl; exact g'.header_notin ha⟩
  have hkey : ∀ a, live a → (s'.heap a).key = (s.heap a).key := fun a ha => e.keys a (h.lt a ha).1
  -- nodes that are not in the list now
  have hout : ∀ a, live a → a ∉ as' → (s'.heap a).val = (s.heap a).val ∧ ∃ q, (s'.heap a).fwd[0]? = some q ∧
      (∀ b, q = some b → live b ∧ ord cmp (s.heap a).key (s.heap b).key = .lt) ∧
      ∀ t, Tracks cmp s as live t → t ∈ as' → ord cmp (s.heap a).key (s.heap t).key = .lt →
        ∃ b, q = some b ∧ ord cmp (s.heap b).key (s.heap t).key ≠ .gt := by
    intro a ha hn
    by_cases hm : a ∈ as
    · obtain ⟨hv, q, hq, hb, hT⟩ := e.gone a hm hn
      exact ⟨hv, q, hq, fun b eb => ⟨h.incl b (hb b eb).1, (hb b eb).2⟩, fun t tt ht' hlt => hT t ht' tt.mem hlt⟩
    · have hd := e.dead a (h.lt a ha).1 hm (h.lt a ha).2
      obtain ⟨q, hq, hb⟩ := h.fwd a ha
      refine ⟨by rw [hd], q, by rw [hd]; exact hq, hb, fun t tt _ hlt => ?_⟩
      obtain ⟨b, hb', hle⟩ := tt.next a ha hlt
      rw [hq] at hb'
      exact ⟨b, Option.some.inj hb', hle⟩
  refine ⟨⟨g', fun a ha => .inr ha, hlt, ?_, ?_⟩, hkey, ?_⟩
  · intro a ha
    by_cases hm : a ∈ as'
    · obtain ⟨q, hq, hb⟩ := g'.fwd_mem hm
      exact ⟨q, hq, fun b eb => ⟨.inr (hb b eb).1, (hb b eb).2⟩⟩
    · have ha' : live a := ha.resolve_right hm
      obtain ⟨-, q, hq, hb, -⟩ := hout a ha' hm
      refine ⟨q, hq, fun b eb => ⟨.inl (hb b eb).1, ?_⟩⟩
      rw [hkey a ha', hkey b (hb b eb).1]
      exact (hb b eb).2
  · intro a ha
    by_cases hm : a ∈ as'
    · exact .inr (List.mem_map.2 ⟨a, hm, rfl⟩)
    · have ha' : live a := ha.resolve_right hm
      refine .inl ?_
      have : s'.ent a = s.ent a := by
        simp only [SL.ent, hkey a ha', (hout a ha' hm).1]
      rw [this]
      exact h.past a ha'
  · intro t tt ht'
    have htl : live t := h.incl t tt.mem
    refine ⟨ht', fun a ha hlt => ?_⟩
    by_cases hm : a ∈ as'
    · exact g'.fwd_next hc hm ht' hlt
    · have ha' : live a := ha.resolve_right hm
      obtain ⟨-, q, hq, hb, hT⟩ := hout a ha' hm
      rw [hkey a ha', hkey t htl] at hlt
      obtain ⟨b, rfl, hle⟩ := hT t tt ht' hlt
      exact ⟨b, hq, by rw [hkey b (hb b rfl).1, hkey t htl]; exact hle⟩

theorem Ready.mono (h : Ready cmp s as ht live past) {past' : K × V → Prop} (hp : ∀ x, past x → past' x) :
    Ready cmp s as ht live past' :=
  ⟨h.good, h.incl, h.lt, h.fwd, fun a ha => hp _ (h.past a ha)⟩

/-- All that is claimed, for any iterator at a node that has been in the list. -/
theorem play (hc : Lawful cmp) : ∀ (es : List (Ev K V)) {s : SL K V} {as : List Nat} {ht : Nat → Nat}
    {live : Nat → Prop} {past : K × V → Prop} {it : Iter}, Ready cmp s as ht live past →
    (∀ a, it.node = some a → live a) → ∃ ms, moments cmp s it es = some ((s, it) :: ms) ∧
      (∀ i m x, ((s, it) :: ms)[i]? = some m → shown m = some x → past x ∨
        ∃ (j : Nat) (m' : SL K V × Iter) (xs : List (K × V)), j ≤ i ∧ ((s, it) :: ms)[j]? = some m' ∧ Holds cmp m'.1 xs ∧ x ∈ xs) ∧
      (it.node = none → after es ms = []) ∧
      (after es ms).Pairwise (fun x y => ord cmp x.1 y.1 = .lt) ∧
      (∀ c, it.node = some c → ∀ x ∈ after es ms, ord cmp (s.heap c).key x.1 = .lt) ∧
      ∀ t, Tracks cmp s as live t → (∀ m ∈ ms, ∃ xs, Holds cmp m.1 xs ∧ ∃ e ∈ xs, ord cmp e.1 (s.heap t).key = .eq) →
        (((s, it) :: ms).getLast?.map fun m => m.2.node) = some none →
        ∀ c, it.node = some c → ord cmp (s.heap c).key (s.heap t).key = .lt →
        ∃ x ∈ after es ms, ord cmp x.1 (s.heap t).key = .eq
  | [], s, as, ht, live, past, it, h, hi => by
    refine ⟨[], rfl, fun i m x hm hx => ?_, fun _ => rfl, List.Pairwise.nil, fun c hn x hx => (by cases hx),
      fun t tt _ hl c hn => ?_⟩
    · cases i with
      | zero =>
        simp only [List.getElem?_cons_zero, Option.some.injEq] at hm
        subst hm
        simp only [shown, Option.map_eq_some_iff] at hx
        obtain ⟨a, ha, rfl⟩ := hx
        exact .inl (h.past a (hi a ha))
      | succ i => simp at hm
    · simp [hn] at hl
  | .op o :: es, s, as, ht, live, past, it, h, hi => by
    have := hc.transCmp
    obtain ⟨s', r, as', ht', e, g', ef⟩ := step_eff hc h.good o
    obtain ⟨h', hkey, htr⟩ := h.step hc g' ef
    obtain ⟨ms, em, i1, i2, i3, i4, i5⟩ := play hc es (it := it) h' (fun a ha => .inl (hi a ha))
    refine ⟨(s', it) :: ms, by simp only [moments, e, Option.bind_some, em, Option.map_some], ?_, i2, i3, ?_, ?_⟩
    · intro i m x hm hx
      cases i with
      | zero =>
        simp only [List.getElem?_cons_zero, Option.some.injEq] at hm
        subst hm
        simp only [shown, Option.map_eq_some_iff] at hx
        obtain ⟨a, ha, rfl⟩ := hx
        exact .inl (h.past a (hi a ha))
      | succ i =>
        rw [List.getElem?_cons_succ] at hm
        rcases i1 i m x hm hx with (hp | hp) | ⟨j, m', xs, hj, hm', hh, hx'⟩
        · exact .inl hp
        · exact .inr ⟨1, (s', it), _, by omega, rfl, g'.holds, hp⟩
        · exact .inr ⟨j + 1, m', xs, by omega, by rw [List.getElem?_cons_succ]; exact hm', hh, hx'⟩
    · intro c hn x hx
      have := i4 c hn x hx
      rwa [hkey c (hi c hn)] at this
    · intro t tt hall hl c hn hlt
      have htl := h.incl t tt.mem
      have htm : t ∈ as' := by
        obtain ⟨xs, hh, e, he, hk⟩ := hall (s', it) (by simp)
        rw [hh.eq g'] at he
        obtain ⟨t', ht', rfl⟩ := List.mem_map.1 he
        rw [← ef.keep t tt.mem t' ht' hk]
        exact ht'
      have := i5 t (htr t tt htm) (fun m hm => by
          rw [hkey t htl]
          exact hall m (by simp [hm])) (by rw [← hl]; simp) c hn (by rw [hkey c (hi c hn), hkey t htl]; exact hlt)
      rw [hkey t htl] at this
      exact this
  | .next :: es, s, as, ht, live, past, it, h, hi => by
    have := hc.transCmp
    obtain ⟨it', e, hn1, hn2⟩ : ∃ it', istep cmp s it .next = some (it', .unit) ∧
        (it.node = none → it'.node = none) ∧
        (∀ a, it.node = some a → (s.heap a).fwd[0]? = some it'.node) := by
      rw [istep]
      cases hn : it.node with
      | none => exact ⟨it, rfl, fun _ => hn, fun a ha => by cases ha⟩
      | some a =>
        obtain ⟨q, hq, -⟩ := h.fwd a (hi a hn)
        refine ⟨⟨q, it.index + 1⟩, by simp only [hq, Option.map_some], fun h => (by cases h), fun a' ha' => ?_⟩
        cases ha'; exact hq
    have hi' : ∀ b, it'.node = some b → live b ∧ ∀ a, it.node = some a →
        ord cmp (s.heap a).key (s.heap b).key = .lt := by
      intro b hb
      cases hn : it.node with
      | none => rw [hn1 hn] at hb; cases hb
      | some a =>
        obtain ⟨q, hq, hb'⟩ := h.fwd a (hi a hn)
        rw [hn2 a hn, Option.some.injEq] at hq
        subst hq
        refine ⟨(hb' b hb).1, ?_⟩
        rintro a' ⟨⟩
        exact (hb' b hb).2
    obtain ⟨ms, em, i1, i2, i3, i4, i5⟩ := play hc es (it := it') h (fun b hb => (hi' b hb).1)
    refine ⟨(s, it') :: ms, by simp only [moments, e, Option.bind_some, em, Option.map_some], ?_, ?_, ?_, ?_, ?_⟩
    · intro i m x hm hx
      cases i with
      | zero =>
        simp only [List.getElem?_cons_zero, Option.some.injEq] at hm
        subst hm
        simp only [shown, Option.map_eq_some_iff] at hx
        obtain ⟨a, ha, rfl⟩ := hx
        exact .inl (h.past a (hi a ha))
      | succ i =>
        rw [List.getElem?_cons_succ] at hm
        rcases i1 i m x hm hx with hp | ⟨j, m', xs, hj, hm', hh, hx'⟩
        · exact .inl hp
        · exact .inr ⟨j + 1, m', xs, by omega, by rw [List.getElem?_cons_succ]; exact hm', hh, hx'⟩
    · intro hn
      have := hn1 hn
      rw [after, i2 this, shown, this]
      rfl
    · rw [after]
      cases hn : it'.node with
      | none => rw [shown, hn]; simpa using i3
      | some b =>
        rw [shown, hn]
        exact List.pairwise_cons.2 ⟨fun x hx => i4 b hn x hx, i3⟩
    · intro c hn x hx
      rw [after] at hx
      cases hn' : it'.node with
      | none =>
        rw [i2 hn', shown, hn'] at hx
        cases hx
      | some b =>
        rw [shown, hn'] at hx
        have hcb := (hi' b hn').2 c hn
        rcases List.mem_cons.1 hx with rfl | hx
        · exact hcb
        · exact Ord.lt_trans (o := ord cmp) hcb (i4 b hn' x hx)
    · intro t tt hall hl c hn hlt
      obtain ⟨b, hb, hle⟩ := tt.next c (hi c hn) hlt
      have hb' : it'.node = some b := by
        have := hn2 c hn
        rw [hb, Option.some.injEq] at this
        exact this.symm
      rw [after, shown, hb']
      cases ho : ord cmp (s.heap b).key (s.heap t).key with
      | gt => exact absurd ho hle
      | eq => exact ⟨s.ent b, by simp, ho⟩
      | lt =>
        obtain ⟨x, hx, hxe⟩ := i5 t tt (fun m hm => hall m (by simp [hm])) (by rw [← hl]; simp) b hb' ho
        exact ⟨x, by simp [hx], hxe⟩

/-- An iterator that has been moved about in a list that does not change. -/
theorem at_node (hc : Lawful cmp) (g : Good cmp s as ht) {it0 it : Iter} {ios : List (IOp K)} {irs : List (IRes K V)}
    (h0 : iterator s = some it0) (hr : run (istep cmp s) it0 ios = some (it, irs)) :
    ∀ a, it.node = some a → a ∈ as := by
  have hi0 : ∃ p, ISim as it0 p := by
    rw [iterator, g.first] at h0
    cases h0
    exact ⟨_, by simpa using isim_head [] as 0⟩
  suffices H : ∀ (ios : List (IOp K)) (it0 : Iter) (irs : List (IRes K V)), (∃ p, ISim as it0 p) →
      run (istep cmp s) it0 ios = some (it, irs) → ∃ p, ISim as it p by
    obtain ⟨p, hp⟩ := H ios it0 irs hi0 hr
    intro a ha
    rw [hp.1] at ha
    cases p with
    | none => cases ha
    | some p => exact List.mem_of_getElem? ha
  intro ios
  induction ios with
  | nil => intro it0 irs hp e; cases e; exact hp
  | cons o ios ih =>
    rintro it0 irs ⟨p, hp⟩ e
    by_cases ho : o = .index
    · subst ho
      simp only [run, istep, Option.bind_some] at e
      cases he : run (istep cmp s) it0 ios with
      | none => rw [he] at e; cases e
      | some q =>
        rw [he] at e
        cases e
        exact ih it0 q.2 ⟨p, hp⟩ he
    · obtain ⟨it', e', hi'⟩ := istep_ok hc g hp o ho
      simp only [run, e', Option.bind_some] at e
      cases he : run (istep cmp s) it' ios with
      | none => rw [he] at e; cases e
      | some q =>
        rw [he] at e
        cases e
        exact ih it' q.2 ⟨_, hi'⟩ he

/-- C81: a list made by any calls, an iterator on it that was moved in any way, and then any calls on the list
and calls of `Next` in any order. Nothing panics; the entries that the iterator comes to ascend strictly; every
entry it ever shows was in the list, with this value, at some moment since the beginning and not later than it
is shown; and if the iteration runs to the end, every key that is in the list at all moments (and is not before
the entry where the iterator started) has been visited. -/
theorem C81_modified (hc : Lawful cmp) (maxLevel : Int) (junk : K × V) (os : List (Op K V)) (s : SL K V)
    (rs : List (Res K V)) (h : run (step cmp) (new maxLevel junk) os = some (s, rs))
    (it0 it : Iter) (ios : List (IOp K)) (irs : List (IRes K V)) (h0 : iterator s = some it0)
    (hr : run (istep cmp s) it0 ios = some (it, irs)) (es : List (Ev K V)) :
    ∃ ms, moments cmp s it es = some ms ∧
      (visited es ms).Pairwise (fun x y => cmp x.1 y.1 < 0) ∧
      (∀ i m x, ms[i]? = some m → shown m = some x →
        ∃ (j : Nat) (m' : SL K V × Iter) (xs : List (K × V)), j ≤ i ∧ ms[j]? = some m' ∧ Holds cmp m'.1 xs ∧ x ∈ xs) ∧
      ((ms.getLast?.map fun m => m.2.node) = some none →
        ∀ k, (∀ m ∈ ms, ∃ xs, Holds cmp m.1 xs ∧ ∃ e ∈ xs, cmp e.1 k = 0) →
        (∃ x, shown (s, it) = some x ∧ cmp x.1 k ≤ 0) → ∃ x ∈ visited es ms, cmp x.1 k = 0) := by
  have := hc.transCmp
  obtain ⟨s', rs', ys, e, as, ht, g, -⟩ := run_any hc os (new_ok maxLevel junk)
  rw [h] at e
  cases e
  have hat := at_node hc g h0 hr
  have hready : Ready cmp s as ht (· ∈ as) (· ∈ as.map s.ent) :=
    ⟨g, fun a h => h, fun a ha => ⟨g.mem_lt ha, by rintro rfl; exact g.header_notin ha⟩, fun a ha => g.fwd_mem ha,
      fun a ha => List.mem_map.2 ⟨a, ha, rfl⟩⟩
  obtain ⟨ms, em, i1, i2, i3, i4, i5⟩ := play hc es (it := it) hready hat
  refine ⟨_, em, ?_, ?_, ?_⟩
  · simp only [← ord_lt]
    rw [visited]
    cases hn : it.node with
    | none => rw [shown, hn]; simpa using i3
    | some c =>
      rw [shown, hn]
      exact List.pairwise_cons.2 ⟨fun x hx => i4 c hn x hx, i3⟩
  · intro i m x hm hx
    rcases i1 i m x hm hx with hp | hp
    · exact ⟨0, (s, it), _, Nat.zero_le _, rfl, g.holds, hp⟩
    · exact hp
  · intro hl k hall hst
    obtain ⟨x, hx, hxk⟩ := hst
    simp only [shown, Option.map_eq_some_iff] at hx
    obtain ⟨c, hn, rfl⟩ := hx
    obtain ⟨xs, hh, e, he, hek⟩ := hall (s, it) (by simp)
    rw [hh.eq g] at he
    obtain ⟨t, htm, rfl⟩ := List.mem_map.1 he
    rw [← ord_eq] at hek
    simp only [SL.ent] at hek hxk
    have hct : ord cmp (s.heap c).key (s.heap t).key ≠ .gt := by
      rw [Ord.congr_right (o := ord cmp) hek]
      intro hgt
      rw [ord_gt] at hgt
      omega
    rw [visited, shown, hn]
    cases ho : ord cmp (s.heap c).key (s.heap t).key with
    | gt => exact absurd ho hct
    | eq => exact ⟨s.ent c, by simp, ord_eq.1 (Ord.eq_trans (o := ord cmp) ho hek)⟩
    | lt =>
      obtain ⟨x, hx, hxe⟩ := i5 t ⟨htm, fun a ha hlt => g.fwd_next hc ha htm hlt⟩ (fun m hm => by
        obtain ⟨xs, hh, e, he, hek'⟩ := hall m (by simp [hm])
        refine ⟨xs, hh, e, he, ?_⟩
        rw [← ord_eq] at hek'
        exact Ord.eq_trans (o := ord cmp) hek' (Ord.eq_symm (o := ord cmp) hek)) hl c hn ho
      exact ⟨x, by simp [hx], ord_eq.1 (Ord.eq_trans (o := ord cmp) hxe hek)⟩

/-- The events of the following example: the current entry is removed, then the one after it, which the
iterator comes to all the same; a key is put behind the iterator and one before it. -/
def mods : List (Ev Int Int) :=
  [.op (.remove 1), .op (.remove 3), .op (.put 2 20 []), .next, .op (.put 7 70 [true]), .next, .next, .next]

/-- A run of this kind. -/
example : (run (step Compare.any) (new 16 ((0, 0) : Int × Int)) [.put 3 30 [true], .put 1 10 [], .put 5 50 []]).bind
    (fun p => (iterator p.1).bind fun it => (moments Compare.any p.1 it mods).map fun ms =>
      (visited mods ms, ms.getLast?.map fun m => m.2.node)) =
    some ([(1, 10), (3, 30), (5, 50), (7, 70)], some none) := by decide +kernel

end Verif.Skip
