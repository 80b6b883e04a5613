import Verif.Tree.TreeListLemmas

/-! The set operations of the tree list. -/

namespace Verif.TreeList

open Tree Size DLL

variable {K V : Type} {cmp : K → K → Int}

/-! ### Merging sorted lists -/

section
variable (cmp) (op : SetOp)

/-- What the stream gives out, as lists. -/
def merge : List (K × V) → List (K × V) → List (K × V)
  | [], ys => match op with | .union => ys | _ => []
  | x :: xs, [] => match op with | .inter => [] | _ => x :: xs
  | x :: xs, y :: ys =>
    let c := cmp x.1 y.1
    match op with
    | .inter =>
      if c < 0 then merge xs (y :: ys) else if c > 0 then merge (x :: xs) ys else x :: merge xs ys
    | .union =>
      if c < 0 then x :: merge xs (y :: ys) else if c > 0 then y :: merge (x :: xs) ys
      else x :: merge xs ys
    | .diff =>
      if c < 0 then x :: merge xs (y :: ys) else if c > 0 then merge (x :: xs) ys else merge xs ys
  termination_by xs ys => xs.length + ys.length

end

theorem merge_nil {op : SetOp} {ys : List (K × V)} :
    merge cmp op [] ys = match op with | .union => ys | _ => [] := by
  rw [merge.eq_def]

theorem merge_nil_right {op : SetOp} {x : K × V} {xs : List (K × V)} :
    merge cmp op (x :: xs) [] = match op with | .inter => [] | _ => x :: xs := by
  rw [merge.eq_def]

theorem merge_cons {op : SetOp} {x y : K × V} {xs ys : List (K × V)} :
    merge cmp op (x :: xs) (y :: ys) =
    match op with
    | .inter =>
      if cmp x.1 y.1 < 0 then merge cmp .inter xs (y :: ys)
      else if cmp x.1 y.1 > 0 then merge cmp .inter (x :: xs) ys else x :: merge cmp .inter xs ys
    | .union =>
      if cmp x.1 y.1 < 0 then x :: merge cmp .union xs (y :: ys)
      else if cmp x.1 y.1 > 0 then y :: merge cmp .union (x :: xs) ys
      else x :: merge cmp .union xs ys
    | .diff =>
      if cmp x.1 y.1 < 0 then x :: merge cmp .diff xs (y :: ys)
      else if cmp x.1 y.1 > 0 then merge cmp .diff (x :: xs) ys else merge cmp .diff xs ys := by
  rw [merge.eq_def]; cases op <;> rfl

/-- The list of slices from a node on. -/
inductive Stream (h : Store (K × V)) : Option Nat → List (K × V) → Prop
  | nil : Stream h none []
  | cons {a : Nat} {xs : List (K × V)} : Stream h (h a).next xs → Stream h (some a) ((h a).val :: xs)

theorem stream_none {h : Store (K × V)} {xs : List (K × V)} (hs : Stream h none xs) : xs = [] := by
  cases hs; rfl

theorem stream_some {h : Store (K × V)} {a : Nat} {xs : List (K × V)} (hs : Stream h (some a) xs) :
    ∃ ys, xs = (h a).val :: ys ∧ Stream h (h a).next ys := by
  cases hs with
  | cons hs => exact ⟨_, rfl, hs⟩

theorem Good.stream {s : TL K V} {zs : List (Ent K V)} (hG : Good cmp s zs) :
    Stream s.heap s.head (zs.map strip) := by
  rw [hG.thread.head]
  have h1 := hG.thread.seg
  have h2 := hG.vals
  clear hG
  suffices H : ∀ p, Seg s.heap p (addrs zs) none →
      Stream s.heap (addrs zs).head? (zs.map strip) from H _ h1
  clear h1
  induction zs with
  | nil => intro _ _; exact .nil
  | cons e zs ih =>
    intro p h1
    obtain ⟨-, h4, h5⟩ := h1
    have h6 := ih (fun x hx => h2 x (by simp [hx])) _ h5
    rw [List.map_cons, ← h2 e (by simp)]
    refine .cons ?_
    rw [h4, Option.or_none]
    exact h6

theorem countRest_ok {h : Store (K × V)} : ∀ (n : Nat) {p : Option Nat} {xs : List (K × V)},
    Stream h p xs → xs.length ≤ n → countRest h n p = some xs.length := by
  intro n
  induction n with
  | zero =>
    intro p xs hs hl
    cases hs with
    | nil => rfl
    | cons => simp at hl
  | succ n ih =>
    intro p xs hs hl
    cases hs with
    | nil => rfl
    | cons hs =>
      simp only [List.length_cons] at hl
      simp only [countRest, ih hs (by omega), Option.map_some, List.length_cons]

theorem countAll_ok {op : SetOp} {ha hb : Store (K × V)} : ∀ (n : Nat) {p q : Option Nat}
    {xs ys : List (K × V)}, Stream ha p xs → Stream hb q ys → xs.length + ys.length ≤ n →
    countAll cmp op ha hb n p q = some (merge cmp op xs ys).length := by
  intro n
  induction n with
  | zero =>
    intro p q xs ys hx hy hl
    cases hx with
    | nil =>
      cases hy with
      | nil => rw [merge_nil]; cases op <;> rfl
      | cons => simp at hl
    | cons => simp at hl
  | succ n ih =>
    intro p q xs ys hx hy hl
    cases p with
    | none =>
      have := stream_none hx
      subst this
      simp only [countAll]
      have h2 := countRest_ok (n + 1) hy (by simpa using hl)
      have h1 := countRest_ok (n + 1) hx (by simp)
      cases op with
      | inter => rw [merge_nil]; rfl
      | union => simp only [h1, h2, merge_nil]; simp
      | diff => simp only [h1, merge_nil]
    | some a =>
      obtain ⟨xs', rfl, hx'⟩ := stream_some hx
      cases q with
      | none =>
        have := stream_none hy
        subst this
        simp only [countAll]
        have h1 := countRest_ok (n + 1) hx (by simpa using hl)
        have h2 := countRest_ok (n + 1) hy (by simp)
        cases op with
        | inter => rw [merge_nil_right]; rfl
        | union => simp only [h1, h2, merge_nil_right]; simp
        | diff => simp only [h1, merge_nil_right]
      | some b =>
        obtain ⟨ys', rfl, hy'⟩ := stream_some hy
        simp only [List.length_cons] at hl
        have i1 := ih hx' hy (by simp only [List.length_cons]; omega)
        have i2 := ih hx hy' (by simp only [List.length_cons]; omega)
        have i3 := ih hx' hy' (by omega)
        simp only [countAll, merge_cons]
        cases op with
        | inter =>
          simp only [emit]
          split
          · simp only [i1]; rfl
          · split
            · simp only [i2]; rfl
            · simp only [i3]; rfl
        | union =>
          simp only [emit]
          split
          · simp only [i1]; rfl
          · split
            · simp only [i2]; rfl
            · simp only [i3]; rfl
        | diff =>
          simp only [emit]
          split
          · simp only [i1]; rfl
          · split
            · simp only [i2]; rfl
            · simp only [i3]; rfl

theorem pull_ok {op : SetOp} {ha hb : Store (K × V)} : ∀ (n : Nat) {p q : Option Nat}
    {xs ys zs : List (K × V)} {z : K × V}, Stream ha p xs → Stream hb q ys →
    xs.length + ys.length ≤ n → merge cmp op xs ys = z :: zs →
    ∃ p' q' xs' ys', pull cmp op ha hb n p q = some (z, p', q') ∧ Stream ha p' xs' ∧
      Stream hb q' ys' ∧ xs'.length + ys'.length ≤ xs.length + ys.length ∧
      merge cmp op xs' ys' = zs := by
  intro n
  induction n with
  | zero =>
    intro p q xs ys zs z hx hy hl hm
    have h1 : xs = [] := List.length_eq_zero_iff.1 (by omega)
    have h2 : ys = [] := List.length_eq_zero_iff.1 (by omega)
    subst h1 h2
    cases op <;> simp [merge_nil] at hm
  | succ n ih =>
    intro p q xs ys zs z hx hy hl hm
    cases p with
    | none =>
      have := stream_none hx
      subst this
      rw [merge_nil] at hm
      cases q with
      | none =>
        have := stream_none hy
        subst this
        cases op <;> simp at hm
      | some b =>
        obtain ⟨ys', rfl, hy'⟩ := stream_some hy
        cases op with
        | inter => simp at hm
        | diff => simp at hm
        | union =>
          simp only [List.cons.injEq] at hm
          obtain ⟨rfl, rfl⟩ := hm
          exact ⟨none, _, [], ys', rfl, .nil, hy', by simp, by rw [merge_nil]⟩
    | some a =>
      obtain ⟨xs', rfl, hx'⟩ := stream_some hx
      cases q with
      | none =>
        have := stream_none hy
        subst this
        rw [merge_nil_right] at hm
        have hme : ∀ {op : SetOp}, op ≠ .inter → merge cmp op xs' [] = xs' := by
          intro op ho
          cases xs' with
          | nil => rw [merge_nil]; cases op <;> rfl
          | cons => rw [merge_nil_right]; cases op <;> first | rfl | exact absurd rfl ho
        cases op with
        | inter => simp at hm
        | union =>
          simp only [List.cons.injEq] at hm
          obtain ⟨rfl, rfl⟩ := hm
          exact ⟨_, none, xs', [], rfl, hx', .nil, by simp, hme (by simp)⟩
        | diff =>
          simp only [List.cons.injEq] at hm
          obtain ⟨rfl, rfl⟩ := hm
          exact ⟨_, none, xs', [], rfl, hx', .nil, by simp, hme (by simp)⟩
      | some b =>
        obtain ⟨ys', rfl, hy'⟩ := stream_some hy
        simp only [List.length_cons] at hl
        rw [merge_cons] at hm
        have i1 := fun h => ih (zs := zs) (z := z) hx' hy (by simp only [List.length_cons]; omega) h
        have i2 := fun h => ih (zs := zs) (z := z) hx hy' (by simp only [List.length_cons]; omega) h
        have i3 := fun h => ih (zs := zs) (z := z) hx' hy' (by omega) h
        have weaken : ∀ {us vs : List (K × V)} {p q : Option Nat},
            us.length + vs.length ≤ ((ha a).val :: xs').length + ((hb b).val :: ys').length →
            (∃ p' q' us' vs', pull cmp op ha hb n p q = some (z, p', q') ∧ Stream ha p' us' ∧
              Stream hb q' vs' ∧ us'.length + vs'.length ≤ us.length + vs.length ∧
              merge cmp op us' vs' = zs) →
            ∃ p' q' us' vs', pull cmp op ha hb n p q = some (z, p', q') ∧ Stream ha p' us' ∧
              Stream hb q' vs' ∧
              us'.length + vs'.length ≤ ((ha a).val :: xs').length + ((hb b).val :: ys').length ∧
              merge cmp op us' vs' = zs := by
          intro us vs p q hle ⟨p', q', us', vs', h1, h2, h3, h4, h5⟩
          exact ⟨p', q', us', vs', h1, h2, h3, by omega, h5⟩
        simp only [pull]
        cases op with
        | inter =>
          simp only [emit] at hm ⊢
          by_cases c1 : cmp (ha a).val.1 (hb b).val.1 < 0
          · simp only [if_pos c1] at hm ⊢
            exact weaken (by simp only [List.length_cons]; omega) (i1 hm)
          · simp only [if_neg c1] at hm ⊢
            by_cases c2 : cmp (ha a).val.1 (hb b).val.1 > 0
            · simp only [if_pos c2] at hm ⊢
              exact weaken (by simp only [List.length_cons]; omega) (i2 hm)
            · simp only [if_neg c2, List.cons.injEq] at hm ⊢
              obtain ⟨rfl, rfl⟩ := hm
              exact ⟨_, _, xs', ys', rfl, hx', hy', by simp only [List.length_cons]; omega, rfl⟩
        | union =>
          simp only [emit] at hm ⊢
          by_cases c1 : cmp (ha a).val.1 (hb b).val.1 < 0
          · simp only [if_pos c1, List.cons.injEq] at hm ⊢
            obtain ⟨rfl, rfl⟩ := hm
            exact ⟨_, _, xs', _, rfl, hx', hy, by simp only [List.length_cons]; omega, rfl⟩
          · simp only [if_neg c1] at hm ⊢
            by_cases c2 : cmp (ha a).val.1 (hb b).val.1 > 0
            · simp only [if_pos c2, List.cons.injEq] at hm ⊢
              obtain ⟨rfl, rfl⟩ := hm
              exact ⟨_, _, _, ys', rfl, hx, hy', by simp only [List.length_cons]; omega, rfl⟩
            · simp only [if_neg c2, List.cons.injEq] at hm ⊢
              obtain ⟨rfl, rfl⟩ := hm
              exact ⟨_, _, xs', ys', rfl, hx', hy', by simp only [List.length_cons]; omega, rfl⟩
        | diff =>
          simp only [emit] at hm ⊢
          by_cases c1 : cmp (ha a).val.1 (hb b).val.1 < 0
          · simp only [if_pos c1, List.cons.injEq] at hm ⊢
            obtain ⟨rfl, rfl⟩ := hm
            exact ⟨_, _, xs', _, rfl, hx', hy, by simp only [List.length_cons]; omega, rfl⟩
          · simp only [if_neg c1] at hm ⊢
            by_cases c2 : cmp (ha a).val.1 (hb b).val.1 > 0
            · simp only [if_pos c2] at hm ⊢
              exact weaken (by simp only [List.length_cons]; omega) (i2 hm)
            · simp only [if_neg c2] at hm ⊢
              exact weaken (by simp only [List.length_cons]; omega) (i3 hm)

/-! ### Building the tree -/

/-- The nodes built so far are threaded. -/
structure Done (h : Store (K × V)) (D : List (Ent K V)) (prev head : Option Nat) : Prop where
  seg : Seg h none (addrs D) none
  vals : ∀ e ∈ D, (h e.2.1).val = strip e
  prev : prev = (addrs D).getLast?
  head : head = (addrs D).head?

theorem Done.snoc {h : Store (K × V)} {D : List (Ent K V)} {prev head : Option Nat}
    (hD : Done h D prev head) {a : Nat} (x : K × V) (ha : a ∉ addrs D) (nd : (addrs D).Nodup) :
    Done (match (generalizing := false) prev with
        | some b => (h.put a ⟨prev, none, x⟩).setNext b (some a) | none => h.put a ⟨prev, none, x⟩)
      (D ++ [(x.1, (a, x.2))]) (some a) (match (generalizing := false) prev with | some _ => head | none => some a) := by
  obtain ⟨h1, h2, h3, h4⟩ := hD
  have hne : ∀ e ∈ D, e.2.1 ≠ a := fun e he h => ha (mem_addrs.2 ⟨e, he, h⟩)
  rcases List.eq_nil_or_concat D with rfl | ⟨L, d, hLd⟩
  · simp only [addrs_nil, List.getLast?_nil] at h3
    subst h3
    refine ⟨?_, ?_, rfl, rfl⟩
    · simp [Seg, put_self]
    · intro e he
      simp only [List.nil_append, List.mem_singleton] at he
      subst he
      simp [strip, put_self]
  · rw [List.concat_eq_append] at hLd
    subst hLd
    rw [addrs_append] at h1 h3 h4 nd
    simp only [addrs_cons, addrs_nil, List.getLast?_concat] at h1 h3 h4 nd
    subst h3
    simp only
    have hda : d.2.1 ≠ a := hne d (by simp)
    refine ⟨?_, ?_, ?_, ?_⟩
    · rw [addrs_append, addrs_append, seg_append]
      simp only [addrs_cons, addrs_nil, List.head?_cons, Option.some_or, List.getLast?_concat]
      refine ⟨?_, ?_, ?_, trivial⟩
      · refine seg_right h1 nd fun c hc => ?_
        have hca : c ≠ a := by
          intro h
          refine ha ?_
          rw [addrs_append, ← h]
          exact hc
        rw [prev_setNext, next_setNext, put_ne _ _ hca, List.getLast?_concat]
        refine ⟨rfl, ?_⟩
        by_cases hcd : d.2.1 = c
        · simp [hcd]
        · rw [if_neg (fun h => hcd h.symm), if_neg (by simpa using hcd)]
      · rw [prev_setNext, put_self]
      · rw [next_setNext, if_neg (Ne.symm hda), put_self]; rfl
    · intro e he
      rw [val_setNext, val_put]
      rw [List.mem_append] at he
      rcases he with he | he
      · rw [if_neg (hne e he)]; exact h2 e he
      · simp only [List.mem_singleton] at he
        subst he
        rw [if_pos rfl]; rfl
    · simp
    · rw [h4]; simp

theorem build_ok {op : SetOp} {ha hb : Store (K × V)} {N : Nat} : ∀ (n m : Nat) (b : Build K V)
    {xs ys : List (K × V)} {D : List (Ent K V)}, m ≤ n → Stream ha b.p xs → Stream hb b.q ys →
    xs.length + ys.length ≤ N → m ≤ (merge cmp op xs ys).length →
    Done b.heap D b.prev b.head → (∀ e ∈ D, e.2.1 < b.free) → (addrs D).Nodup →
    ∃ t b' xs' ys', build (pull cmp op ha hb N) n m b = some (t, b') ∧ Stream ha b'.p xs' ∧
      Stream hb b'.q ys' ∧ xs'.length + ys'.length ≤ N ∧
      merge cmp op xs' ys' = (merge cmp op xs ys).drop m ∧
      t.toList.map strip = (merge cmp op xs ys).take m ∧ Exact t ∧
      Done b'.heap (D ++ t.toList) b'.prev b'.head ∧ b.free ≤ b'.free ∧
      (∀ e ∈ t.toList, b.free ≤ e.2.1 ∧ e.2.1 < b'.free) ∧ (addrs t.toList).Nodup := by
  intro n
  induction n with
  | zero =>
    intro m b xs ys D hm hx hy hN hlen hD hfr nd
    have : m = 0 := by omega
    subst this
    exact ⟨nil, b, xs, ys, rfl, hx, hy, hN, by simp, by simp, trivial, by simpa using hD, Nat.le_refl _,
      by simp, by simp⟩
  | succ n ih =>
    intro m b xs ys D hm hx hy hN hlen hD hfr nd
    cases m with
    | zero =>
      exact ⟨nil, b, xs, ys, by simp [build], hx, hy, hN, by simp, by simp, trivial, by simpa using hD,
        Nat.le_refl _, by simp, by simp⟩
    | succ m =>
      have hls : (m + 1) / 2 ≤ m := by omega
      obtain ⟨l, b1, xs1, ys1, l1, l2, l3, l4, l5, l6, l7, l8, l9, l10, l11⟩ :=
        ih ((m + 1) / 2) { b with free := b.free + 1 } (D := D) (by omega) hx hy hN (by omega) hD
          (fun e he => by have := hfr e he; simp only; omega) nd
      simp only at l9 l10
      have hz : ∃ z zs, merge cmp op xs1 ys1 = z :: zs := by
        cases hzz : merge cmp op xs1 ys1 with
        | nil =>
          rw [l5] at hzz
          have := congrArg List.length hzz
          simp at this
          omega
        | cons z zs => exact ⟨z, zs, rfl⟩
      obtain ⟨z, zs, hz⟩ := hz
      obtain ⟨p2, q2, xs2, ys2, m1, m2, m3, m4, m5⟩ := pull_ok N l2 l3 l4 hz
      -- the new node
      have hnd1 : (addrs (D ++ l.toList)).Nodup := by
        rw [addrs_append, List.nodup_append]
        refine ⟨nd, l11, ?_⟩
        intro x hx y hy hxy
        obtain ⟨e, he, rfl⟩ := mem_addrs.1 hx
        obtain ⟨f, hf, rfl⟩ := mem_addrs.1 hy
        have := hfr e he
        have := (l10 f hf).1
        omega
      have hna : b.free ∉ addrs (D ++ l.toList) := by
        rw [addrs_append, List.mem_append, not_or]
        constructor
        · intro h
          obtain ⟨e, he, h⟩ := mem_addrs.1 h
          have := hfr e he
          omega
        · intro h
          obtain ⟨e, he, h⟩ := mem_addrs.1 h
          have := (l10 e he).1
          omega
      have hD2 := l8.snoc z hna hnd1
      obtain ⟨r, b3, xs3, ys3, r1, r2, r3, r4, r5, r6, r7, r8, r9, r10, r11⟩ :=
        ih (m + 1 - (m + 1) / 2 - 1)
          { p := p2, q := q2, free := b1.free, prev := some b.free
            heap := match b1.prev with
              | some c => (b1.heap.put b.free ⟨b1.prev, none, z⟩).setNext c (some b.free)
              | none => b1.heap.put b.free ⟨b1.prev, none, z⟩
            head := match b1.prev with | some _ => b1.head | none => some b.free }
          (D := D ++ l.toList ++ [(z.1, (b.free, z.2))]) (by omega) m2 m3 (by omega)
          (by
            have := congrArg List.length l5
            rw [hz] at this
            simp at this
            rw [m5]; omega) hD2
          (by
            intro e he
            simp only
            rw [List.append_assoc, List.mem_append, List.mem_append] at he
            rcases he with he | he | he
            · have := hfr e he; omega
            · exact (l10 e he).2
            · simp only [List.mem_singleton] at he; subst he; simp only; omega)
          (by
            rw [addrs_append]
            simp only [addrs_cons, addrs_nil]
            exact nodup_insert (R := []) (by simpa using hnd1) (by simpa using hna))
      simp only at r9 r10
      have hlen2 : (z :: zs).length = (merge cmp op xs ys).length - (m + 1) / 2 := by
        rw [← hz, l5, List.length_drop]
      have hdrop : zs = (merge cmp op xs ys).drop ((m + 1) / 2 + 1) := by
        have := congrArg (List.drop 1) (hz.symm.trans l5)
        simpa [List.drop_drop] using this
      have htake : (merge cmp op xs ys).take (m + 1) = (merge cmp op xs ys).take ((m + 1) / 2) ++
          z :: zs.take (m + 1 - (m + 1) / 2 - 1) := by
        have e1 : z :: zs.take (m + 1 - (m + 1) / 2 - 1) =
            ((merge cmp op xs ys).drop ((m + 1) / 2)).take (m + 1 - (m + 1) / 2) := by
          rw [← l5, hz, show m + 1 - (m + 1) / 2 = (m + 1 - (m + 1) / 2 - 1) + 1 by omega,
            List.take_succ_cons]
          simp
        rw [e1, ← List.drop_take]
        have := List.take_append_drop ((m + 1) / 2) ((merge cmp op xs ys).take (m + 1))
        rw [List.take_take, Nat.min_eq_left (by omega)] at this
        exact this.symm
      refine ⟨mk z.1 (b.free, z.2) l r, b3, xs3, ys3, ?_, r2, r3, r4, ?_, ?_, l7.mk _ _ r7, ?_, ?_, ?_, ?_⟩
      · simp only [build, l1, Option.bind_some, m1]
        exact congrArg (Option.map _) r1
      · rw [r5, m5, hdrop, List.drop_drop]
        congr 1
        omega
      · rw [toList_mk, List.map_append, List.map_cons, l6, r6, m5, htake]
        rfl
      · rw [toList_mk]
        simpa using r8
      · omega
      · intro e he
        rw [toList_mk, List.mem_append, List.mem_cons] at he
        rcases he with he | rfl | he
        · have := l10 e he; omega
        · simp only; omega
        · have := r10 e he; omega
      · rw [toList_mk, addrs_append, addrs_cons]
        have h3 : (addrs l.toList ++ addrs r.toList).Nodup := by
          rw [List.nodup_append]
          refine ⟨l11, r11, ?_⟩
          intro x hx y hy hxy
          obtain ⟨e, he, rfl⟩ := mem_addrs.1 hx
          obtain ⟨f, hf, rfl⟩ := mem_addrs.1 hy
          have := l10 e he
          have := r10 f hf
          omega
        refine nodup_insert h3 ?_
        rw [List.mem_append, not_or]
        constructor
        · intro h
          obtain ⟨e, he, h⟩ := mem_addrs.1 h
          have := (l10 e he).1
          simp only at h
          omega
        · intro h
          obtain ⟨e, he, h⟩ := mem_addrs.1 h
          have := (r10 e he).1
          simp only at h
          omega

/-! ### What the merged list is -/

theorem pair_induct {α : Type} {P : List α → List α → Prop} (h1 : ∀ ys, P [] ys)
    (h2 : ∀ x xs, P (x :: xs) [])
    (h3 : ∀ x xs y ys, P xs (y :: ys) → P (x :: xs) ys → P xs ys → P (x :: xs) (y :: ys)) :
    ∀ xs ys, P xs ys := by
  intro xs
  induction xs with
  | nil => exact h1
  | cons x xs ih =>
    intro ys
    induction ys with
    | nil => exact h2 x xs
    | cons y ys ih2 => exact h3 x xs y ys (ih _) ih2 (ih _)

theorem sorted_strip_iff {o : K → K → Ordering} {zs : List (Ent K V)} :
    Sorted o (zs.map strip) ↔ Sorted o zs := by
  simp only [Sorted, List.pairwise_map]
  exact Iff.rfl

theorem merge_sub {op : SetOp} {xs ys : List (K × V)} :
    ∀ e ∈ merge cmp op xs ys, e ∈ xs ∨ e ∈ ys := by
  induction xs, ys using pair_induct with
  | h1 ys => rw [merge_nil]; cases op <;> simp
  | h2 x xs => rw [merge_nil_right]; cases op <;> simp
  | h3 x xs y ys ih1 ih2 ih3 =>
    intro e he
    rw [merge_cons] at he
    simp only [List.mem_cons] at ih1 ih2 ih3 ⊢
    cases op <;> simp only at he <;> split at he <;> (try split at he) <;>
      (try rw [List.mem_cons] at he) <;> (try rcases he with he | he) <;>
      first
        | exact .inl (.inl he)
        | exact .inr (.inl he)
        | (have h := ih1 e he; clear ih1 ih2 ih3; tauto)
        | (have h := ih2 e he; clear ih1 ih2 ih3; tauto)
        | (have h := ih3 e he; clear ih1 ih2 ih3; tauto)

/-- Another entry has an equal key. -/
def Meets (o : K → K → Ordering) (e : K × V) (ys : List (K × V)) : Prop := ∃ f ∈ ys, o e.1 f.1 = .eq

section
variable {o : K → K → Ordering}

theorem meets_skip {e y : K × V} {ys : List (K × V)} (h : o e.1 y.1 ≠ .eq) :
    Meets o e (y :: ys) ↔ Meets o e ys := by
  constructor
  · rintro ⟨f, hf, h1⟩
    rw [List.mem_cons] at hf
    rcases hf with rfl | hf
    · exact absurd h1 h
    · exact ⟨f, hf, h1⟩
  · rintro ⟨f, hf, h1⟩
    exact ⟨f, List.mem_cons_of_mem _ hf, h1⟩

theorem not_meets {e : K × V} {ys : List (K × V)} (h : ∀ f ∈ ys, o e.1 f.1 = .lt) : ¬Meets o e ys := by
  rintro ⟨f, hf, h1⟩
  rw [h f hf] at h1
  cases h1

end

/-- The claims about the merged list. -/
def Merged (o : K → K → Ordering) (op : SetOp) (xs ys zs : List (K × V)) : Prop :=
  Sorted o zs ∧ ∀ e, e ∈ zs ↔
    match op with
    | .inter => e ∈ xs ∧ Meets o e ys
    | .union => e ∈ xs ∨ e ∈ ys ∧ ¬Meets o e xs
    | .diff => e ∈ xs ∧ ¬Meets o e ys

theorem merge_ok (hc : Lawful cmp) {op : SetOp} {xs ys : List (K × V)}
    (hx : Sorted (ord cmp) xs) (hy : Sorted (ord cmp) ys) :
    Merged (ord cmp) op xs ys (merge cmp op xs ys) := by
  have : Std.TransCmp (ord cmp) := hc
  induction xs, ys using pair_induct with
  | h1 ys =>
    rw [merge_nil]
    cases op
    · exact ⟨List.Pairwise.nil, by simp⟩
    · exact ⟨hy, by simp [Meets]⟩
    · exact ⟨List.Pairwise.nil, by simp⟩
  | h2 x xs =>
    rw [merge_nil_right]
    cases op
    · exact ⟨List.Pairwise.nil, by simp [Meets]⟩
    · exact ⟨hx, by simp⟩
    · exact ⟨hx, by simp [Meets]⟩
  | h3 x xs y ys ih1 ih2 ih3 =>
    have gx := List.pairwise_cons.1 hx
    have gy := List.pairwise_cons.1 hy
    replace ih1 := ih1 gx.2 hy
    replace ih2 := ih2 hx gy.2
    replace ih3 := ih3 gx.2 gy.2
    -- the three cases of the comparison
    rcases lt_trichotomy (cmp x.1 y.1) 0 with hlt | heq | hgt
    · have c : ord cmp x.1 y.1 = .lt := ord_lt.2 hlt
      have n1 : ¬Meets (ord cmp) x (y :: ys) := not_meets (by
        intro f hf
        rw [List.mem_cons] at hf
        rcases hf with rfl | hf
        · exact c
        · exact Ord.lt_trans c (gy.1 f hf))
      have n2 : ∀ e ∈ y :: ys, ord cmp e.1 x.1 ≠ .eq := fun e he h =>
        n1 ⟨e, he, Ord.eq_symm h⟩
      have hb : ∀ {op}, ∀ e ∈ merge cmp op xs (y :: ys), ord cmp x.1 e.1 = .lt := by
        intro op e he
        rcases merge_sub e he with h | h
        · exact gx.1 e h
        · rw [List.mem_cons] at h
          rcases h with rfl | h
          · exact c
          · exact Ord.lt_trans c (gy.1 e h)
      rw [merge_cons]
      cases op
      · simp only [if_pos hlt]
        refine ⟨ih1.1, fun e => (ih1.2 e).trans ?_⟩
        simp only [List.mem_cons (a := e) (b := x)]
        constructor
        · rintro ⟨h1, h2⟩; exact ⟨.inr h1, h2⟩
        · rintro ⟨rfl | h1, h2⟩
          · exact absurd h2 n1
          · exact ⟨h1, h2⟩
      · simp only [if_pos hlt]
        refine ⟨List.pairwise_cons.2 ⟨hb, ih1.1⟩, fun e => ?_⟩
        have := ih1.2 e
        simp only at this
        rw [List.mem_cons, this, List.mem_cons (a := e) (b := x)]
        constructor
        · rintro (h | h | ⟨h1, h2⟩)
          · exact .inl (.inl h)
          · exact .inl (.inr h)
          · exact .inr ⟨h1, fun h => h2 ((meets_skip (n2 e h1)).1 h)⟩
        · rintro ((h | h) | ⟨h1, h2⟩)
          · exact .inl h
          · exact .inr (.inl h)
          · exact .inr (.inr ⟨h1, fun h => h2 ((meets_skip (n2 e h1)).2 h)⟩)
      · simp only [if_pos hlt]
        refine ⟨List.pairwise_cons.2 ⟨hb, ih1.1⟩, fun e => ?_⟩
        have := ih1.2 e
        simp only at this
        rw [List.mem_cons, this, List.mem_cons (a := e) (b := x)]
        constructor
        · rintro (rfl | ⟨h1, h2⟩)
          · exact ⟨.inl rfl, n1⟩
          · exact ⟨.inr h1, h2⟩
        · rintro ⟨rfl | h1, h2⟩
          · exact .inl rfl
          · exact .inr ⟨h1, h2⟩
    · have c : ord cmp x.1 y.1 = .eq := ord_eq.2 heq
      have n0 : Meets (ord cmp) x (y :: ys) := ⟨y, by simp, c⟩
      have n1 : ∀ e ∈ xs, ord cmp e.1 y.1 ≠ .eq := by
        intro e he h
        have h1 := gx.1 e he
        rw [Ord.eq_trans c (Ord.eq_symm h)] at h1
        cases h1
      have n2 : ∀ e ∈ ys, ord cmp e.1 x.1 ≠ .eq := by
        intro e he h
        have h1 := gy.1 e he
        rw [Ord.eq_trans (Ord.eq_symm c) (Ord.eq_symm h)] at h1
        cases h1
      have hb : ∀ {op}, ∀ e ∈ merge cmp op xs ys, ord cmp x.1 e.1 = .lt := by
        intro op e he
        rcases merge_sub e he with h | h
        · exact gx.1 e h
        · exact Ord.lt_of_eq_of_lt c (gy.1 e h)
      have e1 : ¬cmp x.1 y.1 < 0 := by omega
      have e2 : ¬cmp x.1 y.1 > 0 := by omega
      rw [merge_cons]
      cases op
      · simp only [if_neg e1, if_neg e2]
        refine ⟨List.pairwise_cons.2 ⟨hb, ih3.1⟩, fun e => ?_⟩
        have := ih3.2 e
        simp only at this
        rw [List.mem_cons, this, List.mem_cons (a := e) (b := x)]
        constructor
        · rintro (rfl | ⟨h1, h2⟩)
          · exact ⟨.inl rfl, n0⟩
          · exact ⟨.inr h1, (meets_skip (n1 e h1)).2 h2⟩
        · rintro ⟨rfl | h1, h2⟩
          · exact .inl rfl
          · exact .inr ⟨h1, (meets_skip (n1 e h1)).1 h2⟩
      · simp only [if_neg e1, if_neg e2]
        refine ⟨List.pairwise_cons.2 ⟨hb, ih3.1⟩, fun e => ?_⟩
        have := ih3.2 e
        simp only at this
        rw [List.mem_cons, this, List.mem_cons (a := e) (b := x), List.mem_cons (a := e) (b := y)]
        constructor
        · rintro (h | h | ⟨h1, h2⟩)
          · exact .inl (.inl h)
          · exact .inl (.inr h)
          · exact .inr ⟨.inr h1, fun h => h2 ((meets_skip (n2 e h1)).1 h)⟩
        · rintro ((h | h) | ⟨rfl | h1, h2⟩)
          · exact .inl h
          · exact .inr (.inl h)
          · exact absurd ⟨x, by simp, Ord.eq_symm c⟩ h2
          · exact .inr (.inr ⟨h1, fun h => h2 ((meets_skip (n2 e h1)).2 h)⟩)
      · simp only [if_neg e1, if_neg e2]
        refine ⟨ih3.1, fun e => (ih3.2 e).trans ?_⟩
        simp only [List.mem_cons (a := e) (b := x)]
        constructor
        · rintro ⟨h1, h2⟩; exact ⟨.inr h1, fun h => h2 ((meets_skip (n1 e h1)).1 h)⟩
        · rintro ⟨rfl | h1, h2⟩
          · exact absurd n0 h2
          · exact ⟨h1, fun h => h2 ((meets_skip (n1 e h1)).2 h)⟩
    · have c : ord cmp y.1 x.1 = .lt := Ord.gt_iff.1 (ord_gt.2 hgt)
      have n1 : ¬Meets (ord cmp) y (x :: xs) := not_meets (by
        intro f hf
        rw [List.mem_cons] at hf
        rcases hf with rfl | hf
        · exact c
        · exact Ord.lt_trans c (gx.1 f hf))
      have n2 : ∀ e ∈ x :: xs, ord cmp e.1 y.1 ≠ .eq := fun e he h =>
        n1 ⟨e, he, Ord.eq_symm h⟩
      have hb : ∀ {op}, ∀ e ∈ merge cmp op (x :: xs) ys, ord cmp y.1 e.1 = .lt := by
        intro op e he
        rcases merge_sub e he with h | h
        · rw [List.mem_cons] at h
          rcases h with rfl | h
          · exact c
          · exact Ord.lt_trans c (gx.1 e h)
        · exact gy.1 e h
      have e1 : ¬cmp x.1 y.1 < 0 := by omega
      rw [merge_cons]
      cases op
      · simp only [if_neg e1, if_pos hgt]
        refine ⟨ih2.1, fun e => (ih2.2 e).trans ?_⟩
        constructor
        · rintro ⟨h1, h2⟩; exact ⟨h1, (meets_skip (n2 e h1)).2 h2⟩
        · rintro ⟨h1, h2⟩; exact ⟨h1, (meets_skip (n2 e h1)).1 h2⟩
      · simp only [if_neg e1, if_pos hgt]
        refine ⟨List.pairwise_cons.2 ⟨hb, ih2.1⟩, fun e => ?_⟩
        have := ih2.2 e
        simp only at this
        rw [List.mem_cons, this, List.mem_cons (a := e) (b := y)]
        constructor
        · rintro (rfl | h | ⟨h1, h2⟩)
          · exact .inr ⟨.inl rfl, n1⟩
          · exact .inl h
          · exact .inr ⟨.inr h1, h2⟩
        · rintro (h | ⟨h | h1, h2⟩)
          · exact .inr (.inl h)
          · exact .inl h
          · exact .inr (.inr ⟨h1, h2⟩)
      · simp only [if_neg e1, if_pos hgt]
        refine ⟨ih2.1, fun e => (ih2.2 e).trans ?_⟩
        constructor
        · rintro ⟨h1, h2⟩; exact ⟨h1, fun h => h2 ((meets_skip (n2 e h1)).1 h)⟩
        · rintro ⟨h1, h2⟩; exact ⟨h1, fun h => h2 ((meets_skip (n2 e h1)).2 h)⟩

/-- The set operations succeed and give a sound tree list with the merged entries. -/
theorem setOp_ok (hc : Lawful cmp) (op : SetOp) {s t : TL K V} {xs ys : List (K × V)} (junk : K × V)
    (hs : Rel cmp s xs) (ht : Rel cmp t ys) :
    ∃ r zs, setOp cmp op s t junk = some r ∧ Rel cmp r zs ∧ Merged (ord cmp) op xs ys zs := by
  obtain ⟨us, hG, rfl⟩ := hs
  obtain ⟨vs, hH, rfl⟩ := ht
  have hm := merge_ok hc (op := op) (sorted_strip_iff.2 hG.sorted) (sorted_strip_iff.2 hH.sorted)
  have l1 := hG.length
  have l2 := hH.length
  have hN : (us.map strip).length + (vs.map strip).length ≤ s.free + t.free := by
    simp only [List.length_map]; omega
  have hcount := countAll_ok (cmp := cmp) (op := op) (s.free + t.free) hG.stream hH.stream hN
  simp only [setOp, hcount, Option.bind_some]
  by_cases h0 : (merge cmp op (us.map strip) (vs.map strip)).length = 0
  · rw [if_pos h0]
    refine ⟨_, [], rfl, ⟨[], Good.empty rfl rfl rfl, rfl⟩, ?_⟩
    rw [List.length_eq_zero_iff] at h0
    rw [h0] at hm
    exact hm
  · rw [if_neg h0]
    obtain ⟨tr, b, xs', ys', b1, -, -, -, -, b6, b7, b8, -, b10, b11⟩ :=
      build_ok (cmp := cmp) (op := op) (N := s.free + t.free) _ _
        ⟨s.head, t.head, (new junk).heap, 0, none, none⟩ (D := []) (Nat.le_refl _) hG.stream hH.stream
        hN (Nat.le_refl _) ⟨trivial, by simp, rfl, rfl⟩ (by simp) (by simp)
    rw [List.take_length] at b6
    rw [b1, Option.map_some]
    rw [List.nil_append] at b8
    refine ⟨_, _, rfl, ⟨tr.toList, ⟨rfl, ?_, b7, b11, fun e he => (b10 e he).2, b8.vals,
      ⟨b8.head, b8.prev, b8.seg⟩⟩, b6⟩, hm⟩
    rw [← sorted_strip_iff, b6]
    exact hm.1

end Verif.TreeList
