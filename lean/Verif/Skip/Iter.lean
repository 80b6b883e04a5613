import Verif.Skip.Refine

/-! Iterators over a list that is not modified. -/

namespace Verif.Skip

open Verif.Size (ord ord_lt ord_gt ord_eq at?)

variable {K V : Type}

/-- The last rank whose entry satisfies `p`. -/
def lastIdx? {α : Type} (p : α → Bool) (xs : List α) : Option Nat :=
  ((xs.zipIdx.filter fun x => p x.1).getLast?).map (·.2)

/-- The ideal iterator is the rank of its entry, or nowhere; from nowhere `Prev` leads to the last entry.
`Index` is not described here. -/
def ispec (o : K → K → Ordering) (xs : List (K × V)) (p : Option Nat) : IOp K → Option Nat × IRes K V
  | .seekToFirst => (if xs = [] then none else some 0, .unit)
  | .seekToLast => (if xs = [] then none else some (xs.length - 1), .unit)
  | .seekGE k => (xs.findIdx? fun e => o e.1 k != .lt, .bool (xs.any fun e => o e.1 k != .lt))
  | .seekGT k => (xs.findIdx? fun e => o e.1 k == .gt, .bool (xs.any fun e => o e.1 k == .gt))
  | .seekLE k => (lastIdx? (fun e => o e.1 k != .gt) xs, .bool (xs.any fun e => o e.1 k != .gt))
  | .seekLT k => (lastIdx? (fun e => o e.1 k == .lt) xs, .bool (xs.any fun e => o e.1 k == .lt))
  | .seekByIndex i => (if 0 ≤ i ∧ i < xs.length then some i.toNat else none, .unit)
  | .next => (p.bind fun r => if r + 1 < xs.length then some (r + 1) else none, .unit)
  | .prev => (match p with
      | none => if xs = [] then none else some (xs.length - 1)
      | some 0 => none
      | some (r + 1) => some r, .unit)
  | .valid => (p, .bool p.isSome)
  | .slice => (p, .slice (p.bind fun r => xs[r]?))
  | .index => (p, .int (match p with | none => 0 | some r => r))

/-- The iterator is at rank `p`. -/
def ISim (as : List Nat) (it : Iter) (p : Option Nat) : Prop :=
  it.node = p.bind (fun r => as[r]?) ∧ ∀ r, p = some r → r < as.length

theorem findIdx?_split {α : Type} {p : α → Bool} {L R : List α} (hL : ∀ a ∈ L, p a = false) (hR : ∀ a ∈ R, p a = true) :
    (L ++ R).findIdx? p = (if R = [] then none else some L.length) ∧ (L ++ R).any p = !R.isEmpty := by
  constructor
  · rw [List.findIdx?_append, List.findIdx?_eq_none_iff.2 (by intro a ha; simpa using hL a ha)]
    cases R with
    | nil => simp
    | cons r R => simp [List.findIdx?_cons, hR r (by simp)]
  · rw [List.any_append, List.any_eq_false.2 (fun a ha => by simp [hL a ha])]
    cases R with
    | nil => simp
    | cons r R => simp [hR r (by simp)]

theorem lastIdx?_split {α : Type} {p : α → Bool} {L R : List α} (hL : ∀ a ∈ L, p a = true) (hR : ∀ a ∈ R, p a = false) :
    lastIdx? p (L ++ R) = (if L = [] then none else some (L.length - 1)) ∧ (L ++ R).any p = !L.isEmpty := by
  constructor
  · unfold lastIdx?
    rw [List.zipIdx_append, List.filter_append, List.filter_eq_self.2, List.filter_eq_nil_iff.2]
    · rw [List.append_nil]
      rcases List.eq_nil_or_concat L with rfl | ⟨L, d, hLd⟩
      · rfl
      · rw [List.concat_eq_append] at hLd
        subst hLd
        simp [List.zipIdx_append]
    · rintro ⟨a, j⟩ hj
      have := List.fst_mem_of_mem_zipIdx hj
      simp [hR a this]
    · rintro ⟨a, j⟩ hj
      have := List.fst_mem_of_mem_zipIdx hj
      simp [hL a this]
  · rw [List.any_append, (List.any_eq_false (l := R)).2 (fun a ha => by simp [hR a ha])]
    cases L with
    | nil => simp
    | cons r R => simp [hL r (by simp)]

section
variable {cmp : K → K → Int} {s : SL K V} {as L R : List Nat} {ht : Nat → Nat}

theorem pre_zero (g : Good cmp s (L ++ R) ht) :
    pre s.header ht L 0 = (s.header :: L).getLast (List.cons_ne_nil _ _) := by
  have hL : L.filter (fun a => decide (0 < ht a)) = L := List.filter_eq_self.2 fun a ha => by
    have := g.tower a (by simp [ha]); simp; omega
  unfold pre
  simp only [hL]

theorem last_ne {hd : Nat} {L : List Nat} (hnd : hd ∉ L) :
    (let c := (hd :: L).getLast (List.cons_ne_nil _ _); if c = hd then none else some c) = L.getLast? := by
  rcases List.eq_nil_or_concat L with rfl | ⟨L, d, hLd⟩
  · simp
  · rw [List.concat_eq_append] at hLd
    subst hLd
    have hd' : d ≠ hd := fun hh => hnd (by simp [hh])
    simp [hd', List.getLast_cons]

/-- The searches that move on while `go` holds. -/
theorem Good.seek (g : Good cmp s (L ++ R) ht) {go : Nat → Bool} (hL : ∀ a ∈ L, go a = true)
    (hR : ∀ a ∈ R, go a = false) :
    (Skip.descend s.heap go s.free s.level s.header).bind (fun p => (s.heap p.2).fwd[0]?) = some R.head? ∧
    descendRes s.heap go s.free s.level s.header none = some L.getLast? := by
  have hl := g.len_lt
  have hlv := g.lvl
  have hnd := g.nodup
  have hhd : ∀ a ∈ L, a ≠ s.header := by
    rintro a ha rfl
    exact (List.nodup_cons.1 hnd).1 (by simp [ha])
  refine ⟨?_, ?_⟩
  · rw [g.descend hL hR]
    exact g.at_pre
  · have h1 := descendRes_ok g.levels (fun a ha => ⟨hL a ha, hhd a ha⟩) hR
      (fuel := s.free) (by simp only [List.length_append] at hl; omega) s.level s.header (by omega) (.inl rfl)
    rw [if_pos rfl] at h1
    rw [h1, ← last_ne (fun hh => hhd _ hh rfl), ← pre_zero g]
    have : s.level ≠ 0 := by omega
    simp only [this, if_false]

theorem isim_head (L R : List Nat) (i : Int) :
    ISim (L ++ R) ⟨R.head?, i⟩ (if R = [] then none else some L.length) := by
  cases R with
  | nil => exact ⟨rfl, by simp⟩
  | cons r R => exact ⟨by simp, by simp⟩

theorem isim_last (L R : List Nat) (i : Int) :
    ISim (L ++ R) ⟨L.getLast?, i⟩ (if L = [] then none else some (L.length - 1)) := by
  rcases List.eq_nil_or_concat L with rfl | ⟨L, d, hLd⟩
  · exact ⟨rfl, by simp⟩
  · rw [List.concat_eq_append] at hLd
    subst hLd
    exact ⟨by simp, by simp⟩

variable (hc : Lawful cmp)
include hc

theorem upto_split (g : Good cmp s as ht) (k : K) : ∃ L R, as = L ++ R ∧
    (∀ a ∈ L, upto cmp s.heap k a = true) ∧ ∀ a ∈ R, upto cmp s.heap k a = false := by
  have := hc.transCmp
  refine split_mono (upto cmp s.heap k) as (g.pairwise.imp ?_)
  intro a b hab hb
  have h1 : ord cmp (s.heap b).key k ≠ .gt := by
    rw [Ne, ord_gt]; simp only [upto, decide_eq_true_eq] at hb; omega
  have h2 := Ord.lt_of_lt_of_ngt (o := ord cmp) hab h1
  rw [ord_lt] at h2
  simp only [upto, decide_eq_true_eq]; omega

theorem before_split (g : Good cmp s as ht) (k : K) : ∃ L R, as = L ++ R ∧
    (∀ a ∈ L, before cmp s.heap k a = true) ∧ ∀ a ∈ R, before cmp s.heap k a = false := by
  have := hc.transCmp
  refine split_mono (before cmp s.heap k) as (g.pairwise.imp ?_)
  intro a b hab hb
  simp only [before, decide_eq_true_eq, ← ord_lt] at hb ⊢
  exact Ord.lt_trans (o := ord cmp) hab hb

theorem istep_ok (g : Good cmp s as ht) {it : Iter} {p : Option Nat} (hi : ISim as it p) (op : IOp K)
    (hop : op ≠ .index) :
    ∃ it', istep cmp s it op = some (it', (ispec (ord cmp) (as.map s.ent) p op).2) ∧
      ISim as it' (ispec (ord cmp) (as.map s.ent) p op).1 := by
  have := hc.transCmp
  have hsz := g.size
  have hb : ∀ (L : List Nat) k, (∀ a ∈ L, before cmp s.heap k a = true) → ∀ e ∈ L.map s.ent, ord cmp e.1 k = .lt := by
    intro L k h e he
    obtain ⟨a, ha, rfl⟩ := List.mem_map.1 he
    have := h a ha
    simpa [before, ord_lt, SL.ent] using this
  have hb' : ∀ (L : List Nat) k, (∀ a ∈ L, before cmp s.heap k a = false) → ∀ e ∈ L.map s.ent, ord cmp e.1 k ≠ .lt := by
    intro L k h e he
    obtain ⟨a, ha, rfl⟩ := List.mem_map.1 he
    have := h a ha
    rw [Ne, ord_lt]; simpa [before, SL.ent] using this
  have hu : ∀ (L : List Nat) k, (∀ a ∈ L, upto cmp s.heap k a = true) → ∀ e ∈ L.map s.ent, ord cmp e.1 k ≠ .gt := by
    intro L k h e he
    obtain ⟨a, ha, rfl⟩ := List.mem_map.1 he
    have := h a ha
    rw [Ne, ord_gt]; simpa [upto, SL.ent] using this
  have hu' : ∀ (L : List Nat) k, (∀ a ∈ L, upto cmp s.heap k a = false) → ∀ e ∈ L.map s.ent, ord cmp e.1 k = .gt := by
    intro L k h e he
    obtain ⟨a, ha, rfl⟩ := List.mem_map.1 he
    have := h a ha
    rw [ord_gt]; simpa [upto, SL.ent] using this
  cases op with
  | index => exact absurd rfl hop
  | seekToFirst =>
    refine ⟨⟨as.head?, 0⟩, by rw [istep, g.first]; rfl, ?_⟩
    have := isim_head [] as 0
    simpa [ispec] using this
  | seekToLast =>
    refine ⟨⟨as.getLast?, if as.getLast?.isSome then s.size - 1 else it.index⟩, by rw [istep, g.nodes]; rfl, ?_⟩
    have := isim_last as [] (if as.getLast?.isSome then s.size - 1 else it.index)
    rw [List.append_nil] at this
    simpa [ispec] using this
  | seekGE k =>
    obtain ⟨L, R, rfl, h1, h2⟩ := before_split hc g k
    have hs := (g.seek h1 h2).1
    have hf := findIdx?_split (p := fun e => ord cmp e.1 k != .lt) (L := L.map s.ent) (R := R.map s.ent)
      (fun e he => by simp [hb L k h1 e he]) (fun e he => by simp [hb' R k h2 e he])
    rw [← List.map_append] at hf
    refine ⟨⟨R.head?, 0⟩, ?_, ?_⟩
    · rw [g.descend h1 h2] at hs
      simp only [Option.bind_some] at hs
      rw [istep, g.descend h1 h2, ispec, hf.2]
      simp only [Option.bind_some, hs, Option.map_some]
      cases R <;> rfl
    · rw [ispec, hf.1]
      simpa using isim_head L R 0
  | seekGT k =>
    obtain ⟨L, R, rfl, h1, h2⟩ := upto_split hc g k
    have hs := (g.seek h1 h2).1
    have hf := findIdx?_split (p := fun e => ord cmp e.1 k == .gt) (L := L.map s.ent) (R := R.map s.ent)
      (fun e he => by simpa using hu L k h1 e he) (fun e he => by simp [hu' R k h2 e he])
    rw [← List.map_append] at hf
    refine ⟨⟨R.head?, 0⟩, ?_, ?_⟩
    · rw [g.descend h1 h2] at hs
      simp only [Option.bind_some] at hs
      rw [istep, g.descend h1 h2, ispec, hf.2]
      simp only [Option.bind_some, hs, Option.map_some]
      cases R <;> rfl
    · rw [ispec, hf.1]
      simpa using isim_head L R 0
  | seekLE k =>
    obtain ⟨L, R, rfl, h1, h2⟩ := upto_split hc g k
    have hs := (g.seek h1 h2).2
    have hf := lastIdx?_split (p := fun e => ord cmp e.1 k != .gt) (L := L.map s.ent) (R := R.map s.ent)
      (fun e he => by simpa using hu L k h1 e he) (fun e he => by simp [hu' R k h2 e he])
    rw [← List.map_append] at hf
    refine ⟨⟨L.getLast?, it.index⟩, ?_, ?_⟩
    · rw [istep, hs, ispec, hf.2]
      cases L <;> rfl
    · rw [ispec, hf.1]
      simpa using isim_last L R it.index
  | seekLT k =>
    obtain ⟨L, R, rfl, h1, h2⟩ := before_split hc g k
    have hs := (g.seek h1 h2).2
    have hf := lastIdx?_split (p := fun e => ord cmp e.1 k == .lt) (L := L.map s.ent) (R := R.map s.ent)
      (fun e he => by simp [hb L k h1 e he]) (fun e he => by simpa using hb' R k h2 e he)
    rw [← List.map_append] at hf
    refine ⟨⟨L.getLast?, it.index⟩, ?_, ?_⟩
    · rw [istep, hs, ispec, hf.2]
      cases L <;> rfl
    · rw [ispec, hf.1]
      simpa using isim_last L R it.index
  | seekByIndex i =>
    rw [istep, ispec, hsz]
    by_cases hi : i < 0 ∨ i ≥ as.length
    · rw [if_pos hi, if_neg (by simp only [List.length_map]; omega)]
      exact ⟨_, rfl, rfl, by simp⟩
    · rw [if_neg hi, if_pos (by simp only [List.length_map]; omega)]
      obtain ⟨L, c, R, rfl, hLl, hat⟩ := at?_split hi
      have hsk := g.skip
      refine ⟨⟨some c, 0⟩, ?_, ?_⟩
      · rw [hsk.1]
        simp only [Option.bind_some]
        rw [show i.toNat = L.length by omega, hsk.2]
        rfl
      · rw [show i.toNat = L.length by omega]
        exact ⟨by simp, by simp⟩
  | next =>
    rw [istep, ispec]
    obtain ⟨h1, h2⟩ := hi
    cases p with
    | none =>
      simp only [Option.bind_none] at h1
      rw [h1]
      exact ⟨it, rfl, by simpa using h1, by simp⟩
    | some r =>
      have hr := h2 r rfl
      simp only [Option.bind_some] at h1
      obtain ⟨L, c, R, hsp, hLl⟩ : ∃ L c R, as = L ++ c :: R ∧ L.length = r :=
        ⟨as.take r, as[r], as.drop (r + 1), by simp, by simp; omega⟩
      subst hsp
      have hn : (L ++ c :: R)[r]? = some c := by simp [← hLl]
      rw [hn] at h1
      have hf : (s.heap c).fwd[0]? = some R.head? := by
        have hr := g.run0
        rw [← List.cons_append, run_append] at hr
        simpa using hr.2.1
      rw [h1]
      simp only [hf, Option.map_some]
      refine ⟨⟨R.head?, it.index + 1⟩, rfl, ?_⟩
      have := isim_head (L ++ [c]) R (it.index + 1)
      simp only [List.append_assoc, List.singleton_append, List.length_append, List.length_singleton] at this
      simp only [Option.bind_some, List.length_map, List.length_append, List.length_cons]
      cases R with
      | nil => simpa [← hLl] using this
      | cons d R =>
        rw [if_pos (by simp only [List.length_cons]; omega)]
        simpa [← hLl] using this
  | prev =>
    rw [istep, g.first]
    unfold ispec
    obtain ⟨h1, h2⟩ := hi
    have hlt := g.len_lt
    have hnd := List.nodup_cons.1 g.nodup
    simp only [Option.bind_some]
    cases p with
    | none =>
      simp only [Option.bind_none] at h1
      rw [h1, prevLoop_end s.free as s.header g.run0.2 (by omega)]
      simp only [Option.map_some, if_true]
      rcases List.eq_nil_or_concat as with rfl | ⟨L, d, hLd⟩
      · exact ⟨⟨none, it.index⟩, by simp, by simp, by simp⟩
      · rw [List.concat_eq_append] at hLd
        subst hLd
        have hd' : d ≠ s.header := fun hh => hnd.1 (by simp [hh])
        have hl : (s.header :: (L ++ [d])).getLast (List.cons_ne_nil _ _) = d := by simp [List.getLast_cons]
        rw [hl, if_pos hd']
        have := isim_last (L ++ [d]) [] (it.index - 1)
        exact ⟨_, rfl, by simpa using this⟩
    | some r =>
      have hr := h2 r rfl
      simp only [Option.bind_some] at h1
      obtain ⟨L, c, R, hsp, hLl⟩ : ∃ L c R, as = L ++ c :: R ∧ L.length = r :=
        ⟨as.take r, as[r], as.drop (r + 1), by simp, by simp; omega⟩
      subst hsp
      have hn : (L ++ c :: R)[r]? = some c := by simp [← hLl]
      rw [hn] at h1
      have hcL : c ∉ L := by
        intro hh
        exact (List.nodup_append.1 hnd.2).2.2 c hh c (by simp) rfl
      rw [h1, prevLoop_at s.free L s.header g.run0.2 hcL (by simp only [List.length_append] at hlt; omega)]
      simp only [Option.map_some, if_true]
      rcases List.eq_nil_or_concat L with rfl | ⟨L, d, hLd⟩
      · simp only [List.getLast_singleton, ne_eq, not_true_eq_false, if_false]
        simp only [List.length_nil] at hLl
        subst hLl
        exact ⟨_, rfl, rfl, by simp⟩
      · rw [List.concat_eq_append] at hLd
        subst hLd
        have hd' : d ≠ s.header := fun hh => hnd.1 (by simp [hh])
        have hl : (s.header :: (L ++ [d])).getLast (List.cons_ne_nil _ _) = d := by simp [List.getLast_cons]
        rw [hl, if_pos hd']
        simp only [List.length_append, List.length_singleton] at hLl
        subst hLl
        have := isim_last (L ++ [d]) (c :: R) (it.index - 1)
        exact ⟨_, rfl, by simpa using this⟩
  | valid =>
    refine ⟨it, ?_, hi⟩
    obtain ⟨h1, h2⟩ := hi
    rw [istep, ispec, h1]
    cases p with
    | none => rfl
    | some r => have := h2 r rfl; simp [this]
  | slice =>
    refine ⟨it, ?_, hi⟩
    obtain ⟨h1, h2⟩ := hi
    rw [istep, ispec, h1]
    cases p with
    | none => rfl
    | some r => simp

end

end Verif.Skip
