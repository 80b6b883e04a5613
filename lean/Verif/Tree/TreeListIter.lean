import Verif.Tree.TreeListLemmas

/-! The iterators of the tree list. -/

namespace Verif.TreeList

open Tree Size DLL

variable {K V : Type} {cmp : K → K → Int}

/-! ### The search -/

theorem seekAt_ok (hc : Lawful cmp) {key : K} {off idx : Int} {t : T K (Nat × V)} (hx : Exact t)
    (hs : Sorted (ord cmp) t.toList) (hh : Here off t idx) (hn : t ≠ nil) :
    ∃ L e R c, t.toList = L ++ e :: R ∧ seekAt cmp key t idx = some (e.2.1, off + L.length, c) ∧
      (c < 0 ∧ below (ord cmp) key t.toList = L ∧ same (ord cmp) key t.toList = [] ∨
       c = 0 ∧ below (ord cmp) key t.toList = L ∧ same (ord cmp) key t.toList = [e] ∨
       c > 0 ∧ below (ord cmp) key t.toList = L ++ [e] ∧ same (ord cmp) key t.toList = []) := by
  have : Std.TransCmp (ord cmp) := hc
  induction t generalizing off idx with
  | nil => exact absurd rfl hn
  | node a k v l r ihl ihr =>
    obtain ⟨h1, h2⟩ := here_left hx hh
    have h3 := here_right hx hh
    obtain ⟨-, xl, xr⟩ := exact_node.1 hx
    rw [toList_node] at hs ⊢
    obtain ⟨s1, s2, -, -, -⟩ := Sorted.split.1 hs
    simp only [seekAt]
    rcases ways hc key k with ⟨c1, c2⟩ | ⟨c1, c2, c3⟩ | ⟨c1, c2, c3⟩
    · obtain ⟨w1, w2, -⟩ := split_gt (Sorted.le hs) (show ord cmp (k, v).1 key = .gt from c2)
      rw [if_pos c1, w1, w2]
      by_cases hl : l.isNil = true
      · have hl' := isNil_iff.1 hl
        rw [if_pos hl, hl']
        refine ⟨[], (k, v), r.toList, _, rfl, ?_, .inl ⟨c1, rfl, rfl⟩⟩
        rw [h1, hl']
      · rw [if_neg hl]
        obtain ⟨L, e, R, c, g1, g2, g3⟩ := ihl xl s1 h2 (by rintro rfl; exact hl rfl)
        exact ⟨L, e, R ++ (k, v) :: r.toList, c, by rw [g1]; simp, g2, g3⟩
    · obtain ⟨w1, w2, -⟩ := split_lt (Sorted.le hs) (show ord cmp (k, v).1 key = .lt from c3)
      rw [if_neg c1, if_pos c2, w1, w2]
      by_cases hl : r.isNil = true
      · have hl' := isNil_iff.1 hl
        rw [if_pos hl, hl']
        exact ⟨l.toList, (k, v), [], _, rfl, by rw [h1], .inr (.inr ⟨c2, rfl, rfl⟩)⟩
      · rw [if_neg hl]
        obtain ⟨L, e, R, c, g1, g2, g3⟩ := ihr xr s2 h3 (by rintro rfl; exact hl rfl)
        refine ⟨l.toList ++ (k, v) :: L, e, R, c, by rw [g1]; simp, ?_, ?_⟩
        · rw [g2, h1]; simp; omega
        · rcases g3 with ⟨i1, i2, i3⟩ | ⟨i1, i2, i3⟩ | ⟨i1, i2, i3⟩
          · exact .inl ⟨i1, by rw [i2], i3⟩
          · exact .inr (.inl ⟨i1, by rw [i2], i3⟩)
          · exact .inr (.inr ⟨i1, by rw [i2]; simp, i3⟩)
    · obtain ⟨w1, w2, -⟩ := split_eq' hs (show ord cmp (k, v).1 key = .eq from c3)
      rw [if_neg c1, if_neg c2, w1, w2]
      exact ⟨l.toList, (k, v), r.toList, _, rfl, by rw [h1], .inr (.inl ⟨by omega, rfl, rfl⟩)⟩

/-- The number of entries before `key`, with the equal ones or without. -/
def rank (o : K → K → Ordering) (key : K) (equal : Bool) {W : Type} (xs : List (K × W)) : Nat :=
  xs.countP fun e => if equal then o e.1 key != .gt else o e.1 key == .lt

theorem rank_false {o : K → K → Ordering} {key : K} {W : Type} (xs : List (K × W)) :
    rank o key false xs = (below o key xs).length := by
  simp only [rank, below, List.countP_eq_length_filter]
  rfl

theorem rank_true {o : K → K → Ordering} {key : K} {W : Type} (xs : List (K × W)) :
    rank o key true xs = (below o key xs).length + (same o key xs).length := by
  simp only [rank, below, same, ← List.countP_eq_length_filter]
  induction xs with
  | nil => rfl
  | cons e xs ih =>
    simp only [List.countP_cons, ih]
    cases o e.1 key <;> simp <;> omega

theorem rank_strip {o : K → K → Ordering} {key : K} {equal : Bool} (zs : List (Ent K V)) :
    rank o key equal (zs.map strip) = rank o key equal zs := by
  rw [rank, rank, List.countP_map]; rfl

theorem at?_next {as : List Nat} {h : Store (K × V)} {L R : List Nat} {a : Nat}
    (hs : Seg h none as none) (e : as = L ++ a :: R) :
    (h a).next = at? as (L.length + 1) ∧ (h a).prev = at? as (L.length - 1) := by
  subst e
  have hs' := hs
  rw [seg_append] at hs
  obtain ⟨-, h1, h2, -⟩ := hs
  constructor
  · rw [h2, at?_gt (by omega)]
    unfold at?
    rw [if_neg (by omega), show ((L.length : Int) + 1 - L.length - 1).toNat = 0 by omega]
    cases R <;> simp
  · rw [h1, at?_lt (by omega)]
    unfold at?
    rcases List.eq_nil_or_concat L with rfl | ⟨L', b, rfl⟩
    · simp
    · rw [List.concat_eq_append]
      rw [if_neg (by simp), List.getLast?_concat,
        show (((L' ++ [b]).length : Int) - 1).toNat = L'.length by simp]
      simp

theorem at?_self {L R : List Nat} {a : Nat} : at? (L ++ a :: R) (L.length : Int) = some a :=
  at?_eq rfl

/-- The seeks to the right. -/
theorem seekRight_ok (hc : Lawful cmp) {s : TL K V} {zs : List (Ent K V)} (hG : Good cmp s zs)
    (hn : zs ≠ []) (strict : Bool) (key : K) :
    ∃ c, seekRight cmp s strict key = some (⟨at? (addrs zs) (rank (ord cmp) key strict zs),
      rank (ord cmp) key strict zs⟩, c) ∧ (c == 0) = Avl.has (ord cmp) key zs := by
  have hst : Sorted (ord cmp) s.tree.toList := by rw [hG.list]; exact hG.sorted
  obtain ⟨L, e, R, c, g1, g2, g3⟩ := seekAt_ok hc (key := key) hG.exact hst (here_root s.tree)
    (by intro h; rw [← hG.list, h] at hn; exact hn rfl)
  rw [hG.list] at g1 g3
  have hadr : addrs zs = addrs L ++ e.2.1 :: addrs R := by rw [g1]; simp
  have hlen : (addrs L).length = L.length := by simp [addrs]
  obtain ⟨hnx, -⟩ := at?_next hG.thread.seg hadr
  have hself : at? (addrs zs) (L.length : Int) = some e.2.1 := by
    rw [hadr, ← hlen]; exact at?_self
  rw [hlen] at hnx
  refine ⟨c, ?_, ?_⟩
  · simp only [seekRight, g2, Option.map_some, Int.zero_add]
    rcases g3 with ⟨i1, i2, i3⟩ | ⟨i1, i2, i3⟩ | ⟨i1, i2, i3⟩
    · have hr : rank (ord cmp) key strict zs = L.length := by
        cases strict
        · rw [rank_false, i2]
        · rw [rank_true, i2, i3]; rfl
      rw [if_neg (by cases strict <;> simp <;> omega), hr, hself]
    · cases strict
      · rw [if_neg (by simp; omega), rank_false, i2, hself]
      · rw [if_pos (by simp; omega), rank_true, i2, i3, hnx]
        simp
    · have hr : rank (ord cmp) key strict zs = L.length + 1 := by
        cases strict
        · rw [rank_false, i2]; simp
        · rw [rank_true, i2, i3]; simp
      rw [if_pos (by cases strict <;> simp <;> omega), hr, hnx]
      simp
  · rw [Avl.has_iff]
    rcases g3 with ⟨i1, i2, i3⟩ | ⟨i1, i2, i3⟩ | ⟨i1, i2, i3⟩
    · rw [i3]; simp; omega
    · rw [i3]; simp [i1]
    · rw [i3]; simp; omega

/-- The seeks to the left. -/
theorem seekLeft_ok (hc : Lawful cmp) {s : TL K V} {zs : List (Ent K V)} (hG : Good cmp s zs)
    (hn : zs ≠ []) (strict : Bool) (key : K) :
    ∃ c, seekLeft cmp s strict key = some (⟨at? (addrs zs) (rank (ord cmp) key (!strict) zs - 1),
      rank (ord cmp) key (!strict) zs - 1⟩, c) ∧ (c == 0) = Avl.has (ord cmp) key zs := by
  have hst : Sorted (ord cmp) s.tree.toList := by rw [hG.list]; exact hG.sorted
  obtain ⟨L, e, R, c, g1, g2, g3⟩ := seekAt_ok hc (key := key) hG.exact hst (here_root s.tree)
    (by intro h; rw [← hG.list, h] at hn; exact hn rfl)
  rw [hG.list] at g1 g3
  have hadr : addrs zs = addrs L ++ e.2.1 :: addrs R := by rw [g1]; simp
  have hlen : (addrs L).length = L.length := by simp [addrs]
  obtain ⟨-, hnx⟩ := at?_next hG.thread.seg hadr
  have hself : at? (addrs zs) (L.length : Int) = some e.2.1 := by
    rw [hadr, ← hlen]; exact at?_self
  rw [hlen] at hnx
  refine ⟨c, ?_, ?_⟩
  · simp only [seekLeft, g2, Option.map_some, Int.zero_add]
    rcases g3 with ⟨i1, i2, i3⟩ | ⟨i1, i2, i3⟩ | ⟨i1, i2, i3⟩
    · have hr : rank (ord cmp) key (!strict) zs = L.length := by
        cases strict
        · rw [Bool.not_false, rank_true, i2, i3]; rfl
        · rw [Bool.not_true, rank_false, i2]
      rw [if_pos (by cases strict <;> simp <;> omega), hr, hnx]
    · cases strict
      · rw [if_neg (by simp; omega), Bool.not_false, rank_true, i2, i3]
        simp [hself]
      · rw [if_pos (by simp; omega), Bool.not_true, rank_false, i2, hnx]
    · have hr : rank (ord cmp) key (!strict) zs = L.length + 1 := by
        cases strict
        · rw [Bool.not_false, rank_true, i2, i3]; simp
        · rw [Bool.not_true, rank_false, i2]; simp
      rw [if_neg (by cases strict <;> simp <;> omega), hr]
      simp [hself]
  · rw [Avl.has_iff]
    rcases g3 with ⟨i1, i2, i3⟩ | ⟨i1, i2, i3⟩ | ⟨i1, i2, i3⟩
    · rw [i3]; simp; omega
    · rw [i3]; simp [i1]
    · rw [i3]; simp; omega

theorem seek_empty (s : TL K V) (h : s.tree = nil) (strict : Bool) (key : K) :
    seekRight cmp s strict key = none ∧ seekLeft cmp s strict key = none := by
  simp [seekRight, seekLeft, h, seekAt]

/-! ### The ideal iterator -/

section
variable (cmp)

/-- Where the ideal iterator stands: a new one nowhere, any other on a rank, which may be -1 or the
number of entries. -/
abbrev Pos := Option Int

/-- The entry it stands on. -/
def here (xs : List (K × V)) (p : Pos) : Option (K × V) := p.bind (at? xs)

/-- The ideal iterator over the entries `xs`. -/
def ispec (xs : List (K × V)) (p : Pos) : IOp K → Pos × IRes K V
  | .seekGE k => (some (rank (ord cmp) k false xs), .bool (Avl.has (ord cmp) k xs))
  | .seekGT k => (some (rank (ord cmp) k true xs), .bool (Avl.has (ord cmp) k xs))
  | .seekLE k => (some (rank (ord cmp) k true xs - 1), .bool (Avl.has (ord cmp) k xs))
  | .seekLT k => (some (rank (ord cmp) k false xs - 1), .bool (Avl.has (ord cmp) k xs))
  | .seekByIndex i => if (at? xs i).isSome then (some i, .unit) else (p, .panic)
  | .seekToFirst => (some 0, .unit)
  | .seekToLast => (some (xs.length - 1), .unit)
  | .next => (p.map (· + 1), .unit)
  | .prev => (p.map (· - 1), .unit)
  | .valid => (p, .bool (here xs p).isSome)
  | .index => (p, .int (p.getD 0))
  | .slice => (p, match here xs p with | some e => .slice e | none => .panic)
  | .compare k => (p, match here xs p with | some e => .int (cmp e.1 k) | none => .panic)

/-- The calls that do not panic: seeks by key in a tree that is not empty, and steps and looks from an
entry. -/
def ilegal (xs : List (K × V)) (p : Pos) : IOp K → Prop
  | .seekGE _ | .seekGT _ | .seekLE _ | .seekLT _ => xs ≠ []
  | .next | .prev | .slice | .compare _ => (here xs p).isSome = true
  | _ => True

end

/-- The iterator stands where the ideal one does. -/
def IRel (zs : List (Ent K V)) (it : Iter) (p : Pos) : Prop :=
  it.cur = p.bind (at? (addrs zs)) ∧ it.idx = p.getD 0

theorem at?_addrs (zs : List (Ent K V)) (i : Int) : at? (addrs zs) i = (at? zs i).map fun e => e.2.1 := by
  unfold at?
  split
  · rfl
  · rw [addrs, List.getElem?_map]

theorem at?_zero {α : Type} (xs : List α) : at? xs 0 = xs.head? := by
  unfold at?
  rw [if_neg (by omega)]
  cases xs <;> rfl

theorem at?_last {α : Type} (xs : List α) : at? xs (xs.length - 1) = xs.getLast? := by
  unfold at?
  rcases List.eq_nil_or_concat xs with rfl | ⟨L, e, rfl⟩
  · rfl
  · rw [List.concat_eq_append, if_neg (by simp), List.getLast?_concat]
    simp

/-- The entry behind an address. -/
theorem IRel.entry {s : TL K V} {zs : List (Ent K V)} (hG : Good cmp s zs) {it : Iter} {p : Pos}
    (hI : IRel zs it p) : it.cur.map (fun a => (s.heap a).val) = here (zs.map strip) p := by
  rw [hI.1]
  cases p with
  | none => rfl
  | some i =>
    simp only [here, Option.bind_some, at?_addrs, strip_at, Option.map_map]
    cases h : at? zs i with
    | none => rfl
    | some e =>
      have hm : e ∈ zs := by
        have := at?_split h
        rw [this]; simp
      simp [hG.vals e hm]

theorem ne_of_map {zs : List (Ent K V)} (h : zs.map strip ≠ []) : zs ≠ [] := by
  simpa using h

theorem istep_ok (hc : Lawful cmp) {s : TL K V} {zs : List (Ent K V)} (hG : Good cmp s zs)
    {it : Iter} {p : Pos} (hI : IRel zs it p) {op : IOp K} (hl : ilegal (zs.map strip) p op) :
    ∃ it', istep cmp s it op = some (it', (ispec cmp (zs.map strip) p op).2) ∧
      IRel zs it' (ispec cmp (zs.map strip) p op).1 := by
  have hent := hI.entry hG
  have hmove : ∀ a, it.cur = some a → ∃ i L R, p = some i ∧ addrs zs = L ++ a :: R ∧
      i = L.length := by
    intro a ha
    rw [hI.1] at ha
    cases p with
    | none => cases ha
    | some i =>
      simp only [Option.bind_some] at ha
      have h1 := at?_split ha
      have h2 := at?_some ha
      refine ⟨i, _, _, rfl, h1, ?_⟩
      rw [List.length_take]
      omega
  have hcur : ∀ {q : Pos}, (here (zs.map strip) p).isSome = true → ∃ a, it.cur = some a := by
    intro _ h
    rw [← hent, Option.isSome_map] at h
    exact Option.isSome_iff_exists.1 h
  cases op with
  | seekGE k =>
    obtain ⟨c, h1, h2⟩ := seekRight_ok hc hG (ne_of_map hl) false k
    rw [istep, ispec, h1, Option.map_some, h2, strip_has]
    exact ⟨_, rfl, by simp only [rank_strip]; exact ⟨rfl, rfl⟩⟩
  | seekGT k =>
    obtain ⟨c, h1, h2⟩ := seekRight_ok hc hG (ne_of_map hl) true k
    rw [istep, ispec, h1, Option.map_some, h2, strip_has]
    exact ⟨_, rfl, by simp only [rank_strip]; exact ⟨rfl, rfl⟩⟩
  | seekLE k =>
    obtain ⟨c, h1, h2⟩ := seekLeft_ok hc hG (ne_of_map hl) false k
    rw [istep, ispec, h1, Option.map_some, h2, strip_has]
    exact ⟨_, rfl, by simp only [rank_strip]; exact ⟨rfl, rfl⟩⟩
  | seekLT k =>
    obtain ⟨c, h1, h2⟩ := seekLeft_ok hc hG (ne_of_map hl) true k
    rw [istep, ispec, h1, Option.map_some, h2, strip_has]
    exact ⟨_, rfl, by simp only [rank_strip]; exact ⟨rfl, rfl⟩⟩
  | seekByIndex i =>
    have hnode : nodeAt i s.tree (leftSz s.tree) = at? zs i := by
      rw [nodeAt_eq hG.exact (here_root _), hG.list]; simp
    simp only [istep, ispec, hnode, strip_at, Option.isSome_map]
    cases h : at? zs i with
    | none => exact ⟨it, rfl, hI⟩
    | some e => exact ⟨_, rfl, by simp [at?_addrs, h], rfl⟩
  | seekToFirst =>
    refine ⟨_, rfl, ?_, rfl⟩
    simp only [ispec, Option.bind_some, at?_zero]
    exact hG.thread.head
  | seekToLast =>
    refine ⟨_, rfl, ?_, ?_⟩
    · simp only [ispec, Option.bind_some]
      rw [hG.thread.tail, ← at?_last]
      simp [addrs]
    · simp only [ispec]
      rw [hG.exact.sz, hG.list]
      simp
  | valid => exact ⟨it, by rw [istep, ispec, ← hent, Option.isSome_map], hI⟩
  | index => exact ⟨it, by rw [istep, ispec, hI.2], hI⟩
  | slice =>
    obtain ⟨a, ha⟩ := hcur (q := none) hl
    refine ⟨it, ?_, hI⟩
    rw [istep, ispec, ← hent, ha]
    rfl
  | compare k =>
    obtain ⟨a, ha⟩ := hcur (q := none) hl
    refine ⟨it, ?_, hI⟩
    rw [istep, ispec, ← hent, ha]
    rfl
  | next =>
    obtain ⟨a, ha⟩ := hcur (q := none) hl
    obtain ⟨i, L, R, rfl, h2, h3⟩ := hmove a ha
    obtain ⟨h4, -⟩ := at?_next hG.thread.seg h2
    refine ⟨⟨(s.heap a).next, it.idx + 1⟩, by rw [istep, ha]; rfl, ?_, ?_⟩
    · simp only [ispec, Option.map_some, Option.bind_some]
      rw [h4, h3]
    · rw [hI.2]; rfl
  | prev =>
    obtain ⟨a, ha⟩ := hcur (q := none) hl
    obtain ⟨i, L, R, rfl, h2, h3⟩ := hmove a ha
    obtain ⟨-, h4⟩ := at?_next hG.thread.seg h2
    refine ⟨⟨(s.heap a).prev, it.idx - 1⟩, by rw [istep, ha]; rfl, ?_, ?_⟩
    · simp only [ispec, Option.map_some, Option.bind_some]
      rw [h4, h3]
    · rw [hI.2]; rfl

/-- The other calls panic. -/
theorem istep_panics {s : TL K V} {zs : List (Ent K V)} (hG : Good cmp s zs)
    {it : Iter} {p : Pos} (hI : IRel zs it p) {op : IOp K} (hl : ¬ilegal (zs.map strip) p op) :
    istep cmp s it op = none := by
  have hent := hI.entry hG
  have hnil : ¬(zs.map strip ≠ []) → s.tree = nil := by
    intro h
    have h1 : zs = [] := by simpa using h
    have := hG.list
    rw [h1] at this
    cases ht : s.tree with
    | nil => rfl
    | node => rw [ht] at this; simp at this
  have hcur : ¬(here (zs.map strip) p).isSome = true → it.cur = none := by
    intro h
    rw [← hent, Option.isSome_map] at h
    simpa using h
  cases op with
  | seekGE k => rw [istep, (seek_empty s (hnil hl) false k).1]; rfl
  | seekGT k => rw [istep, (seek_empty s (hnil hl) true k).1]; rfl
  | seekLE k => rw [istep, (seek_empty s (hnil hl) false k).2]; rfl
  | seekLT k => rw [istep, (seek_empty s (hnil hl) true k).2]; rfl
  | slice => rw [istep, hcur hl]; rfl
  | compare k => rw [istep, hcur hl]; rfl
  | next => rw [istep, hcur hl]; rfl
  | prev => rw [istep, hcur hl]; rfl
  | seekByIndex i => exact absurd trivial hl
  | seekToFirst => exact absurd trivial hl
  | seekToLast => exact absurd trivial hl
  | valid => exact absurd trivial hl
  | index => exact absurd trivial hl

/-! ### The range iterator -/

/-- The entries numbered from `i` in steps of `d`. -/
def number (d : Int) : Int → List (K × V) → List ((K × V) × Int)
  | _, [] => []
  | i, e :: xs => (e, i) :: number d (i + d) xs

/-- Each address leads to the next one. -/
def Links (f : Nat → Option Nat) : List Nat → Prop
  | [] => True
  | [_] => True
  | a :: b :: l => f a = some b ∧ Links f (b :: l)

theorem rangeLoop_ok {h : Store (K × V)} {every : K × V → Int → Bool} {reverse : Bool} :
    ∀ (n : Nat) {as : List Nat}, as.length ≤ n → as ≠ [] → as.Nodup →
    Links (fun a => if reverse then (h a).prev else (h a).next) as → ∀ idx : Int,
    rangeLoop h every as.getLast? reverse n as.head? idx =
      some (seen (fun x => every x.1 x.2) (number (if reverse then -1 else 1) idx
        (as.map fun a => (h a).val))) := by
  intro n
  induction n with
  | zero =>
    intro as hn h0
    exact absurd (List.length_eq_zero_iff.1 (show as.length = 0 by omega)) h0
  | succ n ih =>
    intro as hn h0 nd hl idx
    cases as with
    | nil => exact absurd rfl h0
    | cons a as =>
      simp only [List.head?_cons, rangeLoop, List.map_cons, number, seen]
      cases as with
      | nil =>
        rw [if_pos (.inr rfl)]
        simp [number, seen]
      | cons b as =>
        have hne : ¬some a = (a :: b :: as).getLast? := by
          intro he
          rw [List.getLast?_cons_cons] at he
          have := List.mem_of_getLast? he.symm
          exact (List.nodup_cons.1 nd).1 this
        obtain ⟨l1, l2⟩ := hl
        have := ih (as := b :: as) (by simp at hn ⊢; omega) (by simp) (List.nodup_cons.1 nd).2 l2
          (idx + (if reverse then -1 else 1))
        by_cases he : every (h a).val idx = false
        · rw [if_pos (.inl he), if_neg (by simp [he])]
        · rw [if_neg (by simp only [not_or]; exact ⟨he, hne⟩), if_pos (show every (h a).val idx = true by simpa using he)]
          rw [List.getLast?_cons_cons]
          simp only at l1
          rw [l1]
          have e1 : (if reverse = true then idx - 1 else idx + 1) = idx + (if reverse then -1 else 1) := by
            cases reverse <;> simp; omega
          rw [e1, ← List.head?_cons (a := b) (l := as), this]
          rfl

theorem links_next {h : Store (K × V)} {p q : Option Nat} {as : List Nat} (hs : Seg h p as q) :
    Links (fun a => (h a).next) as := by
  induction as generalizing p with
  | nil => trivial
  | cons a as ih =>
    obtain ⟨-, h2, h3⟩ := hs
    cases as with
    | nil => trivial
    | cons b as => exact ⟨by simpa using h2, ih h3⟩

theorem links_append {f : Nat → Option Nat} {as : List Nat} {a b : Nat} (h : Links f (as ++ [a]))
    (hb : f a = some b) : Links f (as ++ [a, b]) := by
  induction as with
  | nil => exact ⟨hb, trivial⟩
  | cons c as ih =>
    cases as with
    | nil => exact ⟨h.1, hb, trivial⟩
    | cons d as => exact ⟨h.1, ih h.2⟩

theorem links_prev {h : Store (K × V)} {p q : Option Nat} {as : List Nat} (hs : Seg h p as q) :
    Links (fun a => (h a).prev) as.reverse := by
  induction as generalizing p with
  | nil => trivial
  | cons a as ih =>
    obtain ⟨-, -, h3⟩ := hs
    cases as with
    | nil => trivial
    | cons b as =>
      have h4 := ih h3
      rw [List.reverse_cons] at h4
      rw [List.reverse_cons, List.reverse_cons, List.append_assoc]
      exact links_append h4 h3.1

theorem number_append (d i : Int) (xs ys : List (K × V)) :
    number d i (xs ++ ys) = number d i xs ++ number d (i + d * xs.length) ys := by
  induction xs generalizing i with
  | nil => simp [number]
  | cons x xs ih =>
    simp only [List.cons_append, number, ih, List.length_cons]
    congr 3
    push_cast
    rw [Int.mul_add, Int.mul_one]; omega

theorem number_reverse (i : Int) (xs : List (K × V)) :
    number (-1) (i + xs.length - 1) xs.reverse = (number 1 i xs).reverse := by
  induction xs generalizing i with
  | nil => rfl
  | cons x xs ih =>
    rw [List.reverse_cons, number_append]
    simp only [number, List.reverse_cons]
    rw [← ih]
    simp only [List.length_cons, List.length_reverse]
    congr 2
    · push_cast; omega
    · push_cast
      congr 2
      omega

/-- The entries with their ranks. -/
def ranked (xs : List (K × V)) : List ((K × V) × Int) := xs.zipIdx.map fun x => (x.1, (x.2 : Int))

theorem ranked_eq (xs : List (K × V)) : ranked xs = number 1 0 xs := by
  have h : ∀ (xs : List (K × V)) (n : Nat), (xs.zipIdx n).map (fun x => (x.1, (x.2 : Int))) =
      number 1 n xs := by
    intro xs
    induction xs with
    | nil => intro n; rfl
    | cons x xs ih =>
      intro n
      simp only [List.zipIdx_cons, List.map_cons, number, ih]
      push_cast
      rfl
  exact h xs 0

/-- A prefix of a list is what satisfies a predicate that goes down. -/
theorem filter_take {α : Type} {P : α → Bool} {xs : List α}
    (h : xs.Pairwise fun x y => P y = true → P x = true) :
    xs.filter P = xs.take (xs.countP P) ∧ xs.filter (fun x => !P x) = xs.drop (xs.countP P) := by
  induction xs with
  | nil => exact ⟨rfl, rfl⟩
  | cons x xs ih =>
    obtain ⟨h1, h2⟩ := List.pairwise_cons.1 h
    obtain ⟨i1, i2⟩ := ih h2
    by_cases hx : P x = true
    · simp [hx, i1, i2]
    · have h0 : ∀ y ∈ xs, P y = false := fun y hy => by
        have := h1 y hy
        cases hp : P y
        · rfl
        · exact absurd (this hp) hx
      have e1 : xs.filter P = [] := List.filter_eq_nil_iff.2 fun y hy => by simp [h0 y hy]
      have e2 : xs.filter (fun x => !P x) = xs := List.filter_eq_self.2 fun y hy => by simp [h0 y hy]
      have e3 : xs.countP P = 0 := by rw [List.countP_eq_length_filter, e1]; rfl
      simp [hx, e1, e2, e3]

/-- Is a key in the interval, whose ends are left out if `gt`, `lt`? -/
def within (o : K → K → Ordering) (gt lt : Bool) (start stop k : K) : Bool :=
  (if gt then o k start == .gt else o k start != .lt) &&
    (if lt then o k stop == .lt else o k stop != .gt)

theorem down_rank {o : K → K → Ordering} [Std.TransCmp o] {key : K} {equal : Bool} {x y : K}
    (h : o x y = .lt) (hy : (if equal then o y key != .gt else o y key == .lt) = true) :
    (if equal then o x key != .gt else o x key == .lt) = true := by
  cases equal
  · simp only [Bool.false_eq_true, if_false, beq_iff_eq] at hy ⊢
    exact Ord.lt_trans h hy
  · simp only [if_true, bne_iff_ne] at hy ⊢
    exact Ord.ngt_trans (by rw [h]; simp) hy

theorem number_keys (d i : Int) (xs : List (K × V)) : (number d i xs).map (fun x => x.1) = xs := by
  induction xs generalizing i with
  | nil => rfl
  | cons x xs ih => simp [number, ih]

theorem number_take (d i : Int) (n : Nat) (xs : List (K × V)) :
    (number d i xs).take n = number d i (xs.take n) := by
  induction xs generalizing i n with
  | nil => simp [number]
  | cons x xs ih =>
    cases n with
    | zero => simp [number]
    | succ n => simp [number, ih]

theorem number_drop (i : Int) (n : Nat) (xs : List (K × V)) :
    (number 1 i xs).drop n = number 1 (i + n) (xs.drop n) := by
  induction xs generalizing i n with
  | nil => simp [number]
  | cons x xs ih =>
    cases n with
    | zero => simp [number]
    | succ n =>
      simp only [number, List.drop_succ_cons, ih]
      congr 1
      push_cast
      omega

/-- The entries in an interval are those between two ranks. -/
theorem within_eq {o : K → K → Ordering} [Std.TransCmp o] {gt lt : Bool} {start stop : K}
    {xs : List (K × V)} (hs : Sorted o xs) :
    (ranked xs).filter (fun x => within o gt lt start stop x.1.1) =
      number 1 (rank o start gt xs) ((xs.take (rank o stop (!lt) xs)).drop (rank o start gt xs)) := by
  rw [ranked_eq]
  have hp : (number 1 0 xs).Pairwise fun x y => o x.1.1 y.1.1 = .lt := by
    have : ((number 1 0 xs).map fun x => x.1).Pairwise fun x y => o x.1 y.1 = .lt := by
      rw [number_keys]; exact hs
    exact List.pairwise_map.1 this
  let A : (K × V) × Int → Bool := fun x => if gt then o x.1.1 start != .gt else o x.1.1 start == .lt
  let B : (K × V) × Int → Bool := fun x => if !lt then o x.1.1 stop != .gt else o x.1.1 stop == .lt
  have hA := filter_take (P := A) (hp.imp fun h hy => down_rank h hy)
  have hB := filter_take (P := B) (hp.imp fun h hy => down_rank h hy)
  have cA : (number 1 0 xs).countP A = rank o start gt xs := by
    rw [rank]
    conv_rhs => rw [← number_keys 1 0 xs]
    rw [List.countP_map]; rfl
  have cB : (number 1 0 xs).countP B = rank o stop (!lt) xs := by
    rw [rank]
    conv_rhs => rw [← number_keys 1 0 xs]
    rw [List.countP_map]; rfl
  have hw : ∀ x : (K × V) × Int, within o gt lt start stop x.1.1 = (B x && !A x) := by
    intro x
    simp only [within, A, B]
    cases gt <;> cases lt <;> cases o x.1.1 start <;> cases o x.1.1 stop <;> rfl
  rw [show (fun x : (K × V) × Int => within o gt lt start stop x.1.1) = fun x => (B x && !A x) from
    funext hw, ← List.filter_filter, hA.2, cA]
  -- now the prefix of a suffix
  have hB' := filter_take (P := B) (xs := (number 1 0 xs).drop (rank o start gt xs))
    ((hp.imp fun h hy => down_rank h hy).sublist (List.drop_sublist ..))
  rw [number_drop, Int.zero_add] at hB' ⊢
  rw [hB'.1, number_take]
  congr 1
  rw [List.drop_take]
  congr 1
  have h3 : (number 1 0 xs).countP B =
      ((number 1 0 xs).take (rank o start gt xs)).countP B +
      ((number 1 0 xs).drop (rank o start gt xs)).countP B := by
    rw [← List.countP_append, List.take_append_drop]
  rw [cB, number_drop, Int.zero_add] at h3
  by_cases hr : rank o start gt xs ≤ rank o stop (!lt) xs
  · have h4 : ((number 1 0 xs).take (rank o start gt xs)).countP B = rank o start gt xs := by
      have h5 : (number 1 0 xs).take (rank o start gt xs) =
          ((number 1 0 xs).filter B).take (rank o start gt xs) := by
        rw [hB.1, cB, List.take_take, Nat.min_eq_left hr]
      rw [h5, List.countP_eq_length.2, List.length_take, hB.1, List.length_take, cB]
      · have : (number 1 0 xs).length = xs.length := by
          rw [← List.length_map (f := fun x : (K × V) × Int => x.1), number_keys]
        have h6 : rank o stop (!lt) xs ≤ xs.length := List.countP_le_length
        omega
      · intro x hx
        have := (List.take_sublist ..).subset hx
        exact (List.mem_filter.1 this).2
    omega
  · have h4 : (number 1 (rank o start gt xs) (xs.drop (rank o start gt xs))).countP B = 0 := by
      rw [← Int.zero_add (rank o start gt xs : Int), ← number_drop]
      refine List.countP_eq_zero.2 fun x hx => ?_
      have h5 : (number 1 0 xs).drop (rank o start gt xs) =
          ((number 1 0 xs).filter fun x => !B x).drop (rank o start gt xs - rank o stop (!lt) xs) := by
        rw [hB.2, cB, List.drop_drop]; congr 1; omega
      rw [h5] at hx
      have := (List.drop_sublist ..).subset hx
      simpa using (List.mem_filter.1 this).2
    rw [h4]; omega

/-- What the range iterator calls back with. -/
def visited (o : K → K → Ordering) (gt lt reverse : Bool) (start stop : K) (xs : List (K × V)) :
    List ((K × V) × Int) :=
  if reverse then ((ranked xs).filter fun x => within o gt lt start stop x.1.1).reverse
  else (ranked xs).filter fun x => within o gt lt start stop x.1.1

theorem number_length (d i : Int) (xs : List (K × V)) : (number d i xs).length = xs.length := by
  rw [← List.length_map (f := fun x : (K × V) × Int => x.1), number_keys]

/-- The range iterator in a tree that is not empty. -/
theorem range_ok (hc : Lawful cmp) {s : TL K V} {zs : List (Ent K V)} (hG : Good cmp s zs)
    (hn : zs ≠ []) (ir : IterRange) (gt lt : Bool) (start stop : K) :
    ∃ ir', setRange cmp s ir gt lt start stop = some ir' ∧ ir'.reverse = ir.reverse ∧
      ir'.size = (visited (ord cmp) gt lt ir.reverse start stop (zs.map strip)).length ∧
      ∀ every, ir'.range s every = some (seen (fun x => every x.1 x.2)
        (visited (ord cmp) gt lt ir.reverse start stop (zs.map strip))) := by
  have : Std.TransCmp (ord cmp) := hc
  obtain ⟨c1, h1, -⟩ := seekRight_ok hc hG hn gt start
  obtain ⟨c2, h2, -⟩ := seekLeft_ok hc hG hn lt stop
  refine ⟨⟨⟨at? (addrs zs) (rank (ord cmp) start gt zs), rank (ord cmp) start gt zs⟩,
    ⟨at? (addrs zs) (rank (ord cmp) stop (!lt) zs - 1), rank (ord cmp) stop (!lt) zs - 1⟩, ir.reverse⟩,
    by rw [setRange, h1, Option.bind_some, h2]; rfl, rfl, ?_⟩
  have hsort : Sorted (ord cmp) (zs.map strip) := by
    simp only [Sorted, List.pairwise_map]; exact hG.sorted
  have hw := within_eq (gt := gt) (lt := lt) (start := start) (stop := stop) hsort
  rw [rank_strip, rank_strip] at hw
  generalize ha : rank (ord cmp) start gt zs = a at hw ⊢
  generalize hb : rank (ord cmp) stop (!lt) zs = b at hw ⊢
  have hbl : b ≤ zs.length := by rw [← hb]; exact List.countP_le_length
  have hal : a ≤ zs.length := by rw [← ha]; exact List.countP_le_length
  have hvl : (visited (ord cmp) gt lt ir.reverse start stop (zs.map strip)).length = b - a := by
    have : ((ranked (zs.map strip)).filter fun x => within (ord cmp) gt lt start stop x.1.1).length =
        b - a := by
      rw [hw, number_length, List.length_drop, List.length_take, List.length_map]; omega
    unfold visited
    split
    · rw [List.length_reverse]; exact this
    · exact this
  by_cases hab : (a : Int) > b - 1
  · have hv : visited (ord cmp) gt lt ir.reverse start stop (zs.map strip) = [] :=
      List.length_eq_zero_iff.1 (by omega)
    refine ⟨?_, fun every => ?_⟩
    · rw [hv]; simp only [IterRange.size]; rw [if_pos (.inr (.inr hab))]; rfl
    · rw [hv]; simp only [IterRange.range]; rw [if_pos hab]; rfl
  · -- the run of entries
    let M := (zs.take b).drop a
    have hsp : zs = zs.take a ++ (M ++ zs.drop b) := by
      have e1 : zs.take a = (zs.take b).take a := by rw [List.take_take, Nat.min_eq_left (by omega)]
      rw [e1, ← List.append_assoc, List.take_append_drop, List.take_append_drop]
    have hML : M.length = b - a := by
      simp only [M, List.length_drop, List.length_take]; omega
    have hM0 : addrs M ≠ [] := by
      intro h
      have : M = [] := by simpa using h
      rw [this] at hML; simp at hML; omega
    have hadr : addrs zs = addrs (zs.take a) ++ (addrs M ++ addrs (zs.drop b)) := by
      conv_lhs => rw [hsp]
      simp
    have hseg : Seg s.heap (addrs (zs.take a)).getLast? (addrs M) (addrs (zs.drop b)).head? := by
      have := hG.thread.seg
      rw [hadr, seg_append, seg_append] at this
      simpa using this.2.1
    have hnd : (addrs M).Nodup := by
      have := hG.nodup
      rw [hadr] at this
      exact (List.nodup_append.1 (List.nodup_append.1 this).2.1).1
    have hfuel : (addrs M).length ≤ s.free := by
      have := hG.length
      have h3 : (addrs M).length = M.length := by simp [addrs]
      omega
    have hhead : at? (addrs zs) (a : Int) = (addrs M).head? := by
      have e1 : (addrs (zs.take a)).length = a := by simp [addrs]; omega
      obtain ⟨x, xs, hx⟩ : ∃ x xs, addrs M = x :: xs := by
        cases hm : addrs M with
        | nil => exact absurd hm hM0
        | cons x xs => exact ⟨x, xs, rfl⟩
      rw [hadr, hx, List.cons_append, at?_eq (by omega)]; rfl
    have hlast : at? (addrs zs) ((b : Int) - 1) = (addrs M).getLast? := by
      rcases List.eq_nil_or_concat (addrs M) with hx | ⟨xs, x, hx⟩
      · exact absurd hx hM0
      · rw [List.concat_eq_append] at hx
        have e1 : (addrs (zs.take a) ++ xs).length = b - 1 := by
          have h3 : (addrs M).length = M.length := by simp [addrs]
          rw [hx] at h3
          have h4 : (addrs (zs.take a)).length = a := by simp [addrs]; omega
          simp only [List.length_append, List.length_singleton] at h3 ⊢
          omega
        have e2 : addrs zs = (addrs (zs.take a) ++ xs) ++ x :: addrs (zs.drop b) := by
          rw [hadr, hx]; simp
        rw [e2, at?_eq (by omega), hx, List.getLast?_concat]
    have hvals : (addrs M).map (fun a => (s.heap a).val) = M.map strip := by
      simp only [addrs, List.map_map]
      refine List.map_congr_left fun e he => hG.vals e ?_
      rw [hsp]; simp [he]
    have hwM : ((ranked (zs.map strip)).filter fun x => within (ord cmp) gt lt start stop x.1.1) =
        number 1 a (M.map strip) := by
      rw [hw, ← List.map_take, ← List.map_drop]
    refine ⟨?_, fun every => ?_⟩
    · rw [hvl]
      simp only [IterRange.size, hhead, hlast]
      rw [if_neg]
      · omega
      · simp only [not_or]
        refine ⟨?_, ?_, hab⟩
        · cases hm : addrs M with
          | nil => exact absurd hm hM0
          | cons => simp
        · rcases List.eq_nil_or_concat (addrs M) with hx | ⟨xs, x, hx⟩
          · exact absurd hx hM0
          · rw [hx, List.concat_eq_append, List.getLast?_concat]; simp
    · simp only [IterRange.range, visited]
      rw [if_neg hab, hwM, hhead, hlast]
      cases ir.reverse with
      | false =>
        simp only [Bool.false_eq_true, if_false]
        rw [rangeLoop_ok s.free hfuel hM0 hnd (by simpa using links_next hseg), hvals]
        rfl
      | true =>
        simp only [if_true]
        have := rangeLoop_ok (h := s.heap) (every := every) (reverse := true) s.free
          (as := (addrs M).reverse) (by simpa using hfuel) (by simpa using hM0)
          (List.nodup_reverse.2 hnd) (by simpa using links_prev hseg) ((b : Int) - 1)
        rw [List.getLast?_reverse, List.head?_reverse] at this
        rw [this, List.map_reverse, hvals, ← number_reverse]
        simp only [if_true, List.length_map, hML]
        congr 3
        omega

end Verif.TreeList
