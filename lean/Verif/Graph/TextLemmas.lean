import Verif.Graph.Text
import Verif.Graph.Run
import Verif.Common.Tac

/-! Lemmas about the text functions of graph/astar. -/

namespace Verif.Astar

/-! ### Lines -/

/-- A line as all of the theorems take it: it ends at its newline, and it fits into the buffer. -/
structure Fits (l : List Nat) : Prop where
  newline : 10 ∉ l
  ret : 13 ∉ l
  len : l.length ≤ 4096

theorem takeWhile_line {l : List Nat} (h : 10 ∉ l) (s : List Nat) :
    (l ++ 10 :: s).takeWhile (· ≠ 10) = l := by
  rw [List.takeWhile_append_of_pos]
  · simp
  · intro a ha
    simp only [ne_eq, decide_not, Bool.not_eq_true', decide_eq_false_iff_not]
    rintro rfl; exact h ha

theorem takeWhile_all {l : List Nat} (h : 10 ∉ l) : l.takeWhile (· ≠ 10) = l := by
  have := List.takeWhile_append_of_pos (p := fun b : Nat => decide (b ≠ 10)) (l₁ := l) (l₂ := []) (by
    intro a ha
    simp only [ne_eq, decide_not, Bool.not_eq_true', decide_eq_false_iff_not]
    rintro rfl; exact h ha)
  simpa using this

theorem getLast_ne {l : List Nat} (h : 13 ∉ l) : l.getLast? ≠ some 13 := fun hl => h (List.mem_of_getLast? hl)

/-- A line with its newline. -/
theorem readLine_line {l : List Nat} (h : Fits l) (hl : l.length < 4096) (s : List Nat) :
    readLine (l ++ 10 :: s) = some (l, s) := by
  unfold readLine
  rw [if_neg (by simp)]
  dsimp only
  rw [takeWhile_line h.newline, if_neg (by unfold bufSize; omega), if_pos (by simp), dropCR, if_neg (getLast_ne h.ret)]
  simp

/-- A line that fills the buffer. -/
theorem readLine_full {l : List Nat} (h : Fits l) (hl : l.length = 4096) (s : List Nat)
    (hs : s = [] ∨ ∃ s', s = 10 :: s') : readLine (l ++ s) = some (l, s) := by
  have ht : (l ++ s).takeWhile (· ≠ 10) = l := by
    rcases hs with rfl | ⟨s', rfl⟩
    · rw [List.append_nil, takeWhile_all h.newline]
    · exact takeWhile_line h.newline s'
  unfold readLine
  rw [if_neg (by intro hn; rw [List.append_eq_nil_iff] at hn; rw [hn.1] at hl; simp at hl)]
  dsimp only
  rw [ht, if_pos (by unfold bufSize; omega)]
  have hb : bufSize = l.length := hl.symm
  rw [hb, List.take_left' rfl, if_neg (getLast_ne h.ret), List.drop_left' rfl]

/-- The last line, without a newline. -/
theorem readLine_last {l : List Nat} (h : Fits l) (hl : l ≠ []) : readLine l = some (l, []) := by
  by_cases hf : l.length = 4096
  · simpa using readLine_full h hf [] (Or.inl rfl)
  · have := h.len
    unfold readLine
    rw [if_neg hl]
    dsimp only
    rw [takeWhile_all h.newline, if_neg (by unfold bufSize; omega), if_neg (by omega)]

theorem readLines_nil (n : Nat) : readLines n [] = [] := by
  cases n <;> simp [readLines, readLine]

theorem intercalate_cons_cons (l m : List Nat) (L : List (List Nat)) :
    [10].intercalate (l :: m :: L) = l ++ 10 :: [10].intercalate (m :: L) := by
  simp [List.intercalate, List.intersperse]

theorem readLines_text : ∀ (L : List (List Nat)), (∀ l ∈ L, Fits l) → ∀ n, ([10].intercalate L).length ≤ n →
    (readLines n ([10].intercalate L)).filter (· ≠ []) = L.filter (· ≠ [])
  | [], _, n, _ => by simp [readLines_nil, List.intercalate]
  | [l], h, n, hn => by
    have e : [10].intercalate [l] = l := by simp [List.intercalate]
    rw [e] at hn ⊢
    by_cases hl : l = []
    · subst hl; simp [readLines_nil]
    · cases n with
      | zero => simp at hn; exact absurd hn hl
      | succ n =>
        rw [readLines, readLine_last (h l (by simp)) hl]
        simp [readLines_nil]
  | l :: m :: L, h, n, hn => by
    rw [intercalate_cons_cons] at hn ⊢
    have hm : ∀ l ∈ m :: L, Fits l := fun l hl => h l (List.mem_cons_of_mem _ hl)
    have hf := h l (by simp)
    simp only [List.length_append, List.length_cons] at hn
    cases n with
    | zero => omega
    | succ n =>
      by_cases hl : l.length = 4096
      · rw [readLines, readLine_full hf hl _ (Or.inr ⟨_, rfl⟩)]
        cases n with
        | zero => omega
        | succ n =>
          have h1 := readLine_line (l := []) ⟨by simp, by simp, by simp⟩ (by simp) ([10].intercalate (m :: L))
          simp only [List.nil_append] at h1
          simp only
          rw [readLines, h1]
          simp only
          have := readLines_text (m :: L) hm n (by omega)
          rw [List.filter_cons]
          conv_lhs => rw [List.filter_cons_of_neg (by simp), this]
          conv_rhs => rw [List.filter_cons]
      · rw [readLines, readLine_line hf (by have := hf.len; omega)]
        simp only
        have := readLines_text (m :: L) hm n (by omega)
        rw [List.filter_cons, this]
        conv_rhs => rw [List.filter_cons]

/-- The lines of a text. -/
theorem lines_text {L : List (List Nat)} (h : ∀ l ∈ L, Fits l) : lines ([10].intercalate L) = L.filter (· ≠ []) :=
  readLines_text L h _ (Nat.le_refl _)

theorem readLine_len {s l s' : List Nat} (h : readLine s = some (l, s')) : l.length ≤ 4096 := by
  unfold readLine at h
  split at h
  · cases h
  · dsimp only at h
    split at h
    · split at h <;> simp only [Option.some.injEq, Prod.mk.injEq] at h <;> obtain ⟨rfl, rfl⟩ := h
      · simp only [List.length_dropLast, List.length_take, bufSize]; omega
      · simp only [List.length_take, bufSize]; omega
    · rename_i hb
      split at h <;> simp only [Option.some.injEq, Prod.mk.injEq] at h <;> obtain ⟨rfl, rfl⟩ := h
      · unfold bufSize at hb
        unfold dropCR
        split
        · simp only [List.length_dropLast]; omega
        · omega
      · unfold bufSize at hb
        omega

theorem readLines_len : ∀ (n : Nat) (s : List Nat), ∀ l ∈ readLines n s, l.length ≤ 4096
  | 0, s, l, h => by simp [readLines] at h
  | n + 1, s, l, h => by
    rw [readLines] at h
    split at h
    · simp at h
    · rename_i r hr
      rw [List.mem_cons] at h
      rcases h with rfl | h
      · exact readLine_len hr
      · exact readLines_len n _ l h

/-! ### Rows -/

theorem xMax_fold : ∀ (rows : List (List Nat)) (m : Nat),
    m ≤ rows.foldl (fun m r => if m < r.length then r.length else m) m ∧
    (∀ r ∈ rows, r.length ≤ rows.foldl (fun m r => if m < r.length then r.length else m) m) ∧
    (∀ k, m ≤ k → (∀ r ∈ rows, r.length ≤ k) → rows.foldl (fun m r => if m < r.length then r.length else m) m ≤ k)
  | [], m => ⟨Nat.le_refl _, by simp, fun k hk _ => hk⟩
  | r :: rows, m => by
    rw [List.foldl_cons]
    obtain ⟨h1, h2, h3⟩ := xMax_fold rows (if m < r.length then r.length else m)
    refine ⟨?_, ?_, ?_⟩
    · refine Nat.le_trans ?_ h1; split <;> omega
    · intro q hq
      rw [List.mem_cons] at hq
      rcases hq with rfl | hq
      · refine Nat.le_trans ?_ h1; split <;> omega
      · exact h2 q hq
    · intro k hk hr
      refine h3 k ?_ fun q hq => hr q (List.mem_cons_of_mem _ hq)
      have := hr r (by simp)
      split <;> omega

theorem le_xMax {rows : List (List Nat)} {r : List Nat} (h : r ∈ rows) : r.length ≤ xMax rows := (xMax_fold rows 0).2.1 r h

theorem xMax_le {rows : List (List Nat)} {k : Nat} (h : ∀ r ∈ rows, r.length ≤ k) : xMax rows ≤ k :=
  (xMax_fold rows 0).2.2 k (Nat.zero_le _) h

theorem xMax_eq {rows : List (List Nat)} {k : Nat} (h : ∀ r ∈ rows, r.length = k) (hne : rows ≠ []) : xMax rows = k := by
  cases rows with
  | nil => exact absurd rfl hne
  | cons r rows =>
    have h1 := xMax_le (rows := r :: rows) (k := k) fun q hq => Nat.le_of_eq (h q hq)
    have h2 := le_xMax (rows := r :: rows) (r := r) (by simp)
    have h3 := h r (by simp)
    omega

/-- The rows that are printed. -/
def rowsOf (g : Graph) (data : Pos → Nat) : List (List Nat) :=
  (List.range g.dimY).map fun (y : Nat) => (List.range g.dimX).map fun (x : Nat) => data ((x : Int), (y : Int))

theorem cell_rowsOf {g : Graph} {data : Pos → Nat} {p : Pos} (h : Inside g p) : cell (rowsOf g data) p = some (data p) := by
  obtain ⟨h1, h2, h3, h4⟩ := h
  have hy : p.2.toNat < g.dimY := by omega
  have hx : p.1.toNat < g.dimX := by omega
  unfold cell rowsOf
  rw [List.getElem?_map, List.getElem?_range hy]
  simp only [Option.map_some, Option.bind_some]
  rw [List.getElem?_map, List.getElem?_range hx]
  simp only [Option.map_some]
  congr 2
  ext <;> simp <;> omega

theorem content_eq (g : Graph) (data : Pos → Nat) :
    content g data = [10].intercalate ([] :: rowsOf g data ++ [[]]) := by
  have key : ∀ (R : List (List Nat)), [10].intercalate (R ++ [[]]) = R.flatMap (· ++ [10]) := by
    intro R
    induction R with
    | nil => simp [List.intercalate]
    | cons r R ih =>
      cases R with
      | nil => simp [List.intercalate]
      | cons q R =>
        rw [List.cons_append, List.cons_append, intercalate_cons_cons, ← List.cons_append, ih]
        simp
  rw [key]
  unfold content rowsOf
  simp only [List.cons_append, List.flatMap_cons, List.nil_append, List.flatMap_map]

theorem filter_ordinary {l : List Nat} (h : ∀ a ∈ l, isSpace a = false) : (l.filter fun b => !isSpace b) = l := by
  rw [List.filter_eq_self]
  intro a ha
  simp [h a ha]

theorem mem_rowsOf {g : Graph} {data : Pos → Nat} {r : List Nat} (h : r ∈ rowsOf g data) :
    r.length = g.dimX ∧ ∀ a ∈ r, ∃ p, Inside g p ∧ a = data p := by
  unfold rowsOf at h
  rw [List.mem_map] at h
  obtain ⟨y, hy, rfl⟩ := h
  rw [List.mem_range] at hy
  refine ⟨by simp, ?_⟩
  intro a ha
  rw [List.mem_map] at ha
  obtain ⟨x, hx, rfl⟩ := ha
  rw [List.mem_range] at hx
  exact ⟨((x : Int), (y : Int)), ⟨by simp, by simp, by simpa using hx, by simpa using hy⟩, rfl⟩

/-- What is read back of a print. -/
theorem lines_content {g : Graph} {data : Pos → Nat} (hx : 1 ≤ g.dimX) (hl : g.dimX ≤ 4096)
    (h : ∀ p, Inside g p → isSpace (data p) = false) : lines (content g data) = rowsOf g data := by
  rw [content_eq, lines_text]
  · rw [List.cons_append, List.filter_cons, if_neg (by simp), List.filter_append]
    simp only [ne_eq, decide_not, List.filter_cons, decide_true, Bool.not_true, Bool.false_eq_true, if_false,
      List.filter_nil, List.append_nil]
    rw [List.filter_eq_self]
    intro r hr
    have := (mem_rowsOf hr).1
    simp only [Bool.not_eq_true', decide_eq_false_iff_not]
    rintro rfl
    simp at this; omega
  · intro l hm
    rw [List.cons_append, List.mem_cons, List.mem_append, List.mem_singleton] at hm
    rcases hm with rfl | hm | rfl
    · exact ⟨by simp, by simp, by simp⟩
    · obtain ⟨h1, h2⟩ := mem_rowsOf hm
      refine ⟨?_, ?_, by omega⟩
      · intro hc
        obtain ⟨p, hp, he⟩ := h2 _ hc
        have := h p hp
        rw [← he] at this; simp [isSpace] at this
      · intro hc
        obtain ⟨p, hp, he⟩ := h2 _ hc
        have := h p hp
        rw [← he] at this; simp [isSpace] at this
    · exact ⟨by simp, by simp, by simp⟩

theorem tileBuffer_content {g : Graph} {data : Pos → Nat} (hx : 1 ≤ g.dimX) (hl : g.dimX ≤ 4096)
    (h : ∀ p, Inside g p → isSpace (data p) = false) : tileBuffer (content g data) = rowsOf g data := by
  unfold tileBuffer
  rw [lines_content hx hl h]
  have : (rowsOf g data).map (fun line => line.filter fun b => !isSpace b) = rowsOf g data := by
    conv_rhs => rw [← List.map_id (rowsOf g data)]
    apply List.map_congr_left
    intro r hr
    rw [filter_ordinary]
    · rfl
    · intro a ha
      obtain ⟨p, hp, rfl⟩ := (mem_rowsOf hr).2 a ha
      exact h p hp
  rw [this, List.filter_eq_self]
  intro r hr
  have := (mem_rowsOf hr).1
  simp only [ne_eq, decide_not, Bool.not_eq_true', decide_eq_false_iff_not]
  rintro rfl
  simp at this; omega

/-! ### Points -/

theorem mark_none {rows : List (List Nat)} {c : Nat} : ∀ {ps : List Pos}, (∀ p ∈ ps, cell rows p ≠ some c) →
    ∀ r, ps.foldl (fun r p => if cell rows p = some c then some (⟨p, 0⟩ : Point) else r) r = r
  | [], _, r => rfl
  | p :: ps, h, r => by
    rw [List.foldl_cons, if_neg (h p (by simp))]
    exact mark_none (fun q hq => h q (List.mem_cons_of_mem _ hq)) r

theorem mark_unique {rows : List (List Nat)} {c : Nat} {q : Pos} (hc : cell rows q = some c) : ∀ {ps : List Pos},
    (∀ p ∈ ps, cell rows p = some c → p = q) → q ∈ ps →
    ∀ r, ps.foldl (fun r p => if cell rows p = some c then some (⟨p, 0⟩ : Point) else r) r = some ⟨q, 0⟩
  | [], _, hq, r => by simp at hq
  | p :: ps, h, hq, r => by
    rw [List.foldl_cons]
    by_cases hm : q ∈ ps
    · exact mark_unique hc (fun x hx => h x (List.mem_cons_of_mem _ hx)) hm _
    · have hpq : q = p := by
        rw [List.mem_cons] at hq
        exact hq.resolve_right hm
      subst hpq
      rw [if_pos hc]
      refine mark_none ?_ _
      intro x hx hcx
      have := h x (List.mem_cons_of_mem _ hx) hcx
      subst this; exact hm hx

/-! ### Scans: the loops over lines and bytes as recursions -/

/-- A fold with the index. -/
def scan {α β : Type} (F : Nat → α → β → β) : Nat → List α → β → β
  | _, [], r => r
  | n, a :: l, r => scan F (n + 1) l (F n a r)

theorem scan_shift {α β : Type} (F : Nat → α → β → β) : ∀ (l : List α) (n : Nat) (r : β),
    scan F (n + 1) l r = scan (fun k => F (k + 1)) n l r
  | [], _, _ => rfl
  | a :: l, n, r => by rw [scan, scan, scan_shift F l (n + 1)]

theorem foldl_none {β γ : Type} {f : β → γ → β} : ∀ (l : List γ) (r : β), (∀ x ∈ l, ∀ r, f r x = r) → l.foldl f r = r
  | [], _, _ => rfl
  | x :: l, r, h => by
    rw [List.foldl_cons, h x (by simp)]
    exact foldl_none l r fun y hy => h y (List.mem_cons_of_mem _ hy)

theorem range_fold {α β : Type} : ∀ (l : List α) (F : Nat → α → β → β) (X : Nat) (r : β), l.length ≤ X →
    (List.range X).foldl (fun r n => match l[n]? with
      | some a => F n a r
      | none => r) r = scan F 0 l r
  | [], F, X, r, _ => by
    rw [scan]
    exact foldl_none _ _ fun x _ r => by simp
  | a :: l, F, X, r, h => by
    cases X with
    | zero => simp at h
    | succ X =>
      rw [List.range_succ_eq_map, List.foldl_cons, List.foldl_map, scan, scan_shift]
      simp only [List.getElem?_cons_zero, Nat.succ_eq_add_one, List.getElem?_cons_succ]
      exact range_fold l (fun k => F (k + 1)) X (F 0 a r) (by simpa using h)

theorem scan_congr {α β : Type} {F G : Nat → α → β → β} : ∀ (l : List α) (n : Nat) (r : β),
    (∀ k, ∀ a ∈ l, ∀ r, F k a r = G k a r) → scan F n l r = scan G n l r
  | [], _, _, _ => rfl
  | a :: l, n, r, h => by
    rw [scan, scan, h n a (by simp)]
    exact scan_congr l (n + 1) _ fun k b hb => h k b (List.mem_cons_of_mem _ hb)

/-- The last place of a byte in a row. -/
def scanRow (c : Nat) (y : Nat) : Nat → List Nat → Option Point → Option Point :=
  scan fun x a r => if a = c then some ⟨((x : Int), (y : Int)), 0⟩ else r

/-- The last place of a byte in the rows. -/
def scanRows (c : Nat) : Nat → List (List Nat) → Option Point → Option Point :=
  scan fun y row r => scanRow c y 0 row r

theorem mark_eq {rows : List (List Nat)} {c : Nat} {g : Graph} (hy : rows.length ≤ g.dimY) (hx : ∀ r ∈ rows, r.length ≤ g.dimX) :
    mark rows c (cells g) = scanRows c 0 rows none := by
  unfold mark cells scanRows
  rw [List.foldl_flatMap, ← range_fold rows _ g.dimY none hy]
  congr 1
  funext r y
  rw [List.foldl_map]
  cases hr : rows[y]? with
  | none =>
    simp only
    refine foldl_none _ _ fun x _ r => ?_
    rw [if_neg]
    unfold cell
    simp [hr]
  | some row =>
    simp only
    unfold scanRow
    rw [← range_fold row _ g.dimX r (hx row (List.mem_of_getElem? hr))]
    congr 1
    funext r x
    unfold cell
    simp only [Int.toNat_natCast, hr, Option.bind_some]
    cases hx : row[x]? with
    | none => simp
    | some a => simp

theorem scanRow_none {c y : Nat} : ∀ {l : List Nat} (x : Nat) (r : Option Point), c ∉ l → scanRow c y x l r = r
  | [], _, _, _ => rfl
  | a :: l, x, r, h => by
    have : a ≠ c := by rintro rfl; simp at h
    unfold scanRow at *
    rw [scan, if_neg this]
    exact scanRow_none (x + 1) r fun hc => h (List.mem_cons_of_mem _ hc)

theorem scanRows_none {c : Nat} : ∀ {rows : List (List Nat)} (y : Nat) (r : Option Point), (∀ l ∈ rows, c ∉ l) →
    scanRows c y rows r = r
  | [], _, _, _ => rfl
  | l :: rows, y, r, h => by
    unfold scanRows at *
    rw [scan, scanRow_none _ _ (h l (by simp))]
    exact scanRows_none (y + 1) r fun m hm => h m (List.mem_cons_of_mem _ hm)

/-! ### `SetStringTiles` -/

/-- What a byte of the text makes of a tile. -/
def overwrite (t : Tile) : Option Nat → Tile
  | none => t
  | some a => if a = SKIP ∨ a = START ∨ a = END then t else { t with attr := a }

/-- The bytes of a line that count. -/
def bare (l : List Nat) : List Nat := l.filter fun b => !isSpace b

theorem bare_cons_space {a : Nat} {l : List Nat} (h : isSpace a = true) : bare (a :: l) = bare l := by
  unfold bare; rw [List.filter_cons, if_neg (by simp [h])]

theorem bare_cons {a : Nat} {l : List Nat} (h : isSpace a = false) : bare (a :: l) = a :: bare l := by
  unfold bare; rw [List.filter_cons, if_pos (by simp [h])]

/-- What a line does, with nothing but tabs and blanks between the tiles. -/
theorem setRow_ok {y : Nat} : ∀ (l : List Nat) (x : Nat) (g : Graph), (12 ∉ l) → (13 ∉ l) →
    x + (bare l).length ≤ g.dimX → y < g.dimY →
    setRow y x l g = some { g with
      start := scanRow START y x (bare l) g.start
      fin := scanRow END y x (bare l) g.fin
      tiles := fun p => if p.2 = (y : Int) ∧ (x : Int) ≤ p.1 then overwrite (g.tiles p) (bare l)[(p.1 - x).toNat]?
        else g.tiles p }
  | [], x, g, _, _, _, _ => by
    rw [setRow]
    simp only [bare, List.filter_nil, scanRow, scan, List.getElem?_nil, overwrite, ite_self]
  | a :: l, x, g, h12, h13, hx, hy => by
    have h12' : 12 ∉ l := fun h => h12 (List.mem_cons_of_mem _ h)
    have h13' : 13 ∉ l := fun h => h13 (List.mem_cons_of_mem _ h)
    have a12 : a ≠ 12 := by rintro rfl; simp at h12
    have a13 : a ≠ 13 := by rintro rfl; simp at h13
    by_cases hsp : isSpace a = true
    · rw [bare_cons_space hsp] at hx ⊢
      have ha : a = 9 ∨ a = 32 ∨ a = 10 := by
        simp only [isSpace, Bool.or_eq_true, beq_iff_eq] at hsp; omega
      rw [setRow]
      by_cases hxd : x < g.dimX
      · rw [if_pos hxd, if_neg (by unfold START; omega), if_neg (by unfold END; omega), if_pos ha]
        exact setRow_ok l x g h12' h13' hx hy
      · rw [if_neg hxd]
        have : bare l = [] := by
          rw [← List.length_eq_zero_iff]; omega
        rw [this]
        simp only [scanRow, scan, List.getElem?_nil, overwrite, ite_self]
    · have hsp : isSpace a = false := by simpa using hsp
      rw [bare_cons hsp] at hx ⊢
      rw [List.length_cons] at hx
      have hn : ¬ (a = 9 ∨ a = 32 ∨ a = 10) := by
        intro h
        simp only [isSpace, Bool.or_eq_false_iff, beq_eq_false_iff_ne] at hsp
        omega
      have step : ∀ (t t' : Pos → Tile), (∀ p, t' p = if p = ((x : Int), (y : Int)) then overwrite (t p) (some a) else t p) →
          (fun p : Pos => if p.2 = (y : Int) ∧ ((x + 1 : Nat) : Int) ≤ p.1 then
            overwrite (t' p) (bare l)[(p.1 - ((x + 1 : Nat) : Int)).toNat]? else t' p) =
          fun p : Pos => if p.2 = (y : Int) ∧ (x : Int) ≤ p.1 then overwrite (t p) (a :: bare l)[(p.1 - x).toNat]? else t p := by
        intro t t' ht
        funext p
        rw [ht]
        by_cases hp : p = ((x : Int), (y : Int))
        · subst hp
          rw [if_pos rfl]
          dsimp only
          rw [if_neg (by omega), if_pos ⟨rfl, Int.le_refl _⟩]
          simp
        · rw [if_neg hp]
          by_cases h2 : p.2 = (y : Int) ∧ (x : Int) ≤ p.1
          · have h3 : p.1 ≠ (x : Int) := by
              intro h; apply hp; ext
              · exact h
              · exact h2.1
            rw [if_pos h2, if_pos ⟨h2.1, by omega⟩]
            have : (p.1 - x).toNat = (p.1 - ((x + 1 : Nat) : Int)).toNat + 1 := by omega
            rw [this, List.getElem?_cons_succ]
          · rw [if_neg h2, if_neg (by omega)]
      rw [setRow, if_pos (by omega)]
      by_cases hs : a = START
      · have step := step g.tiles g.tiles (by
          intro p; unfold overwrite; simp [hs])
        rw [if_pos hs, setRow_ok l (x + 1) { g with start := some ⟨((x : Int), (y : Int)), 0⟩ } h12' h13'
          (by show _ ≤ g.dimX; omega) hy]
        dsimp only
        rw [step]
        have e1 : scanRow START y x (a :: bare l) g.start = scanRow START y (x + 1) (bare l) (some ⟨((x : Int), (y : Int)), 0⟩) := by
          unfold scanRow; rw [scan, if_pos hs]
        have e2 : scanRow END y x (a :: bare l) g.fin = scanRow END y (x + 1) (bare l) g.fin := by
          unfold scanRow; rw [scan, if_neg (by rw [hs]; decide)]
        rw [e1, e2]
      · rw [if_neg hs]
        have e1 : scanRow START y x (a :: bare l) g.start = scanRow START y (x + 1) (bare l) g.start := by
          unfold scanRow; rw [scan, if_neg hs]
        by_cases he : a = END
        · have step := step g.tiles g.tiles (by
            intro p; unfold overwrite; simp [he])
          rw [if_pos he, setRow_ok l (x + 1) { g with fin := some ⟨((x : Int), (y : Int)), 0⟩ } h12' h13'
            (by show _ ≤ g.dimX; omega) hy]
          dsimp only
          rw [step]
          have e2 : scanRow END y x (a :: bare l) g.fin = scanRow END y (x + 1) (bare l) (some ⟨((x : Int), (y : Int)), 0⟩) := by
            unfold scanRow; rw [scan, if_pos he]
          rw [e1, e2]
        · rw [if_neg he, if_neg hn]
          have e2 : scanRow END y x (a :: bare l) g.fin = scanRow END y (x + 1) (bare l) g.fin := by
            unfold scanRow; rw [scan, if_neg he]
          by_cases hk : a = SKIP
          · have step := step g.tiles g.tiles (by
              intro p; unfold overwrite; simp [hk])
            rw [if_neg (by simpa using hk), setRow_ok l (x + 1) g h12' h13' (by omega) hy]
            rw [step, e1, e2]
          · rw [if_pos hk]
            have hb : inBounds g ((x : Int), (y : Int)) = true := by
              rw [← inside_iff]
              exact ⟨by simp, by simp, by simp; omega, by simp; omega⟩
            unfold setAttr Graph.at?
            rw [if_pos hb]
            simp only [Option.map_some, Option.bind_some]
            rw [setRow_ok l (x + 1) (g.set ((x : Int), (y : Int)) { g.tiles ((x : Int), (y : Int)) with attr := a }) h12' h13'
              (by show _ ≤ g.dimX; omega) hy]
            have step := step g.tiles (g.set ((x : Int), (y : Int)) { g.tiles ((x : Int), (y : Int)) with attr := a }).tiles (by
              intro p
              unfold Graph.set overwrite
              by_cases hp : p = ((x : Int), (y : Int))
              · subst hp; simp [hs, he, hk]
              · simp [hp])
            rw [step, e1, e2]
            rfl

theorem setRows_ok : ∀ (L : List (List Nat)) (y : Nat) (g : Graph), (∀ l ∈ L, 12 ∉ l ∧ 13 ∉ l ∧ (bare l).length ≤ g.dimX) →
    y + L.length ≤ g.dimY →
    setRows y L g = some { g with
      start := scanRows START y (L.map bare) g.start
      fin := scanRows END y (L.map bare) g.fin
      tiles := fun p => if (y : Int) ≤ p.2 ∧ 0 ≤ p.1 then overwrite (g.tiles p) (cell (L.map bare) (p.1, p.2 - y))
        else g.tiles p }
  | [], y, g, _, _ => by
    rw [setRows]
    simp only [List.map_nil, scanRows, scan, cell, List.getElem?_nil, Option.bind_none, overwrite, ite_self]
  | l :: L, y, g, h, hy => by
    obtain ⟨h12, h13, hx⟩ := h l (by simp)
    rw [List.length_cons] at hy
    rw [setRows, setRow_ok l 0 g h12 h13 (by omega) (by omega)]
    simp only [Option.bind_some]
    refine (setRows_ok L (y + 1) { g with
      start := scanRow START y 0 (bare l) g.start
      fin := scanRow END y 0 (bare l) g.fin
      tiles := fun p => if p.2 = (y : Int) ∧ ((0 : Nat) : Int) ≤ p.1 then
        overwrite (g.tiles p) (bare l)[(p.1 - ((0 : Nat) : Int)).toNat]? else g.tiles p }
      (fun m hm => h m (List.mem_cons_of_mem _ hm)) (by show _ ≤ g.dimY; omega)).trans ?_
    dsimp only
    have e1 : ∀ c r, scanRows c (y + 1) (L.map bare) (scanRow c y 0 (bare l) r) = scanRows c y ((l :: L).map bare) r := by
      intro c r; unfold scanRows; rw [List.map_cons, scan]
    rw [e1, e1]
    congr 2
    funext p
    by_cases h1 : (y : Int) ≤ p.2 ∧ 0 ≤ p.1
    · rw [if_pos h1]
      by_cases h2 : p.2 = (y : Int)
      · rw [if_neg (by omega), if_pos ⟨h2, by simpa using h1.2⟩]
        unfold cell
        simp [h2]
      · rw [if_pos (by omega), if_neg (by omega)]
        unfold cell
        have : (p.2 - (y : Int)).toNat = (p.2 - ((y + 1 : Nat) : Int)).toNat + 1 := by omega
        simp only [List.map_cons]
        rw [this, List.getElem?_cons_succ]
    · rw [if_neg h1, if_neg (by omega), if_neg (by omega)]

end Verif.Astar
