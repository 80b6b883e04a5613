import Verif.Queue.PriorityLemmas
import Verif.Tree.AvlScan

/-! The iterator of queue/priority. -/

namespace Verif.Priority

open Tree Avl

variable {A K V : Type}

/-- Where a seek goes in a tree with duplicate keys: to the nearest entry if the key is absent; if it is
there, to some entry with the key (`SeekGE`, `SeekLE`), or to the neighbour of some such entry. -/
def Lands (o : K → K → Ordering) (key : K) (c strict : Bool) (xs : List (K × V)) (pos : Int) : Prop :=
  if xs.any fun e => o e.1 key == .eq then
    ∃ L e R, xs = L ++ e :: R ∧ o e.1 key = .eq ∧
      pos = if strict then (if c then (L.length : Int) + 1 else L.length - 1) else L.length
  else pos = target o key c strict xs

theorem seekLoop_dup {cmp : K → K → Int} (hc : LawfulEx cmp) {root : Tree A K V} {key : K}
    {c strict : Bool} {it : Iter A K V} (hs : SortedLE (fun a b => exOrd (cmp a b)) root.toList)
    (hcap : root.height ≤ it.cap)
    (hp : Path root it.stk it.cur) (hn : it.cur ≠ nil) (n : Nat) (hf : it.cur.height ≤ n)
    (hb : ∀ e ∈ befores it.stk, exOrd (cmp e.1 key) = .lt)
    (ha : ∀ e ∈ afters it.stk, exOrd (cmp e.1 key) = .gt) :
    ∃ it' b, it.seekLoop cmp key c strict n = some (it', b) ∧ it'.cap = it.cap ∧
      b = (root.toList.any fun e => exOrd (cmp e.1 key) == .eq) ∧
      ∃ pos, Place root it' (some pos) ∧
        Lands (fun a b => exOrd (cmp a b)) key c strict root.toList pos := by
  have := hc.trans
  induction n generalizing it with
  | zero =>
    cases hcur : it.cur with
    | nil => exact absurd hcur hn
    | node h k v l r => rw [hcur] at hf; simp [height] at hf
  | succ n ih =>
    cases hcur : it.cur with
    | nil => exact absurd hcur hn
    | node h k v l r =>
      rw [hcur] at hp hf
      simp only [height] at hf
      have hlist := hp.toList
      have hlen := hp.height
      simp only [height] at hlen
      rw [toList_node] at hlist
      have hat : At root it (befores it.stk ++ l.toList) (k, v) (r.toList ++ afters it.stk) :=
        ⟨hcap, by rw [hcur]; exact hp, h, l, r, hcur, rfl, rfl⟩
      have hlist' : root.toList = (befores it.stk ++ l.toList) ++ (k, v) :: (r.toList ++ afters it.stk) := by
        rw [hlist]; simp
      rw [hlist'] at hs
      simp only [Iter.seekLoop, hcur]
      rcases hc.range k key with hx | hx | hx
      · -- found
        have hord : exOrd (cmp k key) = .eq := by simp [exOrd, hx]
        have hany : (root.toList.any fun e => exOrd (cmp e.1 key) == .eq) = true := by
          rw [hlist']; simp [hord]
        rw [if_pos (by omega), hany]
        cases strict with
        | false =>
          simp only [Bool.false_eq_true, if_false]
          refine ⟨it, true, rfl, rfl, rfl, _, .on hat, ?_⟩
          rw [Lands, if_pos hany]
          exact ⟨_, _, _, hlist', hord, rfl⟩
        | true =>
          simp only [if_true]
          cases c with
          | true =>
            obtain ⟨it', h1, h2, h3⟩ := move_true_on hat
            refine ⟨it', true, by rw [h1]; rfl, h2, rfl, _, h3, ?_⟩
            rw [Lands, if_pos hany]
            exact ⟨_, _, _, hlist', hord, rfl⟩
          | false =>
            obtain ⟨it', h1, h2, h3⟩ := move_false_on hat
            refine ⟨it', true, by rw [h1]; rfl, h2, rfl, _, h3, ?_⟩
            rw [Lands, if_pos hany]
            exact ⟨_, _, _, hlist', hord, rfl⟩
      · -- the key is on the left
        have hord : exOrd (cmp k key) = .gt := by simp [exOrd, hx]
        have hR := Avls.no_right hs hord
        rw [if_neg (by omega), if_pos (.inl hx), show decide (cmp k key = 1) = false by
          simp [hx]]
        by_cases hl : l = nil
        · subst hl
          have hdown : it.down false = some (it, false) := by
            simp [Iter.down, hcur, isNil, child]
          simp only [hdown, Option.bind_some, Bool.false_eq_true, if_false]
          have hany : (root.toList.any fun e => exOrd (cmp e.1 key) == .eq) = false := by
            rw [hlist', List.any_eq_false]
            intro e he
            rcases List.mem_append.1 he with he | he
            · simp at he; simp [hb e he]
            · simp [hR e he]
          have n1 : (root.toList.filter fun e => exOrd (cmp e.1 key) == .lt).length =
              (befores it.stk).length := by
            rw [hlist', toList_nil, List.append_nil]
            exact counts (fun e he => by simp [hb e he]) (fun e he => by simp [hR e he])
          have n2 : (root.toList.filter fun e => exOrd (cmp e.1 key) != .gt).length =
              (befores it.stk).length := by
            rw [hlist', toList_nil, List.append_nil]
            exact counts (fun e he => by simp [hb e he]) (fun e he => by simp [hR e he])
          rw [hany]
          cases c with
          | false =>
            obtain ⟨it', b, h1, h2, h3⟩ := up_false hat (by rw [hcur]; rfl)
            refine ⟨it', false, by rw [if_pos rfl, h1]; rfl, h2, rfl, _, h3, ?_⟩
            have e : target (fun a b => exOrd (cmp a b)) key false strict root.toList =
              ((befores it.stk ++ (nil : Tree A K V).toList).length : Int) - 1 := by
              cases strict <;> simp only [target, n1, n2] <;> simp
            rw [Lands, if_neg (by rw [hany]; simp), e]
          | true =>
            refine ⟨it, false, by rw [if_neg (by simp)], rfl, rfl, _, .on hat, ?_⟩
            have e : target (fun a b => exOrd (cmp a b)) key true strict root.toList =
              ((befores it.stk ++ (nil : Tree A K V).toList).length : Int) := by
              cases strict <;> simp only [target, n1, n2] <;> simp
            rw [Lands, if_neg (by rw [hany]; simp), e]
        · have hl' : l.isNil = false := isNil_of_ne (by assumption)
          have q1 : 1 ≤ l.height := height_pos (by assumption)
          have hdown : it.down false = some ({ it with cur := l, stk := (it.cur, false) :: it.stk }, true) := by
            simp only [Iter.down, hcur, isNil_node, child, hl', Iter.push, Bool.false_eq_true, if_false]
            rw [if_pos (show it.stk.length < it.cap by omega)]
            rfl
          simp only [hdown, Option.bind_some, if_true]
          rw [hcur]
          exact ih (it := { it with cur := l, stk := (node h k v l r, false) :: it.stk }) hcap hp.left
            hl (by show l.height ≤ n; omega) (by simpa [befores] using hb) (by
              intro e he
              simp only [afters, List.cons_append] at he
              exact hR e he)
      · -- the key is on the right
        have hord : exOrd (cmp k key) = .lt := by simp [exOrd, hx]
        have hL : ∀ e ∈ (befores it.stk ++ l.toList) ++ [(k, v)], exOrd (cmp e.1 key) = .lt := fun e he => by
          rcases List.mem_append.1 he with he | he
          · exact Avls.no_left hs hord e he
          · rw [List.mem_singleton] at he; subst he; exact hord
        rw [if_neg (by omega), if_pos (.inr hx), show decide (cmp k key = 1) = true by
          simp [hx]]
        by_cases hl : r = nil
        · subst hl
          have hdown : it.down true = some (it, false) := by
            simp [Iter.down, hcur, isNil, child]
          simp only [hdown, Option.bind_some, Bool.false_eq_true, if_false]
          have hlist2 : root.toList = ((befores it.stk ++ l.toList) ++ [(k, v)]) ++ afters it.stk := by
            rw [hlist']; simp
          have hany : (root.toList.any fun e => exOrd (cmp e.1 key) == .eq) = false := by
            rw [hlist2, List.any_eq_false]
            intro e he
            rcases List.mem_append.1 he with he | he
            · simp [hL e he]
            · simp [ha e he]
          have n1 : (root.toList.filter fun e => exOrd (cmp e.1 key) == .lt).length =
              (befores it.stk ++ l.toList).length + 1 := by
            rw [hlist2, counts (L := (befores it.stk ++ l.toList) ++ [(k, v)])
              (fun e he => by simp [hL e he]) (fun e he => by simp [ha e he])]
            simp [Nat.add_assoc]
          have n2 : (root.toList.filter fun e => exOrd (cmp e.1 key) != .gt).length =
              (befores it.stk ++ l.toList).length + 1 := by
            rw [hlist2, counts (L := (befores it.stk ++ l.toList) ++ [(k, v)])
              (fun e he => by simp [hL e he]) (fun e he => by simp [ha e he])]
            simp [Nat.add_assoc]
          rw [hany]
          cases c with
          | true =>
            obtain ⟨it', b, h1, h2, h3⟩ := up_true hat (by rw [hcur]; rfl)
            refine ⟨it', false, by rw [if_pos rfl, h1]; rfl, h2, rfl, _, h3, ?_⟩
            have e : target (fun a b => exOrd (cmp a b)) key true strict root.toList =
              ((befores it.stk ++ l.toList).length : Int) + 1 := by
              cases strict <;> simp only [target, n1, n2] <;> simp
            rw [Lands, if_neg (by rw [hany]; simp), e]
          | false =>
            refine ⟨it, false, by rw [if_neg (by simp)], rfl, rfl, _, .on hat, ?_⟩
            have e : target (fun a b => exOrd (cmp a b)) key false strict root.toList =
              ((befores it.stk ++ l.toList).length : Int) := by
              cases strict <;> simp only [target, n1, n2] <;> simp
            rw [Lands, if_neg (by rw [hany]; simp), e]
        · have hl' : r.isNil = false := isNil_of_ne (by assumption)
          have q1 : 1 ≤ r.height := height_pos (by assumption)
          have hdown : it.down true = some ({ it with cur := r, stk := (it.cur, true) :: it.stk }, true) := by
            simp only [Iter.down, hcur, isNil_node, child, hl', Iter.push, Bool.false_eq_true, if_false,
              if_true]
            rw [if_pos (show it.stk.length < it.cap by omega)]
            rfl
          simp only [hdown, Option.bind_some, if_true]
          rw [hcur]
          exact ih (it := { it with cur := r, stk := (node h k v l r, true) :: it.stk }) hcap hp.right
            hl (by show r.height ≤ n; omega) (by
              intro e he
              simp only [befores, ← List.append_assoc] at he
              exact hL e he) (by simpa [afters] using ha)


/-- The calls that search no key. -/
def plain : IOp K → Bool
  | .seekGE _ | .seekGT _ | .seekLE _ | .seekLT _ => false
  | _ => true

theorem istep_plain {cmp : K → K → Int} (o : K → K → Ordering) {root : Tree A K V} {it : Iter A K V}
    {p : Option Int} {op : IOp K} (ho : plain op = true) (hl : ilegal root.toList p op)
    (h : Place root it p) :
    ∃ it', istep cmp false root it op = some (it', (ispec o false root.toList p op).2) ∧
      Place root it' (ispec o false root.toList p op).1 := by
  have hcap := h.cap
  cases op with
  | seekToFirst =>
    obtain ⟨it', h1, -, h3⟩ := seekFirst_ok hcap
    exact ⟨it', by simp only [istep, h1]; rfl, h3⟩
  | seekToLast =>
    obtain ⟨it', h1, -, h3⟩ := seekLast_ok hcap
    exact ⟨it', by simp only [istep, h1]; rfl, h3⟩
  | next =>
    obtain ⟨it', h1, -, h3⟩ := move_true h
    exact ⟨it', by simp only [istep, h1]; rfl, h3⟩
  | prev =>
    obtain ⟨it', h1, -, h3⟩ := move_false h
    exact ⟨it', by simp only [istep, h1]; rfl, h3⟩
  | seekGE k => cases ho
  | seekGT k => cases ho
  | seekLE k => cases ho
  | seekLT k => cases ho
  | valid =>
    refine ⟨it, ?_, h⟩
    simp only [istep, ispec]
    cases h with
    | unset h1 h2 h3 => simp [h2, isNil]
    | on h => have := h.before; have h5 := h.not_nil; simp [h5]; omega
    | after h1 _ h => simp [h1, isNil]
    | before h1 _ h => simp [h1, isNil]
  | entry =>
    refine ⟨it, ?_, h⟩
    obtain ⟨i, hi, i1, i2⟩ := hl
    subst hi
    cases h with
    | @on L e R h =>
      have h6 := h.list
      obtain ⟨-, -, hh, l, r, h1, -, -⟩ := h
      simp only [istep, h1, ispec, h6]
      simp
    | after h1 _ h => omega
    | before h1 _ h => omega
  | clone => exact ⟨_, rfl, h⟩

/-- The cursor in a tree with duplicate keys: a seek answers whether the key is there and goes where
`Lands` allows; the other calls are those of `ispec`. -/
def cursor (o : K → K → Ordering) (xs : List (K × V)) (p : Option Int) (op : IOp K) (r : IRes K V)
    (p' : Option Int) : Prop :=
  match op with
  | .seekGE k => sought k true false
  | .seekGT k => sought k true true
  | .seekLE k => sought k false false
  | .seekLT k => sought k false true
  | op => (p', r) = ispec o false xs p op
where
  sought (k : K) (c strict : Bool) : Prop :=
    r = .bool (xs.any fun e => o e.1 k == .eq) ∧
    if xs.isEmpty then p' = none else ∃ pos, p' = some pos ∧ Lands o k c strict xs pos

theorem istep_dup {cmp : K → K → Int} (hc : LawfulEx cmp) {root : Tree A K V}
    (hs : SortedLE (fun a b => exOrd (cmp a b)) root.toList) {it : Iter A K V} {p : Option Int}
    {op : IOp K} (hl : ilegal root.toList p op) (h : Place root it p) :
    ∃ it' r p', istep cmp false root it op = some (it', r) ∧
      cursor (fun a b => exOrd (cmp a b)) root.toList p op r p' ∧ Place root it' p' := by
  have hcap := h.cap
  have hseek : ∀ k c strict, ∃ it' p', istep.seek cmp false root it k c strict =
      some (it', root.toList.any fun e => exOrd (cmp e.1 k) == .eq) ∧ Place root it' p' ∧
      if root.toList.isEmpty then p' = none else ∃ pos, p' = some pos ∧
        Lands (fun a b => exOrd (cmp a b)) k c strict root.toList pos := by
    intro k c strict
    simp only [istep.seek, Bool.false_eq_true, if_false, Iter.seek]
    by_cases he : root = nil
    · subst he
      simp only [isNil_nil, if_true, toList_nil, List.isEmpty_nil, List.any_nil]
      refine ⟨_, none, rfl, ?_, rfl⟩
      cases h with
      | unset h1 h2 h3 => exact .unset h1 rfl h3
      | on h => have := h.list; simp at this
      | after _ _ h => have := h.list; simp at this
      | before _ _ h => have := h.list; simp at this
    · have hne : root.toList.isEmpty = false := by
        cases hh : root.toList with
        | nil => exact absurd (toList_eq_nil.1 hh) he
        | cons => rfl
      rw [if_neg (by rw [isNil_of_ne he]; simp)]
      simp only [hne, Bool.false_eq_true, if_false]
      obtain ⟨it', b, h1, h2, h3, pos, h4, h5⟩ := seekLoop_dup hc (key := k) (c := c) (strict := strict)
        hs (it := { it with cur := root, stk := [] }) hcap .root he
        (Iter.fuel { it with cur := root, stk := [] }) (by simp only [Iter.fuel]; omega)
        (by simp [befores]) (by simp [afters])
      exact ⟨it', some pos, by rw [h1, h3], h4, pos, rfl, h5⟩
  by_cases ho : plain op = true
  · obtain ⟨it', h1, h2⟩ := istep_plain (cmp := cmp) (fun a b => exOrd (cmp a b)) ho hl h
    refine ⟨it', _, _, h1, ?_, h2⟩
    cases op <;> first | rfl | cases ho
  · cases op with
    | seekGE k =>
      obtain ⟨it', p', h1, h2, h3⟩ := hseek k true false
      exact ⟨it', _, p', by simp only [istep, h1]; rfl, ⟨rfl, h3⟩, h2⟩
    | seekGT k =>
      obtain ⟨it', p', h1, h2, h3⟩ := hseek k true true
      exact ⟨it', _, p', by simp only [istep, h1]; rfl, ⟨rfl, h3⟩, h2⟩
    | seekLE k =>
      obtain ⟨it', p', h1, h2, h3⟩ := hseek k false false
      exact ⟨it', _, p', by simp only [istep, h1]; rfl, ⟨rfl, h3⟩, h2⟩
    | seekLT k =>
      obtain ⟨it', p', h1, h2, h3⟩ := hseek k false true
      exact ⟨it', _, p', by simp only [istep, h1]; rfl, ⟨rfl, h3⟩, h2⟩
    | _ => exact absurd rfl ho

/-- Histories on an iterator that has room, without `Key` and `Value`. -/
theorem irun_dup {cmp : K → K → Int} (hc : LawfulEx cmp) {root : Tree A K V}
    (hs : SortedLE (fun a b => exOrd (cmp a b)) root.toList) (ops : List (IOp K))
    (hops : IOp.entry ∉ ops) : ∀ {it : Iter A K V} {p : Option Int}, Place root it p →
    ∃ it' rs p', run (istep cmp false root) it ops = some (it', rs) ∧
      Trace (cursor (fun a b => exOrd (cmp a b)) root.toList) p ops rs p' ∧
      it'.current = entryAt root.toList p' := by
  induction ops with
  | nil => exact fun {it p} h => ⟨it, [], p, rfl, .nil p, h.current⟩
  | cons op ops ih =>
    intro it p h
    have hl : ilegal root.toList p op := by
      cases op <;> first | trivial | exact absurd (List.mem_cons_self ..) hops
    obtain ⟨it1, r, p1, h1, h2, h3⟩ := istep_dup hc hs hl h
    obtain ⟨it2, rs, p2, h4, h5, h6⟩ := ih (fun h => hops (List.mem_cons_of_mem _ h)) h3
    exact ⟨it2, r :: rs, p2, by simp [run, h1, h4], .cons h2 h5, h6⟩

/-- Histories without search, on an iterator that has room. -/
theorem irun_plain {cmp : K → K → Int} (o : K → K → Ordering) {root : Tree A K V} (ops : List (IOp K))
    (hops : ∀ op ∈ ops, plain op = true) : ∀ {it : Iter A K V} {p : Option Int}, Place root it p →
    LegalRun (ispec o false root.toList) (ilegal root.toList) p ops →
    ∃ it', run (istep cmp false root) it ops =
      some (it', (runSpec (ispec o false root.toList) p ops).2) := by
  induction ops with
  | nil => exact fun {it p} _ _ => ⟨it, rfl⟩
  | cons op ops ih =>
    intro it p h hl
    obtain ⟨it1, h1, h2⟩ := istep_plain (cmp := cmp) o (hops op (by simp)) hl.1 h
    obtain ⟨it2, h3⟩ := ih (fun op h => hops op (by simp [h])) h2 hl.2
    exact ⟨it2, by simp [run, runSpec, h1, h3]⟩

theorem height_le_length (t : Tree A K V) : t.height ≤ t.toList.length := by
  induction t with
  | nil => simp [height]
  | node a k v l r ihl ihr => simp only [height, toList_node, List.length_append, List.length_cons]; omega

theorem scan_plain (back : Bool) (n : Nat) : ∀ op ∈ (scan back n : List (IOp K)), plain op = true := by
  intro op h
  simp only [scan, List.cons_append, List.mem_cons, List.mem_append, List.mem_flatten,
    List.mem_replicate] at h
  rcases h with rfl | ⟨l, ⟨-, rfl⟩, h⟩ | h
  · cases back <;> rfl
  · simp only [List.mem_cons, List.not_mem_nil, or_false] at h
    rcases h with rfl | rfl | rfl
    · rfl
    · rfl
    · cases back <;> rfl
  · rcases h with rfl | h
    · rfl
    · cases h

end Verif.Priority
