import Verif.Conc.Props
import Verif.Skip.LiveProps

/-! What `RemoveHead` of a shared skip list finds: the stages of its code, and what the other calls do to the
list in between. -/

namespace Verif.Skip

open Verif.Size (ord)

variable {K V : Type} {cmp : K → K → Int}

/-- The calls that may remove entries. -/
def Op.removes : Op K V → Bool
  | .put _ _ _ | .putDup _ _ _ | .get _ | .size | .head | .tail | .index _ | .indexOf _ | .traverse _ | .slices => false
  | _ => true

/-- The other calls keep all nodes. -/
theorem keeps_nodes (hc : Lawful cmp) {s s' : SL K V} {as as' : List Nat} {ht ht' : Nat → Nat}
    (g : Good cmp s as ht) {op : Op K V} (ho : op.removes = false) {r : Res K V} (e : step cmp s op = some (s', r))
    (g' : Good cmp s' as' ht') (he : Eff cmp s as s' as') : ∀ t ∈ as, t ∈ as' := by
  have := hc.transCmp
  intro t ht0
  have hl : legal (as.map s.ent) op := by cases op <;> first | trivial | (cases ho; done)
  obtain ⟨s1, e1, h1⟩ := step_ok hc ⟨as, ht, g, rfl⟩ op hl
  rw [e] at e1
  cases e1
  obtain ⟨bs, ht1, g1, hx⟩ := h1
  have hb : bs = as' := by
    have h2 := g1.nodes
    rw [g'.nodes] at h2
    exact (Option.some.inj h2).symm
  subst hb
  suffices hm : ∃ x ∈ (spec (ord cmp) (as.map s.ent) op).1, ord cmp x.1 (s.heap t).key = .eq by
    obtain ⟨x, hxm, hxe⟩ := hm
    rw [hx] at hxm
    obtain ⟨t', ht', rfl⟩ := List.mem_map.1 hxm
    rw [← he.keep t ht0 t' ht' hxe]
    exact ht'
  have hmem : s.ent t ∈ as.map s.ent := List.mem_map.2 ⟨t, ht0, rfl⟩
  have hself : ∃ x ∈ as.map s.ent, ord cmp x.1 (s.heap t).key = .eq :=
    ⟨s.ent t, hmem, Std.ReflCmp.compare_self⟩
  have hput : ∀ (k : K) (v : V), (∃ x ∈ (as.map s.ent).map fun e => if ord cmp e.1 k == .eq then (e.1, v) else e,
        ord cmp x.1 (s.heap t).key = .eq) ∧
      ∃ x ∈ Avl.insertEntry (ord cmp) (k, v) (as.map s.ent), ord cmp x.1 (s.heap t).key = .eq := by
    intro k v
    refine ⟨⟨_, List.mem_map.2 ⟨s.ent t, hmem, rfl⟩, ?_⟩, ?_⟩
    · split
      · exact Std.ReflCmp.compare_self
      · exact Std.ReflCmp.compare_self
    · simp only [Avl.insertEntry, List.mem_append, List.mem_cons, List.mem_filter, beq_iff_eq]
      cases hk : ord cmp (s.heap t).key k with
      | lt => exact ⟨s.ent t, .inl ⟨hmem, hk⟩, Std.ReflCmp.compare_self⟩
      | gt => exact ⟨s.ent t, .inr (.inr ⟨hmem, hk⟩), Std.ReflCmp.compare_self⟩
      | eq => exact ⟨(k, v), .inr (.inl rfl), Std.OrientedCmp.eq_symm hk⟩
  cases op <;> first | exact hself | (cases ho; done) | skip
  · rename_i k v coins
    simp only [spec]
    split
    · exact (hput k v).1
    · exact (hput k v).2
  · rename_i k v coins
    simp only [spec]
    split
    · exact (hput k v).1
    · exact (hput k v).2

end Verif.Skip

namespace Verif.Conc

open Verif.Skip (SL Op Res Iter IOp IRes new Good Eff Holds)
open Verif.Size (ord)

variable {L K V : Type} [DecidableEq L] {cmp : K → K → Int}

/-- The calls that may remove entries of the list `l`. -/
def Call.removes (l : L) : Call L K V → Bool
  | .on l' op => decide (l' = l) && op.removes
  | _ => false

/-! ### Writes -/

/-- All that a call writes is what its method does, at once. -/
def Writes (cmp : K → K → Int) (o : Call L K V) : Code L K V → Prop
  | .ret _ => True
  | .panic => True
  | .tail _ => True
  | .lock _ k => Writes cmp o k
  | .acc l f k => (f = id ∨ ∃ op, o = .on l op ∧ f = fun s => ((Skip.step cmp s op).map (·.1)).getD s) ∧
      ∀ s, Writes cmp o (k s)

theorem diffLoop_writes (o : Call L K V) (b : L) (coins : Nat → List Bool) (junk : K × V) (es : List (K × V)) :
    ∀ kept, Writes cmp o (diffLoop cmp b coins junk es kept) := by
  induction es with
  | nil =>
    intro kept
    rw [diffLoop]
    split <;> trivial
  | cons e es ih =>
    intro kept
    rw [diffLoop]
    refine ⟨.inl rfl, fun t => ?_⟩
    simp only
    split
    · exact ih _
    · exact ih _
    · trivial

theorem whole_writes (l : L) (op : Op K V) : Writes cmp (.on l op)
    (whole l fun s => (Skip.step cmp s op).map fun p => (p.1, CRes.res p.2)) := by
  refine ⟨.inr ⟨op, rfl, ?_⟩, fun s => ?_⟩
  · funext s
    simp only
    cases Skip.step cmp s op <;> rfl
  · simp only
    split <;> trivial

theorem code_writes (o : Call L K V) : Writes cmp o (code cmp o) := by
  cases o with
  | on l op =>
    cases op <;> first | exact whole_writes l _ | skip
    refine ⟨.inl rfl, fun s => ?_⟩
    simp only
    split
    · trivial
    · refine ⟨.inl rfl, fun s => ⟨.inl rfl, fun s' => ?_⟩⟩
      simp only
      split
      · exact ⟨.inl rfl, fun s => trivial⟩
      · trivial
  | inter a b coins junk =>
    refine ⟨.inl rfl, fun s => ⟨.inl rfl, fun t => ?_⟩⟩
    simp only
    split <;> trivial
  | union a b coins junk =>
    refine ⟨.inl rfl, fun s => ⟨.inl rfl, fun t => ?_⟩⟩
    simp only
    split <;> trivial
  | diff a b coins junk =>
    refine ⟨.inl rfl, fun s => ?_⟩
    simp only
    split
    · trivial
    · exact diffLoop_writes _ _ _ _ _ _
  | iter l it op =>
    simp only [code]
    split
    · refine ⟨.inl rfl, fun s => ?_⟩
      simp only
      split <;> trivial
    · refine ⟨.inl rfl, fun s => ?_⟩
      simp only
      split <;> trivial

abbrev SConf (L K V : Type) := Conf L (SL K V) (Call L K V) (CRes K V)

/-- All calls under way write nothing else. -/
def AllWrite (cmp : K → K → Int) (c : SConf L K V) : Prop :=
  ∀ m o p held, c.pc m = .busy o p held → Writes cmp o p

/-- What a step does to the memory, and to the places of the calls. -/
theorem next_effect {c c' : SConf L K V} {x : Choice (Call L K V)} (hw : AllWrite cmp c)
    (h : next (code cmp) c x = some c') : AllWrite cmp c' ∧
    ((c'.mem = c.mem) ∨ ∃ m l op p held, x = .go m ∧ c.pc m = .busy (.on l op) p held ∧
      c'.mem = upd c.mem l (((Skip.step cmp (c.mem l) op).map (·.1)).getD (c.mem l))) := by
  have other : ∀ (n : Nat) (q : PC L (SL K V) (Call L K V) (CRes K V)), c'.pc = upd c.pc n q →
      (∀ o p held, q = .busy o p held → Writes cmp o p) → AllWrite cmp c' := by
    intro n q hq hn m o p held hb
    rw [hq] at hb
    by_cases hm : m = n
    · subst hm; rw [upd_same] at hb; exact hn o p held hb
    · rw [upd_ne _ _ hm] at hb; exact hw m o p held hb
  cases x with
  | start n o =>
    simp only [next] at h
    cases hp : c.pc n with
    | idle =>
      rw [hp] at h; cases h
      exact ⟨other n _ rfl fun _ _ _ e => by cases e; exact code_writes o, .inl rfl⟩
    | busy => rw [hp] at h; cases h
    | leaving => rw [hp] at h; cases h
    | gone => rw [hp] at h; cases h
  | go n =>
    simp only [next] at h
    cases hp : c.pc n with
    | idle => rw [hp] at h; cases h
    | gone => rw [hp] at h; cases h
    | busy o p held =>
      have hwn := hw n o p held hp
      rw [hp] at h
      cases p with
      | ret r => cases h; exact ⟨other n _ rfl fun _ _ _ e => (by cases e), .inl rfl⟩
      | panic => cases h; exact ⟨other n _ rfl fun _ _ _ e => (by cases e), .inl rfl⟩
      | tail o' => cases h; exact ⟨other n _ rfl fun _ _ _ e => by cases e; exact code_writes o', .inl rfl⟩
      | lock l k =>
        simp only at h
        cases hol : c.owner l with
        | some j => rw [hol] at h; cases h
        | none => rw [hol] at h; cases h; exact ⟨other n _ rfl fun _ _ _ e => by cases e; exact hwn, .inl rfl⟩
      | acc l f k =>
        cases h
        refine ⟨other n _ rfl fun _ _ _ e => by cases e; exact hwn.2 _, ?_⟩
        rcases hwn.1 with rfl | ⟨op, rfl, rfl⟩
        · exact .inl (upd_id _ _)
        · exact .inr ⟨n, l, op, _, held, rfl, hp, rfl⟩
    | leaving o r held =>
      rw [hp] at h
      cases held with
      | nil => cases h; exact ⟨other n _ rfl fun _ _ _ e => (by cases e), .inl rfl⟩
      | cons l held => cases h; exact ⟨other n _ rfl fun _ _ _ e => (by cases e), .inl rfl⟩

/-- What a step does to one list. -/
theorem next_list (hc : Lawful cmp) {c c' : SConf L K V} {x : Choice (Call L K V)} (hw : AllWrite cmp c)
    (h : next (code cmp) c x = some c') (l : L) {as : List Nat} {ht : Nat → Nat} (g : Good cmp (c.mem l) as ht) :
    ∃ as' ht', Good cmp (c'.mem l) as' ht' ∧ Eff cmp (c.mem l) as (c'.mem l) as' ∧
      ((∀ m o p held, x = .go m → c.pc m = .busy o p held → o.removes l = false) → ∀ t ∈ as, t ∈ as') := by
  rcases (next_effect hw h).2 with e | ⟨m, l', op, p, held, rfl, hb, e⟩
  · rw [e]; exact ⟨as, ht, g, .refl hc g, fun _ _ h => h⟩
  · by_cases hl : l = l'
    · subst hl
      obtain ⟨s', r, as', ht', e1, g', he⟩ := Skip.step_eff hc g op
      rw [e, upd_same, e1]
      refine ⟨as', ht', g', he, fun hr => ?_⟩
      have := hr m _ p held rfl hb
      simp only [Call.removes, decide_true, Bool.true_and] at this
      exact Skip.keeps_nodes hc g this e1 g' he
    · rw [e, upd_ne _ _ hl]; exact ⟨as, ht, g, .refl hc g, fun _ _ h => h⟩

/-! ### Stages of `RemoveHead` -/

def rest4 (l : L) (p : Nat) : Code L K V := .acc l id fun s => .tail (.on l (.remove (s.heap p).key))

def rest3 (l : L) (hd : Nat) : Code L K V := .acc l id fun s' =>
  match (s'.heap hd).fwd[0]? with
  | some (some p) => rest4 l p
  | _ => .panic

def rest2 (l : L) : Code L K V := .acc l id fun s => rest3 l s.header

theorem removeHead_eq (l : L) : (removeHead l : Code L K V) =
    .acc l id fun s => if s.size = 0 then .ret (.res (.slice none)) else rest2 l := rfl

/-- The `Remove` in the end, with its lock. -/
def inner (cmp : K → K → Int) (l : L) (k : K) : Code L K V :=
  .acc l (fun s => ((((Skip.step cmp s (.remove k)).map fun p => (p.1, CRes.res p.2)) :
      Option (SL K V × CRes K V)).map (·.1)).getD s) fun s =>
    match (Skip.step cmp s (.remove k)).map fun p => (p.1, CRes.res p.2) with
    | none => .panic
    | some p => .ret p.2

theorem remove_eq (l : L) (k : K) : (code cmp (.on l (.remove k)) : Code L K V) = .lock l (inner cmp l k) := rfl

/-- The key is in the list, at a node. -/
def Has (s : SL K V) (k : K) : Prop := ∃ as p, s.nodes = some as ∧ p ∈ as ∧ (s.heap p).key = k

/-- How a `RemoveHead` of `l` ends: `E`: the list was empty at a moment; `A`: no other call removes from the list;
`past k`: the first entry had the key `k` at a moment. -/
def Out (cmp : K → K → Int) (l : L) (E A : Prop) (past : K → Prop) (o : Call L K V) (r : Option (CRes K V)) : Prop :=
  (o = .on l .removeHead ∧ E ∧ (r = some (.res (.slice none)) ∨ r = none ∧ ¬ A)) ∨
  ∃ k x, o = .on l (.remove k) ∧ r = some (.res (.slice x)) ∧ (E ∨ past k) ∧
    (A → past k ∧ ∃ e, x = some e ∧ ord cmp e.1 k = .eq)

/-- Where a `RemoveHead` of `l` is, and what it knows about the list. -/
inductive Stage (cmp : K → K → Int) (l : L) (E A : Prop) (past : K → Prop) (s : SL K V) :
    PC L (SL K V) (Call L K V) (CRes K V) → Prop
  | idle : Stage cmp l E A past s .idle
  | one : Stage cmp l E A past s (.busy (.on l .removeHead) (removeHead l) [])
  | two : (A → s.size ≠ 0) → Stage cmp l E A past s (.busy (.on l .removeHead) (rest2 l) [])
  | three (hd : Nat) : (E ∨ hd = s.header) → (A → hd = s.header ∧ s.size ≠ 0) →
      Stage cmp l E A past s (.busy (.on l .removeHead) (rest3 l hd) [])
  | four (p : Nat) : (E ∨ p < s.free ∧ past (s.heap p).key) →
      (A → past (s.heap p).key ∧ ∃ as, s.nodes = some as ∧ p ∈ as) →
      Stage cmp l E A past s (.busy (.on l .removeHead) (rest4 l p) [])
  | five (k : K) : (E ∨ past k) → (A → past k ∧ Has s k) →
      Stage cmp l E A past s (.busy (.on l .removeHead) (.tail (.on l (.remove k))) [])
  | six (k : K) : (E ∨ past k) → (A → past k ∧ Has s k) →
      Stage cmp l E A past s (.busy (.on l (.remove k)) (.lock l (inner cmp l k)) [])
  | seven (k : K) (held : List L) : (E ∨ past k) → (A → past k ∧ Has s k) →
      Stage cmp l E A past s (.busy (.on l (.remove k)) (inner cmp l k) held)
  | ret (o : Call L K V) (r : CRes K V) (held : List L) : Out cmp l E A past o (some r) →
      Stage cmp l E A past s (.busy o (.ret r) held)
  | panic (o : Call L K V) (held : List L) : Out cmp l E A past o none →
      Stage cmp l E A past s (.busy o .panic held)
  | leaving (o : Call L K V) (r : Option (CRes K V)) (held : List L) : Out cmp l E A past o r →
      Stage cmp l E A past s (.leaving o r held)
  | gone : Stage cmp l E A past s .gone

variable {l : L} {E A : Prop} {past : K → Prop} {s s' : SL K V} {as as' : List Nat} {ht ht' : Nat → Nat}

theorem Has.move (g : Good cmp s as ht) (g' : Good cmp s' as' ht') (he : Eff cmp s as s' as')
    (hs : ∀ t ∈ as, t ∈ as') {k : K} (h : Has s k) : Has s' k := by
  obtain ⟨bs, p, h1, h2, h3⟩ := h
  rw [g.nodes] at h1
  cases h1
  exact ⟨as', p, g'.nodes, hs p h2, (he.keys p (g.mem_lt h2)).trans h3⟩

/-- Other calls change the list. -/
theorem Stage.move (g : Good cmp s as ht) (g' : Good cmp s' as' ht') (he : Eff cmp s as s' as')
    {q : PC L (SL K V) (Call L K V) (CRes K V)}
    (hs : (∃ o p held, q = .busy o p held) → A → ∀ t ∈ as, t ∈ as')
    (hE : ∀ p, q = .busy (.on l .removeHead) p [] → as' = [] → E) (h : Stage cmp l E A past s q) :
    Stage cmp l E A past s' q := by
  have hne : (∀ t ∈ as, t ∈ as') → s.size ≠ 0 → s'.size ≠ 0 ∧ s'.header = s.header := by
    intro h1 h2
    have h3 := g.size
    have h4 := g'.size
    cases as with
    | nil => exact absurd h3 h2
    | cons a as =>
      have := h1 a (by simp)
      cases as' with
      | nil => cases this
      | cons b bs =>
        refine ⟨by rw [h4]; simp only [List.length_cons]; omega, ?_⟩
        rcases he.header with e | ⟨-, e⟩
        · exact e
        · cases e
  cases h with
  | idle => exact .idle
  | one => exact .one
  | two h => exact .two fun ha => (hne (hs ⟨_, _, _, rfl⟩ ha) (h ha)).1
  | three hd h1 h2 =>
    refine .three hd ?_ fun ha => ?_
    · rcases h1 with h1 | rfl
      · exact .inl h1
      · rcases he.header with e | ⟨-, e⟩
        · exact .inr e.symm
        · exact .inl (hE _ rfl e)
    · obtain ⟨h3, h4⟩ := h2 ha
      obtain ⟨h5, h6⟩ := hne (hs ⟨_, _, _, rfl⟩ ha) h4
      exact ⟨h3.trans h6.symm, h5⟩
  | four p h1 h2 =>
    refine .four p ?_ fun ha => ?_
    · rcases h1 with h1 | ⟨h1, h3⟩
      · exact .inl h1
      · exact .inr ⟨Nat.lt_of_lt_of_le h1 he.free, by rw [he.keys p h1]; exact h3⟩
    · obtain ⟨h3, bs, h4, h5⟩ := h2 ha
      rw [g.nodes] at h4
      cases h4
      exact ⟨by rw [he.keys p (g.mem_lt h5)]; exact h3, as', g'.nodes, hs ⟨_, _, _, rfl⟩ ha p h5⟩
  | five k h1 h2 => exact .five k h1 fun ha => ⟨(h2 ha).1, (h2 ha).2.move g g' he (hs ⟨_, _, _, rfl⟩ ha)⟩
  | six k h1 h2 => exact .six k h1 fun ha => ⟨(h2 ha).1, (h2 ha).2.move g g' he (hs ⟨_, _, _, rfl⟩ ha)⟩
  | seven k held h1 h2 => exact .seven k held h1 fun ha => ⟨(h2 ha).1, (h2 ha).2.move g g' he (hs ⟨_, _, _, rfl⟩ ha)⟩
  | ret o r held h => exact .ret o r held h
  | panic o held h => exact .panic o held h
  | leaving o r held h => exact .leaving o r held h
  | gone => exact .gone

/-- What `Remove` finds. -/
theorem remove_finds (hc : Lawful cmp) (g : Good cmp s as ht) (k : K) : ∃ s' x,
    Skip.step cmp s (.remove k) = some (s', .slice x) ∧ (Has s k → ∃ e, x = some e ∧ ord cmp e.1 k = .eq) := by
  have := hc.transCmp
  obtain ⟨s', e, -⟩ := Skip.step_ok hc ⟨as, ht, g, rfl⟩ (.remove k) trivial
  refine ⟨s', _, e, fun ⟨bs, p, h1, h2, h3⟩ => ?_⟩
  rw [g.nodes] at h1
  cases h1
  have hm : s.ent p ∈ as.map s.ent := List.mem_map.2 ⟨p, h2, rfl⟩
  cases hf : (as.map s.ent).find? fun e => ord cmp e.1 k == .eq with
  | none =>
    have := List.find?_eq_none.1 hf _ hm
    subst h3
    exact absurd (Std.ReflCmp.compare_self : ord cmp (s.heap p).key (s.heap p).key = .eq) (by simpa [SL.ent] using this)
  | some x => exact ⟨x, rfl, by simpa using List.find?_some hf⟩

/-- All lists are good, and the call `n` is at a stage of a `RemoveHead` of `l`. -/
structure HInv (cmp : K → K → Int) (n : Nat) (l : L) (E A : Prop) (past : K → Prop) (c : SConf L K V) : Prop where
  good : ∀ l, ∃ as ht, Good cmp (c.mem l) as ht
  writes : AllWrite cmp c
  stage : Stage cmp l E A past (c.mem l) (c.pc n)
  hist : ∀ o r, .ret n o r ∈ c.hist → Out cmp l E A past o r

theorem HInv.next (hc : Lawful cmp) {n : Nat} {c c' : SConf L K V} (h : HInv cmp n l E A past c)
    {x : Choice (Call L K V)} (hx : next (code cmp) c x = some c') (hstart : ∀ o, x = .start n o → o = .on l .removeHead)
    (hE : ∀ p held, c.pc n = .busy (.on l .removeHead) p held → Holds cmp (c.mem l) [] → E)
    (hE' : ∀ p held, c'.pc n = .busy (.on l .removeHead) p held → Holds cmp (c'.mem l) [] → E)
    (hA : A → (∃ o p held, c.pc n = .busy o p held) → ∀ m, m ≠ n → ∀ o p held, c.pc m = .busy o p held →
      o.removes l = false)
    (hpast : ∀ p held e es, c.pc n = .busy (.on l .removeHead) p held → Holds cmp (c.mem l) (e :: es) → past e.1) :
    HInv cmp n l E A past c' := by
  have hgood : ∀ l, ∃ as ht, Good cmp (c'.mem l) as ht := by
    intro l'
    obtain ⟨as, ht, g⟩ := h.good l'
    obtain ⟨as', ht', g', -⟩ := next_list hc h.writes hx l' g
    exact ⟨as', ht', g'⟩
  have hwr := (next_effect h.writes hx).1
  obtain ⟨as, ht, g⟩ := h.good l
  obtain ⟨as', ht', g', he, hkeep⟩ := next_list hc h.writes hx l g
  have hsz := g.size
  have hempty : as = [] → Holds cmp (c.mem l) [] := by
    rintro rfl; exact g.holds
  -- steps of other calls
  have other : ∀ m, m ≠ n → (x = .go m ∨ ∃ o, x = .start m o) → c'.pc n = c.pc n →
      (∀ o r, .ret n o r ∈ c'.hist → .ret n o r ∈ c.hist) → HInv cmp n l E A past c' := by
    intro m hm hxm hpc hh
    refine ⟨hgood, hwr, ?_, fun o r hr => h.hist o r (hh o r hr)⟩
    rw [hpc]
    refine h.stage.move g g' he (fun hb ha => hkeep fun m' o p held hxm' hb' => ?_) (fun p hp e => ?_)
    · rcases hxm with e | ⟨o', e⟩
      · rw [e] at hxm'
        cases hxm'
        exact hA ha hb m hm o p held hb'
      · rw [e] at hxm'; cases hxm'
    · subst e
      exact hE' p [] (by rw [hpc]; exact hp) g'.holds
  cases x with
  | start m o =>
    by_cases hm : m = n
    · subst hm
      have ho := hstart o rfl
      subst ho
      simp only [Conc.next] at hx
      cases hp : c.pc m with
      | idle =>
        rw [hp] at hx
        cases hx
        refine ⟨hgood, hwr, ?_, fun o r hr => h.hist o r ?_⟩
        · simp only [upd_same]
          exact .one
        · simpa using hr
      | busy => rw [hp] at hx; cases hx
      | leaving => rw [hp] at hx; cases hx
      | gone => rw [hp] at hx; cases hx
    · refine other m hm (.inr ⟨o, rfl⟩) ?_ ?_
      · simp only [Conc.next] at hx
        split at hx
        · cases hx; exact upd_ne _ _ (Ne.symm hm)
        · cases hx
      · intro o' r hr
        simp only [Conc.next] at hx
        split at hx
        · cases hx; simpa using hr
        · cases hx
  | go m =>
    by_cases hm : m = n
    · subst hm
      have hst := h.stage
      simp only [Conc.next] at hx
      generalize hq : c.pc m = q at hst hx hE hpast
      cases hst with
      | idle => cases hx
      | gone => cases hx
      | one =>
        cases hx
        refine ⟨hgood, hwr, ?_, h.hist⟩
        simp only [upd_same, id]
        by_cases h0 : (c.mem l).size = 0
        · rw [if_pos h0]
          refine .ret _ _ _ (.inl ⟨rfl, hE _ _ rfl (hempty ?_), .inl rfl⟩)
          cases as with
          | nil => rfl
          | cons a as => rw [hsz] at h0; simp only [List.length_cons] at h0; omega
        · rw [if_neg h0]
          exact .two fun _ => h0
      | two h0 =>
        cases hx
        refine ⟨hgood, hwr, ?_, h.hist⟩
        simp only [upd_same, id]
        exact .three _ (.inr rfl) fun ha => ⟨rfl, h0 ha⟩
      | three hd h1 h2 =>
        cases hx
        refine ⟨hgood, hwr, ?_, h.hist⟩
        simp only [upd_same, id]
        by_cases hok : hd = (c.mem l).header ∧ as ≠ []
        · obtain ⟨rfl, hne⟩ := hok
          cases as with
          | nil => exact absurd rfl hne
          | cons a as =>
            have hf := g.first
            simp only [SL.first, List.head?_cons] at hf
            rw [hf]
            have hpa : past ((c.mem l).heap a).key := hpast _ _ ((c.mem l).ent a) (as.map (c.mem l).ent) rfl g.holds
            exact .four a (.inr ⟨g.mem_lt (by simp), hpa⟩) fun _ => ⟨hpa, _, g.nodes, by simp⟩
        · have he' : E := by
            rcases h1 with h1 | h1
            · exact h1
            · refine hE _ _ rfl (hempty ?_)
              by_contra hne
              exact hok ⟨h1, hne⟩
          have hna : ¬ A := by
            intro ha
            refine hok ⟨(h2 ha).1, ?_⟩
            rintro rfl
            exact (h2 ha).2 hsz
          split
          · exact .four _ (.inl he') fun ha => absurd ha hna
          · exact .panic _ _ (.inl ⟨rfl, he', .inr ⟨rfl, hna⟩⟩)
      | four p h1 h2 =>
        cases hx
        refine ⟨hgood, hwr, ?_, h.hist⟩
        simp only [upd_same, id]
        refine .five _ (h1.imp_right (·.2)) fun ha => ?_
        obtain ⟨h3, bs, h4, h5⟩ := h2 ha
        exact ⟨h3, bs, p, h4, h5, rfl⟩
      | five k h1 h2 =>
        cases hx
        refine ⟨hgood, hwr, ?_, fun o r hr => h.hist o r ?_⟩
        · simp only [upd_same]
          exact .six k h1 h2
        · simpa using hr
      | six k h1 h2 =>
        simp only at hx
        cases hol : c.owner l with
        | some j => rw [hol] at hx; cases hx
        | none =>
          rw [hol] at hx
          cases hx
          refine ⟨hgood, hwr, ?_, h.hist⟩
          simp only [upd_same]
          exact .seven k _ h1 h2
      | seven k held h1 h2 =>
        cases hx
        refine ⟨hgood, hwr, ?_, h.hist⟩
        obtain ⟨s1, y, e, hy⟩ := remove_finds hc g k
        simp only [upd_same, e, Option.map_some]
        exact .ret _ _ _ (.inr ⟨k, y, rfl, rfl, h1, fun ha => ⟨(h2 ha).1, hy (h2 ha).2⟩⟩)
      | ret o r held h1 =>
        cases hx
        refine ⟨hgood, hwr, ?_, h.hist⟩
        simp only [upd_same]
        exact .leaving _ _ _ h1
      | panic o held h1 =>
        cases hx
        refine ⟨hgood, hwr, ?_, h.hist⟩
        simp only [upd_same]
        exact .leaving _ _ _ h1
      | leaving o r held h1 =>
        cases held with
        | nil =>
          cases hx
          refine ⟨hgood, hwr, ?_, fun o' r' hr => ?_⟩
          · simp only [upd_same]
            exact .gone
          · rcases List.mem_append.1 hr with hr | hr
            · exact h.hist o' r' hr
            · simp only [List.mem_singleton, Event.ret.injEq] at hr
              obtain ⟨-, rfl, rfl⟩ := hr
              exact h1
        | cons l' held =>
          cases hx
          refine ⟨hgood, hwr, ?_, h.hist⟩
          simp only [upd_same]
          exact .leaving _ _ _ h1
    · refine other m hm (.inl rfl) ?_ ?_
      · obtain ⟨q, hq, -⟩ := next_pstep hx
        rw [hq, upd_ne _ _ (Ne.symm hm)]
      · intro o r hr
        simp only [Conc.next] at hx
        cases hp : c.pc m with
        | idle => rw [hp] at hx; cases hx
        | gone => rw [hp] at hx; cases hx
        | busy o1 p held =>
          rw [hp] at hx
          cases p with
          | ret r => cases hx; exact hr
          | panic => cases hx; exact hr
          | acc l f k => cases hx; exact hr
          | tail o' => cases hx; simpa using hr
          | lock l k =>
            simp only at hx
            cases hol : c.owner l with
            | some j => rw [hol] at hx; cases hx
            | none => rw [hol] at hx; cases hx; exact hr
        | leaving o1 r1 held =>
          rw [hp] at hx
          cases held with
          | nil =>
            cases hx
            rcases List.mem_append.1 hr with hr | hr
            · exact hr
            · simp only [List.mem_singleton, Event.ret.injEq] at hr
              exact absurd hr.1.symm hm
          | cons l held => cases hx; exact hr

/-- The configurations that a schedule goes through. -/
def Moment (body : Call L K V → Code L K V) (c0 : SConf L K V) (xs : List (Choice (Call L K V))) (c : SConf L K V) : Prop :=
  ∃ ys, ys <+: xs ∧ sched body c0 ys = some c

theorem head_inv (hc : Lawful cmp) (c0 : SConf L K V) (n : Nat) (l : L) (xs : List (Choice (Call L K V)))
    (h0 : ∀ l, ∃ as ht, Good cmp (c0.mem l) as ht) (hpc : ∀ m, c0.pc m = .idle) (hh : c0.hist = [])
    (hs : ∀ o, .start n o ∈ xs → o = .on l .removeHead)
    (hE : ∀ c, Moment (code cmp) c0 xs c → ∀ p held, c.pc n = .busy (.on l .removeHead) p held →
      Holds cmp (c.mem l) [] → E)
    (hA : A → ∀ c, Moment (code cmp) c0 xs c → (∃ o p held, c.pc n = .busy o p held) → ∀ m, m ≠ n → ∀ o p held,
      c.pc m = .busy o p held → o.removes l = false)
    (hpast : ∀ c, Moment (code cmp) c0 xs c → ∀ p held e es, c.pc n = .busy (.on l .removeHead) p held →
      Holds cmp (c.mem l) (e :: es) → past e.1) :
    ∀ c, Moment (code cmp) c0 xs c → HInv cmp n l E A past c := by
  rintro c ⟨ys, hp, hc'⟩
  induction ys using List.reverseRecOn generalizing c with
  | nil =>
    cases hc'
    refine ⟨h0, fun m o p held hb => ?_, ?_, fun o r hr => ?_⟩
    · rw [hpc m] at hb; cases hb
    · rw [hpc n]; exact .idle
    · rw [hh] at hr; cases hr
  | append_singleton ys x ih =>
    have hp' : ys <+: xs := (List.prefix_append ys [x]).trans hp
    have hxm : x ∈ xs := hp.subset (by simp)
    have hm' : Moment (code cmp) c0 xs c := ⟨_, hp, hc'⟩
    rw [sched_append] at hc'
    cases hy : sched (code cmp) c0 ys with
    | none => rw [hy] at hc'; cases hc'
    | some c1 =>
      rw [hy] at hc'
      simp only [Option.bind_some, sched] at hc'
      cases hn : Conc.next (code cmp) c1 x with
      | none => rw [hn] at hc'; cases hc'
      | some c2 =>
        rw [hn] at hc'
        cases hc'
        have hm : Moment (code cmp) c0 xs c1 := ⟨ys, hp', hy⟩
        exact (ih c1 hp' hy).next hc hn (fun o e => hs o (e ▸ hxm)) (hE c1 hm) (hE _ hm') (fun ha => hA ha c1 hm)
          (hpast c1 hm)

end Verif.Conc
