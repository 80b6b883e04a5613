import Verif.Tree.AvlCallback
import Verif.Tree.AvlHeapMap
import Verif.Tree.AvlReach

/-! Calls that add and take out no entry leave the pointers of the tree as they are. -/

namespace Verif.AvlHeap
open Avl (Op Res ord spec has room)
open Verif.Tree
variable {K V τ : Type} {cmp : K → K → Int} {one : Bool} {d : Int} {zero : V}

/-! ### Pointers -/

/-- The same pointers. -/
def Links (m m' : Mem K V) : Prop := ∀ a, (m' a).lo = (m a).lo ∧ (m' a).hi = (m a).hi

theorem Links.refl (m : Mem K V) : Links m m := fun _ => ⟨rfl, rfl⟩

theorem Links.trans {m m' m'' : Mem K V} (h : Links m m') (h' : Links m' m'') : Links m m'' :=
  fun a => ⟨(h' a).1.trans (h a).1, (h' a).2.trans (h a).2⟩

theorem Links.write (m : Mem K V) (a : Nat) (f : K × V → K × V) : Links m (write m a f) := by
  intro b
  simp only [AvlHeap.write, upd]
  split <;> simp_all

theorem put_mem {free : Nat} {key : K} : ∀ {n : Nat} {m : Mem K V} {parent : Nat} {child : Bool}
    {p : Put K V}, put cmp one d zero free key n m parent child = some p → p.ex = true → p.mem = m := by
  intro n
  induction n with
  | zero => intro m parent child p h; cases h
  | succ n ih =>
    intro m parent child p h hx
    simp only [put] at h
    split at h
    · cases h; cases hx
    · split at h
      · cases h; rfl
      · simp only [Option.bind_eq_some_iff] at h
        obtain ⟨c, -, q, h1, h2⟩ := h
        split at h2
        · cases h2; exact ih h1 hx
        · next h3 =>
          simp only [Option.map_eq_some_iff] at h2
          obtain ⟨q', -, rfl⟩ := h2
          simp only at hx
          simp [hx] at h3

theorem remove_mem {key : K} : ∀ {n : Nat} {m m' : Mem K V} {g : Nat} {c2 c1 b : Bool},
    remove cmp one d key n m g c2 c1 = some (m', none, b) → m' = m ∧ b = false := by
  intro n
  induction n with
  | zero => intro m m' g c2 c1 b h; cases h
  | succ n ih =>
    intro m m' g c2 c1 b h
    simp only [remove, Option.bind_eq_some_iff] at h
    obtain ⟨parent, -, h⟩ := h
    split at h
    · cases h; exact ⟨rfl, rfl⟩
    · split at h
      · split at h
        · cases h
        · split at h
          · cases h
          · simp only [Option.bind_eq_some_iff, Option.map_eq_some_iff] at h
            obtain ⟨_, -, _, -, h⟩ := h
            cases h
      · simp only [Option.bind_eq_some_iff] at h
        obtain ⟨c, -, ⟨m1, o, b1⟩, h1, h2⟩ := h
        split at h2
        · next h3 =>
          simp only [Option.map_eq_some_iff] at h2
          obtain ⟨q', -, h2⟩ := h2
          simp only [Prod.mk.injEq] at h2
          obtain ⟨-, rfl, -⟩ := h2
          have := (ih h1).2
          simp [this] at h3
        · cases h2; exact ih h1

/-- A call that adds and takes out nothing moves no pointer. -/
theorem step_links {s s' : PMap K V} {op : Op K V} {r : Res K V}
    (h : step cmp one d zero s op = some (s', r)) (hq : quiet op r = true) : Links s.mem s'.mem := by
  have hput : ∀ k v p, s.put cmp one d zero k v = some p → p.2 = false → Links s.mem p.1.mem := by
    intro k v p h hp
    simp only [PMap.put, Option.map_eq_some_iff] at h
    obtain ⟨q, h1, rfl⟩ := h
    split at hp
    · next hx =>
      rw [if_pos hx]
      show Links s.mem q.mem
      rw [put_mem h1 hx]
      exact .refl _
    · cases hp
  have hset : ∀ k v p, s.set cmp one d zero k v = some p → p.2 = false → Links s.mem p.1.mem := by
    intro k v p h hp
    simp only [PMap.set, Option.map_eq_some_iff] at h
    obtain ⟨q, h1, rfl⟩ := h
    split at hp
    · next hx =>
      rw [if_pos hx]
      show Links s.mem (write q.mem _ _)
      rw [put_mem h1 hx]
      exact .write _ _ _
    · cases hp
  have hrem : ∀ k p, s.remove cmp one d k = some p → p.2 = none → Links s.mem p.1.mem := by
    intro k p h hp
    simp only [PMap.remove, Option.map_eq_some_iff] at h
    obtain ⟨⟨m', o, b⟩, h1, rfl⟩ := h
    simp only at hp
    subst hp
    show Links s.mem m'
    rw [(remove_mem h1).1]
    exact .refl _
  cases op with
  | put k v =>
    simp only [step, Option.map_eq_some_iff] at h
    obtain ⟨p, h1, h2⟩ := h
    cases h2
    exact hput k v p h1 (by simpa [quiet] using hq)
  | insertIfAbsent k v =>
    simp only [step, Option.map_eq_some_iff] at h
    obtain ⟨p, h1, h2⟩ := h
    cases h2
    exact hput k v p h1 (by simpa [quiet] using hq)
  | set k v =>
    simp only [step, Option.map_eq_some_iff] at h
    obtain ⟨p, h1, h2⟩ := h
    cases h2
    exact hset k v p h1 (by simpa [quiet] using hq)
  | upsert k v =>
    simp only [step, Option.map_eq_some_iff] at h
    obtain ⟨p, h1, h2⟩ := h
    cases h2
    simp only [PMap.upsert, Option.bind_eq_some_iff] at h1
    obtain ⟨e, -, h1⟩ := h1
    cases e with
    | some cur => cases h1; exact .write _ _ _
    | none =>
      simp only [Option.map_eq_some_iff] at h1
      obtain ⟨q, -, rfl⟩ := h1
      simp [quiet] at hq
  | get k =>
    simp only [step, Option.map_eq_some_iff] at h
    obtain ⟨o, -, h2⟩ := h; cases h2; exact .refl _
  | contains k =>
    simp only [step, Option.map_eq_some_iff] at h
    obtain ⟨o, -, h2⟩ := h; cases h2; exact .refl _
  | remove k =>
    simp only [step, Option.map_eq_some_iff] at h
    obtain ⟨p, h1, h2⟩ := h
    cases h2
    exact hrem k p h1 (by simpa [quiet] using hq)
  | delete k =>
    simp only [step, Option.map_eq_some_iff] at h
    obtain ⟨p, h1, h2⟩ := h
    cases h2
    exact hrem k p h1 (by simpa [quiet] using hq)
  | clear => cases hq
  | size => cases h; exact .refl _
  | len => cases h; exact .refl _
  | empty => cases h; exact .refl _
  | height =>
    simp only [step, Option.map_eq_some_iff] at h
    obtain ⟨o, -, h2⟩ := h; cases h2; exact .refl _
  | values =>
    simp only [step] at h
    split at h
    · cases h; exact .refl _
    · simp only [Option.map_eq_some_iff] at h
      obtain ⟨o, -, h2⟩ := h; cases h2; exact .refl _
  | traverse every =>
    simp only [step, Option.map_eq_some_iff] at h
    obtain ⟨o, -, h2⟩ := h; cases h2; exact .refl _

theorem prog_links {α : Type} : ∀ (p : Prog (Op K V) (Res K V) α) {s s' : PMap K V} {a : α}
    {cs : List (Op K V × Res K V)}, p.run (step cmp one d zero) s = some (s', a, cs) →
    (∀ c ∈ cs, quiet c.1 c.2 = true) → Links s.mem s'.mem
  | .ret a, s, s', b, cs, h, _ => by cases h; exact .refl _
  | .call op next, s, s', b, cs, h, hq => by
    simp only [Prog.run, Option.bind_eq_some_iff, Option.map_eq_some_iff] at h
    obtain ⟨⟨s1, r⟩, h1, ⟨s2, a2, cs2⟩, h2, h3⟩ := h
    cases h3
    exact (step_links h1 (hq (op, r) (by simp))).trans
      (prog_links (next r) h2 fun c hc => hq c (by simp [hc]))

/-- The pointers of the memory are those of the tree. -/
def Lk (m : Mem K V) : P K V → Prop
  | nil => True
  | node a _ _ l r => (m a.1).lo = ptr l ∧ (m a.1).hi = ptr r ∧ Lk m l ∧ Lk m r

theorem Rep.lk {m : Mem K V} : ∀ {t : P K V}, Rep m t → Lk m t
  | nil, _ => trivial
  | node _ _ _ _ _, h => ⟨by rw [h.1], by rw [h.1], h.2.1.lk, h.2.2.lk⟩

theorem Lk.congr {m m' : Mem K V} (hm : Links m m') : ∀ {t : P K V}, Lk m t → Lk m' t
  | nil, _ => trivial
  | node _ _ _ _ _, h => ⟨(hm _).1.trans h.1, (hm _).2.trans h.2.1, h.2.2.1.congr hm, h.2.2.2.congr hm⟩

/-- The addresses in the order of the keys. -/
def ino : P K V → List Nat
  | nil => []
  | node a _ _ l r => ino l ++ a.1 :: ino r

/-- The entry at an address. -/
def entry (m : Mem K V) (a : Nat) : K × V := ((m a).key, (m a).val)

theorem toList_ino {m : Mem K V} : ∀ {t : P K V}, Rep m t → t.toList = (ino t).map (entry m)
  | nil, _ => rfl
  | node _ _ _ _ _, h => by
    simp [ino, toList_ino h.2.1, toList_ino h.2.2, entry, h.1]

theorem ino_eq {m : Mem K V} : ∀ {t t' : P K V}, Lk m t → Lk m t' → ptr t = ptr t' → ino t = ino t'
  | nil, nil, _, _, _ => rfl
  | nil, node _ _ _ _ _, _, _, h => by simp at h
  | node _ _ _ _ _, nil, _, _, h => by simp at h
  | node a _ _ l r, node a' _ _ l' r', h, h', e => by
    simp only [ptr_node, Option.some.injEq] at e
    have e1 : ptr l = ptr l' := by rw [← h.1, e, h'.1]
    have e2 : ptr r = ptr r' := by rw [← h.2.1, e, h'.2.1]
    simp only [ino, e, ino_eq h.2.2.1 h'.2.2.1 e1, ino_eq h.2.2.2 h'.2.2.2 e2]

/-! ### The walk over a list of addresses -/

section
variable {every : τ → K → V → Prog (Op K V) (Res K V) (τ × Bool)}

/-- The callback gets the entries at these addresses. -/
def visitA (cmp : K → K → Int) (one : Bool) (d : Int) (zero : V)
    (every : τ → K → V → Prog (Op K V) (Res K V) (τ × Bool)) :
    List Nat → PMap K V → τ → Option (Walk (PMap K V) K V τ)
  | [], s, t => some ⟨s, t, true, [], []⟩
  | a :: as, s, t =>
    (handle cmp one d zero every s t (s.mem a).key (s.mem a).val).bind fun w =>
      if w.go then (visitA cmp one d zero every as w.state w.own).map w.after else some w

theorem after_assoc {S : Type} (a b c : Walk S K V τ) : (a.after b).after c = a.after (b.after c) := by
  simp [Walk.after]

theorem visitA_append : ∀ (as bs : List Nat) (s : PMap K V) (t : τ),
    visitA cmp one d zero every (as ++ bs) s t =
      (visitA cmp one d zero every as s t).bind fun w =>
        if w.go then (visitA cmp one d zero every bs w.state w.own).map w.after else some w := by
  intro as
  induction as with
  | nil =>
    intro bs s t
    simp only [List.nil_append, visitA, Option.bind_some, if_true]
    cases visitA cmp one d zero every bs s t <;> rfl
  | cons a as ih =>
    intro bs s t
    simp only [List.cons_append, visitA]
    cases handle cmp one d zero every s t (s.mem a).key (s.mem a).val with
    | none => rfl
    | some w =>
      simp only [Option.bind_some]
      by_cases hg : w.go = true
      · simp only [hg, if_true, ih]
        cases visitA cmp one d zero every as w.state w.own with
        | none => rfl
        | some w' =>
          simp only [Option.bind_some, Option.map_some]
          show _ = if w'.go = true then Option.map (w.after w').after
            (visitA cmp one d zero every bs w'.state w'.own) else _
          split
          · cases visitA cmp one d zero every bs w'.state w'.own with
            | none => rfl
            | some w'' => exact congrArg some (after_assoc _ _ _).symm
          · rfl
      · simp [hg]

theorem handle_links {s : PMap K V} {t : τ} {k : K} {v : V} {w : Walk (PMap K V) K V τ}
    (h : handle cmp one d zero every s t k v = some w) (hq : ∀ c ∈ w.calls, quiet c.1 c.2 = true) :
    Links s.mem w.state.mem := by
  simp only [handle, Option.map_eq_some_iff] at h
  obtain ⟨⟨s', a, cs⟩, h1, rfl⟩ := h
  exact prog_links _ h1 hq

/-- The recursion of `Traverse` hands over the entries at the addresses of the tree in order, if the
callback moves no pointer. -/
theorem walk_visitA : ∀ {n : Nat} {t₀ : P K V} {s : PMap K V} {t : τ} {w : Walk (PMap K V) K V τ},
    t₀.height < n → Lk s.mem t₀ → visitA cmp one d zero every (ino t₀) s t = some w →
    (∀ c ∈ w.calls, quiet c.1 c.2 = true) →
    walk cmp one d zero every n s t (ptr t₀) = some w ∧ Links s.mem w.state.mem := by
  intro n
  induction n with
  | zero => intro t₀ s t w h; omega
  | succ n ih =>
    intro t₀ s t w hh hl hv hq
    match t₀ with
    | nil => cases hv; exact ⟨rfl, .refl _⟩
    | node a k v l r =>
      obtain ⟨e1, e2, hl1, hl2⟩ := hl
      simp only [Tree.height] at hh
      rw [ino, visitA_append] at hv
      simp only [Option.bind_eq_some_iff] at hv
      obtain ⟨w1, h1, h2⟩ := hv
      simp only [ptr_node, walk, e1]
      by_cases hg : w1.go = true
      · rw [if_pos hg] at h2
        simp only [Option.map_eq_some_iff] at h2
        obtain ⟨w2, h2, rfl⟩ := h2
        obtain ⟨i1, i2⟩ := ih (by omega) hl1 h1 fun c hc => hq c (by simp [Walk.after, hc])
        simp only [i1, Option.bind_some, hg, Bool.not_true, Bool.false_eq_true, if_false]
        simp only [visitA, Option.bind_eq_some_iff] at h2
        obtain ⟨w3, h3, h4⟩ := h2
        simp only [h3, Option.bind_some]
        by_cases hg3 : w3.go = true
        · rw [if_pos hg3] at h4
          simp only [Option.map_eq_some_iff] at h4
          obtain ⟨w4, h4, rfl⟩ := h4
          have l3 := handle_links h3 fun c hc => hq c (by simp [Walk.after, hc])
          have l13 := i2.trans l3
          obtain ⟨j1, j2⟩ := ih (by omega) (hl2.congr l13) h4 fun c hc => hq c (by simp [Walk.after, hc])
          simp only [hg3, Bool.not_true, Bool.false_eq_true, if_false]
          rw [show (w3.state.mem a.1).hi = ptr r from (l13 _).2.trans e2, j1]
          exact ⟨congrArg some (after_assoc _ _ _), l13.trans j2⟩
        · rw [if_neg hg3] at h4
          cases h4
          have l3 := handle_links h3 fun c hc => hq c (by simp [Walk.after, hc])
          simp only [hg3, Bool.not_false, if_true]
          exact ⟨trivial, i2.trans l3⟩
      · rw [if_neg hg] at h2
        cases h2
        obtain ⟨i1, i2⟩ := ih (by omega) hl1 h1 hq
        simp only [i1, Option.bind_some, hg, Bool.not_false, if_true]
        exact ⟨trivial, i2⟩

end

/-! ### Against the ideal map -/

/-- Keys that are equal for the comparison, one by one. -/
def SameKeys (o : K → K → Ordering) (l l' : List (K × V)) : Prop :=
  List.Forall₂ (fun e e' => o e.1 e'.1 = .eq) l l'

theorem SameKeys.refl {o : K → K → Ordering} [Std.TransCmp o] (l : List (K × V)) : SameKeys o l l :=
  List.forall₂_same.2 fun _ _ => Ord.refl _

theorem SameKeys.trans {o : K → K → Ordering} [Std.TransCmp o] {l l' l'' : List (K × V)}
    (h : SameKeys o l l') (h' : SameKeys o l' l'') : SameKeys o l l'' := by
  induction h generalizing l'' with
  | nil => exact h'
  | cons h1 _ ih =>
    cases h' with
    | cons h2 h3 => exact .cons (Ord.eq_trans h1 h2) (ih h3)

theorem sameKeys_map {o : K → K → Ordering} [Std.TransCmp o] {k : K} {f : K × V → K × V}
    (hf : ∀ e, o e.1 k = .eq → o e.1 (f e).1 = .eq) : ∀ l : List (K × V),
    SameKeys o l (l.map fun e => if o e.1 k == .eq then f e else e)
  | [] => .nil
  | e :: l => by
    refine .cons ?_ (sameKeys_map hf l)
    by_cases h : o e.1 k = .eq
    · simp [h, hf e h]
    · simp only [beq_iff_eq, h, if_false]; exact Ord.refl _

/-- A quiet call leaves the keys as they are. -/
theorem spec_quiet {o : K → K → Ordering} [Std.TransCmp o] {l : List (K × V)} {op : Op K V}
    (hq : quiet op (spec o l op).2 = true) : SameKeys o l (spec o l op).1 := by
  have hfil : ∀ k : K, ((l.find? fun e => o e.1 k == .eq).map (·.2)).isNone = true →
      l.filter (fun e => o e.1 k != .eq) = l := by
    intro k h
    rw [List.filter_eq_self]
    intro e he
    simp only [Option.isNone_map, Option.isNone_iff_eq_none, List.find?_eq_none] at h
    simpa using h e he
  cases op with
  | put k v => simp only [spec] at hq ⊢; split at hq <;> [skip; cases hq]; rw [if_pos (by assumption)]; exact .refl _
  | insertIfAbsent k v => simp only [spec] at hq ⊢; split at hq <;> [skip; cases hq]; rw [if_pos (by assumption)]; exact .refl _
  | set k v =>
    simp only [spec] at hq ⊢; split at hq <;> [skip; cases hq]; rw [if_pos (by assumption)]
    exact sameKeys_map (f := fun _ => (k, v)) (fun e h => h) l
  | upsert k v =>
    simp only [spec] at hq ⊢; split at hq <;> [skip; cases hq]; rw [if_pos (by assumption)]
    exact sameKeys_map (f := fun e => (e.1, v)) (fun e h => Ord.refl _) l
  | remove k => simp only [spec]; rw [hfil k hq]; exact .refl _
  | delete k => simp only [spec]; rw [hfil k hq]; exact .refl _
  | clear => cases hq
  | _ => exact .refl _

theorem prog_sameKeys {α : Type} {o : K → K → Ordering} [Std.TransCmp o] :
    ∀ (p : Prog (Op K V) (Res K V) α) {l : List (K × V)},
    (∀ c ∈ (p.runSpec (spec o) l).2.2, quiet c.1 c.2 = true) → SameKeys o l (p.runSpec (spec o) l).1
  | .ret a, l, _ => .refl _
  | .call op next, l, hq => (spec_quiet (hq (op, (spec o l op).2) (by simp [Prog.runSpec]))).trans
      (prog_sameKeys (next (spec o l op).2) fun c hc =>
        hq c (by simp only [Prog.runSpec, List.mem_cons]; exact .inr hc))

/-- The pointer program holds the ideal map `l`, and its pointers are those of `t₀`. -/
structure At (cmp : K → K → Int) (d : Int) (t₀ : P K V) (s : PMap K V) (l : List (K × V)) : Prop where
  holds : ∃ m, MRel s m ∧ Avl.Inv cmp d m ∧ Avl.Rel cmp m l
  room : l.length < room d
  lk : Lk s.mem t₀
  root : (s.mem 0).hi = ptr t₀

/-- Entry `i` of the ideal map is at address `i`. -/
theorem At.entries {t₀ : P K V} {s : PMap K V} {l : List (K × V)} (h : At cmp d t₀ s l) :
    l = (ino t₀).map (entry s.mem) := by
  obtain ⟨⟨m, ⟨-, t, ht, hH, -⟩, -, hR⟩, -, h3, h4⟩ := h
  rw [← hR.list, ← ht, toList_erase, toList_ino hH.rep]
  rw [ino_eq hH.rep.lk h3 (hH.root.symm.trans h4)]

/-- One quiet call. -/
theorem At.step (hc : LawfulEx cmp) (cfg : Avl.Cfg one d) {t₀ : P K V} {s : PMap K V}
    {l : List (K × V)} {op : Op K V} (h : At cmp d t₀ s l)
    (hq : op.abstract = true ∧ quiet op (spec (ord cmp) l op).2 = true) :
    ∃ s', AvlHeap.step cmp one d zero s op = some (s', (spec (ord cmp) l op).2) ∧
      At cmp d t₀ s' (spec (ord cmp) l op).1 := by
  have := hc.trans
  obtain ⟨⟨m, hM, hI, hR⟩, h2, h3, h4⟩ := h
  obtain ⟨m', r, h5, h6, -⟩ := Avl.step_ok hc cfg hI (Avl.height_of_room hR hI.good h2) op
  obtain ⟨h7, h8⟩ := Avl.step_partial hc hq.1 hR h5
  have h9 := step_sim (cmp := cmp) (one := one) (d := d) (zero := zero) hM op
  rw [h5] at h9
  obtain ⟨⟨s', r'⟩, h10, h11, h12⟩ := h9.some_right
  simp only at h11 h12
  subst h11
  subst h7
  have hl := step_links h10 hq.2
  exact ⟨s', h10, ⟨m', h12, h6, h8⟩, (spec_quiet hq.2).length_eq ▸ h2, h3.congr hl, (hl 0).2.trans h4⟩

variable {every : τ → K → V → Prog (Op K V) (Res K V) (τ × Bool)}

/-- The walk over addresses is the ideal walk, if that one calls only what is quiet. -/
theorem visitA_visit (hc : LawfulEx cmp) (cfg : Avl.Cfg one d) {t₀ : P K V} :
    ∀ (as : List Nat) (i : Nat) {s : PMap K V} {l : List (K × V)} {t : τ}, as = (ino t₀).drop i →
    At cmp d t₀ s l →
    (∀ c ∈ (visit (spec (ord cmp)) every as.length i l t).calls,
      c.1.abstract = true ∧ quiet c.1 c.2 = true) →
    ∃ s', visitA cmp one d zero every as s t =
        some { visit (spec (ord cmp)) every as.length i l t with state := s' } ∧
      At cmp d t₀ s' (visit (spec (ord cmp)) every as.length i l t).state := by
  intro as
  induction as with
  | nil => intro i s l t _ hA _; exact ⟨s, rfl, hA⟩
  | cons a as ih =>
    intro i s l t he hA hq
    have hi : (ino t₀)[i]? = some a := by
      rw [← List.head?_drop, ← he]; rfl
    have hl : l[i]? = some (entry s.mem a) := by
      conv_lhs => rw [hA.entries]
      rw [List.getElem?_map, hi]; rfl
    simp only [List.length_cons, visit, hl] at hq ⊢
    obtain ⟨s1, h1, h2⟩ := Prog.run_refines (R := At cmp d t₀)
      (step := AvlHeap.step cmp one d zero) (spec := spec (ord cmp))
      (Q := fun op r => op.abstract = true ∧ quiet op r = true)
      (fun s l op hA hq => At.step (one := one) (zero := zero) hc cfg hA hq)
      (every t (entry s.mem a).1 (entry s.mem a).2) hA (by
        intro c hc'
        apply hq c
        split
        · exact List.mem_append_left _ hc'
        · exact hc')
    simp only [visitA]
    rw [show handle cmp one d zero every s t (s.mem a).key (s.mem a).val = _ from
      congrArg (Option.map _) h1]
    simp only [Option.map_some, Option.bind_some]
    split
    · next hg =>
      rw [if_pos hg] at hq
      obtain ⟨s', h3, h4⟩ := ih (i + 1) (by rw [← List.tail_drop, ← he]; rfl) h2
        fun c hc' => hq c (List.mem_append_right _ hc')
      rw [h3]
      exact ⟨s', rfl, h4⟩
    · exact ⟨s1, rfl, h2⟩

end Verif.AvlHeap
