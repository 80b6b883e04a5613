import Verif.Tree.TraverseWithProps
import Verif.Tree.ListHeapRefProps

/-! `Traverse` of tree/treelist with a callback that uses the list: property C106. -/

namespace Verif

theorem Shape.unique {lo hi : Nat → Option Nat} : ∀ {sh sh' : Shape}, sh.Lk lo hi → sh'.Lk lo hi →
    sh.ptr = sh'.ptr → sh = sh'
  | .nil, .nil, _, _, _ => rfl
  | .nil, .node _ _ _, _, _, h => by simp [Shape.ptr] at h
  | .node _ _ _, .nil, _, _, h => by simp [Shape.ptr] at h
  | .node a l r, .node a' l' r', h1, h2, h => by
    simp only [Shape.ptr, Option.some.injEq] at h
    subst h
    rw [unique h1.2.2.1 h2.2.2.1 (h1.1.symm.trans h2.1), unique h1.2.2.2 h2.2.2.2 (h1.2.1.symm.trans h2.2.1)]

theorem Shape.Lk.congr {lo hi lo' hi' : Nat → Option Nat} (h : ∀ a, lo' a = lo a ∧ hi' a = hi a) :
    ∀ {sh : Shape}, sh.Lk lo hi → sh.Lk lo' hi'
  | .nil, _ => trivial
  | .node a _ _, hk => ⟨(h a).1.trans hk.1, (h a).2.trans hk.2.1, hk.2.2.1.congr h, hk.2.2.2.congr h⟩

namespace ListHeap
open Verif.IndexHeap (Mem Cell One upd index)
open Verif.Tree Verif.Size
open Verif.AvlHeap (P ptr addrs erase)
open Verif.IndexTree (any_lawful)
open Verif.TreeList (TL Op Res spec strip legal legalSmall Ent)
variable {K V τ : Type} {cmp : K → K → Int}

/-- What a callback may call: reads, new values for keys that are there, and removals of keys that are
not. -/
def quiet (cmp : K → K → Int) (xs : List (K × V)) : Op K V → Prop
  | .put k _ | .set k _ | .putDup k _ _ => ∃ e ∈ xs, cmp e.1 k = 0
  | .remove k => ∀ e ∈ xs, cmp e.1 k ≠ 0
  | .get _ | .head | .tail | .size | .index _ | .indexOf _ | .slices | .traverse _ => True
  | _ => False

theorem quiet_legal {xs : List (K × V)} {op : Op K V} (h : quiet cmp xs op) : legal cmp xs op := by
  cases op <;> first | trivial | exact absurd h id

/-- The same pointers. -/
def Still (s s' : PList K V) : Prop :=
  s'.root = s.root ∧ ∀ a, (s'.mem a).lo = (s.mem a).lo ∧ (s'.mem a).hi = (s.mem a).hi

theorem Still.refl (s : PList K V) : Still s s := ⟨rfl, fun _ => ⟨rfl, rfl⟩⟩

section
variable {s : PList K V} {t : P K (Nat × V)} {zs : List (Ent K V)}

theorem getNode_find (hc : Lawful cmp) (h : Holds cmp s t zs) (k : K) :
    IndexHeap.getNode cmp s.mem k s.free s.top =
      some ((zs.find? fun e => decide (cmp e.1 k = 0)).map fun e => e.2.1) := by
  have hl : (erase t).toList = zs := h.good.list
  rw [(get_node h k).1, get_eq hc (by rw [hl]; exact h.good.sorted), hl, same, List.head?_filter]
  have e : (fun e : Ent K V => ord cmp e.1 k == .eq) = fun e => decide (cmp e.1 k = 0) := by
    funext e
    rw [Bool.eq_iff_iff, beq_iff_eq, decide_eq_true_eq]
    exact ord_eq
  rw [e]

theorem putWith_there (hc : Lawful cmp) (h : Holds cmp s t zs) {k : K} (he : ∃ e ∈ zs.map strip, cmp e.1 k = 0)
    (v : V) (f : V → V) : ∃ s', s.putWith cmp k v f = some (s', true) ∧ Still s s' := by
  obtain ⟨e, he, hk⟩ := he
  obtain ⟨e, hm, rfl⟩ := List.mem_map.1 he
  have hg := getNode_find hc h k
  cases hx : zs.find? fun e => decide (cmp e.1 k = 0) with
  | none =>
    have := List.find?_eq_none.1 hx e hm
    exact absurd hk (by simpa [strip] using this)
  | some x =>
    rw [hx] at hg
    simp only [PList.putWith]
    cases ht : s.top with
    | none => rw [ht] at hg; cases hs : s.free <;> rw [hs] at hg <;> simp [IndexHeap.getNode] at hg
    | some cur =>
      rw [ht] at hg
      simp only [putLoop_getNode s.free cur none none hg, Option.map_some, if_true]
      refine ⟨_, rfl, rfl, fun a => ?_⟩
      simp only [upd]
      split <;> simp_all

theorem quiet_links (hc : Lawful cmp) (h : Holds cmp s t zs) {op : Op K V}
    (hq : quiet cmp (zs.map strip) op) {s' : PList K V} {r : Res K V} (hs : step cmp s op = some (s', r)) :
    Still s s' := by
  have same : s' = s → Still s s' := fun h => h ▸ Still.refl s
  have hput : ∀ k v (f : V → V) (g : PList K V × Bool → PList K V × Res K V), (∀ p, (g p).1 = p.1) →
      (∃ e ∈ zs.map strip, cmp e.1 k = 0) → (s.putWith cmp k v f).map g = some (s', r) → Still s s' := by
    intro k v f g hg he h1
    obtain ⟨s'', h2, h3⟩ := putWith_there hc h he v f
    rw [h2, Option.map_some, Option.some.injEq] at h1
    have := hg (s'', true)
    rw [h1] at this
    simp only at this
    rw [this]
    exact h3
  cases op with
  | put k v => exact hput _ _ _ _ (fun _ => rfl) hq hs
  | set k v => exact hput _ _ _ _ (fun _ => rfl) hq hs
  | putDup k v f => exact hput _ _ _ _ (fun _ => rfl) hq hs
  | remove k =>
    simp only [step, PList.remove, getNode_find hc h k] at hs
    rw [List.find?_eq_none.2 (by
      intro e he
      simpa [strip] using hq (strip e) (List.mem_map.2 ⟨e, he, rfl⟩))] at hs
    cases hs
    exact same rfl
  | get k => simp only [step, Option.map_eq_some_iff] at hs; obtain ⟨_, -, h⟩ := hs; cases h; exact same rfl
  | head => cases hs; exact same rfl
  | tail => cases hs; exact same rfl
  | size => cases hs; exact same rfl
  | index i => simp only [step] at hs; split at hs <;> cases hs <;> exact same rfl
  | indexOf k =>
    simp only [step] at hs
    split at hs
    · cases hs; exact same rfl
    · simp only [Option.map_eq_some_iff] at hs; obtain ⟨_, -, h⟩ := hs; cases h; exact same rfl
  | slices => simp only [step, Option.map_eq_some_iff] at hs; obtain ⟨_, -, h⟩ := hs; cases h; exact same rfl
  | traverse e => simp only [step, Option.map_eq_some_iff] at hs; obtain ⟨_, -, h⟩ := hs; cases h; exact same rfl
  | _ => exact absurd hq id

theorem quiet_runs (hc : Lawful cmp) (h : Holds cmp s t zs) {op : Op K V}
    (hq : quiet cmp (zs.map strip) op) (hi : op.inserts = true) : step cmp s op ≠ none := by
  cases op with
  | put k v => obtain ⟨s', h1, -⟩ := putWith_there hc h hq v id; simp [step, h1]
  | set k v => obtain ⟨s', h1, -⟩ := putWith_there hc h hq v fun _ => v; simp [step, h1]
  | putDup k v f => obtain ⟨s', h1, -⟩ := putWith_there hc h hq v f; simp [step, h1]
  | _ => cases hi

end

def At (cmp : K → K → Int) (sh : Verif.Shape) (s : PList K V) (xs : List (K × V)) : Prop :=
  ∃ t zs, Holds cmp s t zs ∧ zs.map strip = xs ∧ shape t = sh

theorem shape_lk {s : PList K V} {t : P K (Nat × V)} {zs : List (Ent K V)} (h : Holds cmp s t zs) :
    (shape t).Lk (fun a => (s.mem a).lo) (fun a => (s.mem a).hi) :=
  (index_lk h.one.rep).congr fun _ => ⟨rfl, rfl⟩

theorem At.step (hc : Lawful cmp) {sh : Verif.Shape} (s : PList K V) (xs : List (K × V)) (op : Op K V)
    (hq : quiet cmp xs op) (h : At cmp sh s xs) : ∃ s', step cmp s op = some (s', (spec (ord cmp) xs op).2) ∧
      At cmp sh s' (spec (ord cmp) xs op).1 := by
  obtain ⟨t, zs, hH, rfl, rfl⟩ := h
  rcases call_ok hc (c := (s, [])) (x := (zs.map strip, [])) ⟨t, zs, hH, rfl, .nil⟩ (quiet_legal hq) with
    ⟨h1, h2, -⟩ | ⟨s', h1, t', zs', hH', h2, -⟩
  · exact absurd h1 (quiet_runs hc hH hq h2)
  · refine ⟨s', h1, t', zs', hH', h2, ?_⟩
    obtain ⟨h3, h4⟩ := quiet_links hc hH hq h1
    refine Verif.Shape.unique (shape_lk hH') ((shape_lk hH).congr h4) ?_
    rw [ptr_shape, ptr_shape, ← hH'.top, ← hH.top, PList.top, PList.top, h3, (h4 _).1]

/-- C106, tree/treelist. The callback reads, gives new values to keys that are there, also through the
pointer it is handed, or removes keys that are not (`quiet`). Then `Traverse` is the ideal walk: entry
after entry in order, each as it is at that moment, every call of the callback answered right; and the
list answers right ever after. -/
theorem C106_list_quiet_partial (hc : Lawful cmp) (junk : K × V) {os₀ : List (Op K V)}
    (hl₀ : LegalRun (spec (ord cmp)) (legal cmp) [] os₀) {s : PList K V} {rs : List (Res K V)}
    (h : run (step cmp) (PList.new junk) os₀ = some (s, rs))
    (every : τ → K × V → Prog (Op K V) (Res K V) (τ × Bool)) (t : τ) {xs : List (K × V)}
    (hx : xs = (runSpec (spec (ord cmp)) [] os₀).1)
    (hq : LegalVisit (spec (ord cmp)) (quiet cmp) every xs.length 0 xs t) {n : Nat} (hn : s.free ≤ n) :
    ∃ s', traverseWith cmp every n s t =
        some { visitWith (spec (ord cmp)) every xs.length 0 xs t with state := s' } ∧
      ∀ os s'' rs, LegalRun (spec (ord cmp)) (legal cmp)
          (visitWith (spec (ord cmp)) every xs.length 0 xs t).state os →
        run (step cmp) s' os = some (s'', rs) →
        rs = (runSpec (spec (ord cmp)) (visitWith (spec (ord cmp)) every xs.length 0 xs t).state os).2 := by
  have hstep : ∀ (s : PList K V) (x : List (K × V)) op s' r, legal cmp x op →
      (∃ t zs, Holds cmp s t zs ∧ zs.map strip = x) → step cmp s op = some (s', r) →
      r = (spec (ord cmp) x op).2 ∧ ∃ t zs, Holds cmp s' t zs ∧ zs.map strip = (spec (ord cmp) x op).1 := by
    rintro s x op s' r hl ⟨t, zs, h1, h2⟩ h3
    rcases call_ok hc (c := (s, [])) (x := (x, [])) ⟨t, zs, h1, h2, .nil⟩ hl with
      ⟨h4, -⟩ | ⟨s'', h4, t', zs', h5, h6, -⟩
    · rw [h3] at h4; cases h4
    · simp only at h4
      rw [h3] at h4
      cases h4
      exact ⟨rfl, t', zs', h5, h6⟩
  subst hx
  obtain ⟨-, p, zs, hH, hz⟩ := run_partial_legal (step := step cmp) (spec := spec (ord cmp))
    (fun s x => ∃ t zs, Holds cmp s t zs ∧ zs.map strip = x) hstep os₀ _ _ _ _ hl₀ (by
      obtain ⟨t, zs, h1, h2, -⟩ := RRel.new (cmp := cmp) junk
      exact ⟨t, zs, h1, h2⟩) h
  have hent : ∀ {s : PList K V} {t : P K (Nat × V)} {zs : List (Ent K V)}, Holds cmp s t zs →
      zs.map strip = (shape t).ino.map fun a => ((s.mem a).key, (s.mem a).val) := by
    intro s t zs h
    have h1 : (erase t).toList = zs := h.good.list
    rw [← h1, AvlHeap.toList_erase, index_ino h.one.rep, List.map_map]
    rfl
  have hlen : (shape p).ino.length = (runSpec (spec (ord cmp)) [] os₀).1.length := by
    rw [← hz, hent hH, List.length_map]
  rw [← hlen] at hq ⊢
  obtain ⟨s', h3, q, zs', hH', hz', -⟩ := walkWith_ok (A := At cmp (shape p)) (step := step cmp)
    (lo := fun s a => (s.mem a).lo) (hi := fun s a => (s.mem a).hi)
    (ent := fun s a => ((s.mem a).key, (s.mem a).val)) (every := every) (legal := quiet cmp)
    (spec := spec (ord cmp)) (At.step hc) (shape p)
    (n := n) (i := 0) (s := s) (t := t)
    (by rw [height_shape]; exact Nat.lt_of_lt_of_le (hH.one.fuel hH.below).2 hn)
    (by rintro s l ⟨t, zs, h, -, h'⟩; rw [← h']; exact shape_lk h)
    (by
      rintro s l ⟨t, zs, h, hz, h'⟩ j a ha
      rw [← h'] at ha
      exact map_get (f := fun a => ((s.mem a).key, (s.mem a).val)) (by rw [← hz]; exact hent h) ha)
    ⟨p, zs, hH, hz, rfl⟩ hq
  refine ⟨s', ?_, fun os s'' rs hos hrun => ?_⟩
  · rw [traverseWith, show s.top = (shape p).ptr by rw [ptr_shape]; exact hH.top]
    exact h3
  · exact (run_partial_legal (step := step cmp) (spec := spec (ord cmp))
      (fun s x => ∃ t zs, Holds cmp s t zs ∧ zs.map strip = x) hstep os _ _ _ _ hos ⟨q, zs', hH', hz'⟩ hrun).1

/-- The callback of the example: it counts, and gives its value plus one to the last key. -/
def pass : Nat → Int × Int → Prog (Op Int Int) (Res Int Int) (Nat × Bool) := fun c e =>
  .call .size fun _ => .call (.set 3 (e.2 + 1)) fun _ => .call (.remove 5) fun _ => .ret (c + 1, true)

theorem pass_quiet : LegalVisit (spec (ord Compare.any)) (quiet Compare.any) pass 3 0
    [(1, 10), (2, 20), (3, 30)] 0 := by
  have h : ∀ t e l, (∃ v, l = [((1 : Int), (10 : Int)), (2, 20), (3, v)]) →
      (pass t e).Legal (spec (ord Compare.any)) (quiet Compare.any) l ∧
      ((pass t e).runSpec (spec (ord Compare.any)) l).1 = [(1, 10), (2, 20), (3, e.2 + 1)] := by
    rintro t e l ⟨v, rfl⟩
    refine ⟨⟨trivial, ⟨(3, v), .tail _ (.tail _ (.head _)), rfl⟩, ?_, trivial⟩, rfl⟩
    intro x hx
    have : x ∈ [((1 : Int), (10 : Int)), (2, 20), (3, e.2 + 1)] := hx
    simp only [List.mem_cons, List.not_mem_nil, or_false] at this
    rcases this with rfl | rfl | rfl
    · decide
    · decide
    · show Compare.any (3 : Int) 5 ≠ 0
      decide
  intro e he
  refine ⟨(h _ _ _ ⟨_, rfl⟩).1, fun _ e' he' => ?_⟩
  rw [(h _ _ _ ⟨_, rfl⟩).2]
  refine ⟨(h _ _ _ ⟨_, rfl⟩).1, fun _ e' he' => ?_⟩
  rw [(h _ _ _ ⟨_, rfl⟩).2]
  exact ⟨(h _ _ _ ⟨_, rfl⟩).1, fun _ => trivial⟩

example : ∃ s s' : PList Int Int, ∃ cs, traverseWith Compare.any pass s.free s 0 =
    some ⟨s', 3, true, [(1, 10), (2, 20), (3, 21)], cs⟩ := by
  have e : run (step Compare.any) (PList.new ((0, 0) : Int × Int)) [.put 2 20, .put 1 10, .put 3 30] =
    some ((run (step Compare.any) (PList.new ((0, 0) : Int × Int))
      [.put 2 20, .put 1 10, .put 3 30]).get rfl) := rfl
  obtain ⟨s', h1, -⟩ := C106_list_quiet_partial any_lawful (0, 0)
    (os₀ := [.put 2 20, .put 1 10, .put 3 30]) ⟨trivial, trivial, trivial, trivial⟩ e pass 0
    (xs := [(1, 10), (2, 20), (3, 30)]) rfl pass_quiet (Nat.le_refl _)
  exact ⟨_, s', _, h1⟩

/-- As `IndexHeap.walkOf`. -/
def walkOf (ks : List Int) (f : Int → List (Op Int Int)) : Option (List Int × List Int) :=
  (run (step Compare.any) (PList.new (0, 0)) (ks.map fun k => .put k k)).bind
  fun p => (traverseWith Compare.any (fun (_ : Unit) e =>
      (f e.1).foldr (fun o q => .call o fun _ => q) (.ret ((), true))) p.1.free p.1 ()).bind
  fun w => (IndexHeap.traverse (fun _ _ => true) w.state.mem w.state.free w.state.top).map
  fun q => (w.seen.map (·.1), q.1.map (·.1))

/-- C106 is false for callbacks that add: 3 is put when the callback gets 1, and 2 is not seen. -/
theorem C106_list_put_misses :
    walkOf [1, 2] (fun k => if k = 1 then [.put 3 3] else []) = some ([1], [1, 2, 3]) := by decide +kernel

/-- C106 is false for callbacks that remove: each key is removed when it is seen, and 3 is not seen. -/
theorem C106_list_remove_misses :
    walkOf [1, 2, 3, 4] (fun k => [.remove k]) = some ([1, 2, 4], [3]) := by decide +kernel

end ListHeap
end Verif
