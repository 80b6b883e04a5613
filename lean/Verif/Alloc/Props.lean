import Verif.Queue.RingAlloc
import Verif.Heap.Alloc
import Verif.Stack.Alloc
import Verif.List.ArrayProps

/-! C102: the memory asked for by the containers that grow and shrink arrays. -/

namespace Verif.Alloc

/-- What `cells` counts is what is seen: a call that asks for cells leaves the queue with an array of
just that many, one that asks for none leaves the length alone. -/
theorem C102_ring_seen {α : Type} [Inhabited α] {q q' : Queue.Ring α} {o : Queue.Op α} {r : Queue.Res α}
    (hD : q.Dim) (h : q.step o = some (q', r)) :
    q'.data.length = if q.cells o = 0 then q.data.length else q.cells o := by
  have hD' := (Queue.Ring.step_amort q o q' r hD h).1
  rw [hD'.len, hD.len]
  have hp := hD.pos
  cases o with
  | pushBack v =>
    have := (Queue.Ring.push_dim (.inl ⟨v, rfl⟩) h).2.1
    simp only [Queue.Ring.cells]
    split at this <;> split_ifs <;> omega
  | pushFront v =>
    have := (Queue.Ring.push_dim (.inr ⟨v, rfl⟩) h).2.1
    simp only [Queue.Ring.cells]
    split at this <;> split_ifs <;> omega
  | popBack =>
    simp only [Queue.Ring.cells]
    rcases Queue.Ring.pop_dim (.inl rfl) h with ⟨h0, rfl⟩ | ⟨h0, -, e, -⟩
    · simp [h0]
    · split at e <;> split_ifs <;> omega
  | popFront =>
    simp only [Queue.Ring.cells]
    rcases Queue.Ring.pop_dim (.inr rfl) h with ⟨h0, rfl⟩ | ⟨h0, -, e, -⟩
    · simp [h0]
    · split at e <;> split_ifs <;> omega
  | front =>
    simp only [Queue.Ring.step, Option.map_eq_some_iff] at h
    obtain ⟨_, -, h⟩ := h
    cases h; rfl
  | back =>
    simp only [Queue.Ring.step, Option.map_eq_some_iff] at h
    obtain ⟨_, -, h⟩ := h
    cases h; rfl
  | size => simp only [Queue.Ring.step] at h; cases h; rfl

/-- The same of the heap. -/
theorem C102_heap_seen {α : Type} [Inhabited α] {cmp : α → α → Int} {h h' : Heap.PQ α} {o : Heap.Op α}
    {r : Heap.Res α} (hD : h.Dim) (e : h.step cmp o = some (h', r)) :
    h'.elements.length = if h.cells o = 0 then h.elements.length else h.cells o := by
  have hp := hD.pos
  cases o with
  | put v =>
    simp only [Heap.PQ.step, Option.map_eq_some_iff, Prod.mk.injEq] at e
    obtain ⟨_, e, rfl, -⟩ := e
    have := (Heap.PQ.put_dim e).2
    simp only [Heap.PQ.cells]
    split at this <;> split_ifs <;> omega
  | pop =>
    simp only [Heap.PQ.cells]
    rcases Heap.PQ.pop_dim e with ⟨h0, rfl⟩ | ⟨h0, -, e⟩
    · simp [h0]
    · rw [e, Heap.slimLen]; split_ifs <;> omega
  | top =>
    simp only [Heap.PQ.step, Option.map_eq_some_iff] at e
    obtain ⟨_, -, e⟩ := e
    cases e; rfl
  | size => simp only [Heap.PQ.step] at e; cases e; rfl
  | empty => simp only [Heap.PQ.step] at e; cases e; rfl
  | clear => simp only [Heap.PQ.step] at e; cases e; rfl
  | reset => simp only [Heap.PQ.step] at e; cases e; simp [Heap.PQ.cells]

/-- The same of the stack: `Push` adds the cells it asks for, the other calls add none. -/
theorem C102_stack_seen {α : Type} [Inhabited α] {s s' : Stack.GStack α} {o : Stack.Op α}
    {r : Stack.Res α} (h : s.step o = some (s', r)) :
    s'.held ≤ s.held + s.cells o ∧ ∀ v, o = .push v → s'.held = s.held + s.cells o := by
  cases o with
  | push v =>
    suffices s'.held = s.held + s.cells (.push v) from ⟨by omega, fun _ _ => this⟩
    simp only [Stack.GStack.step, Option.map_eq_some_iff, Prod.mk.injEq] at h
    obtain ⟨_, h, rfl, -⟩ := h
    unfold Stack.GStack.push at h
    simp only at h
    split at h
    · cases h
    · rename_i els hs
      cases h
      have hl : els.length = s.grow.top.elements.length := by
        unfold Stack.sliceSet at hs
        split at hs
        · cases hs; simp
        · cases hs
      have : Stack.GStack.held ⟨⟨els, s.grow.top.cur + 1⟩, s.grow.down, s.grow.cache, s.grow.size + 1⟩
          = s.grow.held := by
        simp only [Stack.GStack.held, Stack.capSum_cons, hl]
      rw [this]
      unfold Stack.GStack.grow
      simp only [Stack.GStack.cells]
      split
      · cases hc : s.cache with
        | some c => simp only [Stack.GStack.held, hc, Stack.capSum, List.map_cons, List.sum_cons,
            Option.toList, List.map_nil, List.sum_nil]; omega
        | none => simp only [Stack.GStack.held, hc, Stack.capSum, List.map_cons, List.sum_cons,
            Option.toList, List.map_nil, List.sum_nil, Stack.Seg.make, Stack.growSize,
            List.length_replicate]; omega
      · rfl
  | pop =>
    refine ⟨?_, fun _ h => by cases h⟩
    simp only [Stack.GStack.step, Stack.GStack.pop] at h
    split at h
    · cases h; exact Nat.le_add_right ..
    · split at h
      · rename_i hdown
        split at h
        · cases h
        · cases h
          simp only [Stack.GStack.held, Stack.capSum, List.map_cons, List.sum_cons, Option.toList,
            List.map_nil, List.sum_nil, hdown]
          omega
      · split at h
        · cases h
        · cases h; exact Nat.le_add_right ..
  | peek =>
    refine ⟨?_, fun _ h => by cases h⟩
    simp only [Stack.GStack.step, Stack.GStack.peek] at h
    split at h
    · cases h; exact Nat.le_add_right ..
    · split at h
      · cases h
      · cases h; exact Nat.le_add_right ..
  | clear =>
    refine ⟨?_, fun _ h => by cases h⟩
    simp only [Stack.GStack.step] at h
    cases h
    simp only [Stack.GStack.held, Stack.capSum, List.map_cons, List.sum_cons, List.map_nil, List.sum_nil]
    omega
  | empty => simp only [Stack.GStack.step] at h; cases h; exact ⟨Nat.le_add_right .., fun _ h => by cases h⟩
  | size => simp only [Stack.GStack.step] at h; cases h; exact ⟨Nat.le_add_right .., fun _ h => by cases h⟩
  | values =>
    simp only [Stack.GStack.step, Option.map_eq_some_iff] at h
    obtain ⟨_, -, h⟩ := h
    cases h; exact ⟨Nat.le_add_right .., fun _ h => by cases h⟩

/-- C102 for the circular buffer: `n` calls on a new queue, in any order, ask for at most `15 n + 24`
cells, however often the queue grows and shrinks. -/
theorem C102_ring {α : Type} [Inhabited α] (os : List (Queue.Op α)) :
    total Queue.Ring.step Queue.Ring.cells Queue.Ring.new os ≤ 15 * os.length + 24 := by
  have := total_le Queue.Ring.Dim Queue.Ring.pot 15 Queue.Ring.cells_le Queue.Ring.step_amort os _
    (Queue.Ring.new_dim (α := α))
  simp only [Queue.Ring.pot, Queue.Ring.new] at this
  exact Nat.le_trans this (by omega)

/-- C102 for the circular buffer: at each moment it holds on to at most `2 n + 1` cells for its `n`
elements (or 8). -/
theorem C102_ring_space {α : Type} [Inhabited α] (os : List (Queue.Op α)) {q : Queue.Ring α}
    {rs : List (Queue.Res α)} (h : run Queue.Ring.step Queue.Ring.new os = some (q, rs)) :
    q.data.length ≤ max 8 (2 * q.size + 1) := by
  have := run_inv Queue.Ring.Dim (fun s o s' r hI h => (Queue.Ring.step_amort s o s' r hI h).1) os _ _ _
    (Queue.Ring.new_dim (α := α)) h
  rw [this.len]; exact this.space

/-- C102 for the heap: `n` calls on a new heap ask for at most `16 n + 48` cells. -/
theorem C102_heap {α : Type} [Inhabited α] (cmp : α → α → Int) (os : List (Heap.Op α)) :
    total (Heap.PQ.step cmp) Heap.PQ.cells Heap.PQ.new os ≤ 16 * os.length + 48 := by
  have := total_le Heap.PQ.Dim Heap.PQ.pot 16 Heap.PQ.cells_le
    (fun s o s' r hI h => ⟨(Heap.PQ.step_amort cmp s o s' r hI h).1,
      (Heap.PQ.step_amort cmp s o s' r hI h).2.1⟩) os _ (Heap.PQ.new_dim (α := α))
  simp only [Heap.PQ.pot, Heap.PQ.new, List.length_replicate] at this
  exact Nat.le_trans this (by omega)

/-- C102 for the heap: without `Clear`, which promises not to release memory, it holds on to at most
`2 n + 1` cells for its `n` elements (or 32). -/
theorem C102_heap_space {α : Type} [Inhabited α] (cmp : α → α → Int) (os : List (Heap.Op α))
    {h : Heap.PQ α} {rs : List (Heap.Res α)} (hc : Heap.Op.clear ∉ os)
    (hr : run (Heap.PQ.step cmp) Heap.PQ.new os = some (h, rs)) :
    h.elements.length ≤ max 32 (2 * h.size + 1) := by
  have key : ∀ (os : List (Heap.Op α)) (s : Heap.PQ α) (rs : List (Heap.Res α)), Heap.Op.clear ∉ os →
      s.Dim ∧ s.Tight → run (Heap.PQ.step cmp) s os = some (h, rs) → h.Tight := by
    intro os
    induction os with
    | nil =>
      intro s rs _ hI hr
      simp only [run, Option.some.injEq, Prod.mk.injEq] at hr
      exact hr.1 ▸ hI.2
    | cons o os ih =>
      intro s rs hc hI hr
      simp only [run] at hr
      cases hs : s.step cmp o with
      | none => rw [hs] at hr; cases hr
      | some p =>
        obtain ⟨t, r⟩ := p
        rw [hs] at hr
        simp only at hr
        cases ht : run (Heap.PQ.step cmp) t os with
        | none => rw [ht] at hr; cases hr
        | some q =>
          obtain ⟨t', rs'⟩ := q
          rw [ht] at hr
          simp only [Option.some.injEq, Prod.mk.injEq] at hr
          obtain ⟨rfl, -⟩ := hr
          have := Heap.PQ.step_amort cmp s o t r hI.1 hs
          exact ih t rs' (fun h => hc (by simp [h]))
            ⟨this.1, this.2.2 (fun e => hc (by simp [e])) hI.2⟩ ht
  exact key os _ rs hc ⟨Heap.PQ.new_dim, by simp [Heap.PQ.Tight, Heap.PQ.new]⟩ hr

/-- C102 for the stack of segments: `n` calls on a new stack ask for at most `10 n` cells. -/
theorem C102_stack {α : Type} [Inhabited α] {cap : Nat} (h : 1 ≤ cap) (os : List (Stack.Op α)) :
    total Stack.GStack.step Stack.GStack.cells (Stack.GStack.newWithCap cap) os
      ≤ 10 * os.length := by
  have := total_le Stack.GStack.Dim Stack.GStack.pot 10 Stack.GStack.cells_le
    (fun s o s' r hI h => ⟨(Stack.GStack.step_amort 0 s o s' r hI h).1,
      (Stack.GStack.step_amort 0 s o s' r hI h).2.1⟩) os _ (Stack.GStack.newWithCap_dim (α := α) h)
  simp only [Stack.GStack.pot, Stack.GStack.newWithCap, Stack.Seg.make] at this
  exact Nat.le_trans this (by omega)

/-- C102 for the stack of segments: without `Clear` it holds on to at most `9 n + 3 cap` cells for its
`n` elements, if it was made with `cap` cells. -/
theorem C102_stack_space {α : Type} [Inhabited α] {cap : Nat} (h1 : 1 ≤ cap) (os : List (Stack.Op α))
    {s : Stack.GStack α} {rs : List (Stack.Res α)} (hc : Stack.Op.clear ∉ os)
    (hr : run Stack.GStack.step (Stack.GStack.newWithCap cap) os = some (s, rs)) :
    s.held ≤ 9 * s.size + 3 * cap := by
  have key : ∀ (os : List (Stack.Op α)) (t : Stack.GStack α) (rs : List (Stack.Res α)),
      Stack.Op.clear ∉ os → t.Dim ∧ t.Tight cap → run Stack.GStack.step t os = some (s, rs) →
      s.Dim ∧ s.Tight cap := by
    intro os
    induction os with
    | nil =>
      intro t rs _ hI hr
      simp only [run, Option.some.injEq, Prod.mk.injEq] at hr
      exact hr.1 ▸ hI
    | cons o os ih =>
      intro t rs hc hI hr
      simp only [run] at hr
      cases hs : t.step o with
      | none => rw [hs] at hr; cases hr
      | some p =>
        obtain ⟨t1, r⟩ := p
        rw [hs] at hr
        simp only at hr
        cases ht : run Stack.GStack.step t1 os with
        | none => rw [ht] at hr; cases hr
        | some q =>
          obtain ⟨t', rs'⟩ := q
          rw [ht] at hr
          simp only [Option.some.injEq, Prod.mk.injEq] at hr
          obtain ⟨rfl, -⟩ := hr
          have := Stack.GStack.step_amort cap t o t1 r hI.1 hs
          exact ih t1 rs' (fun h => hc (by simp [h]))
            ⟨this.1, this.2.2 (fun e => hc (by simp [e])) hI.2⟩ ht
  have := key os _ rs hc ⟨Stack.GStack.newWithCap_dim h1, Stack.GStack.newWithCap_tight cap⟩ hr
  exact this.2.held_le this.1

theorem runE_append_error {σ ω ρ ε : Type} {step : σ → ω → Except ε (σ × ρ)} {e : ε} (os₂ : List ω) :
    ∀ (os₁ : List ω) {s : σ}, runE step s os₁ = .error e → runE step s (os₁ ++ os₂) = .error e
  | [], s, h => by simp [runE] at h
  | o :: os, s, h => by
    simp only [runE, List.cons_append] at h ⊢
    cases hs : step s o with
    | error e' => rw [hs] at h; simpa using h
    | ok p =>
      obtain ⟨s', r⟩ := p
      rw [hs] at h
      simp only at h ⊢
      cases ht : runE step s' os with
      | error e' =>
        rw [ht] at h
        simp only [Except.error.injEq] at h
        rw [runE_append_error os₂ os ht, h]
      | ok q => rw [ht] at h; simp at h

/-- The length of the array of the list after `k` rounds of the leak. -/
def leakLen : Nat → Nat
  | 0 => 48
  | k + 1 => 2 * leakLen k - leakLen k / 2

/-- C102 does not hold for the array list: these 805 calls of `PushFront` and `PopBack`, with never
more than 18 elements in the list, ask for more cells than any memory has. -/
theorem C102_array_list {M : Nat} (h8 : 8 ≤ M) (hM : M ≤ 2 ^ 62) :
    (AList.leak 97).length = 805 ∧
    (∀ pre, pre <+: AList.leak 97 → (runSpec AList.spec [] pre).1.length ≤ 18) ∧
    runE (AList.AL.step M) AList.AL.new (AList.leak 97) = .error .oom := by
  refine ⟨by decide +kernel, AList.leak_small 97, ?_⟩
  have rounds : ∀ (k : Nat) (l : AList.AL Nat) (j : Nat), M < leakLen (j + k) →
      AList.Leaky M l (leakLen j) →
      runE (AList.AL.step M) l (List.replicate k AList.leakRound).flatten = .error .oom := by
    intro k
    induction k with
    | zero =>
      intro l j hj hl
      obtain ⟨_, _, _, hr, _, _, hd⟩ := hl
      have := hr.lenM
      simp only [Nat.add_zero] at hj
      omega
    | succ k ih =>
      intro l j hj hl
      rcases AList.leak_round hM hl with h | ⟨l', rs, h1, h2⟩
      · simp only [List.replicate_succ, List.flatten_cons]
        exact runE_append_error _ _ h
      · have a := AList.runE_append_ok AList.leakRound (List.replicate k AList.leakRound).flatten h1
        rw [ih l' (j + 1) (by rw [show j + 1 + k = j + (k + 1) by omega]; exact hj) h2] at a
        simp only [List.replicate_succ, List.flatten_cons]
        exact AList.runE_error_iff.1 a
  have hb : M < leakLen (0 + 97) := Nat.lt_of_le_of_lt hM (by decide +kernel)
  unfold AList.leak
  rcases AList.leak_start h8 hM with h | ⟨l', rs, h1, h2⟩
  · exact runE_append_error _ _ h
  · have a := AList.runE_append_ok AList.leakStart (List.replicate 97 AList.leakRound).flatten h1
    rw [rounds 97 l' 0 hb h2] at a
    exact AList.runE_error_iff.1 a

-- A queue that grows twice and shrinks again asks for 16 + 32 + 24 + 18 + 14 + 11 + 9 cells.
example : total Queue.Ring.step Queue.Ring.cells Queue.Ring.new
    (List.replicate 17 (Queue.Op.pushBack 0) ++ List.replicate 12 (.popFront : Queue.Op Nat)) = 124 := by
  decide +kernel

-- Pushing and popping at the boundary of a full array does not make a new array each time.
example : total Queue.Ring.step Queue.Ring.cells Queue.Ring.new
    (List.replicate 9 (Queue.Op.pushBack 0) ++
      (List.replicate 10 [Queue.Op.popBack, .pushBack 0]).flatten) = 16 + 12 := by
  decide +kernel

-- A heap that grows to 64 cells, shrinks to 48 and is reset.
example : total (Heap.PQ.step (fun a b : Nat => (a : Int) - b)) Heap.PQ.cells Heap.PQ.new
    (List.replicate 33 (Heap.Op.put 0) ++ [.pop, .reset]) = 32 + 64 + 48 + 16 := by
  decide +kernel

-- A stack of segments asks for 16 cells at the ninth element, and not again after a `Pop`.
example : total Stack.GStack.step Stack.GStack.cells (Stack.GStack.newWithCap 8)
    (List.replicate 9 (Stack.Op.push 0) ++ [.pop, .push 0, .pop, .push 0]) = 16 := by
  decide +kernel

-- The hypotheses of the theorems about memory held are met by histories that grow and shrink.
example : (run Stack.GStack.step (Stack.GStack.newWithCap 8)
    (List.replicate 9 (Stack.Op.push 0) ++ [.pop])).map (fun p => (p.1.held, p.1.size)) = some (24, 8) := by
  decide +kernel

example : (run (Heap.PQ.step (fun a b : Nat => (a : Int) - b)) Heap.PQ.new
    (List.replicate 33 (Heap.Op.put 0) ++ [.pop])).map (fun p => (p.1.elements.length, p.1.size))
      = some (48, 32) := by
  decide +kernel

example : (run Queue.Ring.step Queue.Ring.new (List.replicate 9 (Queue.Op.pushBack 0) ++ [.popBack])).map
    (fun p => (p.1.data.length, p.1.size)) = some (12, 8) := by
  decide +kernel

end Verif.Alloc
