import Verif.Common.History

/-! Calls during which the comparator panics. The caller recovers (for example with utils.go:10-16 `TryPanic`) and goes on
using the container, in whatever state the call left it. -/

namespace Verif

/-- How a call ends: it returns, it fails by itself (nil pointer, index out of range, or no end), or the
comparator panics, which leaves the memory as it is at that moment. -/
inductive Out (S α : Type) where
  | done (a : α)
  | fail
  | stopped (s : S)

namespace Out
variable {S T α β : Type}

/-- Code without comparisons. -/
def of : Option α → Out S α
  | some a => .done a
  | none => .fail

/-- One piece of code after another. -/
def bind (x : Out S α) (f : α → Out S β) : Out S β :=
  match x with
  | .done a => f a
  | .fail => .fail
  | .stopped s => .stopped s

def map (f : α → β) (x : Out S α) : Out S β := x.bind fun a => .done (f a)

/-- Seen as a part of a greater state. -/
def lift (g : S → T) : Out S α → Out T α
  | .done a => .done a
  | .fail => .fail
  | .stopped s => .stopped (g s)

end Out

/-- When the comparator panics during a call. `bad i a`: in the `i`-th search of the call, when it is asked
about the node `a`. Within one search a node is compared at most once, so this also describes a comparator
that panics at its `n`-th use, whatever it is asked. -/
abbrev Bad := Nat → Nat → Bool

/-- At some moment the comparator panics. -/
def Bad.some (b : Bad) : Prop := ∃ i a, b i a = true

/-- A history of calls. With each call goes a description `β` of the moments at which the comparator
panics during this call. The answer `none` is a panic of the comparator, from which the caller recovers. -/
def runStop {σ ω ρ β : Type} (step : β → σ → ω → Out σ (σ × ρ)) :
    σ → List (ω × β) → Option (σ × List (Option ρ))
  | s, [] => some (s, [])
  | s, (o, b) :: os =>
    match step b s o with
    | .fail => none
    | .stopped s' => (runStop step s' os).map fun p => (p.1, none :: p.2)
    | .done (s', r) => (runStop step s' os).map fun p => (p.1, some r :: p.2)

/-- The calls of a history that were not ended by a panic of the comparator. -/
def survived {ω ρ β : Type} : List (ω × β) → List (Option ρ) → List ω
  | (o, _) :: os, some _ :: rs => o :: survived os rs
  | _ :: os, none :: rs => survived os rs
  | _, _ => []

/-- Every call that was ended by a panic is one for which a moment to panic is given. -/
def Justified {ω ρ β : Type} (P : β → Prop) : List (ω × β) → List (Option ρ) → Prop
  | (_, _) :: os, some _ :: rs => Justified P os rs
  | (_, b) :: os, none :: rs => P b ∧ Justified P os rs
  | [], [] => True
  | _, _ => False

/-! ### Lemmas -/

section
variable {σ ω ρ β : Type}

theorem survived_sublist : ∀ (os : List (ω × β)) (rs : List (Option ρ)),
    (survived os rs).Sublist (os.map (·.1))
  | [], [] => .slnil
  | [], _ :: _ => .slnil
  | _ :: _, [] => List.nil_sublist _
  | (o, b) :: os, none :: rs => .cons _ (survived_sublist os rs)
  | (o, b) :: os, some _ :: rs => .cons_cons _ (survived_sublist os rs)

/-- If a panic of the comparator never leaves a trace, the history is that of the other calls. -/
theorem runStop_ok {step : σ → ω → Option (σ × ρ)} {stepB : β → σ → ω → Out σ (σ × ρ)} {P : β → Prop}
    {Q : ω × β → Prop}
    (h : ∀ b s o, Q (o, b) → (stepB b s o = .stopped s ∧ P b) ∨ stepB b s o = .of (step s o)) :
    ∀ (os : List (ω × β)), (∀ x ∈ os, Q x) → ∀ (s : σ),
      (∀ os', os'.Sublist (os.map (·.1)) → (run step s os').isSome) →
      ∃ s' rs, runStop stepB s os = some (s', rs) ∧ Justified P os rs ∧
        run step s (survived os rs) = some (s', rs.filterMap id)
  | [], _, s, _ => ⟨s, [], rfl, trivial, rfl⟩
  | (o, b) :: os, hq, s, ht => by
    have hq' : ∀ x ∈ os, Q x := fun x hx => hq x (List.mem_cons_of_mem _ hx)
    rcases h b s o (hq _ List.mem_cons_self) with ⟨h1, hb⟩ | h1
    · obtain ⟨s', rs, h2, h3, h4⟩ := runStop_ok h os hq' s fun os' hos => ht os' (.cons _ hos)
      exact ⟨s', none :: rs, by simp only [runStop, h1, h2, Option.map_some], ⟨hb, h3⟩, h4⟩
    · cases h2 : step s o with
      | none =>
        have := ht [o] (.cons_cons _ (List.nil_sublist _))
        simp [run, h2] at this
      | some q =>
        obtain ⟨s1, r⟩ := q
        obtain ⟨s', rs, h3, h4, h5⟩ := runStop_ok h os hq' s1 fun os' hos => by
          have := ht (o :: os') (.cons_cons _ hos)
          simp only [run, h2] at this
          cases h6 : run step s1 os' with
          | none => simp [h6] at this
          | some _ => rfl
        refine ⟨s', some r :: rs, ?_, h4, ?_⟩
        · simp only [runStop, h1, h2, Out.of, h3, Option.map_some]
        · simp only [survived, run, h2, h5, List.filterMap_cons, id]

/-- The same for programs that may also fail by themselves. -/
theorem runStop_trace {step : σ → ω → Option (σ × ρ)} {stepB : β → σ → ω → Out σ (σ × ρ)} {P : β → Prop}
    {Q : ω × β → Prop}
    (h : ∀ b s o, Q (o, b) → (stepB b s o = .stopped s ∧ P b) ∨ stepB b s o = .of (step s o)) :
    ∀ (os : List (ω × β)), (∀ x ∈ os, Q x) → ∀ (s s' : σ) (rs : List (Option ρ)),
      runStop stepB s os = some (s', rs) →
      Justified P os rs ∧ run step s (survived os rs) = some (s', rs.filterMap id)
  | [], _, s, s', rs, h1 => by cases h1; exact ⟨trivial, rfl⟩
  | (o, b) :: os, hq, s, s', rs, h1 => by
    have hq' : ∀ x ∈ os, Q x := fun x hx => hq x (List.mem_cons_of_mem _ hx)
    simp only [runStop] at h1
    rcases h b s o (hq _ List.mem_cons_self) with ⟨h2, hb⟩ | h2
    · rw [h2] at h1
      obtain ⟨⟨s1, rs1⟩, h3, h4⟩ := Option.map_eq_some_iff.1 h1
      cases h4
      obtain ⟨h5, h6⟩ := runStop_trace h os hq' s s1 rs1 h3
      exact ⟨⟨hb, h5⟩, h6⟩
    · rw [h2] at h1
      cases h3 : step s o with
      | none => rw [h3] at h1; cases h1
      | some q =>
        rw [h3] at h1
        obtain ⟨⟨s1, rs1⟩, h4, h5⟩ := Option.map_eq_some_iff.1 h1
        cases h5
        obtain ⟨h6, h7⟩ := runStop_trace h os hq' q.1 s1 rs1 h4
        exact ⟨h6, by simp only [survived, run, h3, h7, List.filterMap_cons, id]⟩

end

namespace Out
variable {S T α β : Type}

/-- The comparator panicked and the memory is still `s`, or everything went as without panics. -/
def Same (s : S) (P : Prop) (x : Out S α) (y : Option α) : Prop := (x = .stopped s ∧ P) ∨ x = .of y

theorem Same.bind {s : S} {P : Prop} {x : Out S α} {y : Option α} {f : α → Out S β} {g : α → Option β}
    (h : Same s P x y) (hf : ∀ a, y = some a → Same s P (f a) (g a)) : Same s P (x.bind f) (y.bind g) := by
  rcases h with ⟨rfl, hp⟩ | rfl
  · exact .inl ⟨rfl, hp⟩
  · cases y with
    | none => exact .inr rfl
    | some a => exact hf a rfl

theorem Same.of {s : S} {P : Prop} (y : Option α) : Same s P (Out.of y) y := .inr rfl

theorem Same.map {s : S} {P : Prop} {x : Out S α} {y : Option α} (h : Same s P x y) (f : α → β) :
    Same s P (x.map f) (y.map f) := by
  rcases h with ⟨rfl, hp⟩ | rfl
  · exact .inl ⟨rfl, hp⟩
  · cases y <;> exact .inr rfl

theorem Same.lift {s : S} {P : Prop} {x : Out S α} {y : Option α} (h : Same s P x y) (g : S → T) :
    Same (g s) P (x.lift g) y := by
  rcases h with ⟨rfl, hp⟩ | rfl
  · exact .inl ⟨rfl, hp⟩
  · cases y <;> exact .inr rfl

theorem same_if {s : S} {P : Prop} {b : Bool} {x : Out S α} {y : Option α} (hb : b = true → P)
    (h : Same s P x y) : Same s P (if b then .stopped s else x) y := by
  cases b with
  | true => exact .inl ⟨rfl, hb rfl⟩
  | false => exact h

theorem same_done {s : S} {P : Prop} (a : α) : Same s P (.done a : Out S α) (some a) := .inr rfl

theorem Same.mono {s : S} {P Q : Prop} {x : Out S α} {y : Option α} (h : Same s P x y) (hp : P → Q) :
    Same s Q x y := h.imp (fun ⟨a, b⟩ => ⟨a, hp b⟩) id

end Out

end Verif
