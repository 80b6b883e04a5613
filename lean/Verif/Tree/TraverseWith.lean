import Verif.Common.Callback

/-! `Traverse` of a binary tree of nodes, with a callback that calls methods of the container while it
is walked; and the ideal walk over a list. The packages have the same code for it, so the container,
its calls and the two pointers of a node are parameters here. -/

namespace Verif

/-- What a walk did: the state of the container and of the callback, whether the walk goes on, the
entries handed to the callback, the calls of the callback with their answers. -/
structure Walked (S E τ ω ρ : Type) where
  state : S
  own : τ
  go : Bool
  seen : List E
  calls : List (ω × ρ)

namespace Walked
variable {S E τ ω ρ : Type}

/-- One part of a walk after another. -/
def after (w w' : Walked S E τ ω ρ) : Walked S E τ ω ρ :=
  ⟨w'.state, w'.own, w'.go, w.seen ++ w'.seen, w.calls ++ w'.calls⟩

/-- The next part of a walk, unless the callback said stop. -/
def andThen (w : Walked S E τ ω ρ) (f : S → τ → Option (Walked S E τ ω ρ)) :
    Option (Walked S E τ ω ρ) :=
  if w.go then (f w.state w.own).map w.after else some w

end Walked

section
variable {S E τ ω ρ : Type} (step : S → ω → Option (S × ρ)) (lo hi : S → Nat → Option Nat)
variable (ent : S → Nat → E) (every : τ → E → Prog ω ρ (τ × Bool))

/-- One call of the callback, which has variables of its own. -/
def handOver (s : S) (t : τ) (e : E) : Option (Walked S E τ ω ρ) :=
  ((every t e).run step s).map fun q => ⟨q.1, q.2.1.1, q.2.1.2, [e], q.2.2⟩

/-- The inner function of `Traverse`: tree/avls/tree.go:114-129; queue/priority/tree.go:181-196;
tree/indextree/tree.go:242-257; tree/treelist/tree.go:150-165. The fields of `cur` are read when they
are needed: `Children[0]` at the beginning, the entry before the callback, `Children[1]` after it. The
number bounds the depth of the recursion. -/
def walkWith : Nat → S → τ → Option Nat → Option (Walked S E τ ω ρ)
  | 0, _, _, _ => none
  | _ + 1, s, t, none => some ⟨s, t, true, [], []⟩
  | n + 1, s, t, some cur =>
    (walkWith n s t (lo s cur)).bind fun w =>
      (w.andThen fun s t => handOver step every s t (ent s cur)).bind fun w =>
        w.andThen fun s t => walkWith n s t (hi s cur)

end

/-! ### The specification -/

/-- The ideal walk over a list of entries: the callback gets entry `i` of the list as it is at that
moment, for `i`, `i + 1`, ..., until it says stop. -/
def visitWith {E τ ω ρ : Type} (spec : List E → ω → List E × ρ) (every : τ → E → Prog ω ρ (τ × Bool)) :
    Nat → Nat → List E → τ → Walked (List E) E τ ω ρ
  | 0, _, l, t => ⟨l, t, true, [], []⟩
  | n + 1, i, l, t =>
    match l[i]? with
    | none => ⟨l, t, true, [], []⟩
    | some e =>
      let q := (every t e).runSpec spec l
      let w : Walked (List E) E τ ω ρ := ⟨q.1, q.2.1.1, q.2.1.2, [e], q.2.2⟩
      if w.go then w.after (visitWith spec every n (i + 1) w.state w.own) else w

/-- All calls that the callback makes in the ideal walk are legal where they are made. -/
def LegalVisit {E τ ω ρ : Type} (spec : List E → ω → List E × ρ) (legal : List E → ω → Prop)
    (every : τ → E → Prog ω ρ (τ × Bool)) : Nat → Nat → List E → τ → Prop
  | 0, _, _, _ => True
  | n + 1, i, l, t =>
    ∀ e, l[i]? = some e → (every t e).Legal spec legal l ∧
      (((every t e).runSpec spec l).2.1.2 = true →
        LegalVisit spec legal every n (i + 1) ((every t e).runSpec spec l).1
          ((every t e).runSpec spec l).2.1.1)

end Verif
