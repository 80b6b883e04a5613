import Verif.Tree.AvlHeap
import Verif.Common.Callback

/-! Model of `Traverse` of tree/avl and set/treeset with a callback that calls methods of the tree
while it is walked, and of the set operations of set/treeset when the other set is the receiver. -/

namespace Verif.AvlHeap
open Avl (Op Res)
variable {K V τ : Type}

/-- What a walk did: the state of the container and of the callback, whether the walk goes on, the
entries handed to the callback, the calls of the callback with their answers. -/
structure Walk (S K V τ : Type) where
  state : S
  own : τ
  go : Bool
  seen : List (K × V)
  calls : List (Op K V × Res K V)

/-- One part of a walk after another. -/
def Walk.after {S : Type} (w : Walk S K V τ) (w' : Walk S K V τ) : Walk S K V τ :=
  ⟨w'.state, w'.own, w'.go, w.seen ++ w'.seen, w.calls ++ w'.calls⟩

section
variable (cmp : K → K → Int) (one : Bool) (d : Int) (zero : V)
variable (every : τ → K → V → Prog (Op K V) (Res K V) (τ × Bool))

/-- One call of the callback, which has variables of its own. -/
def handle (s : PMap K V) (t : τ) (k : K) (v : V) : Option (Walk (PMap K V) K V τ) :=
  ((every t k v).run (step cmp one d zero) s).map fun q => ⟨q.1, q.2.1.1, q.2.1.2, [(k, v)], q.2.2⟩

/-- The inner function of `Traverse`, tree/avl/tree.go:114-133; set/treeset/tree.go:128-147. The
fields of `cur` are read when they are needed: `Children[0]` before the callback, `Children[1]` after
it. -/
def walk : Nat → PMap K V → τ → Option Nat → Option (Walk (PMap K V) K V τ)
  | 0, _, _, _ => none
  | _ + 1, s, t, none => some ⟨s, t, true, [], []⟩
  | n + 1, s, t, some cur =>
    (walk n s t (s.mem cur).lo).bind fun w =>
      if !w.go then some w
      else (handle cmp one d zero every w.state w.own (w.state.mem cur).key (w.state.mem cur).val).bind
        fun w' =>
          if !w'.go then some (w.after w')
          else (walk n w'.state w'.own (w'.state.mem cur).hi).map fun w'' => (w.after w').after w''

/-- tree/avl/tree.go:114-133 `Traverse`; set/treeset/tree.go:128-147. `n` bounds the depth of the
recursion. -/
def traverseWith (n : Nat) (s : PMap K V) (t : τ) : Option (Walk (PMap K V) K V τ) :=
  walk cmp one d zero every n s t s.root

end

section
variable (cmp : K → K → Int) (zero : V)

/-- set/treeset/tree.go:199-209 `Union`, `doUnion` with `other` the receiver. -/
def unionSelf (n : Nat) (s : PMap K V) : Option (PMap K V) :=
  (traverseWith cmp true 2 zero (fun _ k v => .call (.set k v) fun _ => .ret ((), true)) n s ()).map
    (·.state)

/-- The callback of `retainAll`, set/treeset/tree.go:218-223, with `other` the receiver: its variable
is `keys`. -/
def keepMissing (ks : List K) (k : K) (_ : V) : Prog (Op K V) (Res K V) (List K × Bool) :=
  .call (.contains k) fun r => .ret (if r matches .bool true then ks else ks ++ [k], true)

/-- set/treeset/tree.go:211-227 `Intersection`, `retainAll` with `other` the receiver. -/
def intersectionSelf (n : Nat) (s : PMap K V) : Option (PMap K V) :=
  (traverseWith cmp true 2 zero keepMissing n s []).bind fun w =>
    (run (step cmp true 2 zero) w.state (w.own.map Op.remove)).map (·.1)

/-- set/treeset/tree.go:229-239 `Difference`, `removeAll` with `other` the receiver. -/
def differenceSelf (n : Nat) (s : PMap K V) : Option (PMap K V) :=
  (traverseWith cmp true 2 zero (fun _ k _ => .call (.remove k) fun _ => .ret ((), true)) n s ()).map
    (·.state)

end

/-! ### The specification -/

/-- The answer says that no entry came or went. -/
def quiet : Op K V → Res K V → Bool
  | .put _ _, .bool b | .insertIfAbsent _ _, .bool b | .set _ _, .bool b => !b
  | .upsert _ _, .bool b => b
  | .remove _, .val o | .delete _, .val o => o.isNone
  | .clear, _ => false
  | _, _ => true

/-- The ideal walk over a sorted list of entries: the callback gets entry `i` of the list as it is at
that moment, for `i = 0, 1, ...`, until it says stop. -/
def visit (spec : List (K × V) → Op K V → List (K × V) × Res K V)
    (every : τ → K → V → Prog (Op K V) (Res K V) (τ × Bool)) :
    Nat → Nat → List (K × V) → τ → Walk (List (K × V)) K V τ
  | 0, _, l, t => ⟨l, t, true, [], []⟩
  | n + 1, i, l, t =>
    match l[i]? with
    | none => ⟨l, t, true, [], []⟩
    | some e =>
      let q := (every t e.1 e.2).runSpec spec l
      let w : Walk (List (K × V)) K V τ := ⟨q.1, q.2.1.1, q.2.1.2, [e], q.2.2⟩
      if q.2.1.2 then w.after (visit spec every n (i + 1) q.1 q.2.1.1) else w

end Verif.AvlHeap
