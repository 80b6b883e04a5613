import Verif.Common.History

/-! Goroutines that call methods of objects with a lock each.

A method is a program of atomic accesses and of `Lock` calls, with deferred `Unlock` calls: this is the form
of all methods of the skip list (tree/skiplist/skiplist.go). Memory is taken to be sequentially consistent,
also for the accesses that are not protected by a lock; the Go memory model promises less for these. The
scheduler is arbitrary, and so are the calls made. A goroutine is not represented: the machine knows calls,
any number of which are under way; that the calls of one goroutine do not overlap only restricts the schedule. -/

namespace Verif.Conc

/-- Programs. `L` are the names of the objects, `σ` is the contents of one object, `O` are the calls and `ρ` the
results. `acc l f k` accesses the object `l` once: its contents `s` become `f s`, and the program goes on with
`k s`. `tail o` is a return statement with a call. -/
inductive Prog (L σ O ρ : Type) : Type
  | ret (r : ρ)
  | panic
  | lock (l : L) (k : Prog L σ O ρ)
  | acc (l : L) (f : σ → σ) (k : σ → Prog L σ O ρ)
  | tail (o : O)

/-- What is visible from outside: call number `n` starts, and ends with a result or a panic. -/
inductive Event (O ρ : Type) : Type
  | inv (n : Nat) (o : O)
  | ret (n : Nat) (o : O) (r : Option ρ)

/-- Where a call is. `held` are the locks to be released by deferred calls, the last one acquired first. -/
inductive PC (L σ O ρ : Type) : Type
  | idle
  | busy (o : O) (p : Prog L σ O ρ) (held : List L)
  | leaving (o : O) (r : Option ρ) (held : List L)
  | gone

structure Conf (L σ O ρ : Type) where
  mem : L → σ
  owner : L → Option Nat
  pc : Nat → PC L σ O ρ
  hist : List (Event O ρ)

/-- The choices of the scheduler: a new call, or one step of a call. -/
inductive Choice (O : Type) : Type
  | start (n : Nat) (o : O)
  | go (n : Nat)

variable {L σ O ρ : Type} [DecidableEq L]

def upd {α β : Type} [DecidableEq α] (f : α → β) (a : α) (b : β) : α → β := fun x => if x = a then b else f x

theorem upd_same {α β : Type} [DecidableEq α] (f : α → β) (a : α) (b : β) : upd f a b a = b := if_pos rfl

theorem upd_ne {α β : Type} [DecidableEq α] (f : α → β) {a x : α} (b : β) (h : x ≠ a) : upd f a b x = f x := if_neg h

/-- One step; none if it cannot be taken. `Lock` waits until the lock is free, also if the call holds it
itself. -/
def next (body : O → Prog L σ O ρ) (c : Conf L σ O ρ) : Choice O → Option (Conf L σ O ρ)
  | .start n o =>
    match c.pc n with
    | .idle => some { c with pc := upd c.pc n (.busy o (body o) []), hist := c.hist ++ [.inv n o] }
    | _ => none
  | .go n =>
    match c.pc n with
    | .idle => none
    | .gone => none
    | .busy o (.ret r) held => some { c with pc := upd c.pc n (.leaving o (some r) held) }
    | .busy o .panic held => some { c with pc := upd c.pc n (.leaving o none held) }
    | .busy o (.lock l k) held =>
      match c.owner l with
      | none => some { c with owner := upd c.owner l (some n), pc := upd c.pc n (.busy o k (l :: held)) }
      | some _ => none
    | .busy o (.acc l f k) held =>
      some { c with mem := upd c.mem l (f (c.mem l)), pc := upd c.pc n (.busy o (k (c.mem l)) held) }
    | .busy _ (.tail o') held =>
      some { c with pc := upd c.pc n (.busy o' (body o') held), hist := c.hist ++ [.inv n o'] }
    | .leaving o r (l :: held) =>
      some { c with owner := upd c.owner l none, pc := upd c.pc n (.leaving o r held) }
    | .leaving o r [] => some { c with pc := upd c.pc n .gone, hist := c.hist ++ [.ret n o r] }

/-- A schedule. -/
def sched (body : O → Prog L σ O ρ) : Conf L σ O ρ → List (Choice O) → Option (Conf L σ O ρ)
  | c, [] => some c
  | c, x :: xs => (next body c x).bind fun c' => sched body c' xs

/-- No call has been made yet. -/
def init (m : L → σ) : Conf L σ O ρ := ⟨m, fun _ => none, fun _ => .idle, []⟩

/-- What a program does when nothing else happens; none if it panics. `tail` is not accounted for. -/
def exec : Prog L σ O ρ → (L → σ) → Option ((L → σ) × ρ)
  | .ret r, m => some (m, r)
  | .panic, _ => none
  | .lock _ k, m => exec k m
  | .acc l f k, m => exec (k (m l)) (upd m l (f (m l)))
  | .tail _, _ => none

/-- All accesses are protected by the lock of the object. -/
def Locked : List L → Prog L σ O ρ → Prop
  | _, .ret _ => True
  | _, .panic => True
  | held, .lock l k => Locked (l :: held) k
  | held, .acc l _ k => l ∈ held ∧ ∀ s, Locked held (k s)
  | _, .tail _ => False

/-- Nothing is written. A tail call is allowed while no lock is held. -/
def Reading : List L → Prog L σ O ρ → Prop
  | _, .ret _ => True
  | _, .panic => True
  | held, .lock l k => Reading (l :: held) k
  | held, .acc _ f k => f = id ∧ ∀ s, Reading held (k s)
  | held, .tail _ => held = []

/-- Linearizability (Herlihy and Wing). There is an order `lin` of calls with their results such that
each was started, all that have returned are among them with the result they returned (and have not panicked),
a call that returned before another started comes before it, and doing them one after the other gives these
results. -/
def Linearizable {S : Type} (spec : S → O → Option (S × ρ)) (s : S) (h : List (Event O ρ)) : Prop :=
  ∃ lin : List (Nat × O × ρ),
    (lin.map (·.1)).Nodup ∧
    (∀ n o r, (n, o, r) ∈ lin → .inv n o ∈ h) ∧
    (∀ n o r, .ret n o r ∈ h → ∃ r', r = some r' ∧ (n, o, r') ∈ lin) ∧
    (∀ n o r m o', [.ret n o r, .inv m o'].Sublist h → m ∈ lin.map (·.1) → [n, m].Sublist (lin.map (·.1))) ∧
    ∃ s', run spec s (lin.map (·.2.1)) = some (s', lin.map (·.2.2))

/-- The calls that a history is about. -/
def Event.op : Event O ρ → O
  | .inv _ o => o
  | .ret _ o _ => o

end Verif.Conc
