import Verif.Conc.Lin
import Verif.Skip.Props

/-! Skip lists shared by goroutines.

All methods of tree/skiplist/skiplist.go that lock begin with `s.lock.Lock(); defer s.lock.Unlock()`; none
uses `RLock`. `Intersection` (681-684) locks the receiver and then the other list, `UnionSets` (759-769) locks
the receiver, reads it, and then locks the other list, `DifferenceSets` (780-794) locks the receiver only and
searches the other list without its lock. `RemoveHead` (449-454) reads without a lock and then calls `Remove`;
`Iterator.Next`, `SeekToFirst`, `Valid`, `Key`, `Value`, `Index` take no lock.

Results of the set operations are new lists that nobody else knows yet; the locks of these are left out. The
callbacks of `Traverse` and `PutDuplicate` must not call the list: that blocks for ever. -/

namespace Verif.Conc

open Verif.Skip (SL Op Res Iter IOp IRes)

variable {L K V : Type} [DecidableEq L]

/-- The calls. An iterator belongs to one goroutine; its fields are an argument and part of the result. -/
inductive Call (L K V : Type) : Type
  | on (l : L) (op : Op K V)
  | inter (a b : L) (coins : Nat → List Bool) (junk : K × V)
  | union (a b : L) (coins : Nat → List Bool) (junk : K × V)
  | diff (a b : L) (coins : Nat → List Bool) (junk : K × V)
  | iter (l : L) (it : Iter) (op : IOp K)

inductive CRes (K V : Type) : Type
  | res (r : Res K V)
  | list (s : SL K V)
  | iter (it : Iter) (r : IRes K V)

/-- The calls that hold the locks of all lists they access. -/
def locks : Call L K V → Bool
  | .on _ .removeHead => false
  | .on _ _ => true
  | .inter _ _ _ _ => true
  | .union _ _ _ _ => true
  | .diff _ _ _ _ => false
  | .iter _ _ .seekToFirst => false
  | .iter _ _ .next => false
  | .iter _ _ .valid => false
  | .iter _ _ .slice => false
  | .iter _ _ .index => false
  | .iter _ _ _ => true

section
variable (cmp : K → K → Int)

/-- What a call does when nothing else happens: the sequential skip list. -/
def seq (m : L → SL K V) : Call L K V → Option ((L → SL K V) × CRes K V)
  | .on l op => (Skip.step cmp (m l) op).map fun p => (upd m l p.1, .res p.2)
  | .inter a b coins junk => (Skip.intersection cmp (m a) (m b) coins junk).map fun r => (m, .list r)
  | .union a b coins junk => (Skip.union cmp (m a) (m b) coins junk).map fun r => (m, .list r)
  | .diff a b coins junk => (Skip.difference cmp (m a) (m b) coins junk).map fun r => (m, .list r)
  | .iter l it op => (Skip.istep cmp (m l) it op).map fun p => (m, .iter p.1 p.2)

abbrev Code (L K V : Type) := Prog L (SL K V) (Call L K V) (CRes K V)

/-- Code for the calls: the locking calls access only lists whose lock they hold, in any number of steps, and
do what the sequential skip list does if nothing else happens; the others do not write, except that they
may end in the call of another method. -/
structure Implements (body : Call L K V → Code L K V) : Prop where
  locked : ∀ o, locks o = true → Locked [] (body o)
  exec : ∀ o, locks o = true → ∀ m, exec (body o) m = seq cmp m o
  reading : ∀ o, locks o = false → Reading [] (body o)

/-- 785-793: the loop of `DifferenceSets` over the slices of the receiver, each search of the other list being
one access; `acc` are the slices put so far. -/
def diffLoop (b : L) (coins : Nat → List Bool) (junk : K × V) : List (K × V) → List (K × V) → Code L K V
  | [], kept =>
    match Skip.putAll cmp (Skip.withCoins coins kept) (Skip.new Skip.MaxLevel junk) with
    | none => .panic
    | some r => .ret (.list r)
  | e :: es, kept => .acc b id fun t =>
    match Skip.step cmp t (.get e.1) with
    | some (_, .found none) => diffLoop b coins junk es (kept ++ [e])
    | some _ => diffLoop b coins junk es kept
    | none => .panic

/-- A method that does all of its work on one list in one access, under the lock. -/
def whole (l : L) (f : SL K V → Option (SL K V × CRes K V)) : Code L K V :=
  .lock l (.acc l (fun s => ((f s).map (·.1)).getD s) fun s =>
    match f s with
    | none => .panic
    | some p => .ret p.2)

/-- 449-454 `RemoveHead`: `s.size`, `s.header`, `.Forward[0]` and `.Key` are read one after the other. -/
def removeHead (l : L) : Code L K V :=
  .acc l id fun s => if s.size = 0 then .ret (.res (.slice none)) else
    .acc l id fun s => .acc l id fun s' =>
      match (s'.heap s.header).fwd[0]? with
      | some (some p) => .acc l id fun s => .tail (.on l (.remove (s.heap p).key))
      | _ => .panic

/-- The code with the locks of the program and few accesses: those under a lock are one. -/
def code : Call L K V → Code L K V
  | .on l .removeHead => removeHead l
  | .on l op => whole l fun s => (Skip.step cmp s op).map fun p => (p.1, .res p.2)
  | .inter a b coins junk => .lock a (.lock b (.acc a id fun s => .acc b id fun t =>
      match Skip.intersection cmp s t coins junk with
      | none => .panic
      | some r => .ret (.list r)))
  | .union a b coins junk => .lock a (.acc a id fun s => .lock b (.acc b id fun t =>
      match Skip.union cmp s t coins junk with
      | none => .panic
      | some r => .ret (.list r)))
  | .diff a b coins junk => .lock a (.acc a id fun s =>
      match s.nodes with
      | none => .panic
      | some as => diffLoop cmp b coins junk (as.map s.ent) [])
  | .iter l it op =>
    let look : Code L K V := .acc l id fun s =>
      match Skip.istep cmp s it op with
      | none => .panic
      | some p => .ret (.iter p.1 p.2)
    if locks (.iter l it op : Call L K V) then .lock l look else look

end

variable {cmp : K → K → Int}

theorem whole_locked (l : L) (f : SL K V → Option (SL K V × CRes K V)) : Locked [] (whole l f) := by
  refine ⟨by simp, fun s => ?_⟩
  simp only
  split <;> trivial

theorem whole_exec (l : L) (f : SL K V → Option (SL K V × CRes K V)) (m : L → SL K V) :
    exec (whole l f) m = (f (m l)).map fun p => (upd m l p.1, p.2) := by
  simp only [whole, exec]
  cases f (m l) <;> rfl

theorem diffLoop_reading (b : L) (coins : Nat → List Bool) (junk : K × V) (held : List L) (es : List (K × V)) :
    ∀ kept, Reading held (diffLoop cmp b coins junk es kept) := by
  induction es with
  | nil =>
    intro kept
    rw [diffLoop]
    split <;> trivial
  | cons e es ih =>
    intro kept
    rw [diffLoop]
    refine ⟨rfl, fun t => ?_⟩
    simp only
    split
    · exact ih _
    · exact ih _
    · trivial

theorem code_implements : Implements cmp (code cmp : Call L K V → Code L K V) := by
  refine ⟨fun o h => ?_, fun o h m => ?_, fun o h => ?_⟩
  · cases o with
    | on l op => cases op <;> first | exact whole_locked _ _ | cases h
    | inter a b coins junk =>
      refine ⟨by simp, fun s => ⟨by simp, fun t => ?_⟩⟩
      simp only
      split <;> trivial
    | union a b coins junk =>
      refine ⟨by simp, fun s => ⟨by simp, fun t => ?_⟩⟩
      simp only
      split <;> trivial
    | diff a b coins junk => cases h
    | iter l it op =>
      simp only [code, h, if_true]
      refine ⟨by simp, fun s => ?_⟩
      simp only
      split <;> trivial
  · cases o with
    | on l op =>
      have : ∀ op' : Op K V, exec (whole l fun s => (Skip.step cmp s op').map fun p => (p.1, CRes.res p.2)) m =
          seq cmp m (.on l op') := by
        intro op'
        rw [whole_exec, seq, Option.map_map]
        rfl
      cases op <;> first | exact this _ | cases h
    | inter a b coins junk =>
      simp only [code, exec, seq, id, upd_id]
      cases Skip.intersection cmp (m a) (m b) coins junk <;> rfl
    | union a b coins junk =>
      simp only [code, exec, seq, id, upd_id]
      cases Skip.union cmp (m a) (m b) coins junk <;> rfl
    | diff a b coins junk => cases h
    | iter l it op =>
      simp only [code, h, if_true, exec, seq, id, upd_id]
      cases Skip.istep cmp (m l) it op <;> rfl
  · cases o with
    | on l op =>
      cases op <;> first | cases h | skip
      refine ⟨rfl, fun s => ?_⟩
      simp only
      split
      · trivial
      · refine ⟨rfl, fun s => ⟨rfl, fun s' => ?_⟩⟩
        simp only
        split
        · exact ⟨rfl, fun s => rfl⟩
        · trivial
    | inter a b coins junk => cases h
    | union a b coins junk => cases h
    | diff a b coins junk =>
      refine ⟨rfl, fun s => ?_⟩
      simp only
      split
      · trivial
      · exact diffLoop_reading _ _ _ _ _ _
    | iter l it op =>
      simp only [code, h]
      refine ⟨rfl, fun s => ?_⟩
      simp only
      split <;> trivial

/-! ### No locking call panics -/

/-- All lists are as they should be. -/
def Sound (cmp : K → K → Int) (m : L → SL K V) : Prop := ∀ l, ∃ xs, Skip.Sim cmp (m l) xs

theorem prevLoop_total {h : Skip.Store K V} (stop : Option Nat) : ∀ (n : Nat) (as : List Nat) (p : Nat),
    Skip.Run h 0 as none → as.length ≤ n → ∃ q, Skip.prevLoop h stop n p as.head? = some q
  | 0, [], p, _, _ => ⟨_, rfl⟩
  | _ + 1, [], p, _, _ => ⟨_, rfl⟩
  | 0, a :: as, _, _, hn => absurd hn (by simp)
  | n + 1, a :: as, p, hr, hn => by
    rw [List.head?_cons, Skip.prevLoop]
    split
    · exact ⟨_, rfl⟩
    · obtain ⟨q, hq⟩ := prevLoop_total stop n as a hr.2 (by simpa using hn)
      exact ⟨q, by rw [hr.1]; simpa using hq⟩

theorem istep_total (hc : Lawful cmp) {s : SL K V} {xs : List (K × V)} (hs : Skip.Sim cmp s xs) (l : L) (it : Iter)
    (op : IOp K) (ho : locks (.iter l it op : Call L K V) = true) : ∃ p, Skip.istep cmp s it op = some p := by
  obtain ⟨as, ht, g, -⟩ := hs
  have hi : Skip.ISim as ⟨none, it.index⟩ none := ⟨rfl, fun r h => by cases h⟩
  have H : ∀ op' : IOp K, op' ≠ .index → ∃ p, Skip.istep cmp s ⟨none, it.index⟩ op' = some p := fun op' h => by
    obtain ⟨it', e, -⟩ := Skip.istep_ok hc g hi op' h
    exact ⟨_, e⟩
  cases op <;> try cases ho
  case seekToLast => exact H .seekToLast (by simp)
  case seekGE k => exact H (.seekGE k) (by simp)
  case seekGT k => exact H (.seekGT k) (by simp)
  case seekLE k => exact H (.seekLE k) (by simp)
  case seekLT k => exact H (.seekLT k) (by simp)
  case seekByIndex i => exact H (.seekByIndex i) (by simp)
  case prev =>
    obtain ⟨q, hq⟩ := prevLoop_total it.node s.free as s.header g.run0.2 (Nat.le_of_lt g.len_lt)
    exact ⟨_, by rw [Skip.istep, g.first, Option.bind_some, hq]; rfl⟩

theorem sound_total (hc : Lawful cmp) (o : Call L K V) (ho : locks o = true) (m : L → SL K V) (hm : Sound cmp m) :
    ∃ m' r, seq cmp m o = some (m', r) ∧ Sound cmp m' := by
  cases o with
  | on l op =>
    obtain ⟨xs, hs⟩ := hm l
    obtain ⟨s', r, ys, e, h'⟩ := Skip.step_any hc hs op
    refine ⟨upd m l s', .res r, by rw [seq, e]; rfl, fun l' => ?_⟩
    by_cases h : l' = l
    · subst h; rw [upd_same]; exact ⟨ys, h'⟩
    · rw [upd_ne _ _ h]; exact hm l'
  | inter a b coins junk =>
    obtain ⟨xs, hs⟩ := hm a
    obtain ⟨ys, ht⟩ := hm b
    obtain ⟨r, e, -⟩ := Skip.intersection_ok hc hs ht coins junk
    exact ⟨m, .list r, by rw [seq, e]; rfl, hm⟩
  | union a b coins junk =>
    obtain ⟨xs, hs⟩ := hm a
    obtain ⟨ys, ht⟩ := hm b
    obtain ⟨r, zs, e, -⟩ := Skip.union_ok hc hs ht coins junk
    exact ⟨m, .list r, by rw [seq, e]; rfl, hm⟩
  | diff a b coins junk => cases ho
  | iter l it op =>
    obtain ⟨xs, hs⟩ := hm l
    obtain ⟨p, e⟩ := istep_total hc hs l it op ho
    exact ⟨m, .iter p.1 p.2, by rw [seq, e]; rfl, hm⟩

theorem Implements.obj (hc : Lawful cmp) {body : Call L K V → Code L K V} (hb : Implements cmp body) :
    Obj body locks (seq cmp) (Sound cmp) :=
  ⟨hb.locked, hb.exec, fun o h m hm => sound_total hc o h m hm, hb.reading⟩

end Verif.Conc
