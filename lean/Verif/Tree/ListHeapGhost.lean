import Verif.Tree.ListHeap

/-! The pointer programs do not look at the values. So one may add to each value the address of its node,
and they do the same on the memory with these pairs. That turns what `Verif.Tree.IndexHeapRun` proves about
keys and values into statements about the addresses of nodes. -/

namespace Verif.ListHeap
open Verif.IndexHeap
variable {K V : Type} {m : Mem K V} {root : Nat} {cmp : K → K → Int}

/-- A cell at the address `a` with the address as part of the value. -/
def tag (a : Nat) (x : Cell K V) : Cell K (Nat × V) :=
  ⟨x.key, (a, x.val), x.size, x.balance, x.parent, x.lo, x.hi⟩

/-- The memory with the address of each node as part of its value. -/
def gh (m : Mem K V) : Mem K (Nat × V) := fun a => tag a (m a)

/-- The value moves to a node, which keeps its address. -/
def keepG (old new : Nat × V) : Nat × V := (old.1, new.2)

section
variable (a : Nat)
@[simp] theorem gh_key : (gh m a).key = (m a).key := rfl
@[simp] theorem gh_val : (gh m a).val = (a, (m a).val) := rfl
@[simp] theorem gh_size : (gh m a).size = (m a).size := rfl
@[simp] theorem gh_balance : (gh m a).balance = (m a).balance := rfl
@[simp] theorem gh_parent : (gh m a).parent = (m a).parent := rfl
@[simp] theorem gh_lo : (gh m a).lo = (m a).lo := rfl
@[simp] theorem gh_hi : (gh m a).hi = (m a).hi := rfl
@[simp] theorem gh_kid (c : Bool) : (gh m a).kid c = (m a).kid c := by cases c <;> rfl
end

@[simp] theorem gh_getSize (o : Option Nat) : getSize (gh m) o = getSize m o := by cases o <;> rfl

theorem gh_upd {a : Nat} {f : Cell K V → Cell K V} {f' : Cell K (Nat × V) → Cell K (Nat × V)}
    (h : f' (tag a (m a)) = tag a (f (m a))) : upd (gh m) a f' = gh (upd m a f) := by
  funext b
  by_cases hb : b = a
  · subst hb; simp [upd, gh, h]
  · simp [upd, gh, hb]

@[simp] theorem gh_link (a : Nat) (c : Bool) (p : Option Nat) : link (gh m) a c p = gh (link m a c p) :=
  gh_upd (by cases c <;> rfl)

@[simp] theorem gh_setParent (a p : Nat) : setParent (gh m) a p = gh (setParent m a p) := gh_upd rfl

@[simp] theorem gh_setParent? (a : Option Nat) (p : Nat) : setParent? (gh m) a p = gh (setParent? m a p) := by
  cases a
  · rfl
  · exact gh_setParent _ _

@[simp] theorem gh_setSize (a : Nat) (n : Int) : setSize (gh m) a n = gh (setSize m a n) := gh_upd rfl

@[simp] theorem gh_sumSize (a : Nat) : sumSize (gh m) a = gh (sumSize m a) := by simp [sumSize]

@[simp] theorem gh_updateBalance (a : Nat) : updateBalance (gh m) a = gh (updateBalance m a) :=
  gh_upd (by simp [tag])

@[simp] theorem gh_getRelationship (a : Nat) : getRelationship (gh m) a = getRelationship m a := rfl

@[simp] theorem gh_far {c : Bool} {n a : Nat} : far (gh m) c n a = far m c n a := by
  induction n generalizing a with
  | zero => rfl
  | succ n ih =>
    simp only [far, gh_kid]
    cases (m a).kid c with
    | none => rfl
    | some b => exact ih

theorem bind_gh {α β γ : Type} {o : Option α} {f' : α → Option γ} {f : α → Option β} {g : β → γ}
    (h : ∀ x, f' x = (f x).map g) : o.bind f' = (o.bind f).map g := by
  cases o
  · rfl
  · exact h _

theorem bind_map_gh {α β γ : Type} {o : Option α} {g : α → β} {f : β → Option γ} :
    (o.map g).bind f = o.bind fun m => f (g m) := by cases o <;> rfl

@[simp] theorem gh_rotate {c : Bool} {cur : Nat} : rotate (gh m) c cur = (rotate m c cur).map gh := by
  simp only [rotate, gh_kid, gh_parent, Option.map_bind, Option.map_map]
  cases (m cur).kid c with
  | none => rfl
  | some mov =>
    cases (m cur).parent with
    | none => rfl
    | some p =>
      simp only [Option.bind_some, Function.comp, Option.map_some]
      split <;> simp

@[simp] theorem gh_sizeRotate {c : Bool} {cur : Nat} :
    sizeRotate (gh m) c cur = (sizeRotate m c cur).map gh := by
  simp only [sizeRotate, gh_kid, gh_getSize, Option.map_bind]
  cases (m cur).kid c with
  | none => rfl
  | some b =>
    simp only [Option.bind_some, Function.comp]
    split
    · rw [gh_rotate]
      cases rotate m (!c) b with
      | none => rfl
      | some m1 => simp
    · simp

@[simp] theorem gh_fixPutSize {bal : Bool} {n cur : Nat} :
    fixPutSize root bal n (gh m) cur = (fixPutSize root bal n m cur).map gh := by
  induction n generalizing m cur with
  | zero => rfl
  | succ n ih =>
    simp only [fixPutSize]
    split
    · rfl
    · cases bal <;> simp only [Bool.false_eq_true, if_true, if_false, gh_setSize, gh_size, gh_updateBalance,
        gh_parent] <;> exact bind_gh fun _ => ih

@[simp] theorem gh_fixRemoveSize {n cur : Nat} :
    fixRemoveSize root n (gh m) cur = (fixRemoveSize root n m cur).map gh := by
  induction n generalizing m cur with
  | zero => rfl
  | succ n ih =>
    simp only [fixRemoveSize]
    split
    · rfl
    · simp only [gh_setSize, gh_size, gh_parent]; exact bind_gh fun _ => ih

@[simp] theorem gh_fixPutLoop {bal : Bool} {lim : Nat → Option (Int × Int)} {n h cur : Nat} :
    fixPutLoop root bal lim n (gh m) h cur = (fixPutLoop root bal lim n m h cur).map gh := by
  induction n generalizing m h cur with
  | zero => rfl
  | succ n ih =>
    simp only [fixPutLoop]
    split
    · rfl
    · simp only [gh_setSize, gh_size, gh_parent, gh_balance, gh_updateBalance, gh_sizeRotate, bind_map_gh, ih,
        gh_fixPutSize]
      cases (updateBalance (setSize m cur ((m cur).size + 1)) cur cur).parent with
      | none => rfl
      | some p =>
        cases lim h with
        | none => rfl
        | some l =>
          simp only [Option.bind_some]
          split
          · split
            · split
              · exact bind_gh fun _ => rfl
              · rfl
            · split
              · exact bind_gh fun _ => rfl
              · rfl
          · rfl

@[simp] theorem gh_fixPut {bal : Bool} {lim : Nat → Option (Int × Int)} {n cur : Nat} :
    fixPut root bal lim n (gh m) cur = (fixPut root bal lim n m cur).map gh := by
  simp only [fixPut, gh_setSize, gh_size, gh_parent, gh_updateBalance]
  split
  · simp only [Option.map_bind]; congr 1; funext p; simp
  · simp only [Option.map_bind]; congr 1; funext p; simp

theorem gh_alloc (a p : Nat) (k : K) (v : V) : alloc (gh m) a p k (a, v) = gh (alloc m a p k v) := gh_upd rfl

@[simp] theorem gh_getNode {k : K} {n : Nat} {o : Option Nat} :
    getNode cmp (gh m) k n o = getNode cmp m k n o := by
  induction n generalizing o with
  | zero => rfl
  | succ n ih =>
    cases o with
    | none => rfl
    | some cur => simp only [getNode, ih, gh_key, gh_lo, gh_hi]

/-- The memory of a result. -/
def ghp {α : Type} (p : Mem K V × α) : Mem K (Nat × V) × α := (gh p.1, p.2)

theorem gh_takeOut {n cur : Nat} {c : Bool} :
    takeOut root keepG n (gh m) c cur =
      (takeOut root (fun _ w => w) n m c cur).map fun p => (gh p.1, (cur, p.2)) := by
  simp only [takeOut, gh_kid, gh_far, Option.map_bind]
  cases (m cur).kid c with
  | none => rfl
  | some b =>
    simp only [Option.bind_some, Function.comp_apply]
    cases far m (!c) n b with
    | none => rfl
    | some z =>
      have h1 : (upd (gh m) cur fun x => { x with key := (gh m z).key, val := keepG x.val (gh m z).val }) =
          gh (upd m cur fun x => { x with key := (m z).key, val := (m z).val }) := gh_upd rfl
      simp only [Option.bind_some, Function.comp_apply, h1, gh_parent]
      cases (upd m cur (fun x => { x with key := (m z).key, val := (m z).val }) z).parent with
      | none => rfl
      | some q =>
        simp only [Option.bind_some, gh_kid, gh_link, gh_setParent?, gh_fixRemoveSize, Option.map_map]
        split <;>
        · simp only [Option.map_map]; rfl

@[simp] theorem gh_indexLoop {i : Int} {n cur : Nat} {idx : Int} :
    indexLoop (gh m) i n cur idx = indexLoop m i n cur idx := by
  induction n generalizing cur idx with
  | zero => rfl
  | succ n ih => simp only [indexLoop, ih, gh_lo, gh_hi, gh_getSize]

@[simp] theorem gh_index {i : Int} {n : Nat} {o : Option Nat} : index (gh m) i n o = index m i n o := by
  simp only [index, gh_lo, gh_getSize, gh_indexLoop]

@[simp] theorem gh_indexOfLoop {k : K} {n cur : Nat} {idx : Int} :
    indexOfLoop cmp (gh m) k n cur idx = indexOfLoop cmp m k n cur idx := by
  induction n generalizing cur idx with
  | zero => rfl
  | succ n ih => simp only [indexOfLoop, ih, gh_key, gh_lo, gh_hi, gh_getSize]

@[simp] theorem gh_getRangeRoot {low high : K} {n : Nat} {o : Option Nat} :
    getRangeRoot cmp (gh m) low high n o = getRangeRoot cmp m low high n o := by
  induction n generalizing o with
  | zero => rfl
  | succ n ih =>
    cases o with
    | none => rfl
    | some cur => simp only [getRangeRoot, ih, gh_key, gh_lo, gh_hi]

@[simp] theorem gh_fixRemoveRange {cur : Nat} :
    fixRemoveRange (gh m) cur = (fixRemoveRange m cur).map gh := by
  simp only [fixRemoveRange, gh_size, gh_lo, gh_hi, gh_getSize, gh_sizeRotate]
  split
  · rfl
  · split
    · rfl
    · split <;> rfl

@[simp] theorem gh_hook {a : Nat} {c : Bool} {o : Option Nat} : hook (gh m) a c o = gh (hook m a c o) := by
  simp [hook]

@[simp] theorem gh_mergeLoop {rp n parent : Nat} {cs : Int} :
    mergeLoop rp cs n (gh m) parent = (mergeLoop rp cs n m parent).map gh := by
  induction n generalizing m parent with
  | zero => rfl
  | succ n ih =>
    simp only [mergeLoop]
    split
    · rfl
    · simp only [gh_setSize, gh_size, gh_parent, gh_fixRemoveRange, bind_map_gh, ih]
      exact bind_gh fun _ => bind_gh fun _ => rfl

@[simp] theorem gh_sumLoop {n cur : Nat} : sumLoop root n (gh m) cur = (sumLoop root n m cur).map gh := by
  induction n generalizing m cur with
  | zero => rfl
  | succ n ih =>
    simp only [sumLoop]
    split
    · rfl
    · simp only [gh_sumSize, gh_parent]; exact bind_gh fun _ => ih

@[simp] theorem gh_subLoop {n cur : Nat} {size : Int} :
    subLoop root size n (gh m) cur = (subLoop root size n m cur).map gh := by
  induction n generalizing m cur with
  | zero => rfl
  | succ n ih =>
    simp only [subLoop]
    split
    · rfl
    · simp only [gh_setSize, gh_size, gh_parent]; exact bind_gh fun _ => ih

@[simp] theorem gh_mergeGroups {n rt : Nat} {g x : Option Nat} {cs : Int} {c : Bool} :
    mergeGroups root n (gh m) rt g x cs c = (mergeGroups root n m rt g x cs c).map gh := by
  simp only [mergeGroups, gh_parent, gh_far, gh_link, gh_setParent?, gh_getRelationship, gh_setParent,
    gh_mergeLoop, gh_sumLoop, Option.map_bind]
  cases (m rt).parent with
  | none => rfl
  | some rp =>
    cases g with
    | none => rfl
    | some g =>
      simp only [Option.bind_some, Function.comp_apply]
      cases far m c n g with
      | none => rfl
      | some hand =>
        simp only [Option.bind_some, Function.comp_apply]
        cases getRelationship (setParent? (link m hand c x) x hand) rt with
        | none => rfl
        | some rel =>
          simp only [Option.bind_some, Function.comp_apply]
          cases x with
          | none => simp
          | some x =>
            simp only [gh_parent]
            cases (setParent (link (setParent? (link m hand c (some x)) (some x) hand) rp rel (some g)) g rp x).parent with
            | none => rfl
            | some q =>
              simp only [Option.bind_some, bind_map_gh, gh_sumLoop, Option.map_bind]; rfl

@[simp] theorem gh_joinGroups {n rt : Nat} {g x : Option Nat} :
    joinGroups root n (gh m) rt g x = (joinGroups root n m rt g x).map gh := by
  simp only [joinGroups, gh_parent, gh_link, gh_getRelationship, gh_size, gh_subLoop, gh_getSize,
    gh_mergeGroups]
  split
  · exact bind_gh fun _ => bind_gh fun _ => rfl
  · split <;> rfl

@[simp] theorem gh_rangeLoop {low high : Int} {n cur : Nat} {idx : Int} :
    rangeLoop (gh m) low high n cur idx = rangeLoop m low high n cur idx := by
  induction n generalizing cur idx with
  | zero => rfl
  | succ n ih => simp only [rangeLoop, ih, gh_lo, gh_hi, gh_getSize]

@[simp] theorem gh_rangeFind {low high : Int} {n : Nat} {o : Option Nat} :
    rangeFind (gh m) low high n o = rangeFind m low high n o := by
  simp only [rangeFind, gh_lo, gh_getSize, gh_rangeLoop]

@[simp] theorem gh_chop {a : Nat} {c : Bool} : chop (gh m) a c = gh (chop m a c) := by simp [chop]

@[simp] theorem gh_trimRec {bound : K} {c : Bool} {n : Nat} {o : Option Nat} :
    trimRec cmp bound c n (gh m) o = (trimRec cmp bound c n m o).map ghp := by
  induction n generalizing m o with
  | zero => rfl
  | succ n ih =>
    cases o with
    | none => rfl
    | some a =>
      simp only [trimRec, ih, gh_key, gh_kid, gh_chop]
      have e : ∀ o, ((trimRec cmp bound c n m o).map ghp).map (fun p => (hook p.1 a c p.2, some a)) =
          ((trimRec cmp bound c n m o).map fun p => (hook p.1 a c p.2, some a)).map ghp := by
        intro o
        cases trimRec cmp bound c n m o <;> simp [ghp]
      simp only [e]
      cases c <;> simp only [Bool.false_eq_true, if_true, if_false] <;> (split; rfl; split <;> rfl)

@[simp] theorem gh_trim {low high : K} {n : Nat} :
    trim cmp root n (gh m) low high = (trim cmp root n m low high).map gh := by
  simp only [trim, gh_lo, gh_getRangeRoot, gh_trimRec, Option.map_bind]
  cases getRangeRoot cmp m low high n (m root).lo with
  | none => rfl
  | some rt =>
    simp only [Option.bind_some, Function.comp_apply]
    cases trimRec cmp low false n m rt with
    | none => rfl
    | some p =>
      simp only [Option.map_some, Option.bind_some, Function.comp_apply, ghp, gh_trimRec]
      cases trimRec cmp high true n p.1 rt with
      | none => rfl
      | some q => simp [replant, ghp]

@[simp] theorem gh_stepIdx {idx : Int} {c : Bool} {a : Nat} : stepIdx (gh m) idx c a = stepIdx m idx c a := by
  simp [stepIdx]

@[simp] theorem gh_trimIdxRec {bound : Int} {c : Bool} {n a : Nat} {idx : Int} :
    trimIdxRec bound c n (gh m) idx a = (trimIdxRec bound c n m idx a).map ghp := by
  induction n generalizing m idx a with
  | zero => rfl
  | succ n ih =>
    simp only [trimIdxRec, ih, gh_stepIdx, gh_chop]
    have e : ∀ x y, ((trimIdxRec bound c n m x y).map ghp).map (fun p => (hook p.1 a c (some p.2), a)) =
        ((trimIdxRec bound c n m x y).map fun p => (hook p.1 a c (some p.2), a)).map ghp := by
      intro x y
      cases trimIdxRec bound c n m x y <;> simp [ghp]
    simp only [e]
    cases c <;> simp only [Bool.false_eq_true, if_true, if_false] <;>
    · split
      · exact bind_gh fun _ => rfl
      · split
        · exact bind_gh fun _ => rfl
        · rfl

@[simp] theorem gh_trimByIndex {low high : Int} {n : Nat} :
    trimByIndex root n (gh m) low high = ghp (trimByIndex root n m low high) := by
  simp only [trimByIndex, gh_lo, gh_rangeFind, gh_trimIdxRec]
  cases rangeFind m low high n (m root).lo with
  | none => rfl
  | some p =>
    obtain ⟨rt, idx⟩ := p
    simp only
    cases trimIdxRec low false n m idx rt with
    | none => rfl
    | some p =>
      simp only [Option.map_some, ghp, gh_trimIdxRec]
      cases trimIdxRec high true n p.1 idx rt with
      | none => rfl
      | some q => simp [replant, ghp]

theorem gh_traverse {every : K → V → Bool} {n : Nat} {o : Option Nat} :
    traverse every m n o = (traverse (fun k v => every k v.2) (gh m) n o).map fun p =>
      (p.1.map fun e => (e.1, e.2.2), p.2) := by
  induction n generalizing o with
  | zero => rfl
  | succ n ih =>
    cases o with
    | none => rfl
    | some a =>
      simp only [traverse, ih, gh_key, gh_val, gh_lo, gh_hi, bind_map_gh]
      refine bind_gh fun p => ?_
      split
      · rfl
      · by_cases h : every (m a).key (m a).val = true <;> simp [Function.comp_def, h]

end Verif.ListHeap
