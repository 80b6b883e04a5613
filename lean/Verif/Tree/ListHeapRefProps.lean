import Verif.Tree.ListHeapRef
import Verif.Tree.ListHeapProps
import Verif.Tree.TreeListLive

/-! Property C100: the pointers to entries that a tree list gives away. -/

namespace Verif.ListHeap
open Verif.IndexHeap (Mem Cell One upd getNode index upd_self)
open Verif.DLL Verif.Tree Verif.Size
open Verif.AvlHeap (P ptr addrs erase)
open Verif.TreeList (TL Op Res Rel spec strip legal legalSmall Ent limit)
open Verif.IndexTree (any_lawful)
variable {K V : Type} {cmp : K → K → Int}

/-! ### Specification -/

/-- An entry that is kept, by its key; `none` if a call may have taken entries out since. -/
def keepS (xs : List (K × V)) (ks : List (Option K)) (e : Option (K × V)) :
    (List (K × V) × List (Option K)) × RRes K V :=
  match e with
  | some e => ((xs, ks ++ [some e.1]), .kept true)
  | none => ((xs, ks), .kept false)

/-- The ideal list, with kept keys. Reading shows the entry of the key, writing is `Set` of the key. -/
def rspec (cmp : K → K → Int) (c : List (K × V) × List (Option K)) :
    REv K V → (List (K × V) × List (Option K)) × RRes K V
  | .call op => (((spec (ord cmp) c.1 op).1, if op.removes then c.2.map fun _ => none else c.2),
      .of (spec (ord cmp) c.1 op).2)
  | .keepHead => keepS c.1 c.2 c.1.head?
  | .keepTail => keepS c.1 c.2 c.1.getLast?
  | .keepIndex i => keepS c.1 c.2 (at? c.1 i)
  | .read i => (c, match c.2[i]? with
    | some (some k) => (match c.1.find? fun e => decide (cmp e.1 k = 0) with
      | some e => .entry e
      | none => .unit)
    | _ => .unit)
  | .write i v => match c.2[i]? with
    | some (some k) => (((spec (ord cmp) c.1 (.set k v)).1, c.2), .unit)
    | _ => (c, .unit)

/-- The calls of C44; pointers are used that were obtained after the last call that may take entries out. -/
def rlegal (l : List (K × V) → Op K V → Prop) (c : List (K × V) × List (Option K)) : REv K V → Prop
  | .call op => l c.1 op
  | .read i | .write i _ => ∃ k, c.2[i]? = some (some k)
  | _ => True

/-! ### The proof -/

/-- The pointer is to the node that holds the key. -/
def Points (zs : List (Ent K V)) (a : Nat) (o : Option K) : Prop := ∀ k, o = some k → ∃ e ∈ zs, e.2.1 = a ∧ e.1 = k

def RRel (cmp : K → K → Int) (c : PList K V × List Nat) (x : List (K × V) × List (Option K)) : Prop :=
  ∃ t zs, Holds cmp c.1 t zs ∧ zs.map strip = x.1 ∧ List.Forall₂ (Points zs) c.2 x.2

theorem Sim.holds {s s' : PList K V} {t : P K (Nat × V)} {x' : TL K V} {zs : List (Ent K V)} (hs : Sim s t s' x')
    (hG : TreeList.Good cmp x' zs) : ∃ t', Holds cmp s' t' zs := by
  obtain ⟨h1, h2, t', h3, h4, h5⟩ := hs
  have hlist : (erase t').toList = zs := by rw [h3]; exact hG.list
  have hne : ∀ a ∈ TreeList.addrs zs, a ≠ s.root := by
    rintro a ha rfl
    rw [← hlist, mem_tagged (tagged h4.one.rep)] at ha
    rw [← h1] at ha
    exact h4.one.notMem ha
  refine ⟨t', h4.one, fun x hx => (h4.bound x hx).1, ⟨hlist, hG.sorted, ?_, hG.nodup, ?_, ?_, ⟨?_, ?_, ?_⟩⟩⟩
  · show Exact (erase t'); rw [h3]; exact hG.exact
  · show ∀ e ∈ zs, e.2.1 < s'.free
    rw [h2]; exact hG.fresh
  · rw [← hlist]; exact rep_vals h4.one.rep
  · show (s'.dir s'.root).1 = _
    rw [h1, ← h5.head]; exact hG.thread.head
  · show (s'.dir s'.root).2 = _
    rw [h1, ← h5.tail]; exact hG.thread.tail
  · exact TreeList.seg_congr hG.thread.seg fun a ha => ⟨(h5.prev a (hne a ha)).symm, (h5.next a (hne a ha)).symm⟩

theorem putLoop_getNode {root : Nat} {write : V → V} {fresh : Nat} {key : K} {val : V} {rounds : Nat}
    {m : Mem K V} {d : Dir} {a : Nat} : ∀ (n cur : Nat) (left right : Option Nat),
    getNode cmp m key n (some cur) = some (some a) →
    putLoop root cmp write fresh key val rounds m d n cur left right =
      some (upd m a fun x => { x with val := write x.val }, d, true)
  | 0, _, _, _, h => by cases h
  | n + 1, cur, left, right, h => by
    simp only [getNode] at h
    simp only [putLoop]
    by_cases c1 : cmp key (m cur).key < 0
    · rw [if_pos c1] at h ⊢
      cases e : (m cur).lo with
      | none => rw [e] at h; cases n <;> simp [getNode] at h
      | some b => rw [e] at h; exact putLoop_getNode n b _ _ h
    · rw [if_neg c1] at h ⊢
      by_cases c2 : cmp key (m cur).key > 0
      · rw [if_pos c2] at h ⊢
        cases e : (m cur).hi with
        | none => rw [e] at h; cases n <;> simp [getNode] at h
        | some b => rw [e] at h; exact putLoop_getNode n b _ _ h
      · rw [if_neg c2] at h ⊢
        cases h
        rfl

section
variable {s : PList K V} {t : P K (Nat × V)} {zs : List (Ent K V)}

/-- The search for the key of an entry leads to its node. -/
theorem Holds.getNode (hc : Lawful cmp) (h : Holds cmp s t zs) {e : Ent K V} (he : e ∈ zs) :
    IndexHeap.getNode cmp s.mem e.1 s.free s.top = some (some e.2.1) := by
  have : Std.TransCmp (ord cmp) := hc
  have hl : (erase t).toList = zs := h.good.list
  rw [(get_node h e.1).1, get_eq hc (by rw [hl]; exact h.good.sorted), hl]
  obtain ⟨L, R, rfl⟩ := List.append_of_mem he
  obtain ⟨-, g2, -⟩ := split_eq' h.good.sorted (show ord cmp e.1 e.1 = .eq from Ord.refl _)
  rw [g2]
  rfl

/-- Writing through a pointer is what `Set` does. -/
theorem Holds.write (hc : Lawful cmp) (h : Holds cmp s t zs) {e : Ent K V} (he : e ∈ zs) (v : V) :
    step cmp s (.set e.1 v) =
      some ({ s with mem := upd s.mem e.2.1 fun x => { x with val := v } }, .bool true) := by
  have hg := h.getNode hc he
  simp only [step, PList.putWith]
  cases ht : s.top with
  | none => rw [ht] at hg; cases hs : s.free <;> rw [hs] at hg <;> simp [IndexHeap.getNode] at hg
  | some cur =>
    rw [ht] at hg
    simp only [putLoop_getNode s.free cur none none hg, Option.map_some, if_true]

theorem Holds.shows (h : Holds cmp s t zs) {e : Ent K V} (he : e ∈ zs) :
    ((s.mem e.2.1).key, (s.mem e.2.1).val) = strip e := h.good.vals e he

end

/-- A call that the model with subtrees answers. -/
theorem call_ok (hc : Lawful cmp) {c : PList K V × List Nat} {x : List (K × V) × List (Option K)}
    (hR : RRel cmp c x) {op : Op K V} (hl : legal cmp x.1 op) :
    (step cmp c.1 op = none ∧ op.inserts = true ∧ 63 < x.1.length) ∨
    ∃ s', step cmp c.1 op = some (s', (spec (ord cmp) x.1 op).2) ∧
      RRel cmp (s', c.2) (rspec cmp x (.call op)).1 := by
  obtain ⟨s, kept⟩ := c
  obtain ⟨xs, ks⟩ := x
  obtain ⟨t, zs, hH, hz, hF⟩ := hR
  simp only at hz hF hl hH
  subst hz
  rcases TreeList.step_ok hc hl ⟨zs, hH.good, rfl⟩ with ⟨e1, e2, e3⟩ | ⟨x', e1, e2⟩
  · refine .inl ⟨step_none hH e2 e1, e2, ?_⟩
    have := Rel.height (cmp := cmp) (s := abs s t) (xs := zs.map strip) ⟨zs, hH.good, rfl⟩
    show 63 < (zs.map strip).length
    omega
  · right
    obtain ⟨s', f1, f2⟩ := step_sim hH e1
    refine ⟨s', f1, ?_⟩
    cases hrm : op.removes with
    | true =>
      obtain ⟨zs', g1, g2⟩ := e2
      obtain ⟨t', g3⟩ := f2.holds g1
      refine ⟨t', zs', g3, g2, ?_⟩
      simp only [rspec, hrm, if_true]
      clear f1 f2
      induction hF with
      | nil => exact .nil
      | cons _ _ ih => exact .cons (fun k hk => by cases hk) ih
    | false =>
      obtain ⟨zs', g1, g2, g3⟩ := TreeList.step_keeps hc hH.good hrm hl e1
      obtain ⟨t', g4⟩ := f2.holds g1
      refine ⟨t', zs', g4, g2, ?_⟩
      simp only [rspec, hrm, Bool.false_eq_true, if_false]
      refine hF.imp ?_
      intro a o hp k hk
      obtain ⟨e, he, rfl, rfl⟩ := hp k hk
      obtain ⟨e', he', k1, k2⟩ := g3 e he
      exact ⟨e', he', k2, k1⟩

theorem keep_ok {s : PList K V} {kept : List Nat} {ks : List (Option K)} {t : P K (Nat × V)} {zs : List (Ent K V)}
    (hH : Holds cmp s t zs) (hF : List.Forall₂ (Points zs) kept ks) {p : Option Nat} {o : Option (Ent K V)}
    (ho : ∀ e, o = some e → e ∈ zs) (hp : p = o.map fun e => e.2.1) :
    (keep s kept p).2 = (keepS (zs.map strip) ks (o.map strip)).2 ∧
      RRel cmp (keep s kept p).1 (keepS (zs.map strip) ks (o.map strip)).1 := by
  subst hp
  cases o with
  | none => exact ⟨rfl, t, zs, hH, rfl, hF⟩
  | some e =>
    refine ⟨rfl, t, zs, hH, rfl, List.rel_append hF (.cons ?_ .nil)⟩
    rintro k ⟨⟩
    exact ⟨e, ho e rfl, rfl, rfl⟩

theorem write_ok (hc : Lawful cmp) {s : PList K V} {kept : List Nat} {ks : List (Option K)} {t : P K (Nat × V)}
    {zs : List (Ent K V)} (hH : Holds cmp s t zs) (hF : List.Forall₂ (Points zs) kept ks) {e : Ent K V}
    (he : e ∈ zs) (v : V) :
    RRel cmp ({ s with mem := upd s.mem e.2.1 fun x => { x with val := v } }, kept)
      ((spec (ord cmp) (zs.map strip) (.set e.1 v)).1, ks) := by
  rcases call_ok hc (c := (s, kept)) (x := (zs.map strip, ks)) ⟨t, zs, hH, rfl, hF⟩ (op := .set e.1 v) trivial with
    ⟨h1, -⟩ | ⟨s', h1, h2⟩
  · rw [hH.write hc he] at h1; cases h1
  · rw [hH.write hc he, Option.some.injEq, Prod.mk.injEq] at h1
    rw [h1.1]
    exact h2

theorem points_at {zs : List (Ent K V)} {kept : List Nat} {ks : List (Option K)}
    (hF : List.Forall₂ (Points zs) kept ks) {i : Nat} {k : K} (h : ks[i]? = some (some k)) :
    ∃ e ∈ zs, kept[i]? = some e.2.1 ∧ e.1 = k := by
  induction hF generalizing i with
  | nil => cases h
  | cons h1 _ ih =>
    cases i with
    | zero =>
      simp only [List.getElem?_cons_zero, Option.some.injEq] at h
      obtain ⟨e, he, rfl, rfl⟩ := h1 k h
      exact ⟨e, he, rfl, rfl⟩
    | succ i => exact ih (i := i) (by simpa using h)

theorem rstep_ok (hc : Lawful cmp) {c : PList K V × List Nat} {x : List (K × V) × List (Option K)}
    (hR : RRel cmp c x) {ev : REv K V} (hl : rlegal (legal cmp) x ev) :
    (rstep cmp c ev = none ∧ ∃ op, ev = .call op ∧ op.inserts = true ∧ 63 < x.1.length) ∨
    ∃ c', rstep cmp c ev = some (c', (rspec cmp x ev).2) ∧ RRel cmp c' (rspec cmp x ev).1 := by
  have hR' := hR
  obtain ⟨s, kept⟩ := c
  obtain ⟨xs, ks⟩ := x
  obtain ⟨t, zs, hH, hz, hF⟩ := hR
  simp only at hz hF hH
  subst hz
  have hl' : (erase t).toList = zs := hH.good.list
  cases ev with
  | call op =>
    rcases call_ok hc hR' hl with ⟨h1, h2, h3⟩ | ⟨s', h1, h2⟩
    · exact .inl ⟨by simp [rstep, h1], op, rfl, h2, h3⟩
    · exact .inr ⟨_, by simp only [rstep, h1, Option.map_some]; rfl, h2⟩
  | keepHead =>
    obtain ⟨h1, h2⟩ := keep_ok hH hF (p := (s.dir s.root).1) (o := zs.head?) (fun e he => List.mem_of_head? he)
      (by have := hH.good.thread.head; rw [TreeList.addrs, List.head?_map] at this; exact this)
    rw [← List.head?_map] at h1 h2
    exact .inr ⟨_, congrArg some (Prod.ext rfl h1), h2⟩
  | keepTail =>
    obtain ⟨h1, h2⟩ := keep_ok hH hF (p := (s.dir s.root).2) (o := zs.getLast?)
      (fun e he => List.mem_of_getLast? he)
      (by have := hH.good.thread.tail; rw [TreeList.addrs, List.getLast?_map] at this; exact this)
    rw [← List.getLast?_map] at h1 h2
    exact .inr ⟨_, congrArg some (Prod.ext rfl h1), h2⟩
  | keepIndex i =>
    have hat : at? (zs.map strip) i = (at? zs i).map strip := by
      unfold at?; split <;> simp
    obtain ⟨h1, h2⟩ := keep_ok hH hF (p := index s.mem i s.free s.top) (o := at? zs i)
      (fun e he => by
        unfold at? at he
        split at he
        · cases he
        · exact List.mem_of_getElem? he)
      (by rw [(index_node hH i).1, nodeAt_eq (show Exact (erase t) from hH.good.exact) (here_root _), hl', Int.sub_zero])
    rw [← hat] at h1 h2
    exact .inr ⟨_, congrArg some (Prod.ext rfl h1), h2⟩
  | read i =>
    obtain ⟨k, hk⟩ := hl
    simp only at hk
    obtain ⟨e, he, h1, rfl⟩ := points_at hF hk
    obtain ⟨L, R, h2⟩ := List.append_of_mem he
    have hs : Sorted (ord cmp) (zs.map strip) := TreeList.sorted_strip_iff.2 hH.good.sorted
    obtain ⟨-, -, a1⟩ := TreeList.around hc hs (L := L.map strip) (e := strip e) (R := R.map strip) (by simp [h2])
    refine .inr ⟨(s, kept), ?_, hR'⟩
    simp only [rstep, h1, Option.map_some, rspec, hk]
    rw [show e.1 = (strip e).1 from rfl, a1, hH.shows he]
  | write i v =>
    obtain ⟨k, hk⟩ := hl
    simp only at hk
    obtain ⟨e, he, h1, rfl⟩ := points_at hF hk
    refine .inr ⟨({ s with mem := upd s.mem e.2.1 fun x => { x with val := v } }, kept), ?_, ?_⟩
    · simp only [rstep, h1, Option.map_some, rspec, hk]
    · simp only [rspec, hk]
      exact write_ok hc hH hF he v

theorem RRel.new (junk : K × V) : RRel cmp (PList.new junk, []) ([], []) :=
  ⟨nil, [], ⟨⟨trivial, rfl, rfl, by simp [addrs]⟩, by simp [IndexHeap.Below, addrs, PList.new], TreeList.Good.empty rfl rfl rfl⟩, rfl, .nil⟩

theorem rstep_partial (hc : Lawful cmp) {c c' : PList K V × List Nat} {x : List (K × V) × List (Option K)}
    {ev : REv K V} {r : RRes K V} (hl : rlegal (legal cmp) x ev) (hR : RRel cmp c x)
    (h : rstep cmp c ev = some (c', r)) : r = (rspec cmp x ev).2 ∧ RRel cmp c' (rspec cmp x ev).1 := by
  rcases rstep_ok hc hR hl with ⟨h1, -⟩ | ⟨c1, h1, h2⟩
  · rw [h1] at h; cases h
  · rw [h1] at h
    cases h
    exact ⟨rfl, h2⟩

theorem rstep_small (hc : Lawful cmp) {c : PList K V × List Nat} {x : List (K × V) × List (Option K)}
    {ev : REv K V} (hl : rlegal (legalSmall cmp) x ev) (hR : RRel cmp c x) :
    ∃ c', rstep cmp c ev = some (c', (rspec cmp x ev).2) ∧ RRel cmp c' (rspec cmp x ev).1 := by
  have hl' : rlegal (legal cmp) x ev := by
    cases ev with
    | call op => exact hl.1
    | _ => exact hl
  rcases rstep_ok hc hR hl' with ⟨-, op, rfl, h2, h3⟩ | h1
  · have := hl.2 h2
    omega
  · exact h1

/-! ### C100 -/

/-- C100: whatever a program that keeps pointers to entries gets as answers, they are those of the ideal
list: a pointer shows its key and the value it has now, and writing the value through it is `Set`. Missing
from the full statement: pointers that were kept before a call that may take entries out (the code is wrong
there, see `C100_after_remove`), the calls of C46 and C47 for which the code is wrong, and that no program
panics. -/
theorem C100_partial (hc : Lawful cmp) (junk : K × V) (es : List (REv K V))
    (hl : LegalRun (rspec cmp) (rlegal (legal cmp)) ([], []) es) (c : PList K V × List Nat) (rs : List (RRes K V))
    (h : run (rstep cmp) (PList.new junk, []) es = some (c, rs)) :
    rs = (runSpec (rspec cmp) ([], []) es).2 :=
  (run_partial_legal (step := rstep cmp) (spec := rspec cmp) (RRel cmp)
    (fun _ _ _ _ _ h1 h2 h3 => rstep_partial hc h1 h2 h3) es _ _ _ _ hl (RRel.new junk) h).1

/-- C100: no such program panics that inserts only into lists with at most 63 entries. -/
theorem C100_small_partial (hc : Lawful cmp) (junk : K × V) (es : List (REv K V))
    (hl : LegalRun (rspec cmp) (rlegal (legalSmall cmp)) ([], []) es) :
    ∃ c, run (rstep cmp) (PList.new junk, []) es = some (c, (runSpec (rspec cmp) ([], []) es).2) := by
  obtain ⟨c, h, -⟩ := run_refines_legal (step := rstep cmp) (spec := rspec cmp) (RRel cmp)
    (fun _ _ _ h1 h2 => rstep_small hc h1 h2) es _ _ hl (RRel.new junk)
  exact ⟨c, h⟩

/-- Three entries, of which 2 lies at the root. -/
def three : List (REv Int Int) := [.call (.put 2 20), .call (.put 1 10), .call (.put 3 30)]

/-- Keep, overwrite, read, write, insert before it, read again, and see the writing through `Get`. -/
def demoRef : List (REv Int Int) := three ++ [.keepIndex 1, .keepHead, .call (.set 2 21), .read 0, .write 0 22,
  .call (.get 2), .call (.put 0 0), .read 0, .read 1, .keepTail, .call (.removeHead), .keepHead, .read 3, .keepIndex 9]

theorem demoRef_legal : LegalRun (rspec Compare.any) (rlegal (legalSmall Compare.any)) ([], []) demoRef :=
  ⟨⟨trivial, by decide⟩, ⟨trivial, by decide⟩, ⟨trivial, by decide⟩, trivial, trivial, ⟨trivial, by decide⟩,
    ⟨2, rfl⟩, ⟨2, rfl⟩, ⟨trivial, by decide⟩, ⟨trivial, by decide⟩, ⟨2, rfl⟩, ⟨1, rfl⟩, trivial,
    ⟨trivial, by decide⟩, trivial, ⟨1, rfl⟩, trivial, trivial⟩

def demoRefResults : List (RRes Int Int) :=
  [.of (.bool true), .of (.bool true), .of (.bool true), .kept true, .kept true, .of (.bool true), .entry (2, 21),
    .unit, .of (.found (some 22)), .of (.bool true), .entry (2, 22), .entry (1, 10), .kept true,
    .of (.slice (some (0, 0))), .kept true, .entry (1, 10), .kept false]

example : ∃ c, run (rstep Compare.any) (PList.new (0, 0), []) demoRef = some (c, demoRefResults) := by
  obtain ⟨c, h⟩ := C100_small_partial any_lawful (0, 0) demoRef demoRef_legal
  exact ⟨c, h.trans rfl⟩

example : ∃ c rs, run (rstep Compare.any) (PList.new (0, 0), []) demoRef = some (c, rs) ∧ rs = demoRefResults := by
  obtain ⟨c, h⟩ := C100_small_partial any_lawful (0, 0) demoRef demoRef_legal
  refine ⟨c, _, h, C100_partial any_lawful (0, 0) demoRef ?_ c _ h⟩
  exact ⟨trivial, trivial, trivial, trivial, trivial, trivial, ⟨2, rfl⟩, ⟨2, rfl⟩, trivial, trivial, ⟨2, rfl⟩,
    ⟨1, rfl⟩, trivial, trivial, trivial, ⟨1, rfl⟩, trivial, trivial⟩

/-- The answers of a program. -/
def ranswers (es : List (REv Int Int)) : Option (List (RRes Int Int)) :=
  (run (rstep Compare.any) (PList.new (0, 0), []) es).map Prod.snd

/-- C100: after `Remove` pointers may be to other entries, because it moves the entries of neighbours
(utils.go:407-408, 444-445). From {1, 2, 3}, `Remove(2)`:
the pointer to the entry 2 now shows the entry 3, and writing through it changes the value of 3;
what is written through the pointer to the entry 3, which is still in the list, is lost, and the pointer
keeps showing what the list no longer holds. -/
theorem C100_after_remove :
    ranswers (three ++ [.keepIndex 1, .call (.remove 2), .read 0, .write 0 99, .call (.get 3)]) =
      some [.of (.bool true), .of (.bool true), .of (.bool true), .kept true, .of (.slice (some (2, 20))),
        .entry (3, 30), .unit, .of (.found (some 99))] ∧
    ranswers (three ++ [.keepTail, .call (.remove 2), .write 0 99, .call (.get 3), .call (.set 3 31), .read 0]) =
      some [.of (.bool true), .of (.bool true), .of (.bool true), .kept true, .of (.slice (some (2, 20))),
        .unit, .of (.found (some 30)), .of (.bool true), .entry (3, 99)] := by
  constructor <;> rfl

end Verif.ListHeap
