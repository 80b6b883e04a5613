import Verif.Tree.IndexHeapIter
import Verif.Tree.IndexHeapRun
import Verif.Tree.IndexIter
import Verif.Tree.AvlHeapIterLemmas

/-! The iterator of the index tree on pointers against the iterator of the search trees on pointers, and
so against the one on subtrees. -/

namespace Verif.IndexHeap
open Verif.AvlHeap (P ptr addrs erase ptr_nil ptr_node toP toE mapN mapS ptr_mapN addrs_mapN)
open Verif.Avl (Iter Path At Place befores afters)
open Verif.Tree Verif.Size Verif.IndexTree
variable {K V : Type} {cmp : K → K → Int}

/-! ### The memory without parents -/

/-- The memory as that of a search tree. -/
def view (m : Mem K V) : AvlHeap.Mem K V := fun a =>
  ⟨(m a).key, (m a).val, (m a).size, (m a).lo, (m a).hi⟩

theorem view_rep {m : Mem K V} : ∀ {p : Nat} {t : P K V}, Rep m p t → AvlHeap.Rep (view m) t
  | _, nil, _ => trivial
  | _, node a k v l r, ⟨⟨b, hb⟩, hl, hr⟩ => ⟨by simp only [view, hb], view_rep hl, view_rep hr⟩

theorem view_kid {m : Mem K V} {a : Nat} {c : Bool} : (view m a).kid c = (m a).kid c := by
  cases c <;> rfl

/-- A part of the memory is one tree. -/
theorem rep_unique {m : Mem K V} {p p' : Nat} {t t' : P K V} (h : Rep m p t) (h' : Rep m p' t')
    (he : ptr t = ptr t') : t = t' := AvlHeap.rep_unique (view_rep h) (view_rep h') he

/-! ### Steps of the iterator -/

/-- The iterator with the rank and the full length of the array. -/
abbrev lift (cap : Nat) (pos : Int) (p : AvlHeap.PIter) : PIter := ⟨cap, p.cur, p.stk, pos⟩

section
variable {m : Mem K V} {cap : Nat} {pos : Int} {p : AvlHeap.PIter} (hc : p.cap = min cap 128)
include hc

theorem push_of {e : Nat × Bool} {cur : Option Nat} {q : AvlHeap.PIter} (h : p.push e cur = some q) :
    (lift cap pos p).push e cur = some (lift cap pos q) ∧ q.cap = min cap 128 := by
  simp only [AvlHeap.PIter.push] at h
  split at h
  · next h1 =>
    cases h
    rw [hc] at h1
    refine ⟨?_, hc⟩
    unfold PIter.push
    rw [if_pos (show (lift cap pos p).stk.length < (lift cap pos p).cap ∧ (lift cap pos p).stk.length < 128 by
      simp only; omega)]
  · cases h

theorem down_of {c b : Bool} {q : AvlHeap.PIter} (h : p.down (view m) c = some (q, b)) :
    (lift cap pos p).down m c = some (lift cap pos q, b) ∧ q.cap = min cap 128 := by
  obtain ⟨cap', cur, stk⟩ := p
  simp only [AvlHeap.PIter.down] at h
  cases cur with
  | none =>
    cases stk with
    | nil => cases h; exact ⟨rfl, hc⟩
    | cons e stk =>
      obtain ⟨n, d⟩ := e
      simp only at h hc
      split at h
      · cases h
      · next h1 =>
        simp only [PIter.down, lift]
        rw [if_neg (show ¬ cap < ((n, d) :: stk).length by omega)]
        split at h <;> cases h
        · next h2 => rw [if_pos h2]; exact ⟨rfl, hc⟩
        · next h2 => rw [if_neg h2]; exact ⟨rfl, hc⟩
  | some a =>
    simp only [view_kid] at h
    simp only [PIter.down, lift]
    cases hk : (m a).kid c with
    | none => rw [hk] at h; cases h; exact ⟨rfl, hc⟩
    | some b' =>
      rw [hk] at h
      simp only [Option.map_eq_some_iff] at h
      obtain ⟨q', h1, h2⟩ := h
      cases h2
      obtain ⟨h3, h4⟩ := push_of (pos := pos) hc h1
      simp only [lift] at h3
      simp only [h3, Option.map_some, true_and]
      exact h4

omit hc in
theorem findUp_eq (c : Bool) : ∀ stk, findUp c stk = AvlHeap.findUp c stk
  | [] => rfl
  | (n, d) :: stk => by simp only [findUp, AvlHeap.findUp, findUp_eq c stk]

theorem up_of {c b : Bool} {q : AvlHeap.PIter} (h : p.up c = some (q, b)) :
    (lift cap pos p).up c = some (lift cap pos q, b) ∧ q.cap = min cap 128 := by
  obtain ⟨cap', cur, stk⟩ := p
  simp only [AvlHeap.PIter.up] at h
  simp only at hc
  split at h
  · cases h
  · next h1 =>
    simp only [PIter.up, lift]
    rw [if_neg (by omega), findUp_eq]
    cases hf : AvlHeap.findUp c stk with
    | some x =>
      rw [hf] at h
      simp only at h
      cases h
      exact ⟨rfl, hc⟩
    | none =>
      rw [hf] at h
      cases cur with
      | none => cases h; exact ⟨rfl, hc⟩
      | some a =>
        simp only [Option.map_eq_some_iff] at h
        obtain ⟨q', h2, h3⟩ := h
        cases h3
        obtain ⟨h4, h5⟩ := push_of (pos := pos) hc h2
        simp only [lift] at h4
        have h6 : stk.length < cap := by
          simp only [AvlHeap.PIter.push] at h2
          split at h2
          · omega
          · cases h2
        simp only [h4, Option.map_some]
        rw [if_pos h6]
        exact ⟨rfl, h5⟩

omit hc in
theorem downs_of {c : Bool} : ∀ {n : Nat} {p q : AvlHeap.PIter}, p.cap = min cap 128 →
    p.downs (view m) c n = some q →
    (lift cap pos p).downs m c n = some (lift cap pos q) ∧ q.cap = min cap 128
  | 0, _, _, _, h => by cases h
  | n + 1, p, q, hc, h => by
    simp only [AvlHeap.PIter.downs, Option.bind_eq_some_iff] at h
    obtain ⟨⟨x, b⟩, h1, h2⟩ := h
    obtain ⟨h3, h4⟩ := down_of (pos := pos) hc h1
    simp only [PIter.downs, h3, Option.bind_some]
    cases b with
    | true => rw [if_pos rfl] at h2 ⊢; exact downs_of h4 h2
    | false => rw [if_neg (by simp)] at h2 ⊢; cases h2; exact ⟨rfl, h4⟩

theorem move_of {c : Bool} {n : Nat} {q : AvlHeap.PIter} (h : p.move (view m) n c = some q) :
    (lift cap pos p).move m n c = some (lift cap pos q) ∧ q.cap = min cap 128 := by
  simp only [AvlHeap.PIter.move, Option.bind_eq_some_iff] at h
  obtain ⟨⟨x, b⟩, h1, h2⟩ := h
  obtain ⟨h3, h4⟩ := down_of (pos := pos) hc h1
  simp only [PIter.move, h3, Option.bind_some]
  cases b with
  | true => rw [if_pos rfl] at h2 ⊢; exact downs_of h4 h2
  | false =>
    rw [if_neg (by simp)] at h2 ⊢
    simp only [Option.map_eq_some_iff] at h2
    obtain ⟨⟨y, b⟩, h5, rfl⟩ := h2
    obtain ⟨h6, h7⟩ := up_of (pos := pos) hc h5
    rw [h6]
    exact ⟨rfl, h7⟩

omit hc in
theorem equalLoop_of {key : K} {c : Bool} {F : Nat} : ∀ {n : Nat} {p q : AvlHeap.PIter} {b : Bool},
    p.cap = min cap 128 → p.seekLoop (toEx cmp) (view m) F key c false n = some (q, b) →
    (lift cap pos p).equalLoop cmp m key c n = some (lift cap pos q, b) ∧ q.cap = min cap 128
  | 0, _, _, _, _, h => by cases h
  | n + 1, p, q, b, hc, h => by
    simp only [AvlHeap.PIter.seekLoop, Option.bind_eq_some_iff] at h
    obtain ⟨a, h1, h⟩ := h
    have hk : (view m a).key = (m a).key := rfl
    simp only [PIter.equalLoop, h1, Option.bind_some]
    simp only [Bool.false_eq_true, if_false, hk] at h
    by_cases h0 : cmp (m a).key key = 0
    · have e : toEx cmp (m a).key key = -1 := by unfold toEx; rw [if_pos h0]
      rw [e, if_pos (by decide)] at h
      rw [if_pos h0]
      cases h
      exact ⟨rfl, hc⟩
    · have e : AvlHeap.dir (toEx cmp (m a).key key) = some (decide (cmp (m a).key key < 0)) ∧
          ¬ toEx cmp (m a).key key < 0 := by
        unfold toEx
        rw [if_neg h0]
        split
        · next h2 => simp [AvlHeap.dir, h2]
        · next h2 => simp [AvlHeap.dir, h2]
      rw [if_neg e.2] at h
      simp only [e.1, Option.bind_some, Option.bind_eq_some_iff] at h
      rw [if_neg h0]
      obtain ⟨⟨x, b'⟩, h2, h3⟩ := h
      obtain ⟨h4, h5⟩ := down_of (pos := pos) hc h2
      rw [h4]
      simp only [Option.bind_some]
      cases b' with
      | true => rw [if_pos rfl] at h3 ⊢; exact equalLoop_of h5 h3
      | false =>
        rw [if_neg (by simp)] at h3 ⊢
        split at h3
        · next hd =>
          rw [if_pos hd]
          simp only [Option.map_eq_some_iff] at h3
          obtain ⟨⟨y, b''⟩, h6, h7⟩ := h3
          cases h7
          obtain ⟨h8, h9⟩ := up_of (pos := pos) h5 h6
          rw [h8]
          exact ⟨rfl, h9⟩
        · next hd => rw [if_neg hd]; cases h3; exact ⟨rfl, h5⟩

end

/-! ### The height, the node of a rank -/

theorem hight_ok {m : Mem K V} : ∀ {t : P K V} {p n : Nat} (h : Nat), Rep m p t → t.height < n →
    hightRec m n (ptr t) h = some (hight (erase t) h)
  | nil, _, 0, _, _, hn => by omega
  | nil, _, n + 1, _, _, _ => rfl
  | node _ _ _ _ _, _, 0, _, _, hn => by omega
  | node a k v l r, p, n + 1, h, ⟨⟨b, hb⟩, hl, hr⟩, hn => by
    simp only [Tree.height] at hn
    simp only [ptr_node, hightRec, hb, erase, hight]
    split
    · rfl
    · rw [hight_ok (h + 1) hl (by omega), hight_ok (h + 1) hr (by omega)]
      rfl

/-- A new iterator: the array has room for the height, and is not longer unless the tree has height
0 or 1. -/
theorem iterator_ok {m : Mem K V} {free root : Nat} {t : P K V} (h : One m root t) (hb : Below free root t)
    (hx : Exact (erase t)) :
    (PTree.mk m free root).iterator = some ⟨max t.height 2, none, [], 0⟩ := by
  have h1 := hight_ok 0 h.rep (h.fuel hb).2
  simp only [PTree.iterator, PTree.top, h.lo, h1, Option.map_some, Option.some.injEq, PIter.mk.injEq,
    and_true]
  cases t with
  | nil => rfl
  | node a k v l r =>
    have := hight_eq (t := erase (node a k v l r)) hx (by simp [erase]) 0
    rw [AvlHeap.height_erase] at this
    split <;> omega

/-- `index` finds the node of the rank. -/
theorem index_path {m : Mem K V} {root : P K V} {i : Int} : ∀ {t : P K V} {p n b : Nat}
    {stk : List (P K V × Bool)} {idx : Int}, Rep m p t → Exact (erase t) → Path root stk t →
    ptr t = some b → t.height ≤ n → idx = (befores stk).length + leftSz (erase t) →
    ((befores stk).length : Int) ≤ i → i < (befores stk).length + t.toList.length →
    ∃ cur stk' a k v l r, indexLoop m i n b idx = some a.1 ∧ cur = node a k v l r ∧ Path root stk' cur ∧
      ((befores stk' ++ l.toList).length : Int) = i
  | nil, _, _, _, _, _, _, _, _, h, _, _, _, _ => by cases h
  | node _ _ _ _ _, _, 0, _, _, _, _, _, _, _, hn, _, _, _ => by simp [Tree.height] at hn
  | node a k v l r, p, n + 1, b, stk, idx, hR, hx, hp, hb, hn, hi, h1, h2 => by
    obtain ⟨⟨g, hg⟩, hl, hr⟩ := id hR
    cases hb
    obtain ⟨-, xl, xr⟩ := exact_node.1 hx
    have hsz : leftSz (erase (node a k v l r)) = l.toList.length := by
      show sz (erase l) = _
      rw [xl.sz, AvlHeap.toList_erase]
    simp only [Tree.height] at hn
    simp only [toList_node, List.length_append, List.length_cons] at h2
    rw [hsz] at hi
    simp only [indexLoop, hg]
    split
    · next hlt =>
      cases hpl : ptr l with
      | none =>
        have hnil : l = nil := by cases l <;> simp at hpl ⊢
        rw [hnil] at hi; simp at hi; omega
      | some c =>
        simp only [Option.bind_some]
        have xl' := xl.sz
        rw [AvlHeap.toList_erase] at xl'
        have e : idx - (getSize m (m c).hi + 1) = (befores ((node a k v l r, false) :: stk)).length +
            leftSz (erase l) := by
          rw [rightSz_ok hl hpl, hi]
          simp only [befores]
          cases l with
          | nil => cases hpl
          | node a' k' v' l' r' =>
            have h3 := (exact_node.1 xl).1
            have h4 := (exact_node.1 xl).2.1.sz
            have h5 := (exact_node.1 xl).2.2.sz
            simp only [AvlHeap.toList_erase] at h3 h4 h5
            have h6 : rightSz (erase (node a' k' v' l' r')) = r'.toList.length := h5
            have h7 : leftSz (erase (node a' k' v' l' r')) = l'.toList.length := h4
            rw [h6, h7]
            simp only [toList_node, List.length_append, List.length_cons]
            omega
        exact index_path hl xl hp.left hpl (by omega) e (by simpa [befores] using h1)
          (by simp only [befores]; omega)
    · split
      · next hgt =>
        cases hpr : ptr r with
        | none =>
          have hnil : r = nil := by cases r <;> simp at hpr ⊢
          rw [hnil] at h2; simp at h2; omega
        | some c =>
          simp only [Option.bind_some]
          have e : idx + (getSize m (m c).lo + 1) = (befores ((node a k v l r, true) :: stk)).length +
              leftSz (erase r) := by
            rw [leftSz_ok hr hpr, hi]
            simp [befores]
            omega
          refine index_path hr xr hp.right hpr (by omega) e ?_ ?_
          · simp [befores]; omega
          · simp [befores]; omega
      · exact ⟨_, stk, a, k, v, l, r, rfl, rfl, hp, by simp; omega⟩

/-! ### Writing an entry -/

/-- `a.Key, a.Value = f(a.Key, a.Value)`. -/
def writeAt (m : Mem K V) (a : Nat) (f : K × V → K × V) : Mem K V :=
  upd m a fun x => { x with key := (f (x.key, x.val)).1, val := (f (x.key, x.val)).2 }

theorem writeAt_id (m : Mem K V) (a : Nat) : writeAt m a id = m := by
  funext b; simp only [writeAt, upd, id]; split <;> simp_all

theorem writeAt_rep {m : Mem K V} {a : Nat} {f : K × V → K × V} : ∀ {p : Nat} {t : P K V}, Rep m p t →
    Rep (writeAt m a f) p (mapN (fun b k v => if b.1 = a then f (k, v) else (k, v)) t)
  | _, nil, _ => trivial
  | p, node b k v l r, ⟨⟨g, hg⟩, hl, hr⟩ => by
    refine ⟨⟨g, ?_⟩, writeAt_rep hl, writeAt_rep hr⟩
    simp only [writeAt, upd, ptr_mapN]
    by_cases hb : b.1 = a
    · simp [hg, hb] at hg ⊢; simp [hg]
    · rw [if_neg hb]; simp [hg, hb]

end Verif.IndexHeap
