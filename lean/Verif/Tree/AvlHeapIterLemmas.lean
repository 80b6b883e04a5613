import Verif.Tree.AvlHeapIter
import Verif.Tree.AvlHeapMap
import Verif.Tree.AvlReach

/-! The iterator on pointers against the iterator on subtrees. -/

namespace Verif.AvlHeap
open Verif.Avl (Iter Path At Place IOp IRes)
open Verif.Tree
variable {K V : Type}

/-! ### Iterators on subtrees as iterators on pointers -/

/-- An entry of the stack. -/
def toE (e : P K V × Bool) : Nat × Bool := ((ptr e.1).getD 0, e.2)

/-- Forget all but the addresses. -/
def toP (it : Iter (Nat × Int) K V) : PIter := ⟨it.cap, ptr it.cur, it.stk.map toE⟩

/-- What the iterator points to is in the memory. -/
structure W (m : Mem K V) (H : Nat) (it : Iter (Nat × Int) K V) : Prop where
  cur : Rep m it.cur
  low : it.cur.height ≤ H
  stk : ∀ e ∈ it.stk, Rep m e.1 ∧ e.1 ≠ nil ∧ e.1.height ≤ H
  cap : it.stk.length ≤ it.cap

variable {m : Mem K V} {H : Nat} {it : Iter (Nat × Int) K V}

theorem toP_push {e : P K V × Bool} {t : P K V} {c : Bool} {n : Nat} (hn : toE e = (n, c)) :
    (toP it).push (n, c) (ptr t) = (it.push e t).map toP := by
  simp only [PIter.push, Iter.push, toP, List.length_map]
  split
  · simp [toP, hn]
  · rfl

theorem child_rep {t : P K V} (h : Rep m t) (c : Bool) : Rep m (Avl.child c t) := by
  cases t with
  | nil => exact h
  | node a k v l r => simp only [Avl.child]; split; exacts [h.2.2, h.2.1]

theorem child_height {t : P K V} (c : Bool) : (Avl.child c t).height ≤ t.height := by
  cases t with
  | nil => exact Nat.le_refl _
  | node a k v l r => simp only [Avl.child, height]; split <;> omega

theorem W.push (hW : W m H it) {e : P K V × Bool} {t : P K V}
    (he : Rep m e.1 ∧ e.1 ≠ nil ∧ e.1.height ≤ H) (ht : Rep m t) (hl : t.height ≤ H)
    {it' : Iter (Nat × Int) K V} (h : it.push e t = some it') : W m H it' := by
  simp only [Iter.push] at h
  split at h
  · next h1 =>
    cases h
    refine ⟨ht, hl, fun x hx => ?_, h1⟩
    rcases List.mem_cons.1 hx with rfl | hx
    · exact he
    · exact hW.stk x hx
  · cases h

theorem down_sim (hW : W m H it) (c : Bool) : (toP it).down m c =
    (it.down c).map fun p => (toP p.1, p.2) := by
  obtain ⟨cap, cur, stk⟩ := it
  cases cur with
  | nil =>
    cases stk with
    | nil => rfl
    | cons e stk =>
      obtain ⟨n, d⟩ := e
      have h1 := (hW.stk (n, d) (by simp)).2.1
      have h2 : ¬ cap < stk.length + 1 := by have := hW.cap; simp at this; omega
      cases n with
      | nil => exact absurd rfl h1
      | node a k v l r =>
        simp only [toP, PIter.down, Iter.down, ptr_nil, List.map_cons, List.length_cons,
          List.length_map, Avl.isNil_nil, if_true]
        rw [if_neg h2]
        by_cases hd : d = !c <;> simp [hd, toE]
  | node a k v l r =>
    have hc : (m a.1).kid c = ptr (Avl.child c (node a k v l r)) := by
      rw [hW.cur.1]; cases c <;> rfl
    simp only [toP, PIter.down, Iter.down, ptr_node, Avl.isNil_node, Bool.false_eq_true, if_false, hc]
    cases hk : Avl.child c (node a k v l r) with
    | nil => simp [Tree.isNil]
    | node a' k' v' l' r' =>
      simp only [ptr_node, Avl.isNil_node, Bool.false_eq_true, if_false]
      have := toP_push (it := ⟨cap, node a k v l r, stk⟩) (e := (node a k v l r, c))
        (t := node a' k' v' l' r') (c := c) (n := a.1) rfl
      simp only [toP, ptr_node] at this
      rw [this, Option.map_map, Option.map_map]
      rfl

theorem down_W (hW : W m H it) {c : Bool} {p : Iter (Nat × Int) K V × Bool} (h : it.down c = some p) :
    W m H p.1 := by
  simp only [Iter.down] at h
  split at h
  · split at h
    · cases h; exact hW
    · next n d stk hs =>
      have h2 := hW.cap
      rw [hs] at h2
      simp only [List.length_cons] at h2
      split at h
      · cases h
        have h1 := hW.stk (n, d) (by rw [hs]; simp)
        exact ⟨h1.1, h1.2.2, fun e he => hW.stk e (by rw [hs]; simp [he]), by simp; omega⟩
      · cases h; exact hW
  · split at h
    · cases h; exact hW
    · next h1 _ =>
      simp only [Option.map_eq_some_iff] at h
      obtain ⟨it', h2, rfl⟩ := h
      refine hW.push ⟨hW.cur, ?_, hW.low⟩ (child_rep hW.cur c)
        (Nat.le_trans (child_height c) hW.low) h2
      rintro h3
      exact h1 (by rw [show it.cur = nil from h3]; rfl)

theorem findUp_sim (c : Bool) : ∀ stk : List (P K V × Bool),
    findUp c (stk.map toE) = (Avl.findUp c stk).map fun p => ((ptr p.1).getD 0, p.2.map toE)
  | [] => rfl
  | (n, d) :: stk => by
    simp only [List.map_cons, toE, findUp, Avl.findUp]
    by_cases h : d = !c
    · simp [h]
    · simp only [h, if_false]; exact findUp_sim c stk

theorem findUp_mem {c : Bool} : ∀ {stk : List (P K V × Bool)} {n stk'},
    Avl.findUp c stk = some (n, stk') → (∃ d, (n, d) ∈ stk) ∧ stk' <:+ stk ∧ stk'.length < stk.length
  | [], n, stk', h => by cases h
  | (n', d) :: stk, n, stk', h => by
    simp only [Avl.findUp] at h
    split at h
    · cases h; exact ⟨⟨d, by simp⟩, List.suffix_cons _ _, by simp⟩
    · obtain ⟨⟨d', h1⟩, h2, h3⟩ := findUp_mem h
      exact ⟨⟨d', by simp [h1]⟩, h2.trans (List.suffix_cons _ _), by simp; omega⟩

theorem up_sim (hW : W m H it) (c : Bool) : (toP it).up c =
    (it.up c).map fun p => (toP p.1, p.2) := by
  have h1 : ¬ (toP it).cap < (toP it).stk.length := by
    have := hW.cap; simp only [toP, List.length_map]; omega
  have h2 := findUp_sim c it.stk
  simp only [PIter.up, Iter.up]
  rw [if_neg h1]
  simp only [toP] at h2 ⊢
  rw [h2]
  cases hf : Avl.findUp c it.stk with
  | none =>
    simp only [Option.map_none]
    cases hcur : it.cur with
    | nil => simp [Tree.isNil, hcur]
    | node a k v l r =>
      simp only [ptr_node, Avl.isNil_node, Bool.false_eq_true, if_false]
      have := toP_push (it := it) (e := (node a k v l r, c)) (t := nil) (c := c) (n := a.1) rfl
      simp only [toP, hcur, ptr_node, ptr_nil] at this
      rw [this, Option.map_map, Option.map_map]
      rfl
  | some p =>
    obtain ⟨n, stk'⟩ := p
    obtain ⟨⟨d, h3⟩, -, -⟩ := findUp_mem hf
    have h4 := (hW.stk _ h3).2.1
    cases n with
    | nil => exact absurd rfl h4
    | node a k v l r => simp

theorem up_W (hW : W m H it) {c : Bool} {p : Iter (Nat × Int) K V × Bool} (h : it.up c = some p) :
    W m H p.1 := by
  simp only [Iter.up] at h
  split at h
  · next n stk' hf =>
    cases h
    obtain ⟨⟨d, h3⟩, h4, h5⟩ := findUp_mem hf
    have h6 := hW.stk _ h3
    have := hW.cap
    exact ⟨h6.1, h6.2.2, fun e he => hW.stk e (h4.subset he), by simp; omega⟩
  · split at h
    · cases h; exact hW
    · next h1 =>
      simp only [Option.map_eq_some_iff] at h
      obtain ⟨it', h2, rfl⟩ := h
      refine hW.push (t := nil) ⟨hW.cur, ?_, hW.low⟩ trivial (Nat.zero_le _) h2
      rintro h3
      exact h1 (by rw [show it.cur = nil from h3]; rfl)

theorem downs_sim {c : Bool} : ∀ {n N : Nat}, n ≤ N → ∀ {it r : Iter (Nat × Int) K V}, W m H it →
    it.downs c n = some r → (toP it).downs m c N = some (toP r) ∧ W m H r
  | 0, _, _, _, _, _, h => by cases h
  | n + 1, 0, hN, _, _, _, _ => by omega
  | n + 1, N + 1, hN, it, r, hW, h => by
    simp only [Iter.downs, Option.bind_eq_some_iff] at h
    obtain ⟨p, h1, h2⟩ := h
    have h3 := down_W hW h1
    simp only [PIter.downs, down_sim hW c, h1, Option.map_some, Option.bind_some]
    cases hp : p.2 with
    | true => rw [hp, if_pos rfl] at h2; rw [if_pos rfl]; exact downs_sim (by omega) h3 h2
    | false => rw [hp, if_neg (by simp)] at h2; cases h2; rw [if_neg (by simp)]; exact ⟨rfl, h3⟩

theorem W.fuel (hW : W m H it) : it.fuel ≤ 2 * H + 2 := by
  have h1 := hW.low
  have h2 := hW.stk
  simp only [Iter.fuel]
  split
  · omega
  · next n d stk hs =>
    have := (h2 (n, d) (by rw [hs]; simp)).2.2
    simp only at this
    omega

theorem move_sim {F : Nat} (hF : 2 * H + 2 ≤ F) (hW : W m H it) {c : Bool}
    {r : Iter (Nat × Int) K V} (h : it.move c = some r) :
    (toP it).move m F c = some (toP r) ∧ W m H r := by
  simp only [Iter.move, Option.bind_eq_some_iff] at h
  obtain ⟨p, h1, h2⟩ := h
  have h3 := down_W hW h1
  simp only [PIter.move, down_sim hW c, h1, Option.map_some, Option.bind_some]
  cases hp : p.2 with
  | true =>
    rw [hp, if_pos rfl] at h2; rw [if_pos rfl]
    exact downs_sim (Nat.le_trans h3.fuel hF) h3 h2
  | false =>
    rw [hp, if_neg (by simp)] at h2; rw [if_neg (by simp)]
    simp only [Option.map_eq_some_iff] at h2
    obtain ⟨q, h4, rfl⟩ := h2
    rw [up_sim hW c, h4]
    exact ⟨rfl, up_W hW h4⟩

theorem W.start {root : P K V} (hR : Rep m root) (hH : root.height ≤ H) (cap : Nat) :
    W m H ⟨cap, root, []⟩ := ⟨hR, hH, by simp, by simp⟩

theorem seekEnd_sim {F : Nat} (hF : 2 * H + 2 ≤ F) {root : P K V} (hR : Rep m root)
    (hH : root.height ≤ H) {c : Bool} {r : Iter (Nat × Int) K V} (h : it.seekEnd root c = some r)
    {pit : PIter} (hp : pit.cap = it.cap) :
    pit.seekEnd m F (ptr root) c = some (toP r) ∧ W m H r := by
  have hW := W.start (cap := it.cap) hR hH
  rw [PIter.seekEnd, hp]
  exact downs_sim (Nat.le_trans hW.fuel hF) hW h

section
variable {cmp : K → K → Int}

theorem seekLoop_sim {F : Nat} (hF : 2 * H + 2 ≤ F) {key : K} {c strict : Bool} : ∀ {n N : Nat},
    n ≤ N → ∀ {it : Iter (Nat × Int) K V} {r : Iter (Nat × Int) K V × Bool}, W m H it →
    it.seekLoop cmp key c strict n = some r →
    (toP it).seekLoop cmp m F key c strict N = some (toP r.1, r.2) ∧ W m H r.1
  | 0, _, _, _, _, _, h => by cases h
  | n + 1, 0, hN, _, _, _, _ => by omega
  | n + 1, N + 1, hN, it, r, hW, h => by
    simp only [Iter.seekLoop] at h
    cases hcur : it.cur with
    | nil => rw [hcur] at h; cases h
    | node a k v l r' =>
      have hcell : (m a.1).key = k := by have := hW.cur; rw [hcur] at this; rw [this.1]
      rw [hcur] at h
      simp only at h
      have hpc : (toP it).cur = some a.1 := by simp [toP, hcur]
      simp only [PIter.seekLoop, hpc, Option.bind_some, hcell]
      by_cases hx : cmp k key < 0
      · rw [if_pos hx] at h ⊢
        cases strict with
        | true =>
          rw [if_pos rfl] at h ⊢
          simp only [Option.map_eq_some_iff] at h
          obtain ⟨i, h1, rfl⟩ := h
          obtain ⟨h2, h3⟩ := move_sim hF hW h1
          exact ⟨by rw [h2]; rfl, h3⟩
        | false => rw [if_neg (by simp)] at h ⊢; cases h; exact ⟨rfl, hW⟩
      · rw [if_neg hx] at h ⊢
        by_cases hx1 : cmp k key = 0 ∨ cmp k key = 1
        · have hdir : dir (cmp k key) = some (decide (cmp k key = 1)) := by
            rcases hx1 with h1 | h1 <;> simp [dir, h1]
          rw [if_pos hx1] at h
          rw [hdir]
          simp only [Option.bind_eq_some_iff, Option.bind_some] at h ⊢
          obtain ⟨p, h1, h2⟩ := h
          have h3 := down_W hW h1
          rw [down_sim hW, h1]
          simp only [Option.map_some, Option.some.injEq, exists_eq_left']
          cases hp : p.2 with
          | true =>
            rw [hp, if_pos rfl] at h2; rw [if_pos rfl]
            exact seekLoop_sim hF (by omega) h3 h2
          | false =>
            rw [hp, if_neg (by simp)] at h2; rw [if_neg (by simp)]
            by_cases hd : decide (cmp k key = 1) = c
            · rw [if_pos hd] at h2 ⊢
              simp only [Option.map_eq_some_iff] at h2
              obtain ⟨q, h4, rfl⟩ := h2
              rw [up_sim h3, h4]
              exact ⟨rfl, (up_W h3 h4 :)⟩
            · rw [if_neg hd] at h2 ⊢; cases h2; exact ⟨rfl, h3⟩
        · rw [if_neg hx1] at h; cases h

theorem seek_sim {F : Nat} (hF : 2 * H + 2 ≤ F) {root : P K V} (hR : Rep m root)
    (hH : root.height ≤ H) {key : K} {c strict : Bool} {r : Iter (Nat × Int) K V × Bool}
    (h : it.seek cmp root key c strict = some r) {pit : PIter} (hp : pit.cap = it.cap)
    (he : root = nil → pit = toP it ∧ W m H it) :
    pit.seek cmp m F (ptr root) key c strict = some (toP r.1, r.2) ∧ W m H r.1 := by
  cases root with
  | nil =>
    obtain ⟨rfl, hW⟩ := he rfl
    simp only [Iter.seek, Tree.isNil, if_true] at h
    cases h
    exact ⟨rfl, trivial, Nat.zero_le _, hW.stk, hW.cap⟩
  | node a k v l r' =>
    have hW := W.start (cap := it.cap) hR hH
    simp only [Iter.seek, Avl.isNil_node, Bool.false_eq_true, if_false] at h
    simp only [PIter.seek, ptr_node, hp]
    exact seekLoop_sim hF (Nat.le_trans hW.fuel hF) hW h

end

/-! ### Iterators in their place -/

theorem Path.rep {root cur : P K V} {stk} (h : Path root stk cur) (hR : Rep m root) :
    Rep m cur ∧ cur.height ≤ root.height ∧
      ∀ e ∈ stk, Rep m e.1 ∧ e.1 ≠ nil ∧ e.1.height ≤ root.height := by
  induction h with
  | root => exact ⟨hR, Nat.le_refl _, by simp⟩
  | right _ ih =>
    obtain ⟨h1, h2, h3⟩ := ih
    refine ⟨h1.2.2, by simp only [height] at h2; omega, fun e he => ?_⟩
    rcases List.mem_cons.1 he with rfl | he
    exacts [⟨h1, by simp, h2⟩, h3 e he]
  | left _ ih =>
    obtain ⟨h1, h2, h3⟩ := ih
    refine ⟨h1.2.1, by simp only [height] at h2; omega, fun e he => ?_⟩
    rcases List.mem_cons.1 he with rfl | he
    exacts [⟨h1, by simp, h2⟩, h3 e he]

/-- The stack is not longer than the tree is high. -/
theorem Place.short {root : P K V} {p : Option Int} (h : Place root it p) :
    it.stk.length ≤ root.height := by
  cases h with
  | unset h1 h2 h3 => simp [h3]
  | on h => have := h.path.height; omega
  | after h1 h2 h3 =>
    have h4 := h3.path.height
    obtain ⟨hh, l, r, h5, -⟩ := h3.here
    simp only at h4 h5
    rw [h5] at h4
    simp only [h2, height, List.length_cons] at h4 ⊢
    omega
  | before h1 h2 h3 =>
    have h4 := h3.path.height
    obtain ⟨hh, l, r, h5, -⟩ := h3.here
    simp only at h4 h5
    rw [h5] at h4
    simp only [h2, height, List.length_cons] at h4 ⊢
    omega

theorem Place.W {root : P K V} {p : Option Int} (h : Place root it p) (hR : Rep m root) :
    W m root.height it := by
  have hs := Nat.le_trans (Place.short h) h.cap
  cases h with
  | unset h1 h2 h3 => exact ⟨by rw [h2]; trivial, by rw [h2]; exact Nat.zero_le _, by simp [h3], hs⟩
  | on h =>
    obtain ⟨h1, h2, h3⟩ := Path.rep h.path hR
    exact ⟨h1, h2, h3, hs⟩
  | after h1 h2 h3 =>
    obtain ⟨h4, h5, h6⟩ := Path.rep h3.path hR
    refine ⟨by rw [h1]; trivial, by rw [h1]; exact Nat.zero_le _, fun e he => ?_, hs⟩
    rw [h2] at he
    rcases List.mem_cons.1 he with rfl | he
    · obtain ⟨hh, l, r, h7, -⟩ := h3.here
      exact ⟨h4, by simp only at h7 ⊢; rw [h7]; simp, h5⟩
    · exact h6 e he
  | before h1 h2 h3 =>
    obtain ⟨h4, h5, h6⟩ := Path.rep h3.path hR
    refine ⟨by rw [h1]; trivial, by rw [h1]; exact Nat.zero_le _, fun e he => ?_, hs⟩
    rw [h2] at he
    rcases List.mem_cons.1 he with rfl | he
    · obtain ⟨hh, l, r, h7, -⟩ := h3.here
      exact ⟨h4, by simp only at h7 ⊢; rw [h7]; simp, h5⟩
    · exact h6 e he

/-- A new capacity. -/
theorem Place.recap {root : P K V} {p : Option Int} (h : Place root it p) {cap : Nat}
    (hc : root.height ≤ cap) : Place root ⟨cap, it.cur, it.stk⟩ p := by
  cases h with
  | unset h1 h2 h3 => exact .unset hc h2 h3
  | on h => exact .on ⟨hc, h.path, h.here⟩
  | after h1 h2 h3 => exact .after h1 h2 ⟨hc, h3.path, h3.here⟩
  | before h1 h2 h3 => exact .before h1 h2 ⟨hc, h3.path, h3.here⟩

/-! ### Other entries in the nodes -/

/-- Change the entries of the nodes. -/
def mapN (g : Nat × Int → K → V → K × V) : P K V → P K V
  | nil => nil
  | node a k v l r => node a (g a k v).1 (g a k v).2 (mapN g l) (mapN g r)

section
variable (g : Nat × Int → K → V → K × V)

theorem mapN_nil : mapN g (nil : P K V) = nil := rfl

theorem ptr_mapN (t : P K V) : ptr (mapN g t) = ptr t := by cases t <;> rfl

theorem addrs_mapN : ∀ t : P K V, addrs (mapN g t) = addrs t
  | nil => rfl
  | node a k v l r => by simp only [mapN, addrs, addrs_mapN l, addrs_mapN r]

theorem height_mapN : ∀ t : P K V, (mapN g t).height = t.height
  | nil => rfl
  | node a k v l r => by simp only [mapN, height, height_mapN l, height_mapN r]

theorem length_mapN : ∀ t : P K V, (mapN g t).toList.length = t.toList.length
  | nil => rfl
  | node a k v l r => by simp [mapN, toList, length_mapN l, length_mapN r]

def mapS (stk : List (P K V × Bool)) : List (P K V × Bool) := stk.map fun e => (mapN g e.1, e.2)

theorem befores_mapS : ∀ stk : List (P K V × Bool),
    (Avl.befores (mapS g stk)).length = (Avl.befores stk).length
  | [] => rfl
  | (nil, true) :: stk => befores_mapS stk
  | (nil, false) :: stk => befores_mapS stk
  | (node a k v l r, true) :: stk => by
    have := befores_mapS stk
    simp [mapS, mapN, Avl.befores, length_mapN] at this ⊢; omega
  | (node a k v l r, false) :: stk => befores_mapS stk

theorem afters_mapS : ∀ stk : List (P K V × Bool),
    (Avl.afters (mapS g stk)).length = (Avl.afters stk).length
  | [] => rfl
  | (nil, true) :: stk => afters_mapS stk
  | (nil, false) :: stk => afters_mapS stk
  | (node a k v l r, true) :: stk => afters_mapS stk
  | (node a k v l r, false) :: stk => by
    have := afters_mapS stk
    simp [mapS, mapN, Avl.afters, length_mapN] at this ⊢; omega

theorem mapS_path {root cur : P K V} {stk} (h : Path root stk cur) :
    Path (mapN g root) (mapS g stk) (mapN g cur) := by
  induction h with
  | root => exact .root
  | right _ ih => exact .right ih
  | left _ ih => exact .left ih

theorem At.mapN {root : P K V} {L R : List (K × V)} {e : K × V} (h : At root it L e R) :
    ∃ L' e' R', At (mapN g root) ⟨it.cap, AvlHeap.mapN g it.cur, mapS g it.stk⟩ L' e' R' ∧
      L'.length = L.length ∧ R'.length = R.length := by
  obtain ⟨h1, h2, hh, l, r, h3, rfl, rfl⟩ := h
  refine ⟨_, g hh e.1 e.2, _, ⟨by rw [height_mapN]; exact h1, mapS_path g h2, hh, AvlHeap.mapN g l,
    AvlHeap.mapN g r, by rw [h3]; rfl, rfl, rfl⟩, ?_, ?_⟩
  · simp [length_mapN, befores_mapS]
  · simp [length_mapN, afters_mapS]

/-- The iterator stays where it is. -/
theorem Place.mapN {root : P K V} {p : Option Int} (h : Place root it p) :
    Place (mapN g root) ⟨it.cap, AvlHeap.mapN g it.cur, mapS g it.stk⟩ p := by
  cases h with
  | unset h1 h2 h3 => exact .unset (by rw [height_mapN]; exact h1) (by rw [h2]; rfl) (by rw [h3]; rfl)
  | on h =>
    obtain ⟨L', e', R', h1, h2, -⟩ := At.mapN g h
    rw [← h2]; exact .on h1
  | after h1 h2 h3 =>
    obtain ⟨L', e', R', h4, -, h5⟩ := At.mapN g h3
    cases R' with
    | nil => rw [← length_mapN g]; exact .after (by rw [h1]; rfl) (by rw [h2]; rfl) h4
    | cons _ _ => cases h5
  | before h1 h2 h3 =>
    obtain ⟨L', e', R', h4, h5, -⟩ := At.mapN g h3
    cases L' with
    | nil => exact .before (by rw [h1]; rfl) (by rw [h2]; rfl) h4
    | cons _ _ => cases h5

theorem toP_mapN : toP ⟨it.cap, mapN g it.cur, mapS g it.stk⟩ = toP it := by
  simp only [toP, ptr_mapN, mapS, List.map_map, PIter.mk.injEq, true_and]
  exact List.map_congr_left fun e _ => by simp [toE, ptr_mapN]

end

/-- Write an entry into the cell at `a`. -/
theorem rep_write {a : Nat} {f : K × V → K × V} : ∀ {t : P K V}, Rep m t → (addrs t).Nodup →
    Rep (write m a f) (mapN (fun b k v => if b.1 = a then f (k, v) else (k, v)) t)
  | nil, _, _ => trivial
  | node b k v l r, hR, hn => by
    obtain ⟨h1, h2, h3⟩ := hR
    simp only [addrs, List.nodup_cons, List.nodup_append] at hn
    refine ⟨?_, rep_write h2 hn.2.1, rep_write h3 hn.2.2.1⟩
    simp only [write, upd, ptr_mapN]
    by_cases hb : b.1 = a
    · subst hb; simp [h1]
    · rw [if_neg hb]; simp [h1, hb]

/-- A part of the memory is one tree. -/
theorem rep_unique : ∀ {t t' : P K V}, Rep m t → Rep m t' → ptr t = ptr t' → t = t'
  | nil, nil, _, _, _ => rfl
  | nil, node _ _ _ _ _, _, _, h => by simp at h
  | node _ _ _ _ _, nil, _, _, h => by simp at h
  | node a k v l r, node a' k' v' l' r', h1, h2, h => by
    simp only [ptr_node, Option.some.injEq] at h
    have h3 := h1.1.symm.trans ((congrArg m h).trans h2.1)
    injection h3 with e1 e2 e3 e4 e5
    rw [rep_unique h1.2.1 h2.2.1 e4, rep_unique h1.2.2 h2.2.2 e5, e1, e2,
      show a = a' from Prod.ext h e3]

end Verif.AvlHeap
