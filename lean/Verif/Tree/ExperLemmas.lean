import Verif.Tree.ExperModel
import Verif.Tree.IndexLemmas
import Verif.Tree.AvlLemmas

/-! Lemmas on tree/indextree/experiment. -/

namespace Verif.Exper

open Tree

variable {K V : Type} {cmp : K → K → Int}

/-- The tree with the sizes only. -/
def sizes : N K V → Size.T K V
  | nil => nil
  | node a k v l r => node a.2 k v (sizes l) (sizes r)

theorem sz_sizes (t : N K V) : Size.sz (sizes t) = sz t := by cases t <;> rfl

theorem toList_sizes (t : N K V) : (sizes t).toList = t.toList := by
  induction t with
  | nil => rfl
  | node a k v l r ihl ihr => simp only [sizes, toList_node, ihl, ihr]

theorem height_sizes (t : N K V) : (sizes t).height = t.height := by
  induction t with
  | nil => rfl
  | node a k v l r ihl ihr => simp only [sizes, height, ihl, ihr]

theorem sizes_mk (k : K) (v : V) (l r : N K V) : sizes (mk k v l r) = Size.mk k v (sizes l) (sizes r) := by
  simp only [mk, sizes, Size.mk, sz_sizes]

theorem sizes_lrotate (t : N K V) : (lrotate t).map sizes = Size.lrotate (sizes t) := by
  match t with
  | nil => rfl
  | node _ _ _ _ nil => rfl
  | node _ _ _ _ (node _ _ _ _ _) => simp [lrotate, sizes, Size.lrotate, sizes_mk]

theorem sizes_rrotate (t : N K V) : (rrotate t).map sizes = Size.rrotate (sizes t) := by
  match t with
  | nil => rfl
  | node _ _ _ nil _ => rfl
  | node _ _ _ (node _ _ _ _ _) _ => simp [rrotate, sizes, Size.rrotate, sizes_mk]

theorem sizes_sizeRRotate (t : N K V) : (sizeRRotate t).map sizes = Size.sizeRRotate (sizes t) := by
  match t with
  | nil => rfl
  | node _ _ _ _ nil => rfl
  | node a k v l (node b k' v' x y) =>
    simp only [sizeRRotate, kidSizes, Option.bind_some, sizes, Size.sizeRRotate, Size.kids, sz_sizes]
    split
    · have h1 := sizes_rrotate (node b k' v' x y)
      rw [sizes] at h1
      rw [← h1]
      cases rrotate (node b k' v' x y) with
      | none => rfl
      | some r' => exact sizes_lrotate (node a k v l r')
    · exact sizes_lrotate _

theorem sizes_sizeLRotate (t : N K V) : (sizeLRotate t).map sizes = Size.sizeLRotate (sizes t) := by
  match t with
  | nil => rfl
  | node _ _ _ nil _ => rfl
  | node a k v (node b k' v' x y) r =>
    simp only [sizeLRotate, kidSizes, Option.bind_some, sizes, Size.sizeLRotate, Size.kids, sz_sizes]
    split
    · have h1 := sizes_lrotate (node b k' v' x y)
      rw [sizes] at h1
      rw [← h1]
      cases lrotate (node b k' v' x y) with
      | none => rfl
      | some l' => exact sizes_rrotate (node a k v l' r)
    · exact sizes_rrotate _

/-- A round of the walk does to the sizes what it does in tree/indextree. -/
theorem sizes_fixNode (shift : Nat) (up : Size.Up) (a : Int × Int) (k : K) (v : V) (l r : N K V)
    (ha : a.2 = sz l + sz r) :
    (fixNode shift up a k v l r).map (fun q => (sizes q.1, q.2)) =
      Size.fixNode (IndexTree.limit shift) up (node a.2 k v (sizes l) (sizes r)) := by
  cases up with
  | leaf => simp only [fixNode, Size.fixNode]; split <;> rfl
  | size => simp only [fixNode, Size.fixNode, Option.map_some, sizes_mk, Size.mk, sz_sizes, ha]
  | fix h =>
    have hlim : IndexTree.limit shift h = some (heightLimit shift h) := rfl
    simp only [fixNode, Size.fixNode, hlim, Option.bind_some, sz_sizes]
    by_cases h1 : a.2 + 1 < (heightLimit shift h).1
    · rw [if_pos h1, if_pos h1]
      by_cases h2 : sz l - sz r < 0
      · rw [if_pos h2, if_pos h2]
        by_cases h3 : -(sz l - sz r) ≥ (heightLimit shift h).2
        · rw [if_pos h3, if_pos h3, Option.map_map]
          have e := sizes_sizeRRotate (node (newH l r, a.2 + 1) k v l r)
          rw [sizes] at e
          rw [← e, Option.map_map]
          rfl
        · rw [if_neg h3, if_neg h3]; rfl
      · rw [if_neg h2, if_neg h2]
        by_cases h3 : sz l - sz r ≥ (heightLimit shift h).2
        · rw [if_pos h3, if_pos h3, Option.map_map]
          have e := sizes_sizeLRotate (node (newH l r, a.2 + 1) k v l r)
          rw [sizes] at e
          rw [← e, Option.map_map]
          rfl
        · rw [if_neg h3, if_neg h3]; rfl
    · rw [if_neg h1, if_neg h1]; rfl

theorem sz_put {t : Size.T K V} {shift : Nat} {key : K} {val : V} (h : Size.Exact t)
    {p : Size.T K V × Option Size.Up}
    (hp : Size.put (IndexTree.limit shift) cmp key val id t = some p) :
    Size.Exact p.1 ∧ Size.sz p.1 = Size.sz t + (if p.2.isSome then 1 else 0) := by
  obtain ⟨q, h1, h2, h3, -⟩ := Size.put_ok (cmp := cmp) (key := key) (val := val) (upd := id)
    (IndexTree.limOK shift) h (fun _ _ _ => rfl)
  rw [hp] at h1
  cases h1
  refine ⟨h2, ?_⟩
  rw [h2.sz, h.sz, h3]
  split <;> simp

/-- `Put` does to the sizes what it does in tree/indextree. -/
theorem sizes_put (hc : Lawful cmp) (shift : Nat) (key : K) (val : V) : ∀ t : N K V, Size.Exact (sizes t) →
    (put cmp shift key val t).map (fun p => (sizes p.1, p.2)) =
      Size.put (IndexTree.limit shift) cmp key val id (sizes t)
  | nil, _ => rfl
  | node a k v l r, h => by
    have : Std.TransCmp (Size.ord cmp) := hc
    have e1 : cmp k key < 0 ↔ cmp key k > 0 := by
      rw [← Size.ord_lt (cmp := cmp), ← Size.ord_gt (cmp := cmp)]; exact Ord.lt_iff
    have e2 : cmp k key > 0 ↔ cmp key k < 0 := by
      rw [← Size.ord_lt (cmp := cmp), ← Size.ord_gt (cmp := cmp)]; exact Ord.gt_iff
    rw [sizes] at h
    obtain ⟨ha, hl, hr⟩ := Size.exact_node.1 h
    have il := sizes_put hc shift key val l hl
    have ir := sizes_put hc shift key val r hr
    have ha' : a.2 = sz l + sz r + 1 := by
      rw [ha, ← sz_sizes, ← sz_sizes, hl.sz, hr.sz]
    simp only [put, sizes, Size.put]
    by_cases c1 : cmp k key < 0
    · have c2 : ¬cmp key k < 0 := by have := e1.1 c1; omega
      rw [if_pos c1, if_neg c2, if_pos (e1.1 c1), ← ir]
      cases hp : put cmp shift key val r with
      | none => rfl
      | some p =>
        obtain ⟨p, up⟩ := p
        simp only [Option.bind_some, Option.map_some]
        cases up with
        | none => rfl
        | some up =>
          rw [hp] at ir
          obtain ⟨-, h2⟩ := sz_put hr ir.symm
          simp only [sz_sizes, Option.isSome_some, if_true] at h2
          simp only []
          rw [← sizes_fixNode _ _ _ _ _ _ _ (by omega), Option.map_map, Option.map_map]
          rfl
    · by_cases c2 : cmp k key > 0
      · rw [if_neg c1, if_pos c2, if_pos (e2.1 c2), ← il]
        cases hp : put cmp shift key val l with
        | none => rfl
        | some p =>
          obtain ⟨p, up⟩ := p
          simp only [Option.bind_some, Option.map_some]
          cases up with
          | none => rfl
          | some up =>
            rw [hp] at il
            obtain ⟨-, h2⟩ := sz_put hl il.symm
            simp only [sz_sizes, Option.isSome_some, if_true] at h2
            simp only []
            rw [← sizes_fixNode _ _ _ _ _ _ _ (by omega), Option.map_map, Option.map_map]
            rfl
      · have c3 : ¬cmp key k < 0 := fun h => c2 (e2.2 h)
        have c4 : ¬cmp key k > 0 := fun h => c1 (e1.2 h)
        rw [if_neg c1, if_neg c2, if_neg c3, if_neg c4]
        rfl

/-! ### Heights -/

/-- Every subtree of height at most 127 has its height recorded. -/
def HOK : N K V → Prop
  | nil => True
  | node a _ _ l r => (max l.height r.height + 1 ≤ 127 → a.1 = (max l.height r.height + 1 : Nat)) ∧
      HOK l ∧ HOK r

theorem HOK.hgt {t : N K V} (h : HOK t) (hn : t.height ≤ 127) : hgt t = t.height := by
  cases t with
  | nil => rfl
  | node a k v l r => exact h.1 hn

theorem newH_eq {l r : N K V} (hl : HOK l) (hr : HOK r) (h : max l.height r.height + 1 ≤ 127) :
    newH l r = (max l.height r.height + 1 : Nat) := by
  unfold newH
  rw [hl.hgt (by omega), hr.hgt (by omega)]
  split
  · rw [Avl.w8_id (by omega) (by omega)]; omega
  · rw [Avl.w8_id (by omega) (by omega)]; omega

theorem HOK.node {l r : N K V} {s : Int} {k : K} {v : V} (hl : HOK l) (hr : HOK r) :
    HOK (node (newH l r, s) k v l r) := ⟨fun h => newH_eq hl hr h, hl, hr⟩

theorem HOK.lrotate {t t' : N K V} (h : HOK t) (e : lrotate t = some t') : HOK t' := by
  match t, h, e with
  | .node _ _ _ _ (.node _ _ _ _ _), h, e => cases e; exact (h.2.1.node h.2.2.2.1).node h.2.2.2.2

theorem HOK.rrotate {t t' : N K V} (h : HOK t) (e : rrotate t = some t') : HOK t' := by
  match t, h, e with
  | .node _ _ _ (.node _ _ _ _ _) _, h, e => cases e; exact h.2.1.2.1.node (h.2.1.2.2.node h.2.2)

/-- A rotation reads no height of the node it is called for. -/
theorem lrotate_top (a b : Int × Int) (k : K) (v : V) (l r : N K V) :
    Exper.lrotate (node a k v l r) = Exper.lrotate (node b k v l r) := by cases r <;> rfl
theorem rrotate_top (a b : Int × Int) (k : K) (v : V) (l r : N K V) :
    Exper.rrotate (node a k v l r) = Exper.rrotate (node b k v l r) := by cases l <;> rfl

theorem HOK.sizeRRotate {s : Int} {k : K} {v : V} {l r : N K V} (hl : HOK l) (hr : HOK r) {t' : N K V}
    (e : sizeRRotate (Tree.node (newH l r, s) k v l r) = some t') : HOK t' := by
  simp only [Exper.sizeRRotate, Option.bind_eq_some_iff] at e
  obtain ⟨x, -, e⟩ := e
  split at e
  · obtain ⟨r', h1, h2⟩ := Option.bind_eq_some_iff.1 e
    rw [lrotate_top _ (newH l r', s)] at h2
    exact HOK.lrotate (hl.node (hr.rrotate h1)) h2
  · exact HOK.lrotate (hl.node hr) e

theorem HOK.sizeLRotate {s : Int} {k : K} {v : V} {l r : N K V} (hl : HOK l) (hr : HOK r) {t' : N K V}
    (e : sizeLRotate (Tree.node (newH l r, s) k v l r) = some t') : HOK t' := by
  simp only [Exper.sizeLRotate, Option.bind_eq_some_iff] at e
  obtain ⟨x, -, e⟩ := e
  split at e
  · obtain ⟨l', h1, h2⟩ := Option.bind_eq_some_iff.1 e
    rw [rrotate_top _ (newH l' r, s)] at h2
    exact HOK.rrotate ((hl.lrotate h1).node hr) h2
  · exact HOK.rrotate (hl.node hr) e

theorem HOK.fixNode {shift : Nat} {up : Size.Up} {a : Int × Int} {k : K} {v : V} {l r : N K V}
    (hl : HOK l) (hr : HOK r) {q : N K V × Size.Up} (e : fixNode shift up a k v l r = some q) :
    HOK q.1 := by
  have hn : HOK (Tree.node (newH l r, a.2 + 1) k v l r) := hl.node hr
  cases up with
  | leaf => simp only [Exper.fixNode] at e; split at e <;> cases e <;> exact hn
  | size => cases e; exact hl.node hr
  | fix h =>
    simp only [Exper.fixNode] at e
    split at e
    · split at e
      · split at e
        · obtain ⟨t, h1, h2⟩ := Option.map_eq_some_iff.1 e
          cases h2; exact hl.sizeRRotate hr h1
        · cases e; exact hn
      · split at e
        · obtain ⟨t, h1, h2⟩ := Option.map_eq_some_iff.1 e
          cases h2; exact hl.sizeLRotate hr h1
        · cases e; exact hn
    · cases e; exact hn

theorem sizes_found {shift : Nat} {key : K} {val : V} : ∀ {t : N K V} {p : N K V × Option Size.Up},
    put cmp shift key val t = some p → p.2 = none → p.1 = t
  | nil, p, e, h => by cases e; cases h
  | node a k v l r, p, e, h => by
    simp only [put] at e
    split at e
    · obtain ⟨q, h1, h2⟩ := Option.bind_eq_some_iff.1 e
      obtain ⟨q, up⟩ := q
      cases up with
      | none => cases h2; rw [sizes_found h1 rfl]
      | some up => obtain ⟨x, h3, h4⟩ := Option.map_eq_some_iff.1 h2; cases h4; cases h
    · split at e
      · obtain ⟨q, h1, h2⟩ := Option.bind_eq_some_iff.1 e
        obtain ⟨q, up⟩ := q
        cases up with
        | none => cases h2; rw [sizes_found h1 rfl]
        | some up => obtain ⟨x, h3, h4⟩ := Option.map_eq_some_iff.1 h2; cases h4; cases h
      · cases e; rfl

theorem HOK.put {shift : Nat} {key : K} {val : V} : ∀ {t : N K V} {p : N K V × Option Size.Up},
    HOK t → put cmp shift key val t = some p → HOK p.1
  | nil, p, _, e => by cases e; exact ⟨fun _ => rfl, trivial, trivial⟩
  | .node a k v l r, p, h, e => by
    simp only [Exper.put] at e
    split at e
    · obtain ⟨q, h1, h2⟩ := Option.bind_eq_some_iff.1 e
      have hq := HOK.put h.2.2 h1
      obtain ⟨q, up⟩ := q
      cases up with
      | none => cases h2; rw [sizes_found h1 rfl]; exact h
      | some up =>
        obtain ⟨x, h3, h4⟩ := Option.map_eq_some_iff.1 h2
        cases h4; exact HOK.fixNode h.2.1 hq h3
    · split at e
      · obtain ⟨q, h1, h2⟩ := Option.bind_eq_some_iff.1 e
        have hq := HOK.put h.2.1 h1
        obtain ⟨q, up⟩ := q
        cases up with
        | none => cases h2; rw [sizes_found h1 rfl]; exact h
        | some up =>
          obtain ⟨x, h3, h4⟩ := Option.map_eq_some_iff.1 h2
          cases h4; exact HOK.fixNode hq h.2.2 h3
      · cases e; exact h

/-! ### Statistics -/

/-- The depths of the nodes, the root at depth `d`. -/
def depths {A : Type} : Tree A K V → Nat → List Nat
  | nil, _ => []
  | node _ _ _ l r, d => d :: (depths l (d + 1) ++ depths r (d + 1))

theorem depths_length {A : Type} (t : Tree A K V) (d : Nat) : (depths t d).length = t.count := by
  induction t generalizing d with
  | nil => rfl
  | node a k v l r ihl ihr => simp only [depths, count, List.length_cons, List.length_append, ihl, ihr]

/-- The nodes in the queue. -/
def queued {A : Type} (q : List (Tree A K V × Nat)) : List Nat := q.flatMap fun x => depths x.1 x.2

theorem queued_kid {A : Type} (t : Tree A K V) (d : Nat) :
    queued (if t.isNil then [] else [(t, d)]) = depths t d := by
  cases t <;> simp [queued, isNil, depths]

theorem visit_perm {A : Type} : ∀ (n : Nat) (q : List (Tree A K V × Nat)),
    (∀ x ∈ q, x.1.isNil = false) → (queued q).length ≤ n → (visit n q).Perm (queued q)
  | _, [], _, _ => by cases ‹Nat› <;> exact List.Perm.refl _
  | n, (nil, d) :: q, h, _ => by simpa [isNil] using h (nil, d) (List.mem_cons_self ..)
  | 0, (node a k v l r, d) :: q, _, h => by
    simp [queued, depths] at h
  | n + 1, (node a k v l r, d) :: q, h, hn => by
    rw [visit]
    have e1 : queued (q ++ (if l.isNil then [] else [(l, d + 1)]) ++
        (if r.isNil then [] else [(r, d + 1)])) = queued q ++ depths l (d + 1) ++ depths r (d + 1) := by
      rw [← queued_kid l, ← queued_kid r]
      simp only [queued, List.flatMap_append]
    have e2 : queued ((node a k v l r, d) :: q) = d :: (depths l (d + 1) ++ depths r (d + 1) ++ queued q) := by
      simp [queued, depths]
    have e3 : (queued q ++ depths l (d + 1) ++ depths r (d + 1)).Perm
        (depths l (d + 1) ++ depths r (d + 1) ++ queued q) := by
      rw [List.append_assoc]
      exact List.perm_append_comm
    rw [e2]
    refine List.Perm.cons _ ((visit_perm n _ ?_ ?_).trans (by rw [e1]; exact e3))
    · intro x hx
      rw [List.mem_append, List.mem_append] at hx
      rcases hx with (hx | hx) | hx
      · exact h x (List.mem_cons_of_mem _ hx)
      · cases hl : l.isNil <;> simp [hl] at hx
        rw [hx]; exact hl
      · cases hr : r.isNil <;> simp [hr] at hx
        rw [hx]; exact hr
    · rw [e1, e3.length_eq]
      rw [e2, List.length_cons] at hn
      omega

theorem insertNat_perm (x : Nat) (l : List Nat) : (insertNat x l).Perm (x :: l) := by
  induction l with
  | nil => exact List.Perm.refl _
  | cons y l ih =>
    rw [insertNat]
    split
    · exact List.Perm.refl _
    · exact (ih.cons y).trans (List.Perm.swap ..)

theorem sortNat_perm (l : List Nat) : (sortNat l).Perm l := by
  induction l with
  | nil => exact List.Perm.refl _
  | cons x l ih => exact (insertNat_perm x _).trans (ih.cons x)

theorem insertNat_sorted {x : Nat} {l : List Nat} (h : l.Pairwise (· ≤ ·)) :
    (insertNat x l).Pairwise (· ≤ ·) := by
  induction l with
  | nil => simp [insertNat]
  | cons y l ih =>
    rw [List.pairwise_cons] at h
    rw [insertNat]
    split
    · rename_i hx
      refine List.pairwise_cons.2 ⟨?_, List.pairwise_cons.2 h⟩
      intro z hz
      rcases List.mem_cons.1 hz with rfl | hz
      · exact hx
      · exact Nat.le_trans hx (h.1 z hz)
    · rename_i hx
      refine List.pairwise_cons.2 ⟨?_, ih h.2⟩
      intro z hz
      rcases List.mem_cons.1 ((insertNat_perm x l).mem_iff.1 hz) with rfl | hz
      · omega
      · exact h.1 z hz

theorem sortNat_sorted (l : List Nat) : (sortNat l).Pairwise (· ≤ ·) := by
  induction l with
  | nil => exact List.Pairwise.nil
  | cons x l ih => exact insertNat_sorted ih

theorem foldl_max (l : List Nat) (h : Nat) :
    h ≤ l.foldl (fun h d => if d > h then d else h) h ∧
    (∀ d ∈ l, d ≤ l.foldl (fun h d => if d > h then d else h) h) ∧
    (l.foldl (fun h d => if d > h then d else h) h = h ∨
      l.foldl (fun h d => if d > h then d else h) h ∈ l) := by
  induction l generalizing h with
  | nil => simp
  | cons x l ih =>
    simp only [List.foldl_cons]
    obtain ⟨i1, i2, i3⟩ := ih (if x > h then x else h)
    have hx : h ≤ (if x > h then x else h) ∧ x ≤ (if x > h then x else h) := by split <;> omega
    refine ⟨Nat.le_trans hx.1 i1, ?_, ?_⟩
    · intro d hd
      rcases List.mem_cons.1 hd with rfl | hd
      · exact Nat.le_trans hx.2 i1
      · exact i2 d hd
    · rcases i3 with i3 | i3
      · rw [i3]
        split
        · exact Or.inr (List.mem_cons_self ..)
        · exact Or.inl rfl
      · exact Or.inr (List.mem_cons_of_mem _ i3)

theorem depths_max {A : Type} (t : Tree A K V) (d : Nat) :
    (∀ x ∈ depths t d, x + 1 ≤ t.height + d) ∧ (t.isNil = false → ∃ x ∈ depths t d, x + 1 = t.height + d) := by
  induction t generalizing d with
  | nil => exact ⟨fun x h => (by cases h), fun h => (by cases h)⟩
  | node a k v l r ihl ihr =>
    obtain ⟨l1, l2⟩ := ihl (d + 1)
    obtain ⟨r1, r2⟩ := ihr (d + 1)
    refine ⟨?_, fun _ => ?_⟩
    · intro x hx
      simp only [depths, List.mem_cons, List.mem_append, height] at hx ⊢
      rcases hx with rfl | hx | hx
      · omega
      · have := l1 x hx; omega
      · have := r1 x hx; omega
    · simp only [depths, List.mem_cons, List.mem_append, height]
      by_cases hm : l.height ≤ r.height
      · cases hr : r.isNil with
        | true =>
          cases r with
          | nil => exact ⟨d, Or.inl rfl, by simp only [height] at *; omega⟩
          | node => cases hr
        | false =>
          obtain ⟨x, h1, h2⟩ := r2 hr
          exact ⟨x, Or.inr (Or.inr h1), by omega⟩
      · cases hl : l.isNil with
        | true =>
          cases l with
          | nil => simp only [height] at hm; omega
          | node => cases hl
        | false =>
          obtain ⟨x, h1, h2⟩ := l2 hl
          exact ⟨x, Or.inr (Or.inl h1), by omega⟩

end Verif.Exper
