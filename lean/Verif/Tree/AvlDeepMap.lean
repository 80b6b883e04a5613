import Verif.Tree.AvlDeep
import Verif.Tree.AvlProps
import Verif.Tree.CostModel
import Verif.Compare.FloatProps
import Mathlib.Algebra.Order.Field.Rat
import Mathlib.Tactic.Linarith

/-! From calls on shapes to calls on maps whose keys are dense. -/

namespace Verif.Avl

open _root_.Verif.Tree

variable {K V : Type}

/-! ### Calls on shapes are calls on trees -/

namespace Deep

section
variable {K' V' : Type} (f : K → K') (g : V → V')

/-- The tree with other keys and values. -/
def mapT : T K V → T K' V'
  | nil => nil
  | node h k v l r => node h (f k) (g v) (mapT l) (mapT r)

variable {f : K → K'} {g : V → V'}

theorem hgt_mapT (t : T K V) : hgt (mapT f g t) = hgt t := by cases t <;> rfl
theorem isNil_mapT (t : T K V) : (mapT f g t).isNil = t.isNil := by cases t <;> rfl

theorem length_mapT : ∀ t : T K V, (mapT f g t).toList.length = t.toList.length
  | nil => rfl
  | node h k v l r => by simp [mapT, toList, length_mapT l, length_mapT r]

theorem newH_mk {c : Nat} {l r : T K V} : newH false c l r = mk (hgt l) (hgt r) := rfl
theorem hgt_node {h : Int} {k : K} {v : V} {l r : T K V} : hgt (node h k v l r) = h := rfl

theorem rebalance_mapT (t : T K V) :
    rebalance false 1 (mapT f g t) = (rebalance false 1 t).map fun p => (mapT f g p.1, p.2) := by
  cases t with
  | nil => rfl
  | node h k v l r =>
    simp only [mapT, rebalance, hgt_mapT]
    split_ifs with h1 h2
    · cases l with
      | nil => rfl
      | node hl kl vl a b =>
        simp only [mapT, kids, Option.bind_some, hgt_mapT]
        split_ifs with h3
        · cases b with
          | nil => rfl
          | node hb kb vb c0 c1 =>
            simp only [mapT, rightRotateWithLeft, Option.map_some, newH_mk, hgt_node, hgt_mapT]
        · simp only [mapT, rightRotate, Option.map_some, newH_mk, hgt_node, hgt_mapT]
    · cases r with
      | nil => rfl
      | node hl kl vl b a =>
        simp only [mapT, kids, Option.bind_some, hgt_mapT]
        split_ifs with h3
        · cases b with
          | nil => rfl
          | node hb kb vb c0 c1 =>
            simp only [mapT, leftRotateWithRight, Option.map_some, newH_mk, hgt_node, hgt_mapT]
        · simp only [mapT, leftRotate, Option.map_some, newH_mk, hgt_node, hgt_mapT]
    all_goals rfl

end

/-- The tree without its keys and values. -/
def shape : T K V → S := mapT (fun _ => ()) (fun _ => ())

theorem shape_nil : shape (nil : T K V) = nil := rfl
theorem shape_node {h : Int} {k : K} {v : V} {l r : T K V} :
    shape (node h k v l r) = nd h (shape l) (shape r) := rfl
theorem isNil_shape (t : T K V) : (shape t).isNil = t.isNil := isNil_mapT t
theorem length_shape (t : T K V) : (shape t).toList.length = t.toList.length := length_mapT t
theorem rebalance_shape (t : T K V) :
    rebalance false 1 (shape t) = (rebalance false 1 t).map fun p => (shape p.1, p.2) := rebalance_mapT t

theorem rebalance_of_shape {t : T K V} {s : S} {f : Bool} (h : rebalance false 1 (shape t) = some (s, f)) :
    ∃ t', rebalance false 1 t = some (t', f) ∧ shape t' = s := by
  rw [rebalance_shape] at h
  obtain ⟨⟨t', f'⟩, h1, h2⟩ := Option.map_eq_some_iff.1 h
  cases h2; exact ⟨t', h1, rfl⟩

end Deep

/-- Keys between any two keys, before and after every key, as for strings or real numbers. -/
structure DenseKeys (o : K → K → Ordering) : Prop where
  between : ∀ a b, o a b = .lt → ∃ c, o a c = .lt ∧ o c b = .lt
  before : ∀ a, ∃ b, o b a = .lt
  after : ∀ a, ∃ b, o a b = .lt
  key : Nonempty K

namespace Deep

/-- Within the bounds that are there. -/
def Within (o : K → K → Ordering) (lo hi : Option K) (k : K) : Prop :=
  (∀ a ∈ lo, o a k = .lt) ∧ ∀ b ∈ hi, o k b = .lt

theorem exists_within {o : K → K → Ordering} (hd : DenseKeys o) : ∀ (lo hi : Option K),
    (∀ a ∈ lo, ∀ b ∈ hi, o a b = .lt) → ∃ k, Within o lo hi k
  | none, none, _ => by obtain ⟨k⟩ := hd.key; exact ⟨k, by simp [Within]⟩
  | some a, none, _ => by obtain ⟨k, h⟩ := hd.after a; exact ⟨k, by simpa [Within] using h⟩
  | none, some b, _ => by obtain ⟨k, h⟩ := hd.before b; exact ⟨k, by simpa [Within] using h⟩
  | some a, some b, h => by
    obtain ⟨k, h⟩ := hd.between a b (h a rfl b rfl); exact ⟨k, by simpa [Within] using h⟩

/-- A call with this key does to the tree what was done to its shape. -/
def Does (cmp : K → K → Int) (v : V) (p sib : Bool) (t : T K V) (key : K) (s' : S) (f : Bool) : Prop :=
  if p then ∃ t', put cmp false 1 key v id t sib = some (t', false, f) ∧ shape t' = s'
  else ∀ right, ∃ t' w, remove false 1 cmp key t right = some (t', some w, f) ∧ shape t' = s'

/-- The bounds and the order below a node. -/
theorem parts_node {o : K → K → Ordering} {lo hi : Option K} {h : Int} {k : K} {v : V} {l r : T K V}
    (hs : Sorted o (node h k v l r).toList) (hb : ∀ e ∈ (node h k v l r).toList, Within o lo hi e.1) :
    (Sorted o l.toList ∧ ∀ e ∈ l.toList, Within o lo (some k) e.1) ∧
    (Sorted o r.toList ∧ ∀ e ∈ r.toList, Within o (some k) hi e.1) ∧ Within o lo hi k := by
  simp only [Sorted, toList, List.pairwise_append, List.pairwise_cons, List.mem_cons, List.mem_append] at hs hb
  obtain ⟨h1, ⟨h2, h3⟩, h4⟩ := hs
  refine ⟨⟨h1, fun e he => ⟨(hb e (.inl he)).1, ?_⟩⟩, ⟨h3, fun e he => ⟨?_, (hb e (.inr (.inr he))).2⟩⟩, hb (k, v) (.inr (.inl rfl))⟩
  · intro b hb'; cases hb'; exact h4 e he (k, v) (.inl rfl)
  · intro b hb'; cases hb'; exact h2 e he

theorem does {cmp : K → K → Int} (hc : LawfulEx cmp) (hd : DenseKeys (ord cmp)) (v : V) {p sib : Bool} {s s' : S}
    {f : Bool} (e : Ev p sib s s' f) : ∀ {t : T K V} {lo hi : Option K}, shape t = s → Sorted (ord cmp) t.toList →
    (∀ x ∈ t.toList, Within (ord cmp) lo hi x.1) → (∀ a ∈ lo, ∀ b ∈ hi, ord cmp a b = .lt) →
    ∃ key, Within (ord cmp) lo hi key ∧ Does cmp v p sib t key s' f := by
  have := hc.trans
  induction e with
  | ins sib =>
    intro t lo hi ht _ _ hlh
    cases t with
    | node => cases ht
    | nil =>
      obtain ⟨k, hk⟩ := exists_within hd lo hi hlh
      exact ⟨k, hk, _, rfl, rfl⟩
  | del sib h r =>
    intro t lo hi ht hs hb hlh
    cases t with
    | nil => cases ht
    | node h' k w l r' =>
      cases l with
      | node => cases ht
      | nil =>
        cases ht
        refine ⟨k, (parts_node hs hb).2.2, fun right => ⟨r', w, ?_, rfl⟩⟩
        have : cmp k k < 0 := by
          rcases cmp_cases hc k k with h | h | h
          · exact h.1
          · exact absurd (Ord.refl (o := ord cmp) k) (by simp [h.2])
          · exact absurd (Ord.refl (o := ord cmp) k) (by simp [h.2])
        simp [remove, this, removeHere, Tree.isNil]
  | @leftF p sib h l l' r _ ih =>
    intro t lo hi ht hs hb hlh
    cases t with
    | nil => cases ht
    | node h' k w tl tr =>
      rw [shape_node] at ht
      cases ht
      obtain ⟨⟨h1, h2⟩, _, hk⟩ := parts_node hs hb
      obtain ⟨key, hw, hdo⟩ := ih rfl h1 h2 fun a ha b hb' => by cases hb'; exact hk.1 a ha
      have hlt := hw.2 k rfl
      have hc0 : cmp k key = 0 := by
        have := Ord.gt_iff.2 hlt
        rcases cmp_cases hc k key with h | h | h
        · simp [h.2] at this
        · exact h.1
        · simp [h.2] at this
      refine ⟨key, ⟨hw.1, fun b hb' => Ord.lt_trans hlt (hk.2 b hb')⟩, ?_⟩
      cases p with
      | true =>
        obtain ⟨t', h3, h4⟩ := hdo
        rw [isNil_shape] at h3
        exact ⟨node h k w t' tr, by simp [put, hc0, h3], by simp [shape_node, h4]⟩
      | false =>
        intro right
        obtain ⟨t', w', h3, h4⟩ := hdo false
        exact ⟨node h k w t' tr, w', by simp [remove, hc0, h3, rebIf], by simp [shape_node, h4]⟩
  | @leftT p sib h l l' r t0 f _ hreb ih =>
    intro t lo hi ht hs hb hlh
    cases t with
    | nil => cases ht
    | node h' k w tl tr =>
      rw [shape_node] at ht
      cases ht
      obtain ⟨⟨h1, h2⟩, _, hk⟩ := parts_node hs hb
      obtain ⟨key, hw, hdo⟩ := ih rfl h1 h2 fun a ha b hb' => by cases hb'; exact hk.1 a ha
      have hlt := hw.2 k rfl
      have hc0 : cmp k key = 0 := by
        have := Ord.gt_iff.2 hlt
        rcases cmp_cases hc k key with h | h | h
        · simp [h.2] at this
        · exact h.1
        · simp [h.2] at this
      refine ⟨key, ⟨hw.1, fun b hb' => Ord.lt_trans hlt (hk.2 b hb')⟩, ?_⟩
      cases p with
      | true =>
        obtain ⟨t', h3, rfl⟩ := hdo
        rw [isNil_shape] at h3
        obtain ⟨t2, h5, h6⟩ := rebalance_of_shape (t := node h k w t' tr) hreb
        exact ⟨t2, by simp [put, hc0, h3, h5], h6⟩
      | false =>
        intro right
        obtain ⟨t', w', h3, rfl⟩ := hdo false
        obtain ⟨t2, h5, h6⟩ := rebalance_of_shape (t := node h k w t' tr) hreb
        exact ⟨t2, w', by simp [remove, hc0, h3, rebIf, h5], h6⟩
  | @rightF p sib h l r r' _ ih =>
    intro t lo hi ht hs hb hlh
    cases t with
    | nil => cases ht
    | node h' k w tl tr =>
      rw [shape_node] at ht
      cases ht
      obtain ⟨_, ⟨h1, h2⟩, hk⟩ := parts_node hs hb
      obtain ⟨key, hw, hdo⟩ := ih rfl h1 h2 fun a ha b hb' => by cases ha; exact hk.2 b hb'
      have hlt := hw.1 k rfl
      have hc0 : cmp k key = 1 := by
        rcases cmp_cases hc k key with h | h | h
        · simp [h.2] at hlt
        · simp [h.2] at hlt
        · exact h.1
      refine ⟨key, ⟨fun a ha => Ord.lt_trans (hk.1 a ha) hlt, hw.2⟩, ?_⟩
      cases p with
      | true =>
        obtain ⟨t', h3, h4⟩ := hdo
        rw [isNil_shape] at h3
        exact ⟨node h k w tl t', by simp [put, hc0, h3], by simp [shape_node, h4]⟩
      | false =>
        intro right
        obtain ⟨t', w', h3, h4⟩ := hdo true
        exact ⟨node h k w tl t', w', by simp [remove, hc0, h3, rebIf], by simp [shape_node, h4]⟩
  | @rightT p sib h l r r' t0 f _ hreb ih =>
    intro t lo hi ht hs hb hlh
    cases t with
    | nil => cases ht
    | node h' k w tl tr =>
      rw [shape_node] at ht
      cases ht
      obtain ⟨_, ⟨h1, h2⟩, hk⟩ := parts_node hs hb
      obtain ⟨key, hw, hdo⟩ := ih rfl h1 h2 fun a ha b hb' => by cases ha; exact hk.2 b hb'
      have hlt := hw.1 k rfl
      have hc0 : cmp k key = 1 := by
        rcases cmp_cases hc k key with h | h | h
        · simp [h.2] at hlt
        · simp [h.2] at hlt
        · exact h.1
      refine ⟨key, ⟨fun a ha => Ord.lt_trans (hk.1 a ha) hlt, hw.2⟩, ?_⟩
      cases p with
      | true =>
        obtain ⟨t', h3, rfl⟩ := hdo
        rw [isNil_shape] at h3
        obtain ⟨t2, h5, h6⟩ := rebalance_of_shape (t := node h k w tl t') hreb
        exact ⟨t2, by simp [put, hc0, h3, h5], h6⟩
      | false =>
        intro right
        obtain ⟨t', w', h3, rfl⟩ := hdo true
        obtain ⟨t2, h5, h6⟩ := rebalance_of_shape (t := node h k w tl t') hreb
        exact ⟨t2, w', by simp [remove, hc0, h3, rebIf, h5], h6⟩

theorem cmp_zero {cmp : K → K → Int} (hc : LawfulEx cmp) {k key : K} (hlt : ord cmp key k = .lt) :
    cmp k key = 0 := by
  have := hc.trans
  have h := Ord.gt_iff.2 hlt
  rcases cmp_cases hc k key with h' | h' | h'
  · simp [h'.2] at h
  · exact h'.1
  · simp [h'.2] at h

theorem shapes_last {h h' : Int} {k k' : K} {v v' : V} {tl tr t2 : T K V}
    (e : shape (node h k v (node h' k' v' tl tr) t2) = last) :
    (shape tl = G 127 ∧ shape tr = nil) ∧ shape t2 = Deep.V 127 := by
  simp only [shape_node, last, nD, Tree.node.injEq] at e
  exact ⟨e.2.2.2.1.2.2.2, e.2.2.2.2⟩

/-- A call on the map. -/
theorem map_does {cmp : K → K → Int} (hc : LawfulEx cmp) (hd : DenseKeys (ord cmp)) (v : V) {s s' : S} {f : Bool}
    (e : E s s' f) {m : Map K V} {xs : List (K × V)} (hm : Rel cmp m xs) (hs : shape m.root = s) :
    ∃ op m' r, (∃ k, op = .put k v ∨ op = .remove k) ∧ step cmp false 1 m op = some (m', r) ∧ shape m'.root = s' ∧
      ∃ xs', Rel cmp m' xs' := by
  obtain ⟨p, e⟩ := e
  have hso : Sorted (ord cmp) m.root.toList := by rw [hm.list]; exact hm.sorted
  obtain ⟨key, -, hdo⟩ := does hc hd v (e false) (lo := none) (hi := none) hs hso (by simp [Within]) (by simp)
  cases p with
  | true =>
    obtain ⟨t', h3, h4⟩ := hdo
    have h5 : step cmp false 1 m (.put key v) = some (⟨t', m.size + 1⟩, .bool true) := by
      simp [step, Map.put, h3]
    exact ⟨_, _, _, ⟨key, .inl rfl⟩, h5, h4, _, (step_partial hc rfl hm h5).2⟩
  | false =>
    obtain ⟨t', w', h3, h4⟩ := hdo true
    have h5 : step cmp false 1 m (.remove key) = some (⟨t', m.size - 1⟩, .val (some w')) := by
      simp [step, Map.remove, h3]
    exact ⟨_, _, _, ⟨key, .inr rfl⟩, h5, h4, _, (step_partial hc rfl hm h5).2⟩

/-- Histories of `Put` and `Remove` that make a shape. -/
theorem map_reach {cmp : K → K → Int} (hc : LawfulEx cmp) (hd : DenseKeys (ord cmp)) (v : V) {s : S}
    (h : Reach (G 1) s) : ∃ os m rs xs, (∀ op ∈ os, ∃ k, op = .put k v ∨ op = .remove k) ∧
      run (step cmp false 1) (Map.new : Map K V) os = some (m, rs) ∧ Rel cmp m xs ∧ shape m.root = s := by
  induction h with
  | refl =>
    obtain ⟨k⟩ := hd.key
    have h5 : step cmp false 1 (Map.new : Map K V) (.put k v) = some (⟨node 1 k v nil nil, 1⟩, .bool true) := rfl
    refine ⟨[.put k v], _, [.bool true], _, by simp, ?_, (step_partial hc rfl Rel.new h5).2, rfl⟩
    simp only [run, h5]
  | step _ e ih =>
    obtain ⟨os, m, rs, xs, h1, h2, h3, h4⟩ := ih
    obtain ⟨op, m', r, h5, h6, h7, xs', h8⟩ := map_does hc hd v e h3 h4
    refine ⟨os ++ [op], m', rs ++ [r], xs', ?_, ?_, h8, h7⟩
    · intro o ho
      rcases List.mem_append.1 ho with ho | ho
      · exact h1 o ho
      · cases List.mem_singleton.1 ho; exact h5
    · rw [run_append, h2]; simp only [run, h6]

end Deep

open Deep

/-- With the default threshold the map of tree/avl can panic: for every order of keys that is dense and has no ends
there is a history of `Put` and `Remove`, answered as by the ideal map, that leaves 8257 entries, and a new key whose
`Put` then panics. -/
theorem Deep.panics_of_dense {cmp : K → K → Int} (hc : LawfulEx cmp) (hd : DenseKeys (ord cmp)) (v : V) :
    ∃ (os : List (Op K V)) (m : Map K V) (rs : List (Res K V)) (key : K),
      (∀ op ∈ os, ∃ k, op = .put k v ∨ op = .remove k) ∧
      run (step cmp false 1) Map.new os = some (m, rs) ∧ m.size = 8257 ∧
      get cmp key m.root = some none ∧ step cmp false 1 m (.put key v) = none := by
  have := hc.trans
  obtain ⟨os, m, rs, xs, h1, h2, h3, h4⟩ := map_reach hc hd v reach_last
  have hso : Sorted (ord cmp) m.root.toList := by rw [h3.list]; exact h3.sorted
  have hsize : m.size = 8257 := by rw [h3.size, ← h3.list, ← length_shape, h4, length_last]
  obtain ⟨t, n⟩ := m
  simp only at h4 hso
  cases t with
  | nil => cases h4
  | node h k w t1 t2 =>
    cases t1 with
    | nil => cases h4
    | node h' k' w' tl tr =>
      obtain ⟨⟨hl, hr1⟩, hr2⟩ := shapes_last h4
      obtain ⟨⟨s1, b1⟩, -, hk⟩ := parts_node (lo := none) (hi := none) hso (by simp [Within])
      obtain ⟨⟨s2, b2⟩, -, hk'⟩ := parts_node s1 b1
      obtain ⟨key, hw, t', h5, h6⟩ := does hc hd v (growPut 126 (by omega) (tr.isNil)) hl s2 b2 (by simp)
      have hc' := cmp_zero hc (hw.2 k' rfl)
      have hc0 := cmp_zero hc (Ord.lt_trans (o := ord cmp) (hw.2 k' rfl) (hk'.2 k rfl))
      have hn : rebalance false 1 (node h' k' w' t' tr) = none := by
        have h7 := rebalance_shape (node h' k' w' t' tr)
        simp only [shape_node, h6, hr1, last_fails] at h7
        exact Option.map_eq_none_iff.1 h7.symm
      refine ⟨os, _, rs, key, h1, h2, hsize, ?_, ?_⟩
      · have h8 := (put_list hc s2 h5).2
        have h9 : same (ord cmp) key tl.toList = [] := by simpa using h8
        simp [get, hc0, hc', get_eq hc s2, h9]
      · simp [step, Map.put, put, hc0, hc', h5, hn]

/-- On the way there the tree is as deep as its `8`-bit heights can tell: for every `n` up to 128 there is a history that
leaves n (n + 1) / 2 entries, and a key for which `Get` calls the comparator `n` times. -/
theorem Deep.deep_of_dense {cmp : K → K → Int} (hc : LawfulEx cmp) (hd : DenseKeys (ord cmp)) (v : V) {n : Nat}
    (h0 : 1 ≤ n) (hn : n ≤ 128) :
    ∃ (os : List (Op K V)) (m : Map K V) (rs : List (Res K V)) (key : K),
      (∀ op ∈ os, ∃ k, op = .put k v ∨ op = .remove k) ∧
      run (step cmp false 1) Map.new os = some (m, rs) ∧ m.size * 2 = n * (n + 1) ∧
      calls cmp false 1 m (.get key) = n := by
  have := hc.trans
  obtain ⟨n, rfl⟩ : ∃ j, n = j + 1 := ⟨n - 1, by omega⟩
  obtain ⟨os, m, rs, xs, h1, h2, h3, h4⟩ := map_reach hc hd v (reach_G n (by omega))
  have hso : Sorted (ord cmp) m.root.toList := by rw [h3.list]; exact h3.sorted
  have hsize : m.size * 2 = (n + 1) * (n + 1 + 1) := by
    rw [h3.size, ← h3.list, ← length_shape, h4, length_G]
  have key : ∀ (j : Nat) (t : T K V) (hi : Option K), shape t = G j → Sorted (ord cmp) t.toList →
      (∀ e ∈ t.toList, Within (ord cmp) none hi e.1) →
      ∃ key, Within (ord cmp) none hi key ∧ (getC cmp key t).1 = j := by
    intro j
    induction j with
    | zero =>
      intro t hi ht _ _
      cases t with
      | node => cases ht
      | nil =>
        obtain ⟨k, hk⟩ := exists_within hd none hi (by simp)
        exact ⟨k, hk, rfl⟩
    | succ j ih =>
      intro t hi ht hs hb
      cases t with
      | nil => cases ht
      | node h k w tl tr =>
        simp only [shape_node, G, Tree.node.injEq] at ht
        obtain ⟨⟨s1, b1⟩, -, hk⟩ := parts_node hs hb
        obtain ⟨key, hw, hg⟩ := ih tl (some k) ht.2.2.2.1 s1 b1
        refine ⟨key, ⟨by simp, fun b hb' => Ord.lt_trans (o := ord cmp) (hw.2 k rfl) (hk.2 b hb')⟩, ?_⟩
        simp [getC, cmp_zero hc (hw.2 k rfl), hg]
  obtain ⟨k, -, hk⟩ := key (n + 1) m.root none h4 hso (by simp [Within])
  exact ⟨os, m, rs, k, h1, h2, hsize, hk⟩

/-! ### The hypotheses can be met: rational numbers -/

/-- The order of the rational numbers, in the convention of the search trees. -/
def ratCmp (a b : Rat) : Int := if a > b then 0 else if b > a then 1 else -1

theorem ratCmp_lawful : LawfulEx ratCmp := by
  refine ⟨fun a b => by unfold ratCmp; split_ifs <;> simp, ?_⟩
  convert Verif.Float.transCmp_val (id : Rat → Rat) using 3 with a b
  rcases lt_trichotomy a b with h | h | h
  · simp [ratCmp, exOrd, h, not_lt_of_gt h, compare_lt_iff_lt.2 h]
  · simp [ratCmp, exOrd, h]
  · simp [ratCmp, exOrd, h, compare_gt_iff_gt.2 h]

theorem ratCmp_lt {a b : Rat} : ord ratCmp a b = .lt ↔ a < b := by
  rcases lt_trichotomy a b with h | h | h
  · simp [ratCmp, ord, exOrd, h, not_lt_of_gt h]
  · simp [ratCmp, ord, exOrd, h]
  · simp [ratCmp, ord, exOrd, h, not_lt_of_gt h]

theorem ratCmp_dense : DenseKeys (ord ratCmp) where
  between a b h := by
    have h := ratCmp_lt.1 h
    exact ⟨(a + b) / 2, ratCmp_lt.2 (by linarith), ratCmp_lt.2 (by linarith)⟩
  before a := ⟨a - 1, ratCmp_lt.2 (by linarith)⟩
  after a := ⟨a + 1, ratCmp_lt.2 (by linarith)⟩
  key := ⟨0⟩

end Verif.Avl
