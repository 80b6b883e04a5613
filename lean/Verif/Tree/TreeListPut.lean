import Verif.Tree.TreeListThread
import Verif.Tree.SizeRank
import Verif.Tree.AvlSpec

/-! The tree list: what it means to be in order, insertion, and the removal of a node. -/

namespace Verif.TreeList

open Tree Size DLL

variable {K V : Type}

def addrs (zs : List (Ent K V)) : List Nat := zs.map fun e => e.2.1

@[simp] theorem addrs_nil : addrs ([] : List (Ent K V)) = [] := rfl
@[simp] theorem addrs_cons (e : Ent K V) (zs : List (Ent K V)) : addrs (e :: zs) = e.2.1 :: addrs zs := rfl
@[simp] theorem addrs_append (xs ys : List (Ent K V)) : addrs (xs ++ ys) = addrs xs ++ addrs ys := by
  simp [addrs]
@[simp] theorem addrs_eq_nil {zs : List (Ent K V)} : addrs zs = [] ↔ zs = [] := by simp [addrs]
theorem mem_addrs {zs : List (Ent K V)} {a : Nat} : a ∈ addrs zs ↔ ∃ e ∈ zs, e.2.1 = a := by
  simp [addrs]

/-- The tree and the thread both hold the entries `zs`, the keys in order. -/
structure Good (cmp : K → K → Int) (s : TL K V) (zs : List (Ent K V)) : Prop where
  list : s.tree.toList = zs
  sorted : Sorted (ord cmp) zs
  exact : Exact s.tree
  nodup : (addrs zs).Nodup
  fresh : ∀ e ∈ zs, e.2.1 < s.free
  vals : ∀ e ∈ zs, (s.heap e.2.1).val = strip e
  thread : Thread s (addrs zs)

variable {cmp : K → K → Int}

theorem Good.length {s : TL K V} {zs : List (Ent K V)} (h : Good cmp s zs) : zs.length ≤ s.free := by
  have := length_le_of_nodup_lt (n := s.free) h.nodup (by
    intro a ha
    obtain ⟨e, he, rfl⟩ := mem_addrs.1 ha
    exact h.fresh e he)
  simpa [addrs] using this

theorem Good.empty {s : TL K V} (h1 : s.tree = nil) (h2 : s.head = none) (h3 : s.tail = none) :
    Good cmp s [] :=
  ⟨by rw [h1]; rfl, List.Pairwise.nil, by rw [h1]; trivial, List.nodup_nil, by simp, by simp,
    ⟨by rw [h2]; rfl, by rw [h3]; rfl, trivial⟩⟩

/-! ### Insertion -/

/-- The limits without the end of the table. -/
def limitD (h : Nat) : Option (Int × Int) := some ((limit h).getD (0, 1))

def bottom (height : Nat) : Int :=
  (List.range 61).foldl (fun b i => b - (2 ^ height : Int) >>> (i + 3)) ((2 ^ height : Int) >>> 1)

theorem limit_bottom (h : Nat) :
    limit h = if 2 ≤ h ∧ h < 64 then some (2 ^ h, bottom h) else none := rfl

theorem bottom_pos : ∀ h : Fin 64, 2 ≤ h.1 → 0 < bottom h.1 := by decide +kernel

theorem limOK : LimOK limitD := by
  intro h s hs hp
  rw [limitD, Option.some.injEq, limit_bottom] at hs
  subst hs
  by_cases hh : 2 ≤ h ∧ h < 64
  · have := bottom_pos ⟨h, hh.2⟩ hh.1
    rw [if_pos hh, Option.getD_some]
    generalize bottom h = b at *
    exact this
  · rw [if_neg hh]
    exact Int.one_pos

theorem limit_some {h : Nat} (h1 : 2 ≤ h) (h2 : h < 64) : (limit h).isSome := by
  rw [limit_bottom, if_pos ⟨h1, h2⟩]; rfl

theorem limitD_of {h : Nat} {s : Int × Int} (hs : limit h = some s) : limitD h = some s := by
  rw [limitD, hs]; rfl

theorem fixNode_mono {lim lim' : Nat → Option (Int × Int)} (hm : ∀ h s, lim h = some s → lim' h = some s)
    {up : Up} {t : T K V} {p : T K V × Up} (h : fixNode lim up t = some p) :
    fixNode lim' up t = some p := by
  cases t with
  | nil => cases up <;> cases h
  | node a k v l r =>
    cases up with
    | leaf => exact h
    | size => exact h
    | fix n =>
      simp only [fixNode] at h ⊢
      cases hl : lim n with
      | none => rw [hl] at h; cases h
      | some s => rw [hl] at h; rw [hm n s hl]; exact h

theorem put_mono {lim lim' : Nat → Option (Int × Int)} (hm : ∀ h s, lim h = some s → lim' h = some s)
    {key : K} {val : V} {upd : K × V → K × V} {t : T K V} {p : T K V × Option Up}
    (h : put lim cmp key val upd t = some p) : put lim' cmp key val upd t = some p := by
  induction t generalizing p with
  | nil => exact h
  | node a k v l r ihl ihr =>
    simp only [put] at h ⊢
    split at h
    · rename_i hc
      rw [if_pos hc]
      obtain ⟨q, hq, h⟩ := Option.bind_eq_some_iff.1 h
      rw [ihl hq, Option.bind_some]
      cases hq2 : q.2 with
      | none => simp only [hq2] at h ⊢; exact h
      | some up =>
        simp only [hq2] at h ⊢
        obtain ⟨w, hw, rfl⟩ := Option.map_eq_some_iff.1 h
        rw [fixNode_mono hm hw]; rfl
    · rename_i hc
      rw [if_neg hc]
      split at h
      · rename_i hc'
        rw [if_pos hc']
        obtain ⟨q, hq, h⟩ := Option.bind_eq_some_iff.1 h
        rw [ihr hq, Option.bind_some]
        cases hq2 : q.2 with
        | none => simp only [hq2] at h ⊢; exact h
        | some up =>
          simp only [hq2] at h ⊢
          obtain ⟨w, hw, rfl⟩ := Option.map_eq_some_iff.1 h
          rw [fixNode_mono hm hw]; rfl
      · rename_i hc'
        rw [if_neg hc']
        exact h

/-- An insertion that does not panic keeps the sizes. -/
theorem put_exact {key : K} {val : V} {upd : K × V → K × V} {t : T K V} {p : T K V × Option Up}
    (hx : Exact t) (h : put limit cmp key val upd t = some p) : Exact p.1 := by
  obtain ⟨q, h1, h2, -⟩ := put_ok limOK (cmp := cmp) (key := key) (val := val) (upd := upd) hx
    (fun _ _ _ => rfl)
  rw [put_mono (fun _ _ => limitD_of) h] at h1
  cases h1
  exact h2

/-- An insertion panics only in a tree that is more than 63 nodes deep. -/
theorem put_total {key : K} {val : V} {upd : K × V → K × V} {t : T K V} (hx : Exact t)
    (hh : t.height ≤ 63) : ∃ p, put limit cmp key val upd t = some p := by
  have hlim : LimOK limit := fun h s hs => limOK h s (limitD_of hs)
  obtain ⟨q, h1, -⟩ := put_ok hlim (cmp := cmp) (key := key) (val := val) (upd := upd) hx
    (fun h h1 h2 => limit_some h1 (by omega))
  exact ⟨q, h1⟩

theorem gap_eq (hc : Lawful cmp) {key : K} {t : T K (Nat × V)} (hs : Sorted (ord cmp) t.toList)
    (hn : same (ord cmp) key t.toList = []) (left right : Option Nat) :
    gap cmp key t left right = ((addrs (below (ord cmp) key t.toList)).getLast?.or left,
      (addrs (above (ord cmp) key t.toList)).head?.or right) := by
  have : Std.TransCmp (ord cmp) := hc
  induction t generalizing left right with
  | nil => rfl
  | node a k v l r ihl ihr =>
    rw [toList_node] at hs hn ⊢
    obtain ⟨s1, s2, -, -, -⟩ := Sorted.split.1 hs
    simp only [gap]
    rcases ways hc key k with ⟨h1, h2⟩ | ⟨h1, h2, h3⟩ | ⟨h1, h2, h3⟩
    · obtain ⟨g1, g2, g3⟩ := split_gt (Sorted.le hs) (show ord cmp (k, v).1 key = .gt from h2)
      rw [g2] at hn
      rw [if_pos h1, ihl s1 hn, g1, g3, addrs_append, addrs_cons, head?_or]
      simp
    · obtain ⟨g1, g2, g3⟩ := split_lt (Sorted.le hs) (show ord cmp (k, v).1 key = .lt from h3)
      rw [g2] at hn
      rw [if_neg h1, if_pos h2, ihr s2 hn, g1, g3, addrs_append, addrs_cons, getLast?_or]
      congr 1
      cases hb : (addrs (below (ord cmp) key r.toList)) with
      | nil => simp
      | cons b bs =>
        rw [List.getLast?_cons_cons]
        cases hh : (b :: bs).getLast? with
        | none => simp at hh
        | some c => simp
    · rw [(split_eq' hs (show ord cmp (k, v).1 key = .eq from h3)).2.1] at hn
      cases hn

theorem nodup_insert {α : Type} {L R : List α} {x : α} (h : (L ++ R).Nodup) (hx : x ∉ L ++ R) :
    (L ++ x :: R).Nodup := by
  rw [List.nodup_append] at h ⊢
  simp only [List.mem_append, not_or] at hx
  refine ⟨h.1, List.nodup_cons.2 ⟨hx.2, h.2.1⟩, ?_⟩
  intro a ha b hb
  rcases List.mem_cons.1 hb with rfl | hb
  · exact fun e => hx.1 (e ▸ ha)
  · exact h.2.2 a ha b hb

/-- What an insertion does, unless it panics. -/
theorem putWith_ok (hc : Lawful cmp) {s s' : TL K V} {zs : List (Ent K V)} (hG : Good cmp s zs)
    {key : K} {value : V} {upd : V → V} {b : Bool} (h : putWith cmp s key value upd = some (s', b)) :
    b = Avl.has (ord cmp) key zs ∧ Good cmp s' (if Avl.has (ord cmp) key zs then
      zs.map fun e => if ord cmp e.1 key == .eq then (e.1, (e.2.1, upd e.2.2)) else e
      else Avl.insertEntry (ord cmp) (key, (s.free, value)) zs) := by
  have : Std.TransCmp (ord cmp) := hc
  obtain ⟨h1, h2, h3, h4, h5, h6, h7⟩ := hG
  unfold putWith at h
  by_cases hn : s.tree.isNil = true
  · rw [if_pos hn] at h
    have ht : s.tree = nil := by cases hh : s.tree <;> simp_all [isNil]
    rw [ht] at h1
    subst h1
    cases h
    refine ⟨rfl, ?_⟩
    rw [if_neg (by simp [Avl.has])]
    refine ⟨rfl, by simp [Avl.insertEntry, Sorted], by simp [Exact, count], by simp [Avl.insertEntry],
      by simp [Avl.insertEntry], by simp [Avl.insertEntry, strip], ?_⟩
    refine ⟨by simp [Avl.insertEntry], by simp [Avl.insertEntry], ?_⟩
    simp [Avl.insertEntry, Seg]
  · rw [if_neg hn] at h
    have hst : Sorted (ord cmp) s.tree.toList := by rw [h1]; exact h2
    cases hp : put limit cmp key (s.free, value) (fun e => (e.1, (e.2.1, upd e.2.2))) s.tree with
    | none => simp [hp] at h
    | some p =>
      have hx := put_exact h3 hp
      obtain ⟨e1, -⟩ := put_list hc hst hp
      have hg := get_eq hc (key := key) hst
      rw [h1] at e1 hg
      rcases h2.same_le key with hsm | ⟨e, hsm, he⟩
      · -- a new key
        rw [hsm] at hg e1
        simp only [hp, hg, List.head?_nil, Option.some.injEq, Prod.mk.injEq] at h
        obtain ⟨rfl, rfl⟩ := h
        have hhas : Avl.has (ord cmp) key zs = false := by rw [Avl.has_iff, hsm]; rfl
        refine ⟨hhas.symm, ?_⟩
        rw [if_neg (by simp [hhas])]
        simp only [List.isEmpty_nil, if_true] at e1
        have hgap : gap cmp key s.tree none none = ((addrs (below (ord cmp) key zs)).getLast?,
            (addrs (above (ord cmp) key zs)).head?) := by
          rw [gap_eq hc hst (by rw [h1]; exact hsm), h1]; simp
        have hins : Avl.insertEntry (ord cmp) (key, (s.free, value)) zs =
            below (ord cmp) key zs ++ (key, (s.free, value)) :: above (ord cmp) key zs := rfl
        have hparts : zs = below (ord cmp) key zs ++ above (ord cmp) key zs := by
          have := parts key h2.le
          rw [hsm] at this
          simpa using this
        have hnd : (addrs (below (ord cmp) key zs) ++ addrs (above (ord cmp) key zs)).Nodup := by
          rw [← addrs_append, ← hparts]; exact h4
        have hfr : s.free ∉ addrs (below (ord cmp) key zs) ++ addrs (above (ord cmp) key zs) := by
          rw [← addrs_append, ← hparts]
          intro hm
          obtain ⟨e, he, h⟩ := mem_addrs.1 hm
          have := h5 e he
          omega
        rw [hins]
        refine ⟨?_, h2.put (Ord.refl _), ?_, ?_, ?_, ?_, ?_⟩
        · simp [setL_tree, setR_tree, e1]
        · simpa [setL_tree, setR_tree] using hx
        · rw [addrs_append, addrs_cons]
          exact nodup_insert hnd hfr
        · intro e he
          show e.2.1 < s.free + 1
          rw [List.mem_append, List.mem_cons] at he
          rcases he with he | rfl | he
          · have := h5 e (mem_below.1 he).1; omega
          · simp
          · have := h5 e (mem_above.1 he).1; omega
        · intro e he
          simp only [val_put]
          rw [List.mem_append, List.mem_cons] at he
          have hold : ∀ e ∈ zs, e.2.1 ≠ s.free := fun e he => by have := h5 e he; omega
          rcases he with he | rfl | he
          · have he' := (mem_below.1 he).1
            rw [if_neg (hold e he'), setL_val, setR_val]; exact h6 e he'
          · rw [if_pos rfl]; rfl
          · have he' := (mem_above.1 he).1
            rw [if_neg (hold e he'), setL_val, setR_val]; exact h6 e he'
        · rw [addrs_append, addrs_cons]
          refine Thread.insert (s := { s with tree := p.1 }) (sl := (key, value))
            ⟨?_, ?_, ?_⟩ hnd hfr ?_ ?_ ?_
          · rw [← addrs_append, ← hparts]; exact h7.head
          · rw [← addrs_append, ← hparts]; exact h7.tail
          · rw [← addrs_append, ← hparts]; exact h7.seg
          · simp only [hgap]
          · simp only [hgap]
          · simp only [hgap]
      · -- an old key
        rw [hsm] at hg e1
        simp only [hp, hg, List.head?_cons, Option.some.injEq, Prod.mk.injEq] at h
        obtain ⟨rfl, rfl⟩ := h
        have hhas : Avl.has (ord cmp) key zs = true := by rw [Avl.has_iff, hsm]; rfl
        refine ⟨hhas.symm, ?_⟩
        rw [if_pos hhas]
        simp only [List.isEmpty_cons, Bool.false_eq_true, if_false, List.map_cons, List.map_nil] at e1
        have hez : e ∈ zs := ((mem_same (o := ord cmp) (k := key)).1 (by rw [hsm]; simp)).1
        have hadr : addrs (zs.map fun e => if ord cmp e.1 key == .eq then (e.1, (e.2.1, upd e.2.2))
            else e) = addrs zs := by
          simp only [addrs, List.map_map]
          refine List.map_congr_left fun x _ => ?_
          simp only [Function.comp]
          split <;> rfl
        refine ⟨?_, ?_, hx, ?_, ?_, ?_, ?_⟩
        · rw [Avl.map_same h2.le, hsm]; exact e1
        · rw [Avl.map_same h2.le]; exact Avl.sorted_mapSame h2 fun _ => id
        · rw [hadr]; exact h4
        · intro x hx
          obtain ⟨y, hy, rfl⟩ := List.mem_map.1 hx
          have := h5 y hy
          dsimp only
          split <;> exact this
        · intro x hx
          obtain ⟨y, hy, rfl⟩ := List.mem_map.1 hx
          have hinj : y.2.1 = e.2.1 → y = e := by
            intro h
            exact List.inj_on_of_nodup_map h4 hy hez h
          by_cases hyk : ord cmp y.1 key = .eq
          · have : y = e := by
              have : y ∈ same (ord cmp) key zs := mem_same.2 ⟨hy, hyk⟩
              rw [hsm] at this
              simpa using this
            subst this
            simp [hyk, val_setVal, strip]
          · have hne : y.2.1 ≠ e.2.1 := fun h => hyk (by rw [hinj h]; exact he)
            have hbeq : (ord cmp y.1 key == .eq) = false := by simpa using hyk
            simp only [hbeq, Bool.false_eq_true, if_false, val_setVal, if_neg hne]
            exact h6 y hy
        · rw [hadr]
          refine ⟨h7.head, h7.tail, seg_congr h7.seg fun a _ => ?_⟩
          exact ⟨prev_setVal .., next_setVal ..⟩

theorem putWith_total {s : TL K V} {zs : List (Ent K V)} (hG : Good cmp s zs)
    (hh : s.tree.height ≤ 63) (key : K) (value : V) (upd : V → V) :
    ∃ p, putWith cmp s key value upd = some p := by
  unfold putWith
  split
  · exact ⟨_, rfl⟩
  · obtain ⟨p, hp⟩ := put_total (cmp := cmp) (key := key) (val := (s.free, value))
      (upd := fun e => (e.1, (e.2.1, upd e.2.2))) hG.exact hh
    rw [hp]
    cases get cmp key s.tree <;> exact ⟨_, rfl⟩

/-! ### Removal of a node -/

/-- What is left when a node is cut out: itself, or the node before or after it, whose entry it takes
over. -/
inductive Cuts (e : Ent K V) (L R : List (Ent K V)) : Cut K V → List (Ent K V) → Prop
  | leaf : Cuts e L R .leaf (L ++ R)
  | prev (L' : List (Ent K V)) (f : Ent K V) : L = L' ++ [f] →
      Cuts e L R (.prev f) (L' ++ (f.1, (e.2.1, f.2.2)) :: R)
  | next (R' : List (Ent K V)) (f : Ent K V) : R = f :: R' →
      Cuts e L R (.next f) (L ++ (f.1, (e.2.1, f.2.2)) :: R')

theorem Cuts.length {e : Ent K V} {L R zs : List (Ent K V)} {c : Cut K V} (h : Cuts e L R c zs) :
    zs.length = L.length + R.length := by
  cases h with
  | leaf => simp
  | prev L' f h => subst h; simp; omega
  | next R' f h => subst h; simp

theorem Cuts.wider {e : Ent K V} {L R zs : List (Ent K V)} {c : Cut K V} (h : Cuts e L R c zs)
    (A B : List (Ent K V)) : Cuts e (A ++ L) (R ++ B) c (A ++ zs ++ B) := by
  cases h with
  | leaf => simpa using Cuts.leaf (e := e) (L := A ++ L) (R := R ++ B)
  | prev L' f h =>
    subst h
    simpa using Cuts.prev (e := e) (L := A ++ (L' ++ [f])) (R := R ++ B) (A ++ L') f (by simp)
  | next R' f h =>
    subst h
    simpa using Cuts.next (e := e) (L := A ++ L) (R := f :: R' ++ B) (R' ++ B) f rfl

theorem cutHere_ok {n : Int} {k : K} {v : Nat × V} {l r : T K (Nat × V)}
    (h : Exact (node n k v l r)) :
    ∃ t c, cutHere (node n k v l r) = some (t, c) ∧ Exact t ∧ Cuts (k, v) l.toList r.toList c t.toList := by
  obtain ⟨h1, h2, h3⟩ := exact_node.1 h
  simp only [cutHere]
  split
  · have hl : l.toList = [] := List.length_eq_zero_iff.1 (by omega)
    have hr : r.toList = [] := List.length_eq_zero_iff.1 (by omega)
    refine ⟨_, _, rfl, trivial, ?_⟩
    rw [hl, hr]
    exact .leaf
  · have h0 := h2.sz
    have h0' := h3.sz
    split
    · obtain ⟨p, g1, g2, g3⟩ := takeMax_ok h2 (by rintro rfl; simp at h0; omega)
      rw [g1]
      refine ⟨_, _, rfl, exact_node.2 ⟨?_, g2, h3⟩, .prev _ _ g3⟩
      rw [h1, g3]; simp; omega
    · obtain ⟨p, g1, g2, g3⟩ := takeMin_ok h3 (by rintro rfl; simp at h0' h1; simp_all)
      rw [g1]
      refine ⟨_, _, rfl, exact_node.2 ⟨?_, h2, g2⟩, .next _ _ g3⟩
      rw [h1, g3]; simp; omega

theorem cutAt_none {a : Nat} {t : T K (Nat × V)} (h : a ∉ addrs t.toList) : cutAt a t = none := by
  induction t with
  | nil => rfl
  | node n k v l r ihl ihr =>
    simp only [toList_node, addrs_append, addrs_cons, List.mem_append, List.mem_cons, not_or] at h
    simp only [cutAt]
    rw [if_neg (Ne.symm h.2.1), ihl h.1, ihr h.2.2]
    rfl

theorem split_unique {α : Type} {L R L' R' : List α} {e : α} (f : α → Nat)
    (nd : ((L ++ e :: R).map f).Nodup) (h : L ++ e :: R = L' ++ e :: R') : L = L' ∧ R = R' := by
  induction L generalizing L' with
  | nil =>
    cases L' with
    | nil => simpa using h
    | cons x L' =>
      simp only [List.nil_append, List.cons_append, List.cons.injEq] at h
      obtain ⟨rfl, rfl⟩ := h
      simp at nd
  | cons y L ih =>
    cases L' with
    | nil =>
      simp only [List.nil_append, List.cons_append, List.cons.injEq] at h
      obtain ⟨rfl, rfl⟩ := h
      simp at nd
    | cons x L' =>
      simp only [List.cons_append, List.cons.injEq] at h
      obtain ⟨rfl, h⟩ := h
      obtain ⟨rfl, rfl⟩ := ih (by simp at nd ⊢; exact nd.2) h
      exact ⟨rfl, rfl⟩

theorem cutAt_ok {e : Ent K V} {t : T K (Nat × V)} (hx : Exact t) (nd : (addrs t.toList).Nodup)
    (hm : e ∈ t.toList) : ∃ t' c L R, t.toList = L ++ e :: R ∧ cutAt e.2.1 t = some (t', c) ∧ Exact t' ∧
      Cuts e L R c t'.toList := by
  induction t with
  | nil => simp at hm
  | node n k v l r ihl ihr =>
    obtain ⟨h1, h2, h3⟩ := exact_node.1 hx
    rw [toList_node, addrs_append, addrs_cons, List.nodup_append, List.nodup_cons] at nd
    obtain ⟨nl, ⟨nv, nr⟩, nlr⟩ := nd
    rw [toList_node, List.mem_append, List.mem_cons] at hm
    simp only [cutAt]
    rcases hm with hm | rfl | hm
    · have hne : v.1 ≠ e.2.1 := fun h => nlr e.2.1 (mem_addrs.2 ⟨e, hm, rfl⟩) v.1 (by simp) h.symm
      obtain ⟨t', c, L, R, g1, g2, g3, g4⟩ := ihl h2 nl hm
      rw [if_neg hne, g2]
      refine ⟨_, _, L, R ++ (k, v) :: r.toList, by rw [toList_node, g1]; simp, rfl,
        exact_node.2 ⟨?_, g3, h3⟩, ?_⟩
      · have := g4.length
        have hlen : l.toList.length = L.length + (R.length + 1) := by rw [g1]; simp
        show n - 1 = _
        simp only
        omega
      · simpa using g4.wider [] ((k, v) :: r.toList)
    · obtain ⟨t', c, g1, g2, g3⟩ := cutHere_ok hx
      rw [if_pos rfl]
      exact ⟨t', c, _, _, rfl, g1, g2, g3⟩
    · have hmem : e.2.1 ∈ addrs r.toList := mem_addrs.2 ⟨e, hm, rfl⟩
      have hne : v.1 ≠ e.2.1 := fun h => nv (h ▸ hmem)
      have hnl : e.2.1 ∉ addrs l.toList := fun h => nlr _ h _ (by simp [hmem]) rfl
      obtain ⟨t', c, L, R, g1, g2, g3, g4⟩ := ihr h3 nr hm
      rw [if_neg hne, cutAt_none hnl, g2]
      refine ⟨_, _, l.toList ++ (k, v) :: L, R, by rw [toList_node, g1]; simp, rfl,
        exact_node.2 ⟨?_, h2, g3⟩, ?_⟩
      · have := g4.length
        have hlen : r.toList.length = L.length + (R.length + 1) := by rw [g1]; simp
        show n - 1 = _
        simp only
        omega
      · simpa using g4.wider (l.toList ++ [(k, v)]) []

theorem Cuts.strip_eq {e : Ent K V} {L R zs : List (Ent K V)} {c : Cut K V} (h : Cuts e L R c zs) :
    zs.map strip = (L ++ R).map strip := by
  cases h with
  | leaf => rfl
  | prev L' f h => subst h; simp [strip]
  | next R' f h => subst h; simp [strip]

theorem sorted_strip {o : K → K → Ordering} {xs ys : List (Ent K V)} (h : xs.map strip = ys.map strip)
    (hs : Sorted o ys) : Sorted o xs := by
  have e : ∀ zs : List (Ent K V), Sorted o zs ↔ Sorted o (zs.map strip) := by
    intro zs
    simp only [Sorted, List.pairwise_map]
    exact Iff.rfl
  rw [e, h, ← e]
  exact hs

/-- `removeNode` removes the entry of the node; the other entries stay in order, though one of them
may move to this node. -/
theorem removeNode_ok {s : TL K V} {L R : List (Ent K V)} {e : Ent K V}
    (hG : Good cmp s (L ++ e :: R)) :
    ∃ s' zs', removeNode s e.2.1 = some (s', strip e) ∧ Good cmp s' zs' ∧
      zs'.map strip = (L ++ R).map strip := by
  obtain ⟨h1, h2, h3, h4, h5, h6, h7⟩ := hG
  obtain ⟨t', c, L', R', g1, g2, g3, g4⟩ := cutAt_ok (e := e) h3 (by rw [h1]; exact h4)
    (by rw [h1]; simp)
  obtain ⟨rfl, rfl⟩ := split_unique (fun e : Ent K V => e.2.1) h4 (h1.symm.trans g1)
  have hval : (s.heap e.2.1).val = strip e := h6 e (by simp)
  have hsub : (L ++ R).Sublist (L ++ e :: R) :=
    List.Sublist.append (List.Sublist.refl _) (List.sublist_cons_self ..)
  have hsort : Sorted (ord cmp) t'.toList := sorted_strip g4.strip_eq (h2.sublist hsub)
  have hstrip := g4.strip_eq
  rw [addrs_append, addrs_cons] at h4
  have nd0 : (addrs L ++ ([e.2.1] ++ addrs R)).Nodup := by simpa using h4
  have hth : Thread s (addrs L ++ ([e.2.1] ++ addrs R)) := by simpa using h7
  have hseg := hth.seg
  rw [seg_append, seg_append] at hseg
  have hprev : (s.heap e.2.1).prev = (addrs L).getLast? := by simpa using hseg.2.1.1
  have hnext : (s.heap e.2.1).next = (addrs R).head? := by simpa using hseg.2.1.2.1
  have hne : ∀ f ∈ L ++ R, f.2.1 ≠ e.2.1 := by
    intro f hf h
    rw [List.nodup_append, List.nodup_cons] at h4
    rcases List.mem_append.1 hf with hf | hf
    · exact h4.2.2 f.2.1 (mem_addrs.2 ⟨f, hf, rfl⟩) e.2.1 (by simp) h
    · exact h4.2.1.1 (mem_addrs.2 ⟨f, hf, h⟩)
  have hmem : ∀ f ∈ L ++ R, f ∈ L ++ e :: R := fun f hf => hsub.subset hf
  simp only [removeNode, g2, hval]
  generalize hzs : t'.toList = zs' at g4 hsort hstrip
  cases g4 with
  | leaf =>
    by_cases hn : t'.isNil = true
    · have ht : t' = nil := by cases hh : t' <;> simp_all [isNil]
      simp only [if_pos hn]
      subst ht
      have hLR : L ++ R = [] := hzs.symm
      refine ⟨_, [], rfl, ?_, by rw [hLR]⟩
      exact Good.empty rfl rfl rfl
    · simp only [if_neg hn]
      refine ⟨_, L ++ R, rfl, ⟨?_, hsort, ?_, ?_, ?_, ?_, ?_⟩, hstrip⟩
      · simp only [TL.unlink, setL_tree, setR_tree]; exact hzs
      · simp only [TL.unlink, setL_tree, setR_tree]; exact g3
      · rw [addrs_append]
        rw [List.nodup_append, List.nodup_cons] at h4
        exact List.nodup_append.2 ⟨h4.1, h4.2.1.2, fun a ha b hb => h4.2.2 a ha b (by simp [hb])⟩
      · intro f hf
        simp only [TL.unlink, setL_free, setR_free]
        exact h5 f (hmem f hf)
      · intro f hf
        simp only [TL.unlink, setL_val, setR_val]
        exact h6 f (hmem f hf)
      · rw [addrs_append, hprev, hnext]
        exact Thread.unlink (s := { s with tree := t' }) (M := [e.2.1])
          ⟨hth.head, hth.tail, hth.seg⟩ nd0
  | prev L' f hL =>
    subst hL
    have hp : (s.heap e.2.1).prev = some f.2.1 := by rw [hprev]; simp
    have hpp : (s.heap f.2.1).prev = (addrs L').getLast? := by
      have := hseg.1
      rw [addrs_append, seg_append] at this
      simpa using this.2.1
    simp only [hp, Option.map_some, hpp]
    have nd1 : (addrs L' ++ ([f.2.1] ++ (e.2.1 :: addrs R))).Nodup := by simpa using h4
    have hth1 : Thread s (addrs L' ++ ([f.2.1] ++ (e.2.1 :: addrs R))) := by simpa using hth
    have hth2 := Thread.unlink (M := [f.2.1]) (s := { s with tree := t', heap := s.heap.setVal e.2.1 (f.1, f.2.2) })
      (L := addrs L') (R := e.2.1 :: addrs R)
      ⟨hth1.head, hth1.tail, seg_congr hth1.seg fun a _ => ⟨prev_setVal .., next_setVal ..⟩⟩ nd1
    refine ⟨_, _, rfl, ⟨?_, hsort, ?_, ?_, ?_, ?_, ?_⟩, hstrip⟩
    · simp only [setR_tree]; exact hzs
    · simp only [setR_tree]; exact g3
    · rw [addrs_append, addrs_cons]
      rw [List.nodup_append] at nd1
      exact List.nodup_append.2 ⟨nd1.1, (List.nodup_append.1 nd1.2.1).2.1,
        fun a ha b hb => nd1.2.2 a ha b (by simp only [List.mem_append]; exact .inr hb)⟩
    · intro x hx
      simp only [setR_free]
      rw [List.mem_append, List.mem_cons] at hx
      rcases hx with hx | rfl | hx
      · exact h5 x (by simp [hx])
      · exact h5 e (by simp)
      · exact h5 x (by simp [hx])
    · intro x hx
      simp only [val_setPrev, setR_val, val_setVal]
      rw [List.mem_append, List.mem_cons] at hx
      rcases hx with hx | rfl | hx
      · rw [if_neg (hne x (by simp [hx]))]; exact h6 x (by simp [hx])
      · rw [if_pos rfl]; rfl
      · rw [if_neg (hne x (by simp [hx]))]; exact h6 x (by simp [hx])
    · rw [addrs_append, addrs_cons]
      exact ⟨hth2.head, hth2.tail, hth2.seg⟩
  | next R' f hR =>
    subst hR
    have hp : (s.heap e.2.1).next = some f.2.1 := by rw [hnext]; simp
    have hpp : (s.heap f.2.1).next = (addrs R').head? := by
      have := hseg.2.2
      rw [addrs_cons] at this
      simpa using this.2.1
    simp only [hp, Option.map_some, hpp]
    have nd1 : ((addrs L ++ [e.2.1]) ++ ([f.2.1] ++ addrs R')).Nodup := by simpa using h4
    have hth1 : Thread s ((addrs L ++ [e.2.1]) ++ ([f.2.1] ++ addrs R')) := by simpa using hth
    have hth2 := Thread.unlink (M := [f.2.1]) (s := { s with tree := t', heap := s.heap.setVal e.2.1 (f.1, f.2.2) })
      (L := addrs L ++ [e.2.1]) (R := addrs R')
      ⟨hth1.head, hth1.tail, seg_congr hth1.seg fun a _ => ⟨prev_setVal .., next_setVal ..⟩⟩ nd1
    have nd2 : (addrs L ++ e.2.1 :: addrs R').Nodup := by
      have : (addrs L ++ e.2.1 :: addrs R').Sublist (addrs L ++ e.2.1 :: addrs (f :: R')) := by
        refine List.Sublist.append (List.Sublist.refl _) (List.Sublist.cons_cons _ ?_)
        exact List.sublist_cons_self ..
      exact h4.sublist this
    refine ⟨_, _, rfl, ⟨?_, hsort, ?_, ?_, ?_, ?_, ?_⟩, hstrip⟩
    · simp only [setL_tree]; exact hzs
    · simp only [setL_tree]; exact g3
    · rw [addrs_append, addrs_cons]; exact nd2
    · intro x hx
      simp only [setL_free]
      rw [List.mem_append, List.mem_cons] at hx
      rcases hx with hx | rfl | hx
      · exact h5 x (by simp [hx])
      · exact h5 e (by simp)
      · exact h5 x (by simp [hx])
    · intro x hx
      simp only [val_setNext, setL_val, val_setVal]
      rw [List.mem_append, List.mem_cons] at hx
      rcases hx with hx | rfl | hx
      · rw [if_neg (hne x (by simp [hx]))]; exact h6 x (by simp [hx])
      · rw [if_pos rfl]; rfl
      · rw [if_neg (hne x (by simp [hx]))]; exact h6 x (by simp [hx])
    · rw [addrs_append, addrs_cons]
      -- the two statements come in the other order
      have e1 : (addrs L ++ [e.2.1]).getLast? = some e.2.1 := List.getLast?_concat
      have hh := hth2.head
      have ht := hth2.tail
      have hs := hth2.seg
      rw [show (addrs L ++ [e.2.1]) ++ addrs R' = addrs L ++ e.2.1 :: addrs R' by simp] at hh ht hs
      simp only [TL.unlink, e1, TL.setR] at hh ht hs
      rw [setL_head] at hh
      rw [setL_tail] at ht
      refine ⟨?_, ?_, seg_congr hs fun a ha => ?_⟩
      · show TL.head _ = _
        simp only [setL_head]; exact hh
      · show TL.tail _ = _
        simp only [setL_tail]
        by_cases hr : (addrs R').head? = none
        · have : addrs R' = [] := by simpa using hr
          simp [this]
        · rw [if_neg hr] at ht ⊢; exact ht
      · constructor
        · simp only [prev_setNext, setL_prev]
        · simp only [next_setNext, setL_next]

end Verif.TreeList
