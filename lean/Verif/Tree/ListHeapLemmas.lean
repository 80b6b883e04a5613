import Verif.Tree.ListHeapGhost
import Verif.Tree.IndexHeapRun
import Verif.Tree.TreeListLemmas

/-! The pointer program of `Verif.Tree.ListHeap` against the model with subtrees of
`Verif.Tree.TreeListModel`: links, insertion, removal. -/

namespace Verif.ListHeap
open Verif.IndexHeap Verif.DLL Verif.Tree Verif.Size
open Verif.AvlHeap (P ptr addrs erase ptr_nil ptr_node ptr_mem ptr_ne)
open Verif.TreeList (TL limit Op Res SetOp walk countAll pull gap cutAt cutHere Cut strip)
variable {K V : Type} {cmp : K → K → Int} {root : Nat}

/-! ### Values with addresses -/

/-- The value of each node starts with its address. -/
def Tagged : P K (Nat × V) → Prop
  | nil => True
  | node a _ v l r => v.1 = a.1 ∧ Tagged l ∧ Tagged r

theorem tagged {m : Mem K V} : ∀ {p : Nat} {t : P K (Nat × V)}, Rep (gh m) p t → Tagged t
  | _, nil, _ => trivial
  | p, node a k v l r, h => by
    obtain ⟨⟨b, hb⟩, h1, h2⟩ := h
    refine ⟨?_, tagged h1, tagged h2⟩
    have := congrArg Cell.val hb
    rw [gh_val] at this
    rw [← show _ = v from this]

theorem mem_tagged {a : Nat} : ∀ {t : P K (Nat × V)}, Tagged t →
    (a ∈ TreeList.addrs (erase t).toList ↔ a ∈ addrs t)
  | nil, _ => by simp [erase, addrs, TreeList.addrs]
  | node b k v l r, ⟨h, h1, h2⟩ => by
    simp only [erase, toList_node, TreeList.addrs_append, TreeList.addrs_cons, List.mem_append, List.mem_cons,
      mem_tagged h1, mem_tagged h2, addrs, h]
    tauto

/-! ### Links -/

/-- The links of both models agree, and only those at `S` and at the root differ from `d0`. -/
structure Agree (root : Nat) (S : List Nat) (d0 : Dir) (x : TL K V) (d : Dir) : Prop where
  head : x.head = (d root).1
  tail : x.tail = (d root).2
  prev : ∀ a, a ≠ root → (x.heap a).prev = (d a).1
  next : ∀ a, a ≠ root → (x.heap a).next = (d a).2
  frame : ∀ a, a ≠ root → a ∉ S → d a = d0 a

section
variable {S : List Nat} {d0 d : Dir} {x : TL K V}

theorem Agree.tree (h : Agree root S d0 x d) {x' : TL K V} (h1 : x'.head = x.head) (h2 : x'.tail = x.tail)
    (h3 : ∀ a, (x'.heap a).prev = (x.heap a).prev) (h4 : ∀ a, (x'.heap a).next = (x.heap a).next) :
    Agree root S d0 x' d :=
  ⟨h1.trans h.head, h2.trans h.tail, fun a ha => (h3 a).trans (h.prev a ha),
    fun a ha => (h4 a).trans (h.next a ha), h.frame⟩

theorem setDir_self (d : Dir) (a : Nat) (c : Bool) (q : Option Nat) :
    setDir d a c q a = if c then ((d a).1, q) else (q, (d a).2) := by simp [setDir]
theorem setDir_ne (d : Dir) {a b : Nat} (c : Bool) (q : Option Nat) (h : b ≠ a) : setDir d a c q b = d b := by
  simp [setDir, h]

theorem Agree.setPrev (h : Agree root S d0 x d) {a : Nat} (ha : a ∈ S) (hr : a ≠ root) (q : Option Nat) :
    Agree root S d0 { x with heap := x.heap.setPrev a q } (setDir d a false q) := by
  refine ⟨by rw [setDir_ne _ _ _ hr.symm]; exact h.head, by rw [setDir_ne _ _ _ hr.symm]; exact h.tail,
    fun b hb => ?_, fun b hb => ?_, fun b hb hS => ?_⟩
  · show (x.heap.setPrev a q b).prev = _
    rw [prev_setPrev]
    by_cases e : b = a
    · subst e; simp [setDir_self]
    · rw [if_neg e, setDir_ne _ _ _ e]; exact h.prev b hb
  · show (x.heap.setPrev a q b).next = _
    rw [next_setPrev]
    by_cases e : b = a
    · subst e; simp [setDir_self, h.next b hb]
    · rw [setDir_ne _ _ _ e]; exact h.next b hb
  · rw [setDir_ne _ _ _ (by rintro rfl; exact hS ha)]; exact h.frame b hb hS

theorem Agree.setNext (h : Agree root S d0 x d) {a : Nat} (ha : a ∈ S) (hr : a ≠ root) (q : Option Nat) :
    Agree root S d0 { x with heap := x.heap.setNext a q } (setDir d a true q) := by
  refine ⟨by rw [setDir_ne _ _ _ hr.symm]; exact h.head, by rw [setDir_ne _ _ _ hr.symm]; exact h.tail,
    fun b hb => ?_, fun b hb => ?_, fun b hb hS => ?_⟩
  · show (x.heap.setNext a q b).prev = _
    rw [prev_setNext]
    by_cases e : b = a
    · subst e; simp [setDir_self, h.prev b hb]
    · rw [setDir_ne _ _ _ e]; exact h.prev b hb
  · show (x.heap.setNext a q b).next = _
    rw [next_setNext]
    by_cases e : b = a
    · subst e; simp [setDir_self]
    · rw [if_neg e, setDir_ne _ _ _ e]; exact h.next b hb
  · rw [setDir_ne _ _ _ (by rintro rfl; exact hS ha)]; exact h.frame b hb hS

theorem Agree.setHead (h : Agree root S d0 x d) (q : Option Nat) :
    Agree root S d0 { x with head := q } (setDir d root false q) :=
  ⟨by simp [setDir_self], by simp [setDir_self, h.tail], fun b hb => by rw [setDir_ne _ _ _ hb]; exact h.prev b hb,
    fun b hb => by rw [setDir_ne _ _ _ hb]; exact h.next b hb,
    fun b hb hS => by rw [setDir_ne _ _ _ hb]; exact h.frame b hb hS⟩

theorem Agree.setTail (h : Agree root S d0 x d) (q : Option Nat) :
    Agree root S d0 { x with tail := q } (setDir d root true q) :=
  ⟨by simp [setDir_self, h.head], by simp [setDir_self], fun b hb => by rw [setDir_ne _ _ _ hb]; exact h.prev b hb,
    fun b hb => by rw [setDir_ne _ _ _ hb]; exact h.next b hb,
    fun b hb hS => by rw [setDir_ne _ _ _ hb]; exact h.frame b hb hS⟩

/-- `p` is nil or one of the nodes. -/
def In (root : Nat) (S : List Nat) (p : Option Nat) : Prop := ∀ a, p = some a → a ∈ S ∧ a ≠ root

theorem Agree.setR (h : Agree root S d0 x d) {p : Option Nat} (hp : In root S p) (q : Option Nat) :
    Agree root S d0 (x.setR p q) (join root d true p q) := by
  cases p with
  | none => exact h.setHead q
  | some a => exact h.setNext (hp a rfl).1 (hp a rfl).2 q

theorem Agree.setL (h : Agree root S d0 x d) {p : Option Nat} (hp : In root S p) (q : Option Nat) :
    Agree root S d0 (x.setL p q) (join root d false p q) := by
  cases p with
  | none => exact h.setTail q
  | some a => exact h.setPrev (hp a rfl).1 (hp a rfl).2 q

theorem Agree.unlink (h : Agree root S d0 x d) {p q : Option Nat} (hp : In root S p) (hq : In root S q) :
    Agree root S d0 (x.unlink p q) (unlink root d p q) := (h.setR hp q).setL hq p

theorem Agree.put (h : Agree root S d0 x d) {a : Nat} (ha : a ∈ S) (hr : a ≠ root) (p q : Option Nat)
    (v : K × V) (n : Nat) :
    Agree root S d0 { x with heap := x.heap.put a ⟨p, q, v⟩, free := n }
      (setDir (setDir d a false p) a true q) := by
  refine ((h.setPrev ha hr p).setNext ha hr q).tree rfl rfl (fun b => ?_) fun b => ?_
  · show (x.heap.put a ⟨p, q, v⟩ b).prev = ((x.heap.setPrev a p).setNext a q b).prev
    rw [prev_put, prev_setNext, prev_setPrev]
  · show (x.heap.put a ⟨p, q, v⟩ b).next = ((x.heap.setPrev a p).setNext a q b).next
    rw [next_put, next_setNext, next_setPrev]

end

/-- The list of the model with subtrees. -/
def abs (s : PList K V) (t : P K (Nat × V)) : TL K V :=
  ⟨erase t, view s.mem s.dir, s.free, (s.dir s.root).1, (s.dir s.root).2⟩

theorem agree_abs (s : PList K V) (t : P K (Nat × V)) (S : List Nat) : Agree s.root S s.dir (abs s t) s.dir :=
  ⟨rfl, rfl, fun _ _ => rfl, fun _ _ => rfl, fun _ _ _ => rfl⟩

theorem seg_mem {α : Type} {h : Store α} {as : List Nat} {p q : Option Nat} (hs : TreeList.Seg h p as q)
    {a b : Nat} (ha : a ∈ as) : ((h a).prev = some b → b ∈ as ∨ p = some b) ∧
      ((h a).next = some b → b ∈ as ∨ q = some b) := by
  induction as generalizing p with
  | nil => cases ha
  | cons c as ih =>
    obtain ⟨h1, h2, h3⟩ := hs
    rcases List.mem_cons.1 ha with rfl | ha
    · refine ⟨fun e => .inr (h1.symm.trans e), fun e => ?_⟩
      rw [h2] at e
      cases as with
      | nil => exact .inr (by simpa using e)
      | cons c' as => exact .inl (by simp at e; simp [e])
    · obtain ⟨i1, i2⟩ := ih h3 ha
      exact ⟨fun e => by rcases i1 e with h | h <;> simp_all, fun e => by rcases i2 e with h | h <;> simp_all⟩

/-- A list in the memory: the tree `t` below the root, and the links. -/
structure Holds (cmp : K → K → Int) (s : PList K V) (t : P K (Nat × V)) (zs : List (TreeList.Ent K V)) : Prop where
  one : One (gh s.mem) s.root t
  below : Below s.free s.root t
  good : TreeList.Good cmp (abs s t) zs

section
variable {s : PList K V} {t : P K (Nat × V)} {zs : List (TreeList.Ent K V)}

theorem Holds.mem (h : Holds cmp s t zs) {a : Nat} : a ∈ TreeList.addrs zs ↔ a ∈ addrs t := by
  rw [← h.good.list]; exact mem_tagged (tagged h.one.rep)

theorem Holds.links (h : Holds cmp s t zs) {a b : Nat} (ha : a ∈ addrs t) :
    ((s.dir a).1 = some b → b ∈ addrs t) ∧ ((s.dir a).2 = some b → b ∈ addrs t) := by
  obtain ⟨h1, h2⟩ := seg_mem (b := b) h.good.thread.seg (h.mem.2 ha)
  exact ⟨fun e => h.mem.1 ((h1 e).resolve_right (by simp)), fun e => h.mem.1 ((h2 e).resolve_right (by simp))⟩

theorem Holds.inT (h : Holds cmp s t zs) {S : List Nat} (hS : ∀ a ∈ addrs t, a ∈ S) {p : Option Nat}
    (hp : ∀ a, p = some a → a ∈ addrs t) : In s.root S p := fun a ha =>
  ⟨hS a (hp a ha), by rintro rfl; exact h.one.notMem (hp _ ha)⟩

end

/-- What a call does, compared with the model with subtrees. -/
def Sim (s : PList K V) (t : P K (Nat × V)) (s' : PList K V) (x' : TL K V) : Prop :=
  s'.root = s.root ∧ s'.free = x'.free ∧ ∃ t', erase t' = x'.tree ∧
    Next (gh s.mem) s.free s.root t (gh s'.mem) s'.free s'.root t' ∧
    Agree s.root (s.free :: addrs t) s.dir x' s'.dir

/-! ### Insertion -/

theorem putLoop_eq {write : V → V} {fresh : Nat} {key : K} {val : V} {rounds : Nat} {m : Mem K V} {d : Dir} :
    ∀ (n : Nat) (t : P K (Nat × V)) (p cur : Nat) (left right : Option Nat), Rep (gh m) p t → ptr t = some cur →
    putLoop root cmp write fresh key val rounds m d n cur left right =
      (IndexHeap.putLoop root false limit cmp (fun e => (e.1, write e.2)) fresh key val rounds n m cur).map fun q =>
        (q.1, if q.2 then d else thread root d fresh (gap cmp key (erase t) left right).1
          (gap cmp key (erase t) left right).2, q.2)
  | 0, _, _, _, _, _, _, _ => rfl
  | n + 1, nil, _, _, _, _, _, hp => by cases hp
  | n + 1, node a k v l r, p, cur, left, right, hR, hp => by
    obtain rfl : a.1 = cur := by simpa using hp
    have ht := (tagged hR).1
    obtain ⟨⟨g, hg⟩, h1, h2⟩ := hR
    have k1 : (m a.1).key = k := by rw [← gh_key, hg]
    have k2 : (m a.1).lo = ptr l := by rw [← gh_lo, hg]
    have k3 : (m a.1).hi = ptr r := by rw [← gh_hi, hg]
    simp only [putLoop, IndexHeap.putLoop, k1, k2, k3, erase, gap, ht]
    by_cases c1 : cmp key k < 0
    · simp only [if_pos c1]
      cases e : ptr l with
      | none => obtain rfl := ptr_none e; simp [erase, gap, Function.comp_def]
      | some b => exact putLoop_eq n l a.1 b _ _ h1 e
    · simp only [if_neg c1]
      by_cases c2 : cmp key k > 0
      · simp only [if_pos c2]
        cases e : ptr r with
        | none => obtain rfl := ptr_none e; simp [erase, gap, Function.comp_def]
        | some b => exact putLoop_eq n r a.1 b _ _ h2 e
      · simp only [if_neg c2, Option.map_some, if_true]

theorem gh_putLoop {bal : Bool} {lim : Nat → Option (Int × Int)} {write : V → V} {fresh : Nat} {key : K} {val : V}
    {rounds : Nat} {m : Mem K V} : ∀ (n cur : Nat),
    IndexHeap.putLoop root bal lim cmp (fun e => (e.1, (e.2.1, write e.2.2))) fresh key (fresh, val) rounds n (gh m) cur =
      (IndexHeap.putLoop root bal lim cmp (fun e => (e.1, write e.2)) fresh key val rounds n m cur).map ghp
  | 0, _ => rfl
  | n + 1, cur => by
    simp only [IndexHeap.putLoop, gh_key, gh_lo, gh_hi, gh_alloc, gh_link, gh_fixPut, Option.map_map]
    by_cases c1 : cmp key (m cur).key < 0
    · simp only [if_pos c1]
      cases (m cur).lo with
      | none => simp only [Option.map_map]; rfl
      | some b => exact gh_putLoop n b
    · simp only [if_neg c1]
      by_cases c2 : cmp key (m cur).key > 0
      · simp only [if_pos c2]
        cases (m cur).hi with
        | none => simp only [Option.map_map]; rfl
        | some b => exact gh_putLoop n b
      · simp only [if_neg c2, Option.map_some, ghp]
        congr 2
        exact gh_upd rfl

theorem put_get {lim : Nat → Option (Int × Int)} {key : K} {val : V} {write : K × V → K × V} : ∀ {t : T K V}
    {q : T K V × Option Up}, Size.put lim cmp key val write t = some q →
    q.2.isNone = (Size.get cmp key t).isSome
  | nil, q, h => by cases h; rfl
  | node a k v l r, q, h => by
    have H : ∀ (p : T K V × Option Up) (t x : T K V),
        (match p.2 with
          | none => some (x, none)
          | some up => (fixNode lim up t).map fun q => (q.1, some q.2)) = some q → q.2.isNone = p.2.isNone := by
      rintro ⟨p1, p2⟩ t x h
      cases p2 with
      | none => cases h; rfl
      | some up' =>
        simp only [Option.map_eq_some_iff] at h
        obtain ⟨q', -, rfl⟩ := h
        rfl
    simp only [Size.put] at h
    simp only [Size.get]
    split at h
    · rename_i c1
      obtain ⟨p, h1, h⟩ := Option.bind_eq_some_iff.1 h
      rw [if_pos c1, H p _ _ h, put_get h1]
    · rename_i c1
      rw [if_neg c1]
      split at h
      · rename_i c2
        obtain ⟨p, h1, h⟩ := Option.bind_eq_some_iff.1 h
        rw [if_pos c2, H p _ _ h, put_get h1]
      · rename_i c2
        cases h
        rw [if_neg c2]; rfl

theorem gap_mem {key : K} {S : List Nat} : ∀ {t : P K (Nat × V)} {left right : Option Nat}, Tagged t →
    (∀ a, left = some a → a ∈ S) → (∀ a, right = some a → a ∈ S) → (∀ a ∈ addrs t, a ∈ S) →
    (∀ a, (gap cmp key (erase t) left right).1 = some a → a ∈ S) ∧
    (∀ a, (gap cmp key (erase t) left right).2 = some a → a ∈ S)
  | nil, _, _, _, h1, h2, _ => ⟨h1, h2⟩
  | node a k v l r, left, right, ⟨ht, hl, hr⟩, h1, h2, h3 => by
    have hv : ∀ b, some v.1 = some b → b ∈ S := by
      rintro b ⟨⟩; rw [ht]; exact h3 _ (by simp [addrs])
    have hl' : ∀ b ∈ addrs l, b ∈ S := fun b hb => h3 b (by simp [addrs, hb])
    have hr' : ∀ b ∈ addrs r, b ∈ S := fun b hb => h3 b (by simp [addrs, hb])
    simp only [erase, gap]
    split
    · exact gap_mem hl h1 hv hl'
    · split
      · exact gap_mem hr hv h2 hr'
      · exact ⟨h1, h2⟩

/-- utils.go:64-103. -/
theorem putWith_sim {s : PList K V} {t : P K (Nat × V)} {zs : List (TreeList.Ent K V)} {key : K} {val : V}
    {write : V → V} {x' : TL K V} {b : Bool} (h : Holds cmp s t zs)
    (hs : TreeList.putWith cmp (abs s t) key val write = some (x', b)) :
    ∃ s', s.putWith cmp key val write = some (s', b) ∧ Sim s t s' x' := by
  have hrf : s.root < s.free := h.below s.root (by simp)
  have hne : s.free ≠ s.root := by omega
  have hlo : (s.mem s.root).lo = ptr t := by rw [← gh_lo]; exact h.one.lo
  cases t with
  | nil =>
    simp only [TreeList.putWith, abs, erase, Tree.isNil, if_true, Option.some.injEq, Prod.mk.injEq] at hs
    obtain ⟨rfl, rfl⟩ := hs
    rw [ptr_nil] at hlo
    refine ⟨⟨_, _, s.free + 1, s.root⟩, by simp only [PList.putWith, PList.top, hlo]; rfl, rfl, rfl,
      node (s.free, 1) key (s.free, val) nil nil, rfl, ?_, ?_⟩
    · refine next_of_good h.one h.below (new := [s.free]) (gone := []) ?_ (by simp) (by simp) (by simp)
      have := alloc_ok (m := gh s.mem) (c := false) (key := key) (val := (s.free, val)) (by omega : s.root ≠ s.free)
      rw [gh_alloc, gh_link] at this
      exact this
    · have h1 := ((((agree_abs s nil (s.free :: addrs (nil : P K (Nat × V)))).put (by simp) hne none none (key, val)
        (s.free + 1)).setHead (some s.free)).setTail (some s.free))
      exact h1.tree rfl rfl (fun _ => rfl) (fun _ => rfl)
  | node a k v l r =>
    simp only [TreeList.putWith, abs, erase, Tree.isNil, Bool.false_eq_true, if_false] at hs
    rw [ptr_node] at hlo
    have hf := h.one.fuel h.below
    have hn : (s.root :: ([s.free] ++ addrs (node a k v l r))).Nodup := by
      have h1 := h.one.nodup
      rw [List.nodup_cons] at h1 ⊢
      refine ⟨?_, ?_⟩
      · simp only [List.cons_append, List.nil_append, List.mem_cons, not_or]; exact ⟨by omega, h1.1⟩
      · refine List.nodup_cons.2 ⟨fun hx => ?_, h1.2⟩
        have := h.below s.free (List.mem_cons_of_mem _ hx)
        omega
    cases e1 : Size.put limit cmp key (s.free, val) (fun e => (e.1, (e.2.1, write e.2.2)))
        (node a.2 k v (erase l) (erase r)) with
    | none => rw [e1] at hs; simp at hs
    | some q =>
      obtain ⟨t', h1, h2⟩ := put_ok (bal := false) (rounds := s.free) h.one.rep hn (h.one.hole _) (ptr_node ..)
        h.one.notMem (by omega) e1
      have hpg := put_get e1
      have he := putLoop_eq (root := s.root) (cmp := cmp) (write := write) (fresh := s.free) (key := key) (val := val)
        (rounds := s.free) (d := s.dir) s.free _ s.root a.1 none none h.one.rep rfl
      have hgp := gh_putLoop (root := s.root) (bal := false) (lim := limit) (cmp := cmp) (write := write)
        (fresh := s.free) (key := key) (val := val) (rounds := s.free) (m := s.mem) s.free a.1
      obtain ⟨u, o⟩ := q
      cases o with
      | none =>
        obtain ⟨m', g, h3⟩ := h2
        have h3 := (h3 s.free).symm.trans hgp
        rw [eq_comm, Option.map_eq_some_iff] at h3
        obtain ⟨⟨m1, f⟩, h4, h5⟩ := h3
        obtain ⟨rfl, rfl⟩ := Prod.mk.inj h5
        rw [e1] at hs
        obtain ⟨e, hget⟩ := Option.isSome_iff_exists.1 (show (Size.get cmp key _).isSome = true from hpg.symm)
        rw [hget] at hs
        simp only [Option.some.injEq, Prod.mk.injEq] at hs
        obtain ⟨rfl, rfl⟩ := hs
        refine ⟨⟨m1, s.dir, s.free, s.root⟩, ?_, rfl, rfl, t', h1, next_of_good' h.one h.below g, ?_⟩
        · simp only [PList.putWith, PList.top, hlo, he, h4, Option.map_some]; rfl
        · exact (agree_abs s (node a k v l r) _).tree rfl rfl (fun _ => prev_setVal ..) fun _ => next_setVal ..
      | some up =>
        obtain ⟨m', g, j, hj, h3⟩ := h2
        have h4 := h3 (s.free - j)
        obtain ⟨n', e⟩ : ∃ n', s.free - j = n' + 1 := ⟨s.free - j - 1, by omega⟩
        rw [Nat.sub_add_cancel (by omega), e, resume_root (put_leaf e1)] at h4
        have h4 := h4.symm.trans hgp
        rw [eq_comm, Option.map_some, Option.map_eq_some_iff] at h4
        obtain ⟨⟨m1, f⟩, h6, h5⟩ := h4
        obtain ⟨rfl, rfl⟩ := Prod.mk.inj h5
        rw [e1] at hs
        have hget : Size.get cmp key (node a.2 k v (erase l) (erase r)) = none := by
          cases hg : Size.get cmp key (node a.2 k v (erase l) (erase r)) with
          | none => rfl
          | some x => rw [hg] at hpg; cases hpg
        rw [hget] at hs
        simp only [Option.some.injEq, Prod.mk.injEq] at hs
        obtain ⟨rfl, rfl⟩ := hs
        obtain ⟨i1, i2⟩ := gap_mem (cmp := cmp) (key := key) (S := addrs (node a k v l r)) (left := none)
          (right := none) (tagged h.one.rep) (by simp) (by simp) (fun _ h => h)
        refine ⟨⟨m1, thread s.root s.dir s.free (gap cmp key (node a.2 k v (erase l) (erase r)) none none).1
          (gap cmp key (node a.2 k v (erase l) (erase r)) none none).2, s.free + 1, s.root⟩, ?_, rfl, rfl, t', ?_,
          next_of_good h.one h.below g (by simp) (by simp) (by simp), ?_⟩
        · simp only [PList.putWith, PList.top, hlo, he, h6, Option.map_some]; rfl
        · rw [h1]; simp only [TreeList.setL_tree, TreeList.setR_tree]
        · have h0 := (agree_abs s (node a k v l r) (s.free :: addrs (node a k v l r))).tree (x' := { abs s (node a k v l r) with tree := u })
            rfl rfl (fun _ => rfl) (fun _ => rfl)
          exact ((h0.setR (h.inT (by simp +contextual) i1) _).setL (h.inT (by simp +contextual) i2) _).put (by simp) hne _ _ _ _

/-! ### Removal -/

theorem gh_removeCell {m : Mem K V} {n cur : Nat} :
    removeCell root keepG n (gh m) cur =
      (removeCell root (fun _ w => w) n m cur).map fun p => (gh p.1, (cur, p.2)) := by
  simp only [removeCell, gh_size, gh_parent, gh_getRelationship, gh_lo, gh_hi, gh_getSize, gh_takeOut, gh_link,
    gh_fixRemoveSize, gh_val, Option.map_map]
  split
  · exact bind_gh fun _ => bind_gh fun _ => by simp only [Option.map_map]; rfl
  · split <;> rfl

theorem cutHere_remove {t u : T K (Nat × V)} {c : Cut K V} (h : cutHere t = some (u, c)) :
    Size.removeNode keepG t = some u := by
  cases t with
  | nil => cases h
  | node n k v l r =>
    simp only [cutHere] at h
    simp only [Size.removeNode]
    split at h
    · rename_i c1; cases h; rw [if_pos c1]
    · rename_i c1
      rw [if_neg c1]
      split at h
      · rename_i c2
        rw [if_pos c2]
        rw [Option.map_eq_some_iff] at h ⊢
        obtain ⟨p, h1, h2⟩ := h
        exact ⟨p, h1, (Prod.mk.inj h2).1⟩
      · rename_i c2
        rw [if_neg c2]
        rw [Option.map_eq_some_iff] at h ⊢
        obtain ⟨p, h1, h2⟩ := h
        exact ⟨p, h1, (Prod.mk.inj h2).1⟩

/-- What is known about the node that is removed: `q` is its parent. -/
def Shape (m : Mem K V) (b p : Nat) (t : P K (Nat × V)) (u : T K (Nat × V)) : Cut K V → Prop
  | .leaf => (m b).size = 1 ∧ ∃ q, (m b).parent = some q ∧
      ((u.isNil = true ∧ q = p ∧ ptr t = some b) ∨ (u.isNil = false ∧ q ∈ addrs t))
  | .prev _ => (m b).size ≠ 1 ∧ getSize m (m b).lo > getSize m (m b).hi
  | .next _ => (m b).size ≠ 1 ∧ ¬getSize m (m b).lo > getSize m (m b).hi

theorem Shape.up {m : Mem K V} {b p a : Nat} {t t' : P K (Nat × V)} {u u' : T K (Nat × V)} {c : Cut K V}
    (h : Shape m b a t u c) (h1 : a ∈ addrs t') (h2 : ∀ x ∈ addrs t, x ∈ addrs t') (h3 : u'.isNil = false) :
    Shape m b p t' u' c := by
  cases c with
  | leaf =>
    obtain ⟨i1, q, i2, i3⟩ := h
    refine ⟨i1, q, i2, .inr ⟨h3, ?_⟩⟩
    rcases i3 with ⟨-, rfl, -⟩ | ⟨-, i⟩
    · exact h1
    · exact h2 _ i
  | prev => exact h
  | next => exact h

theorem cutAt_runs {m : Mem K V} {b : Nat} : ∀ (t : P K (Nat × V)) (p : Nat) (d : Bool) (u : T K (Nat × V))
    (c : Cut K V), Rep (gh m) p t → (p :: addrs t).Nodup → Hole [] (gh m) p d t → root ∉ addrs t →
    cutAt b (erase t) = some (u, c) →
    b ∈ addrs t ∧ Shape m b p t u c ∧
      Runs [] any (fun j => removeCell root keepG j (gh m) b) (decLoop root (b, (m b).val)) (gh m) p d t u
  | nil, _, _, _, _, _, _, _, _, h => by cases h
  | node a k v l r, p, d, u, c, hR, hn, hh, hr, h => by
    have ht := (tagged hR).1
    obtain ⟨⟨g, hg⟩, hl', hr'⟩ := id hR
    have hn' : (p :: a.1 :: (addrs l ++ addrs r)).Nodup := hn
    have hra : root ∉ a.1 :: (addrs l ++ addrs r) := hr
    simp only [erase, cutAt, ht] at h
    split at h
    · rename_i c1
      subst c1
      refine ⟨by simp [addrs], ?_, removeCell_runs hR hn hh rfl hr (cutHere_remove h) (by simp)⟩
      have k1 : (m a.1).size = a.2 := by rw [← gh_size, hg]
      have k2 : (m a.1).parent = some p := by rw [← gh_parent, hg]
      have k3 : getSize m (m a.1).lo = sz (erase l) := by rw [← gh_lo, ← gh_getSize, hg]; exact getSize_ptr hl'
      have k4 : getSize m (m a.1).hi = sz (erase r) := by rw [← gh_hi, ← gh_getSize, hg]; exact getSize_ptr hr'
      simp only [cutHere] at h
      split at h
      · rename_i c2
        cases h
        exact ⟨k1.trans c2, p, k2, .inl ⟨rfl, rfl, rfl⟩⟩
      · rename_i c2
        split at h
        · rename_i c3
          rw [Option.map_eq_some_iff] at h
          obtain ⟨p, -, h2⟩ := h
          cases h2
          exact ⟨by rw [k1]; exact c2, by rw [k3, k4]; exact c3⟩
        · rename_i c3
          rw [Option.map_eq_some_iff] at h
          obtain ⟨p, -, h2⟩ := h
          cases h2
          exact ⟨by rw [k1]; exact c2, by rw [k3, k4]; exact c3⟩
    · cases e : cutAt b (erase l) with
      | some q =>
        rw [e] at h
        cases h
        obtain ⟨i1, i2, i3⟩ := cutAt_runs l a.1 false q.1 q.2 hl' (by grind)
          (Hole.kid (c := false) hR (List.nodup_cons.1 hn).2) (by grind) e
        exact ⟨by simp [addrs, i1], i2.up (by simp [addrs]) (by simp +contextual [addrs]) rfl,
          i3.lift (c := false) (w := r) hR hn hh any_stable (decLoop_step (c := false) (by grind))⟩
      | none =>
        rw [e] at h
        simp only [Option.map_eq_some_iff] at h
        obtain ⟨q, h1, h2⟩ := h
        cases h2
        obtain ⟨i1, i2, i3⟩ := cutAt_runs r a.1 true q.1 q.2 hr' (by grind)
          (Hole.kid (c := true) hR (List.nodup_cons.1 hn).2) (by grind) h1
        exact ⟨by simp [addrs, i1], i2.up (by simp [addrs]) (by simp +contextual [addrs]) rfl,
          i3.lift (c := true) (w := l) hR hn hh any_stable (decLoop_step (c := true) (by grind))⟩

/-- utils.go:365-472. -/
theorem removeNode_sim {s : PList K V} {t : P K (Nat × V)} {zs : List (TreeList.Ent K V)} {b : Nat} {x' : TL K V}
    {e : K × V} (h : Holds cmp s t zs) (hs : TreeList.removeNode (abs s t) b = some (x', e)) :
    ∃ s', s.removeNode b = some (s', e) ∧ Sim s t s' x' := by
  have hf := h.one.fuel h.below
  cases hc : cutAt b (erase t) with
  | none => simp only [TreeList.removeNode, abs, hc] at hs; cases hs
  | some q =>
    obtain ⟨u, c⟩ := q
    obtain ⟨hb, hsh, hrun⟩ := cutAt_runs (root := s.root) t s.root false u c h.one.rep h.one.nodup (h.one.hole [])
      h.one.notMem hc
    obtain ⟨m', t', gone, j1, j2, j3⟩ := hrun.done decLoop_root hf.1
    rw [gh_removeCell, Option.map_eq_some_iff] at j3
    obtain ⟨⟨m1, w⟩, k1, k2⟩ := j3
    obtain ⟨rfl, -⟩ := Prod.mk.inj k2
    have hbr : b ≠ s.root := by rintro rfl; exact h.one.notMem hb
    have hnext := next_of_good' h.one h.below j2
    have h0 : Agree s.root (s.free :: addrs t) s.dir { abs s t with tree := u } s.dir :=
      (agree_abs s t _).tree rfl rfl (fun _ => rfl) (fun _ => rfl)
    have hin : ∀ {p : Option Nat}, (∀ a, p = some a → a ∈ addrs t) → In s.root (s.free :: addrs t) p :=
      fun hp => h.inT (by simp +contextual) hp
    have hbS : b ∈ s.free :: addrs t := by simp [hb]
    have hpv : ∀ a, (s.dir b).1 = some a → a ∈ addrs t := fun a e => (h.links (b := a) hb).1 e
    have hnx : ∀ a, (s.dir b).2 = some a → a ∈ addrs t := fun a e => (h.links (b := a) hb).2 e
    cases c with
    | leaf =>
      obtain ⟨s1, q, s2, s3⟩ := hsh
      simp only [TreeList.removeNode, abs, hc] at hs
      rcases s3 with ⟨s3, rfl, s5⟩ | ⟨s3, s4⟩
      · rw [if_pos s3] at hs
        cases hs
        have hrel : getRelationship s.mem b = some false := by
          have := getRelationship_ok (m := gh s.mem) (a := b) (h.one.hole []) s5 (by rw [gh_parent]; exact s2)
          rwa [gh_getRelationship] at this
        simp only [removeCell, if_pos s1, s2, Option.bind_some, hrel, Option.map_eq_some_iff] at k1
        obtain ⟨m2, k1, k3⟩ := k1
        obtain ⟨n', e⟩ : ∃ n', s.free = n' + 1 := ⟨s.free - 1, by omega⟩
        rw [e] at k1
        simp only [fixRemoveSize, if_true, Option.some.injEq] at k1
        cases k3
        subst k1
        refine ⟨{ s with mem := link s.mem s.root false none
                         dir := setDir (setDir s.dir s.root false none) s.root true none },
          by simp only [PList.removeNode, if_pos s1, s2, Option.bind_some, ne_eq, not_true, if_false]; rfl,
          rfl, rfl, t', j1, hnext, ?_⟩
        exact (h0.setHead none).setTail none
      · have hq : q ≠ s.root := by rintro rfl; exact h.one.notMem s4
        rw [if_neg (by rw [s3]; simp)] at hs
        cases hs
        simp only [removeCell, if_pos s1, s2, Option.bind_some] at k1
        obtain ⟨rel, k6, k3⟩ := Option.bind_eq_some_iff.1 k1
        obtain ⟨m2, k7, k4⟩ := Option.map_eq_some_iff.1 k3
        obtain rfl := (Prod.mk.inj k4).1
        refine ⟨{ s with mem := m2, dir := unlink s.root s.dir (s.dir b).1 (s.dir b).2 },
          by simp only [PList.removeNode, if_pos s1, s2, Option.bind_some, ne_eq, hq, not_false_eq_true, if_true, k6, k7,
          Option.map_some]; rfl, rfl, ?_, t', ?_, hnext, ?_⟩
        · simp only [TL.unlink, TreeList.setL_free, TreeList.setR_free]
        · rw [j1]; simp only [TL.unlink, TreeList.setL_tree, TreeList.setR_tree]
        · exact h0.unlink (hin hpv) (hin hnx)
    | prev e' =>
      obtain ⟨s1, s2⟩ := hsh
      simp only [TreeList.removeNode, abs, hc, Option.map_eq_some_iff] at hs
      obtain ⟨p, p1, p2⟩ := hs
      cases p2
      simp only [removeCell, if_neg s1, if_pos s2] at k1
      have hd : decide (¬getSize s.mem (s.mem b).lo > getSize s.mem (s.mem b).hi) = false := by simpa using s2
      have hp1 : (s.dir b).1 = some p := p1
      have hfar : ∀ a, (s.dir p).1 = some a → a ∈ addrs t := fun a e => (h.links (b := a) (hpv p hp1)).1 e
      refine ⟨{ s with mem := m1, dir := setDir (join s.root s.dir true (s.dir p).1 (some b)) b false (s.dir p).1 }, by
        simp only [PList.removeNode, if_neg s1, hd, k1, Option.bind_some, side, Bool.false_eq_true, if_false, hp1,
          Option.map_some]; rfl, rfl, ?_, t', ?_, hnext, ?_⟩
      · simp only [TreeList.setR_free]
      · rw [j1]; simp only [TreeList.setR_tree]
      · have h1 : Agree s.root (s.free :: addrs t) s.dir
            { abs s t with tree := u, heap := (view s.mem s.dir).setVal b (e'.1, e'.2.2) } s.dir :=
          (agree_abs s t _).tree rfl rfl (fun _ => prev_setVal ..) (fun _ => next_setVal ..)
        exact (h1.setR (hin hfar) (some b)).setPrev hbS hbr _
    | next e' =>
      obtain ⟨s1, s2⟩ := hsh
      simp only [TreeList.removeNode, abs, hc, Option.map_eq_some_iff] at hs
      obtain ⟨p, p1, p2⟩ := hs
      cases p2
      simp only [removeCell, if_neg s1, if_neg s2] at k1
      have hd : decide (¬getSize s.mem (s.mem b).lo > getSize s.mem (s.mem b).hi) = true := by simpa using s2
      have hp1 : (s.dir b).2 = some p := p1
      have hfar : ∀ a, (s.dir p).2 = some a → a ∈ addrs t := fun a e => (h.links (b := a) (hnx p hp1)).2 e
      refine ⟨{ s with mem := m1, dir := setDir (join s.root s.dir false (s.dir p).2 (some b)) b true (s.dir p).2 }, by
        simp only [PList.removeNode, if_neg s1, hd, k1, Option.bind_some, side, if_true, hp1,
          Option.map_some]; rfl, rfl, ?_, t', ?_, hnext, ?_⟩
      · simp only [TreeList.setL_free]
      · rw [j1]; simp only [TreeList.setL_tree]
      · have h1 : Agree s.root (s.free :: addrs t) s.dir
            { abs s t with tree := u, heap := (view s.mem s.dir).setVal b (e'.1, e'.2.2) } s.dir :=
          (agree_abs s t _).tree rfl rfl (fun _ => prev_setVal ..) (fun _ => next_setVal ..)
        exact (h1.setL (hin hfar) (some b)).setNext hbS hbr _

end Verif.ListHeap
