import Verif.Tree.ListHeapPanic
import Verif.Tree.TreeListSet

/-! The pointer program of `Verif.Tree.ListHeap`: the set operations. -/

namespace Verif.ListHeap
open Verif.IndexHeap Verif.DLL Verif.Tree Verif.Size
open Verif.AvlHeap (P ptr addrs erase ptr_nil ptr_node ptr_mem ptr_ne)
open Verif.TreeList (TL limit Op Res SetOp Stream Seg merge pull emit countAll strip)
variable {K V : Type} {cmp : K → K → Int} {root : Nat}

/-- The addresses in the order of the keys. -/
def row (t : P K (Nat × V)) : List Nat := TreeList.addrs (erase t).toList

theorem row_perm : ∀ {t : P K (Nat × V)}, Tagged t → (row t).Perm (addrs t)
  | nil, _ => .refl _
  | node a k v l r, ⟨h, h1, h2⟩ => by
    simp only [row, erase, toList_node, TreeList.addrs_append, TreeList.addrs_cons, addrs, h]
    exact List.perm_middle.trans (((row_perm h1).append (row_perm h2)).cons _)

/-- The links without the rest. -/
def lk (d : Dir) : Store Unit := fun a => ⟨(d a).1, (d a).2, ()⟩

theorem seg_lk {α : Type} {h : Store α} {d : Dir} {as : List Nat} {p q : Option Nat} (hs : Seg (lk d) p as q)
    (hc : ∀ a ∈ as, (h a).prev = (d a).1 ∧ (h a).next = (d a).2) : Seg h p as q := by
  induction as generalizing p with
  | nil => trivial
  | cons a as ih =>
    obtain ⟨h1, h2, h3⟩ := hs
    obtain ⟨c1, c2⟩ := hc a (by simp)
    exact ⟨c1.trans h1, c2.trans h2, ih h3 fun b hb => hc b (by simp [hb])⟩

/-- The nodes built so far are linked. -/
structure Row (root : Nat) (d : Dir) (D : List Nat) (prev : Option Nat) : Prop where
  seg : Seg (lk d) none D none
  prev : prev = D.getLast?
  head : (d root).1 = D.head?

theorem Row.congr {d d' : Dir} {D : List Nat} {prev : Option Nat} (h : Row root d D prev)
    (h1 : ∀ a ∈ D, d' a = d a) (h2 : d' root = d root) : Row root d' D prev :=
  ⟨TreeList.seg_congr h.seg fun a ha => by simp [lk, h1 a ha], h.prev, by rw [h2]; exact h.head⟩

theorem Row.snoc {d : Dir} {D : List Nat} {prev : Option Nat} (h : Row root d D prev) {a : Nat} (ha : a ∉ D)
    (hr : root ∉ D) (har : a ≠ root) (nd : D.Nodup) (h0 : d a = (none, none)) :
    Row root (match (generalizing := false) prev with
        | some z => setDir (setDir d z true (some a)) a false (some z)
        | none => setDir d root false (some a)) (D ++ [a]) (some a) := by
  obtain ⟨h1, h3, h4⟩ := h
  rcases List.eq_nil_or_concat D with rfl | ⟨L, z, hLd⟩
  · subst h3
    refine ⟨?_, rfl, by simp [setDir_self]⟩
    simp [Seg, lk, setDir_ne _ _ _ har, h0]
  · rw [List.concat_eq_append] at hLd
    subst hLd
    simp only [List.getLast?_concat] at h3
    subst h3
    have hza : z ≠ a := by rintro rfl; simp at ha
    have hzr : z ≠ root := by rintro rfl; simp at hr
    refine ⟨?_, by simp, ?_⟩
    · rw [TreeList.seg_append]
      simp only [List.head?_cons, Option.some_or, List.getLast?_concat]
      refine ⟨?_, ?_, ?_, trivial⟩
      · refine TreeList.seg_right h1 nd fun c hc => ?_
        have hca : c ≠ a := by rintro rfl; exact ha hc
        rw [List.getLast?_concat]
        simp only [lk, setDir_ne _ _ _ hca]
        by_cases hcz : c = z
        · subst hcz; simp [setDir_self]
        · simp [setDir_ne _ _ _ hcz, Ne.symm hcz]
      · simp [lk, setDir_self]
      · simp [lk, setDir_self, setDir_ne _ _ _ hza.symm, h0]
    · simp only [setDir_ne _ _ _ har.symm, setDir_ne _ _ _ hzr.symm, h4]
      simp

/-- Reading stays within `S`. -/
theorem pull_congr {op : SetOp} {h h0 : Store (K × V)} {S : List Nat} (hc : ∀ a ∈ S, h a = h0 a)
    (hn : ∀ a ∈ S, ∀ b, (h0 a).next = some b → b ∈ S) : ∀ (n : Nat) (p q : Option Nat), InS S p → InS S q →
    pull cmp op h h n p q = pull cmp op h0 h0 n p q ∧
      ∀ z, pull cmp op h0 h0 n p q = some z → InS S z.2.1 ∧ InS S z.2.2 := by
  have nx : ∀ a ∈ S, InS S (h0 a).next := fun a ha b hb => hn a ha b hb
  have hemit : ∀ a b, a ∈ S → b ∈ S → ∀ c, emit op h h a b c = emit op h0 h0 a b c ∧
      InS S (emit op h0 h0 a b c).2.1 ∧ InS S (emit op h0 h0 a b c).2.2 := fun a b ha hb c => by
    have e1 : InS S (some a) := by rintro _ ⟨⟩; exact ha
    have e2 : InS S (some b) := by rintro _ ⟨⟩; exact hb
    simp only [emit, hc a ha, hc b hb]
    refine ⟨trivial, ?_⟩
    cases op <;> simp only <;> split <;> (try split) <;> exact ⟨by first | exact nx a ha | exact e1, by first | exact nx b hb | exact e2⟩
  have none' : InS S none := by intro a h; cases h
  intro n
  induction n with
  | zero =>
    intro p q hp hq
    cases p with
    | none =>
      cases q with
      | none => exact ⟨rfl, by rintro z ⟨⟩⟩
      | some b =>
        have hb := hq b rfl
        cases op <;> simp only [pull, hc b hb] <;> refine ⟨trivial, ?_⟩ <;> rintro z ⟨⟩
        exact ⟨none', nx b hb⟩
    | some a =>
      have ha := hp a rfl
      cases q with
      | none =>
        cases op <;> simp only [pull, hc a ha] <;> refine ⟨trivial, ?_⟩ <;> rintro z ⟨⟩ <;> exact ⟨nx a ha, none'⟩
      | some b => exact ⟨rfl, by rintro z ⟨⟩⟩
  | succ n ih =>
    intro p q hp hq
    cases p with
    | none =>
      cases q with
      | none => exact ⟨rfl, by rintro z ⟨⟩⟩
      | some b =>
        have hb := hq b rfl
        cases op <;> simp only [pull, hc b hb] <;> refine ⟨trivial, ?_⟩ <;> rintro z ⟨⟩
        exact ⟨none', nx b hb⟩
    | some a =>
      have ha := hp a rfl
      cases q with
      | none =>
        cases op <;> simp only [pull, hc a ha] <;> refine ⟨trivial, ?_⟩ <;> rintro z ⟨⟩ <;> exact ⟨nx a ha, none'⟩
      | some b =>
        have hb := hq b rfl
        obtain ⟨i1, i2, i3⟩ := hemit a b ha hb (cmp (h0 a).val.1 (h0 b).val.1)
        simp only [pull, hc a ha, hc b hb, i1]
        cases e : (emit op h0 h0 a b (cmp (h0 a).val.1 (h0 b).val.1)).1 with
        | none => exact ih _ _ i2 i3
        | some x => exact ⟨rfl, by rintro z ⟨⟩; exact ⟨i2, i3⟩⟩

/-- What `build` has made: the tree `t` below `parent`. -/
structure Built (cmp : K → K → Int) (op : SetOp) (N root : Nat) (h0 : Store (K × V)) (S D : List Nat) (size parent : Nat)
    (xs ys : List (K × V)) (b : Build K V) (t : P K (Nat × V)) (b' : Build K V) (xs' ys' : List (K × V)) : Prop where
  sp : Stream h0 b'.p xs'
  sq : Stream h0 b'.q ys'
  ip : InS S b'.p
  iq : InS S b'.q
  le : xs'.length + ys'.length ≤ N
  rest : merge cmp op xs' ys' = (merge cmp op xs ys).drop size
  out : (erase t).toList.map strip = (merge cmp op xs ys).take size
  exact : Exact (erase t)
  rep : Rep (gh b'.mem) parent t
  row : Row root b'.dir (D ++ row t) b'.prev
  free : b.free ≤ b'.free
  new : ∀ a ∈ addrs t, b.free ≤ a ∧ a < b'.free
  nodup : (addrs t).Nodup
  mem : ∀ a, a < b.free → b'.mem a = b.mem a
  dir : ∀ a, a < b.free → a ≠ root → a ∉ D → b'.dir a = b.dir a

theorem build_ok {op : SetOp} {junk : K × V} {h0 : Store (K × V)} {S : List Nat} {N : Nat}
    (hS : ∀ a ∈ S, a < root) (hn : ∀ a ∈ S, ∀ b, (h0 a).next = some b → b ∈ S) :
    ∀ (n size parent : Nat) (b : Build K V) {xs ys : List (K × V)} {D : List Nat}, size ≤ n →
    Stream h0 b.p xs → Stream h0 b.q ys → InS S b.p → InS S b.q → (∀ a ∈ S, view b.mem b.dir a = h0 a) →
    xs.length + ys.length ≤ N → size ≤ (merge cmp op xs ys).length → Row root b.dir D b.prev →
    root < b.free → (∀ a ∈ D, root < a ∧ a < b.free) → D.Nodup →
    ∃ t b' xs' ys', build cmp op N junk root n size parent b = some (ptr t, b') ∧
      Built cmp op N root h0 S D size parent xs ys b t b' xs' ys' := by
  have base : ∀ (parent : Nat) (b : Build K V) {xs ys : List (K × V)} {D : List Nat},
      Stream h0 b.p xs → Stream h0 b.q ys → InS S b.p → InS S b.q → xs.length + ys.length ≤ N →
      Row root b.dir D b.prev → Built cmp op N root h0 S D 0 parent xs ys b nil b xs ys :=
    fun parent b xs ys D h1 h2 h3 h4 h5 h6 => ⟨h1, h2, h3, h4, h5, by simp, by simp [erase], trivial, trivial,
      by simpa [row, erase] using h6, Nat.le_refl _, by simp [addrs], by simp [addrs], fun _ _ => rfl, fun _ _ _ _ => rfl⟩
  intro n
  induction n with
  | zero =>
    intro size parent b xs ys D hm hp hq ip iq hv hN hlen hD hr hfr nd
    have : size = 0 := by omega
    subst this
    exact ⟨nil, b, xs, ys, rfl, base _ _ hp hq ip iq hN hD⟩
  | succ n ih =>
    intro size parent b xs ys D hm hp hq ip iq hv hN hlen hD hr hfr nd
    cases size with
    | zero => exact ⟨nil, b, xs, ys, by simp [build], base _ _ hp hq ip iq hN hD⟩
    | succ m =>
      have haD : b.free ∉ D := fun h => by have := hfr _ h; omega
      have haS : ∀ a ∈ S, a ≠ b.free := fun a ha => by have := hS a ha; omega
      have hSD : ∀ a ∈ S, a ∉ D := fun a ha h => by have := hS a ha; have := hfr a h; omega
      -- the left half
      obtain ⟨l, b1, xs1, ys1, l0, L⟩ := ih ((m + 1) / 2) b.free
        { b with mem := blank junk b.mem b.free (some parent), free := b.free + 1
                 dir := setDir (setDir b.dir b.free false none) b.free true none } (D := D)
        (by omega) hp hq ip iq (fun a ha => by
          rw [← hv a ha]
          simp only [view, blank, upd_ne _ (haS a ha), setDir_ne _ _ _ (haS a ha)]) hN (by omega)
        (hD.congr (fun a ha => by
          have : a ≠ b.free := by rintro rfl; exact haD ha
          simp only [setDir_ne _ _ _ this]) (by simp only [setDir_ne _ _ _ (show root ≠ b.free by omega)]))
        (by show root < b.free + 1; omega) (fun a ha => by have := hfr a ha; simp only; omega) nd
      have lnew : ∀ a ∈ addrs l, b.free + 1 ≤ a ∧ a < b1.free := L.new
      have lfree : b.free + 1 ≤ b1.free := L.free
      have lmem : ∀ a, a < b.free + 1 → b1.mem a = blank junk b.mem b.free (some parent) a := L.mem
      have ldir : ∀ a, a < b.free + 1 → a ≠ root → a ∉ D →
        b1.dir a = setDir (setDir b.dir b.free false none) b.free true none a := L.dir
      have hal : b.free ∉ addrs l := fun h => by have := lnew _ h; omega
      have hrl := row_perm (tagged L.rep)
      -- the new node
      obtain ⟨z, zs, hz⟩ : ∃ z zs, merge cmp op xs1 ys1 = z :: zs := by
        cases hzz : merge cmp op xs1 ys1 with
        | nil =>
          rw [L.rest] at hzz
          have := congrArg List.length hzz
          simp at this
          omega
        | cons z zs => exact ⟨z, zs, rfl⟩
      obtain ⟨p2, q2, xs2, ys2, m1, m2, m3, m4, m5⟩ := TreeList.pull_ok N L.sp L.sq L.le hz
      have hv1 : ∀ a ∈ S, view (link b1.mem b.free false (ptr l)) b1.dir a = h0 a := fun a ha => by
        have h1 : a < b.free + 1 := by have := hS a ha; omega
        rw [← hv a ha]
        simp only [view, link, upd_ne _ (haS a ha), lmem a h1, ldir a h1 (by have := hS a ha; omega) (hSD a ha),
          blank, setDir_ne _ _ _ (haS a ha)]
      obtain ⟨c1, c2⟩ := pull_congr (cmp := cmp) (op := op) hv1 hn N b1.p b1.q L.ip L.iq
      rw [m1] at c1
      obtain ⟨c3, c4⟩ := c2 _ m1
      have hnd1 : (D ++ row l).Nodup := by
        rw [List.nodup_append]
        refine ⟨nd, hrl.nodup_iff.2 L.nodup, ?_⟩
        intro x hx y hy hxy
        have := hfr x hx
        have := lnew y (hrl.mem_iff.1 hy)
        omega
      have hna : b.free ∉ D ++ row l := by
        rw [List.mem_append, not_or]
        exact ⟨haD, fun h => hal (hrl.mem_iff.1 h)⟩
      have hrD : root ∉ D ++ row l := by
        rw [List.mem_append, not_or]
        exact ⟨fun h => by have := hfr _ h; omega, fun h => by have := lnew _ (hrl.mem_iff.1 h); omega⟩
      have hD2 := L.row.snoc hna hrD (by omega) hnd1 (by
        rw [ldir b.free (by omega) (by omega) haD]
        simp [setDir_self])
      -- the right half
      obtain ⟨r, b3, xs3, ys3, r0, R⟩ := ih (m + 1 - (m + 1) / 2 - 1) b.free
        { b1 with
          mem := upd (link b1.mem b.free false (ptr l)) b.free fun y => { y with key := z.1, val := z.2 }
          dir := match b1.prev with
            | some w => setDir (setDir b1.dir w true (some b.free)) b.free false (some w)
            | none => setDir b1.dir root false (some b.free)
          prev := some b.free, p := p2, q := q2 }
        (D := D ++ row l ++ [b.free]) (by omega) m2 m3 c3 c4 (fun a ha => by
          rw [← hv1 a ha]
          have hroot : a ≠ root := by have := hS a ha; omega
          simp only [view, upd_ne _ (haS a ha)]
          cases hpv : b1.prev with
          | none => simp only [setDir_ne _ _ _ hroot]
          | some w =>
            have hw : w ∈ D ++ row l := List.mem_of_getLast? (by rw [← L.row.prev, hpv])
            have haw : a ≠ w := by
              rintro rfl
              rcases List.mem_append.1 hw with h | h
              · exact hSD a ha h
              · have := lnew _ (hrl.mem_iff.1 h); have := hS a ha; omega
            simp only [setDir_ne _ _ _ haw, setDir_ne _ _ _ (haS a ha)]) (by have := L.le; omega)
        (by
          have := congrArg List.length L.rest
          rw [hz] at this
          simp at this
          rw [m5]; omega) hD2 (by show root < b1.free; omega)
        (by
          intro a ha
          show root < a ∧ a < b1.free
          rw [List.append_assoc, List.mem_append, List.mem_append] at ha
          rcases ha with ha | ha | ha
          · have := hfr a ha; omega
          · have := lnew a (hrl.mem_iff.1 ha); omega
          · simp only [List.mem_singleton] at ha; omega)
        (by
          rw [List.nodup_append]
          refine ⟨hnd1, by simp, ?_⟩
          rintro x hx y hy rfl
          simp only [List.mem_singleton] at hy
          exact hna (hy ▸ hx))
      have rnew : ∀ a ∈ addrs r, b1.free ≤ a ∧ a < b3.free := R.new
      have rfree : b1.free ≤ b3.free := R.free
      have rmem : ∀ a, a < b1.free → b3.mem a =
        upd (link b1.mem b.free false (ptr l)) b.free (fun y => { y with key := z.1, val := z.2 }) a := R.mem
      have hrr := row_perm (tagged R.rep)
      have har : b.free ∉ addrs r := fun h => by have := rnew _ h; omega
      -- the cell of the new node
      have cell : b3.mem b.free = ⟨z.1, z.2, 0, 0, some parent, ptr l, none⟩ := by
        rw [rmem b.free (by omega), upd_self, link, upd_self, lmem b.free (by omega), blank, upd_self]
        rfl
      have Rl : Rep (gh b3.mem) b.free l := L.rep.congr fun a ha => by
        have h1 := lnew a ha
        have h2 : a ≠ b.free := by omega
        show tag a _ = tag a _
        rw [rmem a (by omega), upd_ne _ h2, link, upd_ne _ h2]
      have sl : getSize (link b3.mem b.free true (ptr r)) (ptr l) = sz (erase l) := by
        rw [← gh_getSize]
        refine getSize_ptr (p := b.free) (Rl.congr fun a ha => ?_)
        have h2 : a ≠ b.free := fun e => hal (e ▸ ha)
        show tag a _ = tag a _
        rw [link, upd_ne _ h2]
      have sr : getSize (link b3.mem b.free true (ptr r)) (ptr r) = sz (erase r) := by
        rw [← gh_getSize]
        refine getSize_ptr (p := b.free) (R.rep.congr fun a ha => ?_)
        have h2 : a ≠ b.free := fun e => har (e ▸ ha)
        show tag a _ = tag a _
        rw [link, upd_ne _ h2]
      have fin : ∃ g, updateBalance (sumSize (link b3.mem b.free true (ptr r)) b.free) b.free b.free =
          ⟨z.1, z.2, sz (erase l) + sz (erase r) + 1, g, some parent, ptr l, ptr r⟩ := by
        have e1 : link b3.mem b.free true (ptr r) b.free = ⟨z.1, z.2, 0, 0, some parent, ptr l, ptr r⟩ := by
          rw [link, upd_self, cell]; rfl
        have e2 : sumSize (link b3.mem b.free true (ptr r)) b.free b.free =
            ⟨z.1, z.2, sz (erase l) + sz (erase r) + 1, 0, some parent, ptr l, ptr r⟩ := by
          rw [sumSize, setSize, upd_self, e1]
          simp only [sl, sr]
        refine ⟨getSize (sumSize (link b3.mem b.free true (ptr r)) b.free) (ptr l) -
          getSize (sumSize (link b3.mem b.free true (ptr r)) b.free) (ptr r), ?_⟩
        rw [updateBalance, upd_self, e2]
      have other : ∀ a, a ≠ b.free →
          updateBalance (sumSize (link b3.mem b.free true (ptr r)) b.free) b.free a = b3.mem a := fun a ha => by
        rw [updateBalance, upd_ne _ ha, sumSize, setSize, upd_ne _ ha, link, upd_ne _ ha]
      have hlen2 : (z :: zs).length = (merge cmp op xs ys).length - (m + 1) / 2 := by
        rw [← hz, L.rest, List.length_drop]
      have hdrop : zs = (merge cmp op xs ys).drop ((m + 1) / 2 + 1) := by
        have := congrArg (List.drop 1) (hz.symm.trans L.rest)
        simpa [List.drop_drop] using this
      have htake : (merge cmp op xs ys).take (m + 1) = (merge cmp op xs ys).take ((m + 1) / 2) ++
          z :: zs.take (m + 1 - (m + 1) / 2 - 1) := by
        have e1 : z :: zs.take (m + 1 - (m + 1) / 2 - 1) =
            ((merge cmp op xs ys).drop ((m + 1) / 2)).take (m + 1 - (m + 1) / 2) := by
          rw [← L.rest, hz, show m + 1 - (m + 1) / 2 = (m + 1 - (m + 1) / 2 - 1) + 1 by omega,
            List.take_succ_cons]
          simp
        rw [e1, ← List.drop_take]
        have := List.take_append_drop ((m + 1) / 2) ((merge cmp op xs ys).take (m + 1))
        rw [List.take_take, Nat.min_eq_left (by omega)] at this
        exact this.symm
      refine ⟨node (b.free, sz (erase l) + sz (erase r) + 1) z.1 (b.free, z.2) l r,
        { b3 with mem := updateBalance (sumSize (link b3.mem b.free true (ptr r)) b.free) b.free }, xs3, ys3, ?_,
        R.sp, R.sq, R.ip, R.iq, R.le, ?_, ?_, ?_, ⟨?_, ?_, ?_⟩, ?_, ?_, ?_, ?_, ?_, ?_⟩
      · simp only [build, l0, Option.bind_some, c1]
        exact congrArg (Option.map _) r0
      · rw [R.rest, m5, hdrop, List.drop_drop]
        congr 1
        omega
      · rw [erase, toList_node, List.map_append, List.map_cons, L.out, R.out, m5, htake]
        rfl
      · exact L.exact.mk z.1 (b.free, z.2) R.exact
      · obtain ⟨g, hg⟩ := fin
        exact ⟨g, (congrArg (tag b.free) hg).trans rfl⟩
      · exact Rl.congr fun a ha => 
          congrArg (tag a) (other a fun e => hal (e ▸ ha))
      · exact R.rep.congr fun a ha => 
          congrArg (tag a) (other a fun e => har (e ▸ ha))
      · have := R.row
        simp only [List.append_assoc, List.singleton_append] at this
        simpa only [row, erase, toList_node, TreeList.addrs_append, TreeList.addrs_cons] using this
      · show b.free ≤ b3.free; omega
      · intro a ha
        show b.free ≤ a ∧ a < b3.free
        simp only [addrs, List.mem_cons, List.mem_append] at ha
        rcases ha with rfl | ha | ha
        · omega
        · have := lnew a ha; omega
        · have := rnew a ha; omega
      · simp only [addrs, List.nodup_cons, List.mem_append, not_or, List.nodup_append]
        refine ⟨⟨hal, har⟩, L.nodup, R.nodup, ?_⟩
        rintro x hx y hy rfl
        have := lnew x hx
        have := rnew x hy
        omega
      · intro a ha
        have h2 : a ≠ b.free := by omega
        show updateBalance _ _ a = _
        rw [other a h2, rmem a (by omega), upd_ne _ h2, link, upd_ne _ h2, lmem a (by omega), blank, upd_ne _ h2]
      · intro a ha har' haD'
        have h2 : a ≠ b.free := by omega
        have hal' : a ∉ row l := fun h => by have := lnew a (hrl.mem_iff.1 h); omega
        have e1 := R.dir a (by show a < b1.free; omega) har' (by
          simp only [List.mem_append, List.mem_singleton, not_or]
          exact ⟨⟨haD', hal'⟩, h2⟩)
        show b3.dir a = _
        rw [e1]
        have e2 : b1.dir a = b.dir a := by
          rw [ldir a (by omega) har' haD']
          simp only [setDir_ne _ _ _ h2]
        cases hpv : b1.prev with
        | none => simp only [setDir_ne _ _ _ har', e2]
        | some w =>
          have hw : w ∈ D ++ row l := List.mem_of_getLast? (by rw [← L.row.prev, hpv])
          have haw : a ≠ w := by
            rintro rfl
            rcases List.mem_append.1 hw with h | h
            · exact haD' h
            · exact hal' h
          simp only [setDir_ne _ _ _ haw, setDir_ne _ _ _ h2, e2]

end Verif.ListHeap
