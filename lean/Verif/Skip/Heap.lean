import Verif.Skip.Model
import Verif.Common.Tac

/-! Chains of forward pointers and the loops over them. -/

namespace Verif.Skip

variable {K V : Type}

/-- The level-`i` pointers lead along `as` and then to `q`. -/
def Run (h : Store K V) (i : Nat) : List Nat → Option Nat → Prop
  | [], _ => True
  | a :: as, q => (h a).fwd[i]? = some (as.head?.or q) ∧ Run h i as q

theorem run_append {h : Store K V} {i : Nat} : ∀ {L R : List Nat} {q : Option Nat},
    Run h i (L ++ R) q ↔ Run h i L (R.head?.or q) ∧ Run h i R q
  | [], R, q => by simp [Run]
  | a :: L, R, q => by
    simp only [List.cons_append, Run, run_append (L := L), and_assoc]
    have : (L ++ R).head?.or q = L.head?.or (R.head?.or q) := by cases L <;> simp
    rw [this]

theorem run_congr {h h' : Store K V} {i : Nat} : ∀ {L : List Nat} {q : Option Nat},
    (∀ a ∈ L, (h' a).fwd[i]? = (h a).fwd[i]?) → Run h i L q → Run h' i L q
  | [], _, _, _ => trivial
  | a :: L, q, hc, hr => ⟨by rw [hc a (by simp)]; exact hr.1, run_congr (fun b hb => hc b (by simp [hb])) hr.2⟩

/-- Change where the last one leads. -/
theorem run_last {h h' : Store K V} {i : Nat} {L : List Nat} {u : Nat} {q q' : Option Nat}
    (hc : ∀ a ∈ L, (h' a).fwd[i]? = (h a).fwd[i]?) (hu : (h' u).fwd[i]? = some q')
    (hr : Run h i (L ++ [u]) q) : Run h' i (L ++ [u]) q' := by
  rw [run_append] at hr ⊢
  exact ⟨run_congr hc hr.1, by simpa [Run] using hu⟩

theorem run_mem {h : Store K V} {i : Nat} : ∀ {L : List Nat} {q : Option Nat} {a : Nat},
    Run h i L q → a ∈ L → ((h a).fwd[i]?).isSome
  | b :: L, q, a, hr, ha => by
    rcases List.mem_cons.1 ha with rfl | ha
    · rw [hr.1]; rfl
    · exact run_mem hr.2 ha

theorem scan_ok {h : Store K V} {go : Nat → Bool} {i : Nat} {R : List Nat}
    (hR : ∀ b, R.head? = some b → go b = false) (M : List Nat) : ∀ (cur n : Nat),
    Run h i (cur :: M ++ R) none → (∀ b ∈ M, go b = true) → M.length < n →
    scan h go i n cur = some ((cur :: M).getLast (List.cons_ne_nil _ _)) := by
  induction M with
  | nil =>
    intro cur n hr _ hn
    obtain ⟨n, rfl⟩ : ∃ m, n = m + 1 := ⟨n - 1, by simp only [List.length_nil] at hn; omega⟩
    have h1 : (h cur).fwd[i]? = some (R.head?.or none) := hr.1
    rw [scan, h1]
    cases hh : R.head? with
    | none => rfl
    | some b => simp [hR b hh]
  | cons b M ih =>
    intro cur n hr hg hn
    simp only [List.length_cons] at hn
    obtain ⟨n, rfl⟩ : ∃ m, n = m + 1 := ⟨n - 1, by omega⟩
    have h1 : (h cur).fwd[i]? = some (some b) := hr.1
    rw [scan, h1]
    simp only [hg b (by simp), if_true]
    rw [ih b n hr.2 (fun c hc => hg c (by simp [hc])) (by omega)]
    simp

/-- The last node of level `i` among the header and `L`. -/
def pre (hd : Nat) (ht : Nat → Nat) (L : List Nat) (i : Nat) : Nat :=
  (hd :: L.filter fun a => decide (i < ht a)).getLast (by simp)

theorem pre_split (hd : Nat) (ht : Nat → Nat) (L : List Nat) (i : Nat) :
    ∃ P, hd :: L.filter (fun a => decide (i < ht a)) = P ++ [pre hd ht L i] :=
  ⟨_, (List.dropLast_append_getLast (by simp)).symm⟩

theorem pre_mem (hd : Nat) (ht : Nat → Nat) (L : List Nat) (i : Nat) :
    pre hd ht L i ∈ hd :: L.filter fun a => decide (i < ht a) := List.getLast_mem _

theorem pre_mem' (hd : Nat) (ht : Nat → Nat) (L : List Nat) (i : Nat) :
    pre hd ht L i = hd ∨ pre hd ht L i ∈ L ∧ i < ht (pre hd ht L i) := by
  have := pre_mem hd ht L i
  rcases List.mem_cons.1 this with h | h
  · exact .inl h
  · right; simpa using h

theorem pre_high {hd : Nat} {ht : Nat → Nat} {L : List Nat} {i : Nat} (h : ∀ a ∈ L, ht a ≤ i) :
    pre hd ht L i = hd := by
  have : L.filter (fun a => decide (i < ht a)) = [] :=
    List.filter_eq_nil_iff.2 fun a ha => by have := h a ha; simp; omega
  simp [pre, this]

/-- The chain of every level. -/
def Levels (h : Store K V) (hd : Nat) (as : List Nat) (ht : Nat → Nat) : Prop :=
  ∀ i, i < MaxLevel → Run h i (hd :: as.filter fun a => decide (i < ht a)) none

section
variable {h : Store K V} {hd : Nat} {L R : List Nat} {ht : Nat → Nat} {go : Nat → Bool} {fuel : Nat}

theorem scan_level (hl : Levels h hd (L ++ R) ht) (hL : ∀ a ∈ L, go a = true)
    (hR : ∀ a ∈ R, go a = false) (hf : L.length < fuel) {i cur : Nat} (hi : i < MaxLevel)
    (hc : cur ∈ hd :: L.filter fun a => decide (i < ht a)) :
    scan h go i fuel cur = some (pre hd ht L i) := by
  obtain ⟨X, M, hX⟩ := List.append_of_mem hc
  have hr := hl i hi
  rw [List.filter_append, ← List.cons_append, hX, List.append_assoc, run_append] at hr
  have hM : ∀ b ∈ M, b ∈ L := by
    intro b hb
    rcases X with _ | ⟨x, X⟩
    · simp only [List.nil_append, List.cons.injEq] at hX
      have : b ∈ L.filter fun a => decide (i < ht a) := by rw [hX.2]; exact hb
      exact (List.mem_filter.1 this).1
    · simp only [List.cons_append, List.cons.injEq] at hX
      have : b ∈ L.filter fun a => decide (i < ht a) := by rw [hX.2]; simp [hb]
      exact (List.mem_filter.1 this).1
  have hlen : M.length ≤ L.length := by
    have h1 := congrArg List.length hX
    have h2 := List.length_filter_le (fun a => decide (i < ht a)) L
    simp only [List.length_cons, List.length_append] at h1
    omega
  rw [scan_ok (R := R.filter fun a => decide (i < ht a)) ?_ M cur fuel hr.2 (fun b hb => hL b (hM b hb))
    (by omega)]
  · congr 1
    unfold pre
    simp only [hX]
    rw [List.getLast_append_of_ne_nil (by simp) (by simp)]
  · intro b hb
    exact hR b (List.mem_filter.1 (List.mem_of_mem_head? hb)).1

theorem descend_ok (hl : Levels h hd (L ++ R) ht) (hL : ∀ a ∈ L, go a = true)
    (hR : ∀ a ∈ R, go a = false) (hf : L.length < fuel) : ∀ (n cur : Nat), n ≤ MaxLevel →
    (cur = hd ∨ cur ∈ L ∧ n ≤ ht cur) →
    descend h go fuel n cur = some ((List.range n).map (pre hd ht L), if n = 0 then cur else pre hd ht L 0)
  | 0, cur, _, _ => by simp [descend]
  | n + 1, cur, hn, hc => by
    have h1 := scan_level hl hL hR hf (i := n) (cur := cur) (by omega) (by
      rcases hc with rfl | hc
      · simp
      · simp only [List.mem_cons, List.mem_filter, decide_eq_true_eq]; right; exact ⟨hc.1, by omega⟩)
    rw [descend, h1]
    simp only [Option.bind_some]
    rw [descend_ok hl hL hR hf n (pre hd ht L n) (by omega) (by
      rcases pre_mem' hd ht L n with h2 | h2
      · exact .inl h2
      · exact .inr ⟨h2.1, by omega⟩)]
    simp only [Option.map_some, List.range_succ, List.map_append, List.map_cons, List.map_nil]
    congr 2
    rcases n with _ | n <;> simp

theorem descendH_ok (hl : Levels h hd (L ++ R) ht) (hL : ∀ a ∈ L, go a = true)
    (hR : ∀ a ∈ R, go a = false) (hf : L.length < fuel) : ∀ (n : Nat), n ≤ MaxLevel →
    descendH h go fuel hd n = some ((List.range n).map (pre hd ht L))
  | 0, _ => by simp [descendH]
  | n + 1, hn => by
    rw [descendH, scan_level hl hL hR hf (i := n) (cur := hd) (by omega) (by simp)]
    simp only [Option.bind_some]
    rw [descendH_ok hl hL hR hf n (by omega)]
    simp [List.range_succ]

theorem scanRes_ok (i : Nat) {R : List Nat} (hR : ∀ b, R.head? = some b → go b = false) (M : List Nat) :
    ∀ (cur n : Nat), Run h i (cur :: M ++ R) none → (∀ b ∈ M, go b = true ∧ b ≠ hd) → M.length < n →
    scanRes h go i n cur (if cur = hd then none else some cur) =
      (scan h go i n cur).map fun c => (c, if c = hd then none else some c) := by
  induction M with
  | nil =>
    intro cur n hr _ hn
    obtain ⟨n, rfl⟩ : ∃ m, n = m + 1 := ⟨n - 1, by simp only [List.length_nil] at hn; omega⟩
    have h1 : (h cur).fwd[i]? = some (R.head?.or none) := hr.1
    rw [scan, scanRes, h1]
    cases hh : R.head? with
    | none => rfl
    | some b => simp [hR b hh]
  | cons b M ih =>
    intro cur n hr hg hn
    simp only [List.length_cons] at hn
    obtain ⟨n, rfl⟩ : ∃ m, n = m + 1 := ⟨n - 1, by omega⟩
    have h1 : (h cur).fwd[i]? = some (some b) := hr.1
    rw [scan, scanRes, h1]
    simp only [(hg b (by simp)).1, if_true]
    have := ih b n hr.2 (fun c hc => hg c (by simp [hc])) (by omega)
    rw [if_neg (hg b (by simp)).2] at this
    exact this

theorem scanRes_level (hl : Levels h hd (L ++ R) ht) (hL : ∀ a ∈ L, go a = true ∧ a ≠ hd)
    (hR : ∀ a ∈ R, go a = false) (hf : L.length < fuel) {i cur : Nat} (hi : i < MaxLevel)
    (hc : cur ∈ hd :: L.filter fun a => decide (i < ht a)) :
    scanRes h go i fuel cur (if cur = hd then none else some cur) =
      some (pre hd ht L i, if pre hd ht L i = hd then none else some (pre hd ht L i)) := by
  obtain ⟨X, M, hX⟩ := List.append_of_mem hc
  have hr := hl i hi
  rw [List.filter_append, ← List.cons_append, hX, List.append_assoc, run_append] at hr
  have hM : ∀ b ∈ M, b ∈ L := by
    intro b hb
    rcases X with _ | ⟨x, X⟩
    · simp only [List.nil_append, List.cons.injEq] at hX
      have : b ∈ L.filter fun a => decide (i < ht a) := by rw [hX.2]; exact hb
      exact (List.mem_filter.1 this).1
    · simp only [List.cons_append, List.cons.injEq] at hX
      have : b ∈ L.filter fun a => decide (i < ht a) := by rw [hX.2]; simp [hb]
      exact (List.mem_filter.1 this).1
  have hlen : M.length ≤ L.length := by
    have h1 := congrArg List.length hX
    have h2 := List.length_filter_le (fun a => decide (i < ht a)) L
    simp only [List.length_cons, List.length_append] at h1
    omega
  rw [scanRes_ok (hd := hd) i (R := R.filter fun a => decide (i < ht a)) ?_ M cur fuel hr.2
    (fun b hb => hL b (hM b hb)) (by omega), scan_level hl (fun a ha => (hL a ha).1) hR hf hi hc]
  · rfl
  · intro b hb
    exact hR b (List.mem_filter.1 (List.mem_of_mem_head? hb)).1

theorem descendRes_ok (hl : Levels h hd (L ++ R) ht) (hL : ∀ a ∈ L, go a = true ∧ a ≠ hd)
    (hR : ∀ a ∈ R, go a = false) (hf : L.length < fuel) : ∀ (n cur : Nat), n ≤ MaxLevel →
    (cur = hd ∨ cur ∈ L ∧ n ≤ ht cur) →
    descendRes h go fuel n cur (if cur = hd then none else some cur) =
      some (let c := if n = 0 then cur else pre hd ht L 0; if c = hd then none else some c)
  | 0, cur, _, _ => by simp [descendRes]
  | n + 1, cur, hn, hc => by
    have h1 := scanRes_level hl hL hR hf (i := n) (cur := cur) (by omega) (by
      rcases hc with rfl | hc
      · simp
      · simp only [List.mem_cons, List.mem_filter, decide_eq_true_eq]; right; exact ⟨hc.1, by omega⟩)
    rw [descendRes, h1]
    simp only [Option.bind_some]
    rw [descendRes_ok hl hL hR hf n (pre hd ht L n) (by omega) (by
      rcases pre_mem' hd ht L n with h2 | h2
      · exact .inl h2
      · exact .inr ⟨h2.1, by omega⟩)]
    rcases n with _ | n <;> simp

end

theorem updAt_pre {hd : Nat} {ht : Nat → Nat} {L : List Nat} {n : Nat} (h : ∀ a ∈ L, ht a ≤ n) (i : Nat) :
    updAt hd ((List.range n).map (pre hd ht L)) i = pre hd ht L i := by
  unfold updAt
  by_cases hi : i < n
  · simp [hi]
  · rw [List.getElem?_eq_none (by simp; omega), pre_high (fun a ha => by have := h a ha; omega)]
    rfl

/-! ### Linking and unlinking -/

theorem setFwd_ok {h : Store K V} {a i : Nat} {v : Option Nat} (hs : ((h a).fwd[i]?).isSome) :
    ∃ h', h.setFwd a i v = some h' ∧
      (∀ b j, (h' b).fwd[j]? = if b = a ∧ j = i then some v else (h b).fwd[j]?) ∧
      (∀ b, (h' b).key = (h b).key ∧ (h' b).val = (h b).val) := by
  have hi : i < (h a).fwd.length := by
    by_contra hc
    rw [List.getElem?_eq_none (by omega)] at hs
    cases hs
  refine ⟨_, by rw [Store.setFwd, if_pos hi], ?_, ?_⟩
  · intro b j
    unfold Store.put
    by_cases hb : b = a
    · subst hb
      simp only [if_true, true_and, List.getElem?_set]
      by_cases hj : i = j
      · subst hj; simp [hi]
      · rw [if_neg hj, if_neg (fun hh => hj hh.symm)]
    · simp [hb]
  · intro b
    unfold Store.put
    by_cases hb : b = a
    · subst hb; simp
    · simp [hb]

theorem link_ok {x : Nat} {upd : Nat → Nat} {h : Store K V} : ∀ (n : Nat),
    (∀ i < n, upd i ≠ x ∧ ((h (upd i)).fwd[i]?).isSome ∧ ((h x).fwd[i]?).isSome) →
    ∃ h', link x upd h n = some h' ∧
      (∀ b j, (h' b).fwd[j]? = if j < n then (if b = upd j then some (some x) else
        if b = x then (h (upd j)).fwd[j]? else (h b).fwd[j]?) else (h b).fwd[j]?) ∧
      (∀ b, (h' b).key = (h b).key ∧ (h' b).val = (h b).val)
  | 0, _ => ⟨h, rfl, by simp, by simp⟩
  | n + 1, hp => by
    obtain ⟨h1, e1, f1, k1⟩ := link_ok n (fun i hi => hp i (by omega))
    obtain ⟨p1, p2, p3⟩ := hp n (by omega)
    obtain ⟨f, hf⟩ := Option.isSome_iff_exists.1 p2
    obtain ⟨h2, e2, f2, k2⟩ := setFwd_ok (h := h1) (a := x) (i := n) (v := f) (by
      rw [f1, if_neg (by omega)]; exact p3)
    obtain ⟨h3, e3, f3, k3⟩ := setFwd_ok (h := h2) (a := upd n) (i := n) (v := some x) (by
      rw [f2, if_neg (fun hh => p1 hh.1), f1, if_neg (by omega)]; exact p2)
    refine ⟨h3, ?_, ?_, fun b => ?_⟩
    · rw [link, e1]
      simp only [Option.bind_some]
      rw [f1, if_neg (by omega), hf]
      simp only [Option.bind_some]
      rw [e2]
      exact e3
    · intro b j
      rw [f3, f2, f1]
      rcases Nat.lt_trichotomy j n with hj | hj | hj
      · have : j < n + 1 := by omega
        rw [if_neg (by omega), if_neg (by omega), if_pos hj]
        simp only [this, if_true]
      · subst hj
        simp only [Nat.lt_succ_self, if_true, and_true, Nat.lt_irrefl, if_false, hf]
      · rw [if_neg (by omega), if_neg (by omega), if_neg (by omega), if_neg (by omega)]
    · rw [(k3 b).1, (k3 b).2, (k2 b).1, (k2 b).2]; exact k1 b

theorem unlink_ok {c : Nat} {upd : Nat → Nat} {h : Store K V} : ∀ (n : Nat),
    (∀ i < n, upd i ≠ c ∧ ((h (upd i)).fwd[i]?).isSome ∧
      ((h (upd i)).fwd[i]? = some (some c) → ((h c).fwd[i]?).isSome)) →
    ∃ h', unlink c upd h n = some h' ∧
      (∀ b j, (h' b).fwd[j]? = if j < n ∧ b = upd j ∧ (h b).fwd[j]? = some (some c) then (h c).fwd[j]?
        else (h b).fwd[j]?) ∧
      (∀ b, (h' b).key = (h b).key ∧ (h' b).val = (h b).val)
  | 0, _ => ⟨h, rfl, by simp, by simp⟩
  | n + 1, hp => by
    obtain ⟨h1, e1, f1, k1⟩ := unlink_ok n (fun i hi => hp i (by omega))
    obtain ⟨p1, p2, p3⟩ := hp n (by omega)
    obtain ⟨f, hf⟩ := Option.isSome_iff_exists.1 p2
    have hf1 : (h1 (upd n)).fwd[n]? = some f := by rw [f1, if_neg (by omega)]; exact hf
    by_cases hfc : f = some c
    · subst hfc
      obtain ⟨g, hg⟩ := Option.isSome_iff_exists.1 (p3 hf)
      have hg1 : (h1 c).fwd[n]? = some g := by rw [f1, if_neg (by omega)]; exact hg
      obtain ⟨h2, e2, f2, k2⟩ := setFwd_ok (h := h1) (a := upd n) (i := n) (v := g) (by rw [hf1]; rfl)
      refine ⟨h2, ?_, ?_, fun b => ?_⟩
      · rw [unlink, e1]
        simp only [Option.bind_some, hf1, if_true, hg1, e2]
      · intro b j
        rw [f2]
        rcases Nat.lt_trichotomy j n with hj | hj | hj
        · rw [if_neg (by omega), f1]
          have : j < n + 1 := by omega
          simp only [hj, this]
        · subst hj
          by_cases hb : b = upd j
          · subst hb; simp [hf, hg]
          · simp [hb, f1]
        · rw [if_neg (by omega), if_neg (by omega), f1, if_neg (by omega)]
      · rw [(k2 b).1, (k2 b).2]; exact k1 b
    · refine ⟨h1, ?_, ?_, k1⟩
      · rw [unlink, e1]
        simp only [Option.bind_some, hf1, hfc, if_false]
      · intro b j
        rw [f1]
        rcases Nat.lt_trichotomy j n with hj | hj | hj
        · have : j < n + 1 := by omega
          simp only [hj, this]
        · subst hj
          rw [if_neg (by omega)]
          by_cases hb : b = upd j
          · subst hb
            rw [if_neg]
            rintro ⟨-, -, hh⟩
            rw [hf] at hh
            exact hfc (Option.some.inj hh)
          · rw [if_neg (fun hh => hb hh.2.1)]
        · rw [if_neg (by omega), if_neg (by omega)]

theorem shrink_ok {h : Store K V} {hd : Nat} : ∀ (n : Nat), 1 ≤ n →
    (∀ i < n, ((h hd).fwd[i]?).isSome) →
    ∃ l, shrink h hd n = some l ∧ 1 ≤ l ∧ l ≤ n ∧ (∀ i, l ≤ i → i < n → (h hd).fwd[i]? = some none) ∧
      (l = 1 ∨ ∃ b, (h hd).fwd[l - 1]? = some (some b))
  | 0, h0, _ => absurd h0 (by omega)
  | 1, _, _ => ⟨1, rfl, by omega, by omega, fun i h1 h2 => by omega, .inl rfl⟩
  | n + 2, _, hs => by
    obtain ⟨f, hf⟩ := Option.isSome_iff_exists.1 (hs (n + 1) (by omega))
    cases f with
    | some b =>
      exact ⟨n + 2, by simp [shrink, hf], by omega, by omega, fun i h1 h2 => by omega, .inr ⟨b, hf⟩⟩
    | none =>
      obtain ⟨l, e, h1, h2, h3, h4⟩ := shrink_ok (h := h) (hd := hd) (n + 1) (by omega)
        (fun i hi => hs i (by omega))
      refine ⟨l, by simp [shrink, hf, e], h1, by omega, fun i h5 h6 => ?_, h4⟩
      by_cases hi : i = n + 1
      · subst hi; exact hf
      · exact h3 i h5 (by omega)

/-! ### Level 0 -/

theorem skip_ok {h : Store K V} : ∀ (n : Nat) (as : List Nat), Run h 0 as none → n ≤ as.length →
    skip h n as.head? = some (as.drop n).head?
  | 0, _, _, _ => by simp [skip]
  | n + 1, [], _, hn => absurd hn (by simp)
  | n + 1, a :: as, hr, hn => by
    rw [List.head?_cons, skip, hr.1]
    simp only [Option.bind_some, Option.or_none]
    rw [skip_ok n as hr.2 (by simpa using hn)]
    rfl

theorem nodes_ok {h : Store K V} : ∀ (n : Nat) (as : List Nat), Run h 0 as none → as.length ≤ n →
    nodes h n as.head? = some as
  | 0, [], _, _ => rfl
  | _ + 1, [], _, _ => rfl
  | 0, a :: as, _, hn => absurd hn (by simp)
  | n + 1, a :: as, hr, hn => by
    rw [List.head?_cons, nodes, hr.1]
    simp only [Option.bind_some, Option.or_none]
    rw [nodes_ok n as hr.2 (by simpa using hn)]
    rfl

theorem prevLoop_end {h : Store K V} : ∀ (n : Nat) (as : List Nat) (p : Nat), Run h 0 as none → as.length ≤ n →
    prevLoop h none n p as.head? = some ((p :: as).getLast (List.cons_ne_nil _ _), none)
  | 0, [], _, _, _ => rfl
  | _ + 1, [], _, _, _ => rfl
  | 0, a :: as, _, _, hn => absurd hn (by simp)
  | n + 1, a :: as, p, hr, hn => by
    rw [List.head?_cons, prevLoop, if_neg (by simp), hr.1]
    simp only [Option.bind_some, Option.or_none]
    rw [prevLoop_end n as a hr.2 (by simpa using hn)]
    simp

theorem prevLoop_at {h : Store K V} {c : Nat} {B : List Nat} : ∀ (n : Nat) (A : List Nat) (p : Nat),
    Run h 0 (A ++ c :: B) none → c ∉ A → A.length < n →
    prevLoop h (some c) n p (A ++ c :: B).head? = some ((p :: A).getLast (List.cons_ne_nil _ _), some c)
  | 0, _, _, _, _, hn => absurd hn (by omega)
  | n + 1, [], p, _, _, _ => by simp [prevLoop]
  | n + 1, a :: A, p, hr, hc, hn => by
    have h1 : (h a).fwd[0]? = some ((A ++ c :: B).head?.or none) := hr.1
    rw [List.cons_append, List.head?_cons, prevLoop, if_neg (by
      intro hh; exact hc (by simp [Option.some.inj hh])), h1]
    simp only [Option.bind_some, Option.or_none]
    rw [prevLoop_at n A a hr.2 (fun hh => hc (by simp [hh])) (by simpa using hn)]
    simp

end Verif.Skip
