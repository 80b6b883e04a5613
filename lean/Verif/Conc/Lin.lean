import Verif.Conc.Machine
import Verif.Common.Tac

/-! Calls whose accesses are protected by locks that are kept until the end are linearizable. -/

namespace Verif.Conc

variable {L σ O ρ : Type} [DecidableEq L]

/-- The memory `m` on the objects in `held`, and `B` elsewhere. -/
def over (held : List L) (m B : L → σ) : L → σ := fun l => if l ∈ held then m l else B l

def heldOf : PC L σ O ρ → List L
  | .busy _ _ held => held
  | .leaving _ _ held => held
  | _ => []

theorem over_upd {held : List L} {m B : L → σ} {l : L} {x : σ} (h : l ∈ held) :
    upd (over held m B) l x = over held (upd m l x) B := by
  funext y
  by_cases hy : y = l
  · subst hy; simp [upd_same, over, h]
  · simp [upd_ne _ _ hy, over]

theorem over_congr {held : List L} {m m' B : L → σ} (h : ∀ l ∈ held, m l = m' l) : over held m B = over held m' B := by
  funext y
  by_cases hy : y ∈ held
  · simp [over, hy, h y hy]
  · simp [over, hy]

theorem upd_id {α β : Type} [DecidableEq α] (f : α → β) (a : α) : upd f a (f a) = f := by
  funext x
  by_cases h : x = a
  · subst h; exact upd_same _ _ _
  · exact upd_ne _ _ h

/-- What the calls have to be: `good` calls are protected by locks and do what `spec` says, which never fails
from `Safe` states; the others do not write. -/
structure Obj (body : O → Prog L σ O ρ) (good : O → Bool) (spec : (L → σ) → O → Option ((L → σ) × ρ))
    (Safe : (L → σ) → Prop) : Prop where
  locked : ∀ o, good o = true → Locked [] (body o)
  exec : ∀ o, good o = true → ∀ B, exec (body o) B = spec B o
  total : ∀ o, good o = true → ∀ B, Safe B → ∃ B' r, spec B o = some (B', r) ∧ Safe B'
  reading : ∀ o, good o = false → Reading [] (body o)

structure Inv (good : O → Bool) (spec : (L → σ) → O → Option ((L → σ) × ρ)) (Safe : (L → σ) → Prop)
    (s0 : L → σ) (c : Conf L σ O ρ) (A : L → σ) (lin : List (Nat × O × ρ)) : Prop where
  runs : run spec s0 (lin.map (·.2.1)) = some (A, lin.map (·.2.2))
  safe : Safe A
  mem : ∀ l, c.mem l = A l ∨ ∃ n o p held, c.owner l = some n ∧ c.pc n = .busy o p held ∧ good o = true ∧ l ∈ held
  held : ∀ n, (heldOf (c.pc n)).Nodup ∧ ∀ l ∈ heldOf (c.pc n), c.owner l = some n
  busy : ∀ n o p held, c.pc n = .busy o p held → good o = true → Locked held p ∧
    ∀ B, (∀ l ∈ held, B l = A l) → exec p (over held c.mem B) = spec B o
  read : ∀ n o p held, c.pc n = .busy o p held → good o = false → Reading held p
  nodup : (lin.map (·.1)).Nodup
  out : ∀ n, (c.pc n = .idle ∨ ∃ o p held, c.pc n = .busy o p held) → n ∉ lin.map (·.1)
  inv : ∀ n o p held, c.pc n = .busy o p held → .inv n o ∈ c.hist
  leave : ∀ n o r held, c.pc n = .leaving o r held → good o = true → ∃ r', r = some r' ∧ (n, o, r') ∈ lin
  linv : ∀ n o r, (n, o, r) ∈ lin → .inv n o ∈ c.hist ∧ good o = true
  ret : ∀ n o r, .ret n o r ∈ c.hist → good o = true → ∃ r', r = some r' ∧ (n, o, r') ∈ lin
  rt : ∀ n o r m o', [.ret n o r, .inv m o'].Sublist c.hist → good o = true → m ∈ lin.map (·.1) →
    [n, m].Sublist (lin.map (·.1))

variable {body : O → Prog L σ O ρ} {good : O → Bool} {spec : (L → σ) → O → Option ((L → σ) × ρ)}
  {Safe : (L → σ) → Prop} {s0 : L → σ}

theorem Inv.lin {c : Conf L σ O ρ} {A : L → σ} {lin : List (Nat × O × ρ)} (h : Inv good spec Safe s0 c A lin) :
    Linearizable spec s0 (c.hist.filter fun e => good e.op) := by
  refine ⟨lin, h.nodup, fun n o r hn => ?_, fun n o r hn => ?_, fun n o r m o' hs hm => ?_, A, h.runs⟩
  · exact List.mem_filter.2 ⟨(h.linv n o r hn).1, (h.linv n o r hn).2⟩
  · have := List.mem_filter.1 hn
    exact h.ret n o r this.1 this.2
  · have hg : good o = true := (List.mem_filter.1 (hs.subset (by simp : Event.ret n o r ∈ _))).2
    exact h.rt n o r m o' (hs.trans List.filter_sublist) hg hm

theorem Inv.init (hs : Safe s0) : Inv (ρ := ρ) good spec Safe s0 (init s0) s0 [] := by
  refine ⟨rfl, hs, fun l => .inl rfl, fun n => ⟨List.nodup_nil, fun l h => absurd h List.not_mem_nil⟩, ?_, ?_,
    List.nodup_nil, fun n _ => List.not_mem_nil, ?_, ?_, ?_, ?_, ?_⟩
  · intro n o p held h; cases h
  · intro n o p held h; cases h
  · intro n o p held h; cases h
  · intro n o r held h; cases h
  · intro n o r h; cases h
  · intro n o r h; cases h
  · intro n o r m o' _ _ h; cases h

theorem sublist_concat_inv {h : List (Event O ρ)} {n m : Nat} {o o' : O} {r : Option ρ} {e : Event O ρ}
    (hs : [Event.ret n o r, .inv m o'].Sublist (h ++ [e])) :
    [Event.ret n o r, .inv m o'].Sublist h ∨ (e = .inv m o' ∧ Event.ret n o r ∈ h) := by
  obtain ⟨l1, l2, he, h1, h2⟩ := List.sublist_append_iff.1 hs
  rcases List.sublist_singleton.1 h2 with rfl | rfl
  · rw [List.append_nil] at he
    rw [he]; exact .inl h1
  · right
    have hl : l1 = [Event.ret n o r] ∧ Event.inv m o' = e := by
      have h3 : [Event.ret n o r] ++ [Event.inv m o'] = l1 ++ [e] := he
      have := List.append_inj' h3 rfl
      exact ⟨this.1.symm, by simpa using this.2⟩
    refine ⟨hl.2.symm, ?_⟩
    rw [hl.1] at h1
    exact h1.subset (by simp)

/-- Steps that change nothing but where call `n` is and append to the history, and may release locks. -/
theorem Inv.step {c : Conf L σ O ρ} {A : L → σ} {lin : List (Nat × O × ρ)} (h : Inv good spec Safe s0 c A lin)
    {c' : Conf L σ O ρ} {n : Nat} {q : PC L σ O ρ}
    (hm : ∀ l, (∀ o p held, c.pc n = .busy o p held → good o = true → l ∉ held) → c'.mem l = c.mem l)
    (hpc : c'.pc = upd c.pc n q)
    (hown : ∀ l m, m ≠ n → (c'.owner l = some m ↔ c.owner l = some m))
    (hheld : (heldOf q).Nodup ∧ ∀ l ∈ heldOf q, c'.owner l = some n)
    (hlose : ∀ o p held, c.pc n = .busy o p held → good o = true → ∃ p' held', q = .busy o p' held' ∧ ∀ l ∈ held, l ∈ held')
    (hbusy : ∀ o p held, q = .busy o p held → (good o = true → Locked held p ∧
      ∀ B, (∀ l ∈ held, B l = A l) → Conc.exec p (over held c'.mem B) = spec B o) ∧ (good o = false → Reading held p))
    (hin : (q = .idle ∨ ∃ o p held, q = .busy o p held) → n ∉ lin.map (·.1))
    (hhist : c'.hist = c.hist ∨ (∃ o, c'.hist = c.hist ++ [.inv n o] ∧ n ∉ lin.map (·.1)) ∨
      ∃ o r, c'.hist = c.hist ++ [.ret n o r] ∧ (good o = true → ∃ r', r = some r' ∧ (n, o, r') ∈ lin))
    (hinv : ∀ o p held, q = .busy o p held → .inv n o ∈ c'.hist)
    (hleave : ∀ o r held, q = .leaving o r held → good o = true → ∃ r', r = some r' ∧ (n, o, r') ∈ lin) :
    Inv good spec Safe s0 c' A lin := by
  have hsub : ∀ e, e ∈ c.hist → e ∈ c'.hist := by
    intro e he
    rcases hhist with e1 | ⟨o, e1, -⟩ | ⟨o, r, e1, -⟩ <;> rw [e1] <;> simp [he]
  have hpn : c'.pc n = q := by rw [hpc, upd_same]
  have hpm : ∀ m, m ≠ n → c'.pc m = c.pc m := fun m hm => by rw [hpc, upd_ne _ _ hm]
  -- the memory that other good calls hold is unchanged
  have hother : ∀ m o p held, m ≠ n → c.pc m = .busy o p held → ∀ l ∈ held, c'.mem l = c.mem l := by
    intro m o p held hmn hb l hl
    refine hm l fun o' p' held' hb' hg' hl' => ?_
    have h1 := (h.held m).2 l (by rw [hb]; exact hl)
    have h2 := (h.held n).2 l (by rw [hb']; exact hl')
    rw [h1] at h2
    exact hmn (Option.some.inj h2)
  refine ⟨h.runs, h.safe, fun l => ?_, fun m => ?_, fun m o p held hb hg => ?_, fun m o p held hb hg => ?_, h.nodup,
    fun m hh => ?_, fun m o p held hb => ?_, fun m o r held hl hg => ?_, fun m o r hl => ?_, fun m o r he hg => ?_,
    fun m o r m' o' hs hg hm' => ?_⟩
  · by_cases hx : ∃ o p held, c.pc n = .busy o p held ∧ good o = true ∧ l ∈ held
    · obtain ⟨o, p, held, hb, hg, hl⟩ := hx
      obtain ⟨p', held', rfl, hsub'⟩ := hlose o p held hb hg
      exact .inr ⟨n, o, p', held', hheld.2 l (hsub' l hl), hpn, hg, hsub' l hl⟩
    · have hml : c'.mem l = c.mem l := hm l fun o p held hb hg hl => hx ⟨o, p, held, hb, hg, hl⟩
      rcases h.mem l with e | ⟨m, o, p, held, e1, e2, e3, e4⟩
      · exact .inl (hml.trans e)
      · by_cases hmn : m = n
        · subst hmn
          exact absurd ⟨o, p, held, e2, e3, e4⟩ hx
        · exact .inr ⟨m, o, p, held, (hown l m hmn).2 e1, by rw [hpm m hmn]; exact e2, e3, e4⟩
  · by_cases hmn : m = n
    · subst hmn; rw [hpn]; exact hheld
    · rw [hpm m hmn]
      exact ⟨(h.held m).1, fun l hl => (hown l m hmn).2 ((h.held m).2 l hl)⟩
  · by_cases hmn : m = n
    · subst hmn; rw [hpn] at hb; exact (hbusy o p held hb).1 hg
    · rw [hpm m hmn] at hb
      obtain ⟨h1, h2⟩ := h.busy m o p held hb hg
      refine ⟨h1, fun B hB => ?_⟩
      rw [← h2 B hB, over_congr (hother m o p held hmn hb)]
  · by_cases hmn : m = n
    · subst hmn; rw [hpn] at hb; exact (hbusy o p held hb).2 hg
    · rw [hpm m hmn] at hb
      exact h.read m o p held hb hg
  · by_cases hmn : m = n
    · subst hmn; rw [hpn] at hh; exact hin hh
    · rw [hpm m hmn] at hh; exact h.out m hh
  · by_cases hmn : m = n
    · subst hmn; rw [hpn] at hb; exact hinv o p held hb
    · rw [hpm m hmn] at hb; exact hsub _ (h.inv m o p held hb)
  · by_cases hmn : m = n
    · subst hmn; rw [hpn] at hl; exact hleave o r held hl hg
    · rw [hpm m hmn] at hl; exact h.leave m o r held hl hg
  · exact ⟨hsub _ (h.linv m o r hl).1, (h.linv m o r hl).2⟩
  · rcases hhist with e1 | ⟨o1, e1, -⟩ | ⟨o1, r1, e1, hr1⟩
    · rw [e1] at he; exact h.ret m o r he hg
    · rw [e1] at he
      rcases List.mem_append.1 he with he | he
      · exact h.ret m o r he hg
      · simp at he
    · rw [e1] at he
      rcases List.mem_append.1 he with he | he
      · exact h.ret m o r he hg
      · simp only [List.mem_singleton, Event.ret.injEq] at he
        obtain ⟨rfl, rfl, rfl⟩ := he
        exact hr1 hg
  · rcases hhist with e1 | ⟨o1, e1, hn⟩ | ⟨o1, r1, e1, -⟩
    · rw [e1] at hs; exact h.rt m o r m' o' hs hg hm'
    · rw [e1] at hs
      rcases sublist_concat_inv hs with hs | ⟨he, -⟩
      · exact h.rt m o r m' o' hs hg hm'
      · cases he; exact absurd hm' hn
    · rw [e1] at hs
      rcases sublist_concat_inv hs with hs | ⟨he, -⟩
      · exact h.rt m o r m' o' hs hg hm'
      · cases he

/-- The end of a good call. -/
theorem Inv.commit {c : Conf L σ O ρ} {A : L → σ} {lin : List (Nat × O × ρ)} (h : Inv good spec Safe s0 c A lin)
    (ht : ∀ o, good o = true → ∀ B, Safe B → ∃ B' r, spec B o = some (B', r) ∧ Safe B')
    {n : Nat} {o : O} {r : ρ} {held : List L} (hb : c.pc n = .busy o (.ret r) held) (hg : good o = true) :
    Inv good spec Safe s0 { c with pc := upd c.pc n (.leaving o (some r) held) } (over held c.mem A)
      (lin ++ [(n, o, r)]) := by
  obtain ⟨-, hex⟩ := h.busy n o _ held hb hg
  have hsp := hex A fun _ _ => rfl
  rw [Conc.exec] at hsp
  have hout := h.out n (.inr ⟨o, _, held, hb⟩)
  have hpm : ∀ m, m ≠ n → upd c.pc n (.leaving o (some r) held) m = c.pc m := fun m hm => upd_ne _ _ hm
  have hheld := h.held n
  rw [hb] at hheld
  have hdis : ∀ m, m ≠ n → ∀ l ∈ heldOf (c.pc m), l ∉ held := by
    intro m hm l hl hl'
    have h1 := (h.held m).2 l hl
    have h2 := hheld.2 l hl'
    rw [h1] at h2
    exact hm (Option.some.inj h2)
  refine ⟨?_, ?_, fun l => ?_, fun m => ?_, fun m o' p held' hb' hg' => ?_, fun m o' p held' hb' hg' => ?_, ?_,
    fun m hh => ?_, fun m o' p held' hb' => ?_, fun m o' r' held' hl hg' => ?_, fun m o' r' hl => ?_,
    fun m o' r' he hg' => ?_, fun m o1 r1 m' o' hs hg' hm' => ?_⟩
  · rw [List.map_append, run_append, h.runs]
    simp [run, ← hsp]
  · obtain ⟨B', r', e, hB⟩ := ht o hg A h.safe
    rw [← hsp] at e
    simp only [Option.some.injEq, Prod.mk.injEq] at e
    rw [e.1]; exact hB
  · by_cases hl : l ∈ held
    · exact .inl (by simp [over, hl])
    · rcases h.mem l with e | ⟨m, o', p, held', e1, e2, e3, e4⟩
      · exact .inl (by simp [over, hl, e])
      · have hmn : m ≠ n := by
          rintro rfl
          rw [hb] at e2
          cases e2
          exact hl e4
        exact .inr ⟨m, o', p, held', e1, by simp only [hpm m hmn]; exact e2, e3, e4⟩
  · by_cases hmn : m = n
    · subst hmn; simp only [upd_same]; exact hheld
    · simp only [hpm m hmn]; exact h.held m
  · by_cases hmn : m = n
    · subst hmn; simp only [upd_same] at hb'; cases hb'
    · simp only [hpm m hmn] at hb'
      obtain ⟨h1, h2⟩ := h.busy m o' p held' hb' hg'
      refine ⟨h1, fun B hB => h2 B fun l hl => ?_⟩
      rw [hB l hl]
      have := hdis m hmn l (by rw [hb']; exact hl)
      simp [over, this]
  · by_cases hmn : m = n
    · subst hmn; simp only [upd_same] at hb'; cases hb'
    · simp only [hpm m hmn] at hb'
      exact h.read m o' p held' hb' hg'
  · rw [List.map_append]
    exact List.nodup_append.2 ⟨h.nodup, by simp, by
      intro a ha b hb'
      simp only [List.map_cons, List.map_nil, List.mem_singleton] at hb'
      subst hb'
      rintro rfl
      exact hout ha⟩
  · by_cases hmn : m = n
    · subst hmn
      simp only [upd_same] at hh
      rcases hh with hh | ⟨_, _, _, hh⟩ <;> cases hh
    · simp only [hpm m hmn] at hh
      have := h.out m hh
      simp only [List.map_append, List.map_cons, List.map_nil, List.mem_append, List.mem_singleton, not_or]
      exact ⟨this, hmn⟩
  · by_cases hmn : m = n
    · subst hmn; simp only [upd_same] at hb'; cases hb'
    · simp only [hpm m hmn] at hb'; exact h.inv m o' p held' hb'
  · by_cases hmn : m = n
    · subst hmn
      simp only [upd_same, PC.leaving.injEq] at hl
      obtain ⟨rfl, rfl, rfl⟩ := hl
      exact ⟨r, rfl, by simp⟩
    · simp only [hpm m hmn] at hl
      obtain ⟨r'', e, hm⟩ := h.leave m o' r' held' hl hg'
      exact ⟨r'', e, by simp [hm]⟩
  · rcases List.mem_append.1 hl with hl | hl
    · exact h.linv m o' r' hl
    · simp only [List.mem_singleton, Prod.mk.injEq] at hl
      obtain ⟨rfl, rfl, rfl⟩ := hl
      exact ⟨h.inv _ _ _ _ hb, hg⟩
  · obtain ⟨r'', e, hm⟩ := h.ret m o' r' he hg'
    exact ⟨r'', e, by simp [hm]⟩
  · rw [List.map_append] at hm' ⊢
    rcases List.mem_append.1 hm' with hm' | hm'
    · exact (h.rt m o1 r1 m' o' hs hg' hm').trans (List.sublist_append_left _ _)
    · simp only [List.map_cons, List.map_nil, List.mem_singleton] at hm'
      subst hm'
      have he : Event.ret m o1 r1 ∈ c.hist := hs.subset (by simp)
      obtain ⟨r'', e, hmem⟩ := h.ret m o1 r1 he hg'
      have : [m].Sublist (lin.map (·.1)) := List.singleton_sublist.2 (List.mem_map.2 ⟨_, hmem, rfl⟩)
      exact List.Sublist.append this (List.Sublist.refl [m'])

theorem Inv.next (ho : Obj body good spec Safe) {c c' : Conf L σ O ρ} {A : L → σ} {lin : List (Nat × O × ρ)}
    (h : Inv good spec Safe s0 c A lin) {x : Choice O} (hx : next body c x = some c') :
    ∃ A' lin', Inv good spec Safe s0 c' A' lin' := by
  have hstart : ∀ o, ∀ o' p held, (PC.busy o (body o) [] : PC L σ O ρ) = .busy o' p held →
      (good o' = true → Locked held p ∧
        ∀ B, (∀ l ∈ held, B l = A l) → Conc.exec p (over held c.mem B) = spec B o') ∧
      (good o' = false → Reading held p) := by
    rintro o o' p held ⟨⟩
    refine ⟨fun hg => ⟨ho.locked o hg, fun B _ => ?_⟩, fun hg => ho.reading o hg⟩
    rw [← ho.exec o hg B]
    congr 1
  cases x with
  | start n o =>
    simp only [Conc.next] at hx
    cases hp : c.pc n with
    | idle =>
      rw [hp] at hx
      cases hx
      refine ⟨A, lin, h.step (n := n) (q := .busy o (body o) []) (fun _ _ => rfl) rfl (fun _ _ _ => Iff.rfl)
        ⟨List.nodup_nil, fun l hl => absurd hl List.not_mem_nil⟩ (fun _ _ _ hb => by rw [hp] at hb; cases hb)
        (hstart o) (fun _ => h.out n (.inl hp)) (.inr (.inl ⟨o, rfl, h.out n (.inl hp)⟩)) ?_ ?_⟩
      · rintro o' p held ⟨⟩; simp
      · rintro o' r held ⟨⟩
    | _ => rw [hp] at hx; cases hx
  | go n =>
    simp only [Conc.next] at hx
    have hheld := h.held n
    cases hp : c.pc n with
    | idle => rw [hp] at hx; cases hx
    | gone => rw [hp] at hx; cases hx
    | busy o p held =>
      rw [hp] at hx hheld
      have hout := h.out n (.inr ⟨o, p, held, hp⟩)
      have hinv := h.inv n o p held hp
      cases p with
      | ret r =>
        cases hx
        cases hg : good o with
        | true => exact ⟨_, _, h.commit ho.total hp hg⟩
        | false =>
          refine ⟨A, lin, h.step (n := n) (q := .leaving o (some r) held) (fun _ _ => rfl) rfl (fun _ _ _ => Iff.rfl)
            hheld ?_ ?_ ?_ (.inl rfl) ?_ ?_⟩
          · intro o' p' held' hb hg'
            rw [hp] at hb; cases hb
            rw [hg] at hg'; cases hg'
          · rintro o' p' held' ⟨⟩
          · rintro (hh | ⟨_, _, _, hh⟩) <;> cases hh
          · rintro o' p' held' ⟨⟩
          · rintro o' r' held' ⟨⟩ hg'
            rw [hg] at hg'; cases hg'
      | panic =>
        cases hx
        cases hg : good o with
        | true =>
          have := (h.busy n o _ held hp hg).2 A fun _ _ => rfl
          obtain ⟨B', r, e, -⟩ := ho.total o hg A h.safe
          rw [e, Conc.exec] at this
          cases this
        | false =>
          refine ⟨A, lin, h.step (n := n) (q := .leaving o none held) (fun _ _ => rfl) rfl (fun _ _ _ => Iff.rfl)
            hheld ?_ ?_ ?_ (.inl rfl) ?_ ?_⟩
          · intro o' p' held' hb hg'
            rw [hp] at hb; cases hb
            rw [hg] at hg'; cases hg'
          · rintro o' p' held' ⟨⟩
          · rintro (hh | ⟨_, _, _, hh⟩) <;> cases hh
          · rintro o' p' held' ⟨⟩
          · rintro o' r' held' ⟨⟩ hg'
            rw [hg] at hg'; cases hg'
      | lock l k =>
        simp only at hx
        cases hol : c.owner l with
        | some m => rw [hol] at hx; cases hx
        | none =>
          rw [hol] at hx
          cases hx
          have hnl : l ∉ held := fun hl => by
            have := hheld.2 l hl
            rw [hol] at this
            cases this
          refine ⟨A, lin, h.step (n := n) (q := .busy o k (l :: held)) (fun _ _ => rfl) rfl ?_ ⟨?_, ?_⟩ ?_ ?_
            (fun _ => hout) (.inl rfl) ?_ ?_⟩
          · intro l' m hm
            by_cases hl' : l' = l
            · subst hl'
              simp only [upd_same, Option.some.injEq, hol]
              exact ⟨fun e => absurd e.symm hm, fun e => by cases e⟩
            · simp only [upd_ne _ _ hl']
          · exact List.nodup_cons.2 ⟨hnl, hheld.1⟩
          · intro l' hl'
            by_cases e : l' = l
            · subst e; simp only [upd_same]
            · simp only [upd_ne _ _ e]
              exact hheld.2 l' ((List.mem_cons.1 hl').resolve_left e)
          · intro o' p' held' hb hg'
            rw [hp] at hb; cases hb
            exact ⟨k, l :: held, rfl, fun x hx => List.mem_cons_of_mem _ hx⟩
          · rintro o' p' held' ⟨⟩
            refine ⟨fun hg => ?_, fun hg => h.read n o _ held hp hg⟩
            obtain ⟨h1, h2⟩ := h.busy n o _ held hp hg
            refine ⟨h1, fun B hB => ?_⟩
            rw [← h2 B fun x hx => hB x (List.mem_cons_of_mem _ hx), Conc.exec]
            congr 1
            funext x
            by_cases hxl : x = l
            · subst hxl
              have hm : c.mem x = A x := by
                rcases h.mem x with e | ⟨m, _, _, _, e1, -⟩
                · exact e
                · rw [hol] at e1; cases e1
              simp only [over, List.mem_cons, true_or, if_true, hnl, if_false, hm]
              exact (hB x (by simp)).symm
            · simp only [over, List.mem_cons, hxl, false_or]
          · rintro o' p' held' ⟨⟩; exact hinv
          · rintro o' r' held' ⟨⟩
      | acc l f k =>
        cases hx
        cases hg : good o with
        | true =>
          obtain ⟨h1, h2⟩ := h.busy n o _ held hp hg
          refine ⟨A, lin, h.step (n := n) (q := .busy o (k (c.mem l)) held) ?_ rfl (fun _ _ _ => Iff.rfl) hheld ?_ ?_
            (fun _ => hout) (.inl rfl) ?_ ?_⟩
          · intro l' hl'
            have : l' ≠ l := by
              rintro rfl
              exact hl' o _ held hp hg h1.1
            exact upd_ne _ _ this
          · intro o' p' held' hb hg'
            rw [hp] at hb; cases hb
            exact ⟨_, held, rfl, fun x hx => hx⟩
          · rintro o' p' held' ⟨⟩
            refine ⟨fun _ => ⟨h1.2 _, fun B hB => ?_⟩, fun hg' => by rw [hg] at hg'; cases hg'⟩
            rw [← h2 B hB, Conc.exec]
            have hml : over held c.mem B l = c.mem l := by simp [over, h1.1]
            rw [hml, over_upd h1.1]
          · rintro o' p' held' ⟨⟩; exact hinv
          · rintro o' r' held' ⟨⟩
        | false =>
          have h1 := h.read n o _ held hp hg
          have hf : f = id := h1.1
          have hmem : upd c.mem l (f (c.mem l)) = c.mem := by rw [hf]; exact upd_id _ _
          rw [hmem]
          refine ⟨A, lin, h.step (n := n) (q := .busy o (k (c.mem l)) held) (fun _ _ => rfl) rfl (fun _ _ _ => Iff.rfl)
            hheld ?_ ?_ (fun _ => hout) (.inl rfl) ?_ ?_⟩
          · intro o' p' held' hb hg'
            rw [hp] at hb; cases hb
            rw [hg] at hg'; cases hg'
          · rintro o' p' held' ⟨⟩
            exact ⟨fun hg' => (by rw [hg] at hg'; cases hg'), fun _ => h1.2 _⟩
          · rintro o' p' held' ⟨⟩; exact hinv
          · rintro o' r' held' ⟨⟩
      | tail o' =>
        cases hx
        have hg : good o = false := by
          cases hg : good o with
          | false => rfl
          | true => exact (h.busy n o _ held hp hg).1.elim
        have hnil : held = [] := h.read n o _ held hp hg
        subst hnil
        refine ⟨A, lin, h.step (n := n) (q := .busy o' (body o') []) (fun _ _ => rfl) rfl (fun _ _ _ => Iff.rfl)
          ⟨List.nodup_nil, fun l hl => absurd hl List.not_mem_nil⟩ ?_ (hstart o') (fun _ => hout)
          (.inr (.inl ⟨o', rfl, hout⟩)) ?_ ?_⟩
        · intro o1 p1 held1 hb hg'
          rw [hp] at hb; cases hb
          rw [hg] at hg'; cases hg'
        · rintro o1 p held ⟨⟩; simp
        · rintro o1 r held ⟨⟩
    | leaving o r held =>
      rw [hp] at hx hheld
      cases held with
      | nil =>
        cases hx
        refine ⟨A, lin, h.step (n := n) (q := .gone) (fun _ _ => rfl) rfl (fun _ _ _ => Iff.rfl)
          ⟨List.nodup_nil, fun l hl => absurd hl List.not_mem_nil⟩ (fun _ _ _ hb => by rw [hp] at hb; cases hb) ?_ ?_
          (.inr (.inr ⟨o, r, rfl, h.leave n o r [] hp⟩)) ?_ ?_⟩
        · rintro o' p held ⟨⟩
        · rintro (hh | ⟨_, _, _, hh⟩) <;> cases hh
        · rintro o' p held ⟨⟩
        · rintro o' r' held ⟨⟩
      | cons l held =>
        cases hx
        have hnd := List.nodup_cons.1 hheld.1
        have hol : c.owner l = some n := hheld.2 l (by simp [heldOf])
        refine ⟨A, lin, h.step (n := n) (q := .leaving o r held) (fun _ _ => rfl) rfl ?_ ⟨hnd.2, ?_⟩
          (fun _ _ _ hb => by rw [hp] at hb; cases hb) ?_ ?_ (.inl rfl) ?_ ?_⟩
        · intro l' m hm
          by_cases hl' : l' = l
          · subst hl'
            rw [hol]
            exact ⟨fun e => absurd ((upd_same _ _ _).symm.trans e) (by simp), fun e => absurd (Option.some.inj e).symm hm⟩
          · simp only [upd_ne _ _ hl']
        · intro l' hl'
          have : l' ≠ l := by rintro rfl; exact hnd.1 hl'
          simp only [upd_ne _ _ this]
          exact hheld.2 l' (List.mem_cons_of_mem _ hl')
        · rintro o' p held ⟨⟩
        · rintro (hh | ⟨_, _, _, hh⟩) <;> cases hh
        · rintro o' p held ⟨⟩
        · rintro o' r' held' ⟨⟩ hg
          exact h.leave n o r _ hp hg

/-- Every schedule leads to a linearizable history. -/
theorem linearizable (ho : Obj body good spec Safe) (hs : Safe s0) (xs : List (Choice O)) (c : Conf L σ O ρ)
    (hc : sched body (Conc.init s0) xs = some c) : Linearizable spec s0 (c.hist.filter fun e => good e.op) := by
  suffices H : ∀ (c0 : Conf L σ O ρ) A lin, Inv good spec Safe s0 c0 A lin → sched body c0 xs = some c →
      ∃ A' lin', Inv good spec Safe s0 c A' lin' by
    obtain ⟨A', lin', h⟩ := H _ _ _ (Inv.init hs) hc
    exact h.lin
  clear hc
  induction xs with
  | nil => intro c0 A lin h e; cases e; exact ⟨A, lin, h⟩
  | cons x xs ih =>
    intro c0 A lin h e
    simp only [sched] at e
    cases hn : Conc.next body c0 x with
    | none => rw [hn] at e; cases e
    | some c1 =>
      rw [hn] at e
      obtain ⟨A', lin', h'⟩ := h.next ho hn
      exact ih c1 A' lin' h' e

end Verif.Conc
