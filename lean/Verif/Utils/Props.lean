import Verif.Utils.Model

/-! Properties C67 and C68: `utils.go`. -/

namespace Verif.Utils

variable {E X : Type}

/-! ### C67 -/

/-- What a caller expects of `TryPanic`: it never panics itself, gives nil if `do` returns, and the
error if `do` panics with an error. -/
def Reports (try' : End E X → Result E X (Option E)) : Prop :=
  try' .returns = .returns none ∧ ∀ e, try' (.panics (.error e)) = .returns (some e)

/-- C67, the half that holds: an error given to `panic` is returned. Missing from the full statement:
nil when `do` returns, which is false, see `C67_returning_panics`. -/
theorem C67_error_reported_partial (typeError : E) (d : End E X) (r : Option E) :
    tryPanic typeError d = .returns r ↔ ∃ e, d = .panics (.error e) ∧ r = some e := by
  cases d with
  | returns => simp [tryPanic, recovered, assertError]
  | panics p =>
    cases p with
    | error e =>
      simp only [tryPanic, recovered, assertError, Result.returns.injEq]
      exact ⟨fun h => ⟨e, rfl, h.symm⟩, fun ⟨e', h1, h2⟩ => by cases h1; exact h2.symm⟩
    | other x => simp [tryPanic, recovered, assertError]

/-- C67 fails: when `do` returns, `TryPanic` panics. -/
theorem C67_returning_panics (typeError : E) :
    tryPanic typeError (.returns : End E X) = .panics (.error typeError) ∧
      ¬ Reports (tryPanic (X := X) typeError) :=
  ⟨rfl, fun h => by simpa [tryPanic, recovered, assertError] using h.1⟩

/-- Every way for `TryPanic` to panic: `do` returned, or it panicked with something that is no error. -/
theorem C67_panics_iff (typeError : E) (d : End E X) :
    (∃ p, tryPanic typeError d = .panics p) ↔ d = .returns ∨ ∃ x, d = .panics (.other x) := by
  cases d with
  | returns => simp [tryPanic, recovered, assertError]
  | panics p => cases p <;> simp [tryPanic, recovered, assertError]

example : tryPanic "interface conversion" (.panics (.error "boom") : End String Nat) =
    .returns (some "boom") := (C67_error_reported_partial ..).2 ⟨_, rfl, rfl⟩

/-! ### C68 -/

/-- A generator that keeps the promise of `Intn`. -/
def Fair (intn : Nat → Int → Int) : Prop := ∀ i n, 0 < n → 0 ≤ intn i n ∧ intn i n < n

/-- C68, what holds: for bounds that are not negative and not both zero the text is made of letters
and digits and has at least `s` and fewer than `e + 2 s` characters. Missing from the full statement: at most `e` characters, which is
false, see `C68_too_long`. -/
theorem C68_random_text_partial {intn : Nat → Int → Int} (hf : Fair intn) {s e : Int} (hs : 0 ≤ s)
    (he : 0 < e + s) : ∃ t, rangdom intn s e = some t ∧ s ≤ t.length ∧ (t.length : Int) < e + 2 * s ∧
      ∀ c ∈ t, c.isAlphanum = true := by
  have h0 := hf 0 (e + s) he
  have key : ∀ is : List Nat, ∃ t, (is.mapM fun i =>
      basechars[(intn (i + 1) basechars.length).toNat]?) = some t ∧ t.length = is.length ∧
      ∀ c ∈ t, c.isAlphanum = true := by
    intro is
    induction is with
    | nil => exact ⟨[], rfl, rfl, by simp⟩
    | cons i is ih =>
      obtain ⟨t, h1, h2, h3⟩ := ih
      have h4 := hf (i + 1) basechars.length (by decide)
      have h5 : (intn (i + 1) basechars.length).toNat < basechars.length := by omega
      refine ⟨basechars[(intn (i + 1) basechars.length).toNat] :: t, ?_, by simp [h2], ?_⟩
      · rw [List.mapM_cons, List.getElem?_eq_getElem h5, h1]; rfl
      · intro c hc
        rcases List.mem_cons.1 hc with rfl | hc
        · have : ∀ c ∈ basechars, c.isAlphanum = true := by decide
          exact this _ (List.getElem_mem h5)
        · exact h3 c hc
  obtain ⟨t, h1, h2, h3⟩ := key (List.range (intn 0 (e + s) + s).toNat)
  rw [List.length_range] at h2
  refine ⟨t, ?_, by omega, by omega, h3⟩
  simp only [rangdom]
  rw [if_neg (by omega), if_neg (by omega), h1]

/-- Every length in that range comes from some generator. -/
theorem C68_every_length {s e : Int} (hs : 0 ≤ s) {n : Nat} (h1 : s ≤ n) (h2 : (n : Int) < e + 2 * s) :
    ∃ intn t, Fair intn ∧ rangdom intn s e = some t ∧ t.length = n := by
  let f : Nat → Int → Int := fun i m => if i = 0 ∧ (n : Int) - s < m then n - s else 0
  have hf : Fair f := by
    intro i m hm
    simp only [f]
    split <;> omega
  obtain ⟨t, h3, -⟩ := C68_random_text_partial hf hs (e := e) (by omega)
  refine ⟨f, t, hf, h3, ?_⟩
  have hl : ∀ (is : List Nat) t, (is.mapM fun i =>
      basechars[(f (i + 1) basechars.length).toNat]?) = some t → t.length = is.length := by
    intro is
    induction is with
    | nil => intro t h; cases h; rfl
    | cons i is ih =>
      intro t h
      rw [List.mapM_cons] at h
      obtain ⟨c, -, h⟩ := Option.bind_eq_some_iff.1 h
      obtain ⟨t', h5, h⟩ := Option.bind_eq_some_iff.1 h
      cases h
      simp [ih t' h5]
  have h6 : f 0 (e + s) = n - s := by simp only [f]; rw [if_pos (by constructor <;> first | rfl | trivial | omega)]
  simp only [rangdom, h6] at h3
  rw [if_neg (by omega), if_neg (by omega)] at h3
  rw [hl _ t h3, List.length_range]
  omega

/-- C68 fails: `Rangdom(5, 6)` may give fifteen characters. -/
theorem C68_too_long : ∃ intn t, Fair intn ∧ rangdom intn 5 6 = some t ∧ 6 < (t.length : Int) := by
  obtain ⟨f, t, h1, h2, h3⟩ := C68_every_length (s := 5) (e := 6) (n := 15) (by decide) (by decide)
    (by decide)
  exact ⟨f, t, h1, h2, by omega⟩

example : ∃ t, rangdom (fun _ n => n - 1) 1 2 = some t ∧ 1 ≤ (t.length : Int) := by
  obtain ⟨t, h1, h2, -⟩ := C68_random_text_partial (intn := fun _ n => n - 1)
    (fun _ n hn => ⟨by show 0 ≤ n - 1; omega, by show n - 1 < n; omega⟩) (s := 1) (e := 2) (by decide) (by decide)
  exact ⟨t, h1, h2⟩

end Verif.Utils
