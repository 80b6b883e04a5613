import Verif.Common.Tac

/-! Model of /repo/utils.go.

Simplifications: a function `do` either returns or panics (it does not run for ever and does not call
`runtime.Goexit`); `Expect` (utils.go:39-44), a comparison of printed text, is not modelled. -/

namespace Verif.Utils

/-- A value given to `panic`: one that implements `error`, or another one. (`panic(nil)` gives an
error, since Go 1.21.) -/
inductive PanicValue (E X : Type) where
  | error (e : E) | other (x : X)

/-- How a call of a function without results ends. -/
inductive End (E X : Type) where
  | returns | panics (p : PanicValue E X)

/-- How a call of a function with result `A` ends. -/
inductive Result (E X A : Type) where
  | returns (a : A) | panics (p : PanicValue E X)

/-- The builtin `recover()` in a deferred function: nil if there is no panic. -/
def recovered {E X : Type} : End E X → Option (PanicValue E X)
  | .returns => none
  | .panics p => some p

/-- The type assertion `v.(error)` of Go without a second result: it panics with a run-time error
`typeError` if `v` is nil or not an error. -/
def assertError {E X : Type} (typeError : E) : Option (PanicValue E X) → Result E X E
  | some (.error e) => .returns e
  | _ => .panics (.error typeError)

/-- utils.go:10-16 `TryPanic`. The result `none` is the nil error. The deferred function runs also if
`do` returns; what it assigns to `err` is the result. -/
def tryPanic {E X : Type} (typeError : E) (d : End E X) : Result E X (Option E) :=
  match assertError typeError (recovered d) with
  | .returns e => .returns (some e)
  | .panics p => .panics p

/-- utils.go:18 `basechars`. -/
def basechars : List Char :=
  "qwertyuiopasdfghjklzxcvbnmQWERTYUIOPASDFGHJKLZXCVBNM0123456789".toList

/-- utils.go:20-37 `Rangdom`. `intn i n` is what the `i`-th call of `r.Intn(n)` returns; it panics if
`n ≤ 0`. `make` panics on a negative length. `none` is a panic. -/
def rangdom (intn : Nat → Int → Int) (s e : Int) : Option (List Char) :=
  if e + s ≤ 0 then none
  else
    let msize := intn 0 (e + s) + s
    if msize < 0 then none
    else (List.range msize.toNat).mapM fun i => basechars[(intn (i + 1) basechars.length).toNat]?

end Verif.Utils
