import Mathlib.Order.Defs.LinearOrder
import Verif.Common.Ord

/-!
Model of compare/compare.go.

Integer keys are `Int` (Go `int`, `int64`, ..., `uint64` all embed into it). The floating point
instances of `DefaultAny` are in `Verif.Compare.Float`. Byte strings and rune
slices are lists over an arbitrary linear order.
-/

namespace Verif.Compare

/-- compare/compare.go:120-130 `Any`. -/
def any (k1 k2 : Int) : Int :=
  if k1 > k2 then 1 else if k1 < k2 then -1 else 0

/-- compare/compare.go:132-142 `AnyDesc`. -/
def anyDesc (k1 k2 : Int) : Int :=
  if k1 > k2 then -1 else if k1 < k2 then 1 else 0

/-- compare/compare.go:108-118 `AnyEx`. -/
def anyEx (k1 k2 : Int) : Int :=
  if k1 > k2 then 0 else if k1 < k2 then 1 else -1

section
variable {α : Type} [LinearOrder α]

/-- The loop `for i := 0; i < len(short); i++ { if k1[i] != k2[i] { ... } }` that occurs in every
branch of compare/compare.go:10-102, 491-552: the first pair of differing elements within the
common length, if there is one. -/
def firstDiff : List α → List α → Option (α × α)
  | x :: xs, y :: ys => if x ≠ y then some (x, y) else firstDiff xs ys
  | _, _ => none

/-- compare/compare.go:68-102 `ArrayAny`. -/
def arrayAny (k1 k2 : List α) : Int :=
  if k1.length > k2.length then
    match firstDiff k1 k2 with
    | some (x, y) => if x > y then 1 else -1
    | none => 1
  else if k1.length < k2.length then
    match firstDiff k1 k2 with
    | some (x, y) => if x > y then 1 else -1
    | none => -1
  else
    match firstDiff k1 k2 with
    | some (x, y) => if x > y then 1 else -1
    | none => 0

/-- compare/compare.go:10-28 `ArrayLenAny`. -/
def arrayLenAny (k1 k2 : List α) : Int :=
  if k1.length > k2.length then 1
  else if k1.length < k2.length then -1
  else
    match firstDiff k1 k2 with
    | some (x, y) => if x > y then 1 else -1
    | none => 0

/-- compare/compare.go:31-65 `ArrayAnyEx`. Note that the branches for different lengths return
`1` for "greater", the branch for equal lengths returns `0` for "greater". -/
def arrayAnyEx (k1 k2 : List α) : Int :=
  if k1.length > k2.length then
    match firstDiff k1 k2 with
    | some (x, y) => if x > y then 1 else 0
    | none => 1
  else if k1.length < k2.length then
    match firstDiff k1 k2 with
    | some (x, y) => if x > y then 1 else 0
    | none => 0
  else
    match firstDiff k1 k2 with
    | some (x, y) => if x > y then 0 else 1
    | none => -1

/-- compare/compare.go:491-527 `RunesDesc`: parameters are declared as `(k2, k1)`, so the first
argument plays the role of `s2`. -/
def runesDesc (a b : List α) : Int :=
  let s1 := b
  let s2 := a
  if s1.length > s2.length then
    match firstDiff s1 s2 with
    | some (x, y) => if x > y then 1 else -1
    | none => 1
  else if s1.length < s2.length then
    match firstDiff s1 s2 with
    | some (x, y) => if x > y then 1 else -1
    | none => -1
  else
    match firstDiff s1 s2 with
    | some (x, y) => if x > y then 1 else -1
    | none => 0

/-- compare/compare.go:530-552 `RunesLenDesc`: parameters are declared as `(k2, k1)`. -/
def runesLenDesc (a b : List α) : Int :=
  let s1 := b
  let s2 := a
  if s1.length > s2.length then 1
  else if s1.length < s2.length then -1
  else
    match firstDiff s1 s2 with
    | some (x, y) => if x > y then 1 else -1
    | none => 0

end
end Verif.Compare
