import Verif.Compare.Props
import Mathlib.Order.Compare

/-! The comparators of compare/compare.go on floating point numbers, which are among the types they are
offered for (compare/compare.go:104-106 `DefaultAny`). -/

namespace Verif.Float

variable {F α : Type} [LinearOrder α]

/-- `a > b` of the Go specification: false if one of them is not a number. `val` gives the place of a
float in the order of the numbers (the same for 0 and -0), `none` for NaN. -/
def gt (val : F → Option α) (a b : F) : Bool :=
  match val a, val b with
  | some x, some y => decide (y < x)
  | _, _ => false

/-- compare/compare.go:120-130 `Any` on floats. -/
def any (val : F → Option α) (k1 k2 : F) : Int :=
  if gt val k1 k2 then 1 else if gt val k2 k1 then -1 else 0

/-- compare/compare.go:132-142 `AnyDesc` on floats. -/
def anyDesc (val : F → Option α) (k1 k2 : F) : Int :=
  if gt val k1 k2 then -1 else if gt val k2 k1 then 1 else 0

/-- compare/compare.go:108-118 `AnyEx` on floats. -/
def anyEx (val : F → Option α) (k1 k2 : F) : Int :=
  if gt val k1 k2 then 0 else if gt val k2 k1 then 1 else -1

end Verif.Float
