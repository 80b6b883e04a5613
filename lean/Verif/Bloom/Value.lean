import Verif.Bloom.Props

/-! Model of `Add` and `Contains` of filter/bloom/bloom.go, whose keys are Go values of any type. They are written with
`binary.Write` of encoding/binary, in big endian.

Simplifications: a struct is a chain of pairs that ends with `unit`, without fields named `_`. Floats are their bits.
A pointer counts as what it points to, so there are none. Complex numbers are pairs of floats. -/

namespace Verif.Bloom

/-- Types of Go: `num w` is one of intN, uintN and floatN with N = 8 w; `word` is int, uint or uintptr. -/
inductive Ty where
  | bool | num (w : Nat) | word | str | unit | pair (a b : Ty) | arr (n : Nat) (t : Ty) | slice (t : Ty)

/-- The values of a type. -/
def Ty.Val : Ty → Type
  | .bool => Bool
  | .num w => BitVec (8 * w)
  | .word => BitVec 64
  | .str => List Byte
  | .unit => Unit
  | .pair a b => a.Val × b.Val
  | .arr n t => Fin n → t.Val
  | .slice t => List t.Val

/-- encoding/binary `sizeof`: types whose values all have the same size; -1 for the others is here `none`. -/
def Ty.size : Ty → Option Nat
  | .bool => some 1
  | .num w => some w
  | .word | .str | .slice _ => none
  | .unit => some 0
  | .pair a b => a.size.bind fun x => b.size.map fun y => x + y
  | .arr n t => t.size.map fun x => n * x

/-- encoding/binary `dataSize`: what `binary.Write` takes, a value of fixed size or a slice of such values. -/
def Ty.taken : Ty → Bool
  | .slice t => t.size.isSome
  | t => t.size.isSome

/-- A number of `w` bytes in big endian. -/
def beBytes (w : Nat) (x : BitVec (8 * w)) : List Byte :=
  (List.range w).reverse.map fun i => (x >>> (8 * i)).setWidth 8

/-- encoding/binary `encoder.value`. It is not called for `word` and `str`. -/
def Ty.enc : (t : Ty) → t.Val → List Byte
  | .bool, b => [match (b : Bool) with | true => 1 | false => 0]
  | .num w, x => beBytes w x
  | .word, _ => []
  | .str, _ => []
  | .unit, _ => []
  | .pair a b, v => a.enc v.1 ++ b.enc v.2
  | .arr n t, v => (List.finRange n).flatMap fun i => t.enc (v i)
  | .slice t, (l : List t.Val) => l.flatMap fun x => t.enc x

/-- A value with its type, as in an `interface{}`. -/
structure Key where
  ty : Ty
  val : ty.Val

/-- The bytes that stand for the key. -/
def Key.bytes (k : Key) : List Byte := k.ty.enc k.val

inductive VOp where
  | add (k : Key) | contains (k : Key) | other (o : Op)

/-- `refused`: a panic with the error of `binary.Write`, after which the caller may go on. -/
inductive VRes where
  | refused | ok (r : Res)
  deriving DecidableEq

variable {H : Hash64}

/-- bloom.go:39-46 `Add`, 70-77 `Contains`: they panic before they touch the filter when the key is not taken. -/
def stepV (bl : Bloom H) : VOp → Option (Bloom H × VRes)
  | .add k => if k.ty.taken then (step bl (.add k.bytes)).map fun p => (p.1, .ok p.2) else some (bl, .refused)
  | .contains k =>
    if k.ty.taken then (step bl (.contains k.bytes)).map fun p => (p.1, .ok p.2) else some (bl, .refused)
  | .other o => (step bl o).map fun p => (p.1, .ok p.2)

end Verif.Bloom
