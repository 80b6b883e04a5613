/-! Model of filter/bloom/bloom.go. `none` is a panic. -/

namespace Verif.Bloom

abbrev Byte := BitVec 8

/-- The `hash.Hash64` used by the filter (`fnv.New64()`): a state that accumulates written bytes
until `Reset`. Any hash function; the sum is a uint64. -/
structure Hash64 where
  σ : Type
  init : σ
  write : σ → List Byte → σ
  sum : σ → BitVec 64

variable (H : Hash64)

/-- filter/bloom/bloom.go:11-16. uint64 fields are natural numbers below 2^64; arithmetic that may
wrap does so explicitly. -/
structure Bloom where
  bits : List Byte
  hitSize : Nat
  cap : Nat
  hs : H.σ

/-- bloom.go:29-36 `New`. The allocation is assumed to succeed. -/
def new (bitsCap : Nat) : Bloom H :=
  let bsize := ((bitsCap + 7) % 2 ^ 64) >>> 3
  { bits := List.replicate bsize 0, hitSize := 0, cap := (bsize <<< 3) % 2 ^ 64, hs := H.init }

variable {H}

/-- The mask of 55-60 and 86-91. -/
def mask (bitnum : Nat) : Byte := BitVec.ofNat 8 (1 <<< (bitnum % 8))

/-- bloom.go:49-67 `AddBytes`; the deferred `Reset` of the hash runs last. -/
def addBytes (bl : Bloom H) (key : List Byte) : Option (Bloom H × Bool) := do
  let hs := H.write bl.hs key
  let h := (H.sum hs).toNat
  if bl.cap = 0 then none                                  -- division by zero
  let bitnum := h % bl.cap
  let bytenum := bitnum >>> 3
  let bset := mask bitnum
  let b ← bl.bits[bytenum]?
  let isExists := (b &&& bset) != 0
  let hit := if !isExists then (bl.hitSize + 1) % 2 ^ 64 else bl.hitSize
  return ({ bl with bits := bl.bits.set bytenum (b ||| bset), hitSize := hit, hs := H.init },
    isExists)

/-- bloom.go:80-94 `ContainsBytes`. -/
def containsBytes (bl : Bloom H) (key : List Byte) : Option (Bloom H × Bool) := do
  let hs := H.write bl.hs key
  let h := (H.sum hs).toNat
  if bl.cap = 0 then none
  let bitnum := h % bl.cap
  let bytenum := bitnum >>> 3
  let bset := mask bitnum
  let b ← bl.bits[bytenum]?
  return ({ bl with hs := H.init }, (b &&& bset) != 0)

/-- `copy(bits[bp:], bits[:bp])` for `bp < len(bits)`. -/
def copyUp (bits : List Byte) (bp : Nat) : List Byte :=
  let n := min (bits.length - bp) bp
  bits.take bp ++ bits.take n ++ bits.drop (bp + n)

/-- The loop of bloom.go:121-123, entered with `bp ≥ 1`. -/
def clearLoop (bits : List Byte) (bp : Nat) : List Byte :=
  if h : 0 < bp ∧ bp < bits.length then clearLoop (copyUp bits bp) (bp * 2) else bits
  termination_by bits.length - bp
  decreasing_by simp only [copyUp, List.length_append, List.length_take, List.length_drop]; omega

/-- bloom.go:114-126 `Reset`. -/
def reset (bl : Bloom H) : Bloom H :=
  if bl.bits.length = 0 then bl
  else { bl with bits := clearLoop (bl.bits.set 0 0) 1, hitSize := 0 }

/-- encoding/binary: a uint64 in big endian. -/
def be64 (n : Nat) : List Byte :=
  [7, 6, 5, 4, 3, 2, 1, 0].map fun i => BitVec.ofNat 8 (n >>> (8 * i))

/-- bloom.go:129-135 `Encode`. -/
def encode (bl : Bloom H) : List Byte := be64 bl.hitSize ++ be64 bl.cap ++ bl.bits

/-- `binary.Read(reader, BigEndian, &u)` for a uint64 `u`, the error ignored by the caller: the new
value and the rest of the input. -/
def readU64 (old : Nat) (inp : List Byte) : Nat × List Byte :=
  if inp.length < 8 then (old, [])
  else ((inp.take 8).foldl (fun acc b => acc * 256 + b.toNat) 0, inp.drop 8)

/-- `binary.Read(reader, BigEndian, &bits)` for a byte slice: it fills the existing elements of the
slice and never changes its length. -/
def readBytes (old : List Byte) (inp : List Byte) : List Byte :=
  if inp.length < old.length then old else inp.take old.length

/-- bloom.go:138-143 `Decode`. -/
def decode (bl : Bloom H) (inp : List Byte) : Bloom H :=
  let bits : List Byte := []                               -- bl.bits[:0]
  let (hitSize, inp) := readU64 bl.hitSize inp
  let (cap, inp) := readU64 bl.cap inp
  { bl with bits := readBytes bits inp, hitSize := hitSize, cap := cap }

variable (H) in
/-- bloom.go:18-26 `NewByDecode`. -/
def newByDecode (inp : List Byte) : Bloom H :=
  decode { bits := [], hitSize := 0, cap := 0, hs := H.init } inp

inductive Op where
  | add (key : List Byte) | contains (key : List Byte) | reset | hitSize | cap

inductive Res where
  | unit | bool (b : Bool) | nat (n : Nat)
  deriving DecidableEq

/-- One call. `Add` and `Contains` (39-46, 70-77) encode the key with encoding/binary first,
which is in Bloom/Value. -/
def step (bl : Bloom H) : Op → Option (Bloom H × Res)
  | .add k => (addBytes bl k).map fun p => (p.1, .bool p.2)
  | .contains k => (containsBytes bl k).map fun p => (p.1, .bool p.2)
  | .reset => some (reset bl, .unit)
  | .hitSize => some (bl, .nat bl.hitSize)                 -- 102-104
  | .cap => some (bl, .nat bl.cap)                         -- 97-99

end Verif.Bloom
