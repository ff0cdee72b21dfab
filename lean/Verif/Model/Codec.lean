import Verif.Model.Decomp

/-! # Codec, /repo/src/codec.rs -/

namespace Panacea

/-- `struct Codec`, /repo/src/codec.rs:8-11.  The decomposer is represented by its base log; its level count is 1. -/
structure Codec where
  baseLog : Nat
  delta : Scalar
deriving DecidableEq, Repr

namespace Codec

/-- `Codec::new`, /repo/src/codec.rs:14-25.  `none` = panic: not a power of two, `log2` underflow, or the
shift `1 << (64 - logt)` by 64 (checked build). -/
def new (t : Scalar) : Option Codec :=
  if !isPow2 t.toNat then none
  else match log2 t.toNat with
    | none => none
    | some logt =>
      if 64 - logt < 64 then some { baseLog := logt, delta := (1 : Scalar) <<< (64 - logt) } else none

/-- `Codec::largest_error`, /repo/src/codec.rs:27-29. -/
def largestError (c : Codec) : Scalar := c.delta / 2

/-- `Codec::pt_modulus_bits`, /repo/src/codec.rs:31-33. -/
def ptModulusBits (c : Codec) : Nat := c.baseLog

/-- `Codec::pt_modulus`, /repo/src/codec.rs:35-37. -/
def ptModulus (c : Codec) : Scalar := (1 : Scalar) <<< c.baseLog

/-- `Codec::encode`, /repo/src/codec.rs:39-44.  `none` = panic: too big, or (checked build) the product overflows. -/
def encode (c : Codec) (x : Scalar) : Option Scalar :=
  if c.ptModulus ≤ x then none
  else if x.toNat * c.delta.toNat < 2 ^ 64 then some (x * c.delta) else none

/-- `Codec::decode`, /repo/src/codec.rs:46-49. -/
def decode (c : Codec) (x : Scalar) : Scalar := closestRepresentable c.baseLog 1 x / c.delta

end Codec

/-- `THIRD` of `ternary_encode`, /repo/src/codec.rs:53: `(u64::MAX as f64 / 3.0) as u64`.
`u64::MAX as f64` is 2^64 and 2^64/3 rounded to 53 significant bits is this value (f64 rounding trusted). -/
def encTHIRD : Scalar := 0x5555555555555400#64
/-- `SIXTH`, /repo/src/codec.rs:66: `(u64::MAX as f64 / 6.0) as u64` (f64 rounding trusted). -/
def decSIXTH : Scalar := 0x2AAAAAAAAAAAAA00#64
/-- `THIRD` of `ternary_decode`, /repo/src/codec.rs:67. -/
def decTHIRD : Scalar := decSIXTH + decSIXTH
/-- `HALF`, /repo/src/codec.rs:68: `u64::MAX / 2`. -/
def decHALF : Scalar := 0x7FFFFFFFFFFFFFFF#64
/-- `Scalar::MAX`, i.e. -1  (/repo/src/codec.rs:58, 72). -/
def scalarMAX : Scalar := 0xFFFFFFFFFFFFFFFF#64

/-- `Codec::ternary_encode`, /repo/src/codec.rs:52-63. -/
def ternaryEncode (x : Scalar) : Option Scalar :=
  if x = 0 then some 0
  else if x = 1 then some encTHIRD
  else if x = scalarMAX then some (2 * encTHIRD)
  else none

/-- `Codec::ternary_decode`, /repo/src/codec.rs:65-76. -/
def ternaryDecode (x : Scalar) : Scalar :=
  if decSIXTH < x ∧ x ≤ decHALF then 1
  else if decHALF < x ∧ x ≤ decHALF + decTHIRD then scalarMAX
  else 0

end Panacea
