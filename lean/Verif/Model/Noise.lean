import Verif.Model.Keyswitch
import Verif.Model.Float
import Verif.Model.Context

/-!
# The noise reports as `f64`: `compute_noise`, `compute_noise_encoded`, `compute_noise_ternary`, `compute_noise_rgsw1`
-/

namespace Panacea
variable {n : Nat}

/-- The `f64` values that can come out of the noise reports: `NaN`, minus infinity (`log2` of 0), or a finite number  (/repo/src/rgsw.rs:245-258, /repo/src/rlwe.rs:1255-1316). -/
inductive F64Val where
  | nan
  | negInf
  | fin (x : ℝ)

/-- The `f64` operations of the noise reports: conversion of integers, `log2`, addition and division  (/repo/src/rgsw.rs:245-258, /repo/src/rlwe.rs:1255-1316). -/
structure F64Arith extends F64Ops where
  add : ℝ → ℝ → ℝ
  div : ℝ → ℝ → ℝ

/-- `(max_e as f64).log2()`, /repo/src/rlwe.rs:1279, for a maximum that is not negative. -/
def F64Ops.log2Of (F : F64Ops) (z : Int) : F64Val := if z = 0 then .negInf else .fin (F.log2 (F.ofNat z.toNat))

/-- `compute_noise`, /repo/src/rlwe.rs:1255-1280; `none` = panic (checked build). -/
def computeNoise (F : F64Ops) (s : Poly n) (c : RLWE n) (encoded : Poly n) : Option F64Val := (computeNoiseMax s c encoded).map F.log2Of

/-- `compute_noise_ternary`, /repo/src/rlwe.rs:1282-1294. -/
def computeNoiseTernary (F : F64Ops) (s : Poly n) (c : RLWE n) (pt : Poly n) : Option F64Val := computeNoise F s c (polyTernaryDecode pt)

/-- `compute_noise_encoded`, /repo/src/rlwe.rs:1299-1312. -/
def computeNoiseEncoded (F : F64Ops) (codec : Codec) (s : Poly n) (c : RLWE n) (pt : Poly n) : Option F64Val :=
  match codec.polyEncode pt with
  | none => none
  | some enc => computeNoise F s c enc

/-- Addition of two such values  (/repo/src/rgsw.rs:245-258). -/
def F64Arith.addVal (F : F64Arith) : F64Val → F64Val → F64Val
  | .nan, _ => .nan
  | _, .nan => .nan
  | .negInf, _ => .negInf
  | _, .negInf => .negInf
  | .fin x, .fin y => .fin (F.add x y)

/-- Division by a level count: `0/0` is `NaN`  (/repo/src/rgsw.rs:245-258). -/
def F64Arith.divVal (F : F64Arith) : F64Val → Nat → F64Val
  | .fin x, k => if k = 0 then .nan else .fin (F.div x (F.ofNat k))
  | .negInf, _ => .negInf
  | .nan, _ => .nan

/-- One iteration of the loop of `compute_noise_rgsw1`, /repo/src/rgsw.rs:247-253; panics: underflow of the shift (line 248), a ring of
size 0 (249), a shift by 64 (250), a missing row (251), and those of `compute_noise`. -/
def rgswRowNoise (F : F64Ops) (ctx : Ctx) (s : Poly n) (C : RGSW n) (level : Nat) : Option F64Val :=
  if 64 < ctx.baseLog * (level + 1) then none
  else
    match genUnitPt n with
    | none => none
    | some pt =>
      if ctx.baseLog * (level + 1) = 0 then none
      else
        match C.getNthRow (level * 2 + 1) with
        | none => none
        | some row => computeNoise F s row (pt.mulConst ((1 : Scalar) <<< (64 - ctx.baseLog * (level + 1))))

/-- The loop of `compute_noise_rgsw1`, /repo/src/rgsw.rs:247-253. -/
def rgswNoiseLoop (F : F64Arith) (ctx : Ctx) (s : Poly n) (C : RGSW n) : List Nat → F64Val → Option F64Val
  | [], total => some total
  | level :: levels, total =>
    match rgswRowNoise F.toF64Ops ctx s C level with
    | none => none
    | some v => rgswNoiseLoop F ctx s C levels (F.addVal total v)

/-- `compute_noise_rgsw1`, /repo/src/rgsw.rs:243-255. -/
def computeNoiseRgsw1 (F : F64Arith) (ctx : Ctx) (s : Poly n) (C : RGSW n) : Option F64Val :=
  (rgswNoiseLoop F ctx s C (List.range ctx.levelCount) (.fin 0)).map fun total => F.divVal total ctx.levelCount

/-- The loop of `compute_noise`, /repo/src/rlwe.rs:1271-1278, in a release build, where `abs()` of -2^63 wraps to -2^63. -/
def computeNoiseMaxRelease (s : Poly n) (c : RLWE n) (encoded : Poly n) : Int :=
  let pt := decryptRlwe s c - encoded
  (List.finRange n).foldl (fun maxE k =>
    let z : Int := if (pt k).toInt = -2 ^ 63 then -2 ^ 63 else |(pt k).toInt|
    if maxE < z then z else maxE) 0

end Panacea
