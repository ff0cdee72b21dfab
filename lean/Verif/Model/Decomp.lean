import Verif.Model.Scalar

/-!
# `SignedDecomposer` of concrete-core (trusted contract)

The source of concrete-core is not part of /repo.  These definitions transcribe the documented behaviour of
`concrete_core::commons::math::decomposition::{SignedDecomposer, SignedDecompositionIter}` which the code calls at
/repo/src/codec.rs:9,19,47, /repo/src/rlwe.rs (keyswitch), /repo/src/rgsw.rs:64-102 (external product) and /repo/src/lwe.rs.
-/

namespace Panacea

/-- `SignedDecomposer::closest_representable`: round (half up, wrapping) at bit `64 - baseLog*levelCount`.
Called at /repo/src/codec.rs:47 and inside every decomposition.  Shift semantics: meaningful for
`baseLog*levelCount < 64` (concrete-core debug-asserts it). -/
def closestRepresentable (baseLog levelCount : Nat) (x : Scalar) : Scalar :=
  let nonRep := 64 - baseLog * levelCount
  let nonRepMask := (1 : Scalar) <<< (nonRep - 1)
  let nonRepMsb := (x &&& nonRepMask) >>> (nonRep - 1)
  ((x >>> nonRep) + nonRepMsb) <<< nonRep

/-- `decompose_one_level`: one signed digit and the next state  (concrete-core, called by /repo/src/lwe.rs:188-190, /repo/src/rgsw.rs:64-102, /repo/src/rlwe.rs:643-691, 783-915). -/
def decomposeOneLevel (baseLog : Nat) (state : Scalar) : Scalar × Scalar :=
  let res := state &&& (((1 : Scalar) <<< baseLog) - 1)
  let st := state >>> baseLog
  let carry := (((res - 1) ||| st) &&& res) >>> (baseLog - 1)
  (res - (carry <<< baseLog), st + carry)

/-- `SignedDecompositionIter`: the digits in the order produced, i.e. level `levels`, `levels-1`, ..., 1  (concrete-core, called by /repo/src/lwe.rs:190, /repo/src/rlwe.rs:643-691). -/
def decomposeIter (baseLog : Nat) : (levels : Nat) → (state : Scalar) → List Scalar
  | 0, _ => []
  | k + 1, st =>
    let r := decomposeOneLevel baseLog st
    r.1 :: decomposeIter baseLog k r.2

/-- `SignedDecomposer::decompose(x)`: round, then iterate.  The head of the result is the digit of the *last* level  (concrete-core, called by /repo/src/lwe.rs:188-190, /repo/src/rlwe.rs:643-691). -/
def decompose (baseLog levelCount : Nat) (x : Scalar) : List Scalar :=
  decomposeIter baseLog levelCount (closestRepresentable baseLog levelCount x >>> (64 - baseLog * levelCount))

end Panacea
