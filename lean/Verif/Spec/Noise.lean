import Verif.Spec.Float
import Verif.Model.Noise

/-! # Order on the reported `f64` values, and what is assumed of `f64` addition and division -/

namespace Panacea

/-- `v ≤ x` as `f64` (false for `NaN`). -/
def F64Val.Le : F64Val → ℝ → Prop
  | .nan, _ => False
  | .negInf, _ => True
  | .fin y, x => y ≤ x

/-- `x ≤ v` as `f64`. -/
def F64Val.Ge : F64Val → ℝ → Prop
  | .nan, _ => False
  | .negInf, _ => False
  | .fin y, x => x ≤ y

/-- `v < x` as `f64`. -/
def F64Val.Lt : F64Val → ℝ → Prop
  | .nan, _ => False
  | .negInf, _ => True
  | .fin y, x => y < x

/-- Conversion, addition and division round to nearest (IEEE), `log2` faithfully. -/
def F64Arith.Ok (F : F64Arith) : Prop :=
  F.toF64Ops.Ok ∧ (∀ x y, NearestF64 (x + y) (F.add x y)) ∧ (∀ x y, y ≠ 0 → NearestF64 (x / y) (F.div x y))

end Panacea
