import Verif.Model.Float

/-!
# IEEE double precision numbers, for `Model/Float`
-/

namespace Panacea

/-- `y` is a finite `f64`: 53 bits of mantissa, exponent from -1074 to 971. -/
def IsF64 (y : ℝ) : Prop := ∃ m e : ℤ, |m| ≤ 2 ^ 53 ∧ -1074 ≤ e ∧ e ≤ 971 ∧ y = m * (2 : ℝ) ^ e

/-- `y` is a nearest `f64` to the real number `t` (any tie-breaking rule). -/
def NearestF64 (t y : ℝ) : Prop := IsF64 y ∧ ∀ z, IsF64 z → |y - t| ≤ |z - t|

/-- `y` is one of the two `f64` around `t`, or `t` itself if that is an `f64` (error below one unit in the last place). -/
def FaithfulF64 (t y : ℝ) : Prop := IsF64 y ∧ ∀ z, IsF64 z → ¬ (y < z ∧ z ≤ t) ∧ ¬ (t ≤ z ∧ z < y)

/-- What the theorems assume of the `f64` operations: the conversion rounds to nearest (guaranteed by Rust) and `log2` of a positive number
is faithfully rounded (true of the usual libraries; correct rounding implies it). -/
def F64Ops.Ok (F : F64Ops) : Prop :=
  (∀ x : Nat, NearestF64 x (F.ofNat x)) ∧ ∀ y, 0 < y → FaithfulF64 (Real.logb 2 y) (F.log2 y)

/-- `log2` is even correctly rounded. -/
def F64Ops.Exact (F : F64Ops) : Prop :=
  (∀ x : Nat, NearestF64 x (F.ofNat x)) ∧ ∀ y, 0 < y → NearestF64 (Real.logb 2 y) (F.log2 y)

end Panacea
