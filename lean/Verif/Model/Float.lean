import Mathlib.Analysis.SpecialFunctions.Log.Base

/-!
# The floating point computation of the number of label bits, /repo/src/decision_tree.rs:378
-/

namespace Panacea

/-- The two `f64` operations of /repo/src/decision_tree.rs:378: the conversion `x as f64` of a `usize` and `f64::log2`.  They are arbitrary
functions; `F64Ops.Ok` (`Spec/Float`) says what is assumed of them. -/
structure F64Ops where
  ofNat : Nat → ℝ
  log2 : ℝ → ℝ

/-- `(x as f64).log2().ceil() as usize`, /repo/src/decision_tree.rs:378 (`ceil` is exact; `as usize` maps negative numbers to 0). -/
noncomputable def F64Ops.ceilLog2 (F : F64Ops) (x : Nat) : Nat := ⌈F.log2 (F.ofNat x)⌉₊

end Panacea
