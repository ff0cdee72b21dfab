import Mathlib.Data.Int.Basic

/-! # Specification vocabulary for encoded plaintexts -/

namespace Panacea.Spec

/-- The error `e` lies in the half-open half-delta window of plaintext modulus `t`:
`-delta/2 ≤ e < delta/2` with `delta = 2^64 / t`. -/
def InWindow (t : Nat) (e : Int) : Prop := -(2 ^ 64 / (t : Int)) ≤ 2 * e ∧ 2 * e < 2 ^ 64 / (t : Int)

end Panacea.Spec
