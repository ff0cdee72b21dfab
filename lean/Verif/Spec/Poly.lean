import Verif.Lemmas.Poly

/-!
# Specification vocabulary for polynomials in Z_(2^64)[X]/(X^n+1)

The ring structure on `Poly n` (proved in `Lemmas/Poly.lean`) is the negacyclic one of `Poly.mul`.
-/
namespace Panacea
open Finset
namespace Spec

/-- The value of the polynomial `p` at a ring element `y`: the sum of `p_i y^i`. -/
def evalAt {n : Nat} (p : Poly n) (y : Poly n) : Poly n := ∑ i : Fin n, Poly.const n (p i) * y ^ i.val

/-- The indeterminate `X` (for `n = 1` it is the constant `-1`). -/
def X (n : Nat) : Poly n := Poly.mono n 1

end Spec

/-- Every coefficient, read as a centred integer, has absolute value at most `B`. -/
def Small {n : Nat} (p : Poly n) (B : Nat) : Prop := ∀ k : Fin n, (p k).toInt.natAbs ≤ B

/-- Centred absolute value of a word. -/
abbrev nrm (x : Scalar) : Nat := x.toInt.natAbs

/-- Largest centred absolute value of a coefficient. -/
def supNorm {n : Nat} (p : Poly n) : Nat := Finset.univ.sup fun i => nrm (p i)

/-- Sum of centred absolute values of the coefficients. -/
def l1 {n : Nat} (p : Poly n) : Nat := ∑ i : Fin n, nrm (p i)

end Panacea
