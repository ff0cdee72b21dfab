import Verif.Model.Scalar
import Mathlib.Algebra.BigOperators.Fin

/-!
# Polynomials modulo X^n + 1 over 64-bit words

`Polynomial<Vec<Scalar>>` of concrete-core: a vector of `n` wrapping 64-bit coefficients.  `Poly n` is that vector.
Only the *operations* are defined here; that they form a commutative ring is proved in `Lemmas/Poly.lean`.
-/

namespace Panacea

open Finset

/-- A polynomial of `n` coefficients (concrete-core `Polynomial`, used everywhere in /repo/src/rlwe.rs). -/
@[ext (iff := false)] structure Poly (n : Nat) where
  coeff : Fin n → Scalar

namespace Poly

variable {n : Nat}

/-- Support: `p k` is coefficient `k`. -/
instance : CoeFun (Poly n) (fun _ => Fin n → Scalar) := ⟨coeff⟩

/-- Support: equality of coefficient vectors. -/
instance : DecidableEq (Poly n) := fun p q =>
  decidable_of_iff (∀ k, p k = q k) ⟨fun h => Poly.ext (funext h), fun h _ => by rw [h]⟩

/-- The all-zero polynomial (`allocate`, /repo/src/rlwe.rs:44-49; `gen_zero_pt`, /repo/src/context.rs:221-224). -/
instance : Zero (Poly n) := ⟨⟨fun _ => 0⟩⟩
/-- Coefficient-wise wrapping addition (`update_with_wrapping_add`, used at /repo/src/rlwe.rs:86-101,158-166). -/
instance : Add (Poly n) := ⟨fun p q => ⟨fun k => p k + q k⟩⟩
/-- Coefficient-wise wrapping negation (support: subtraction from zero, as in /repo/src/rlwe.rs:282-300). -/
instance : Neg (Poly n) := ⟨fun p => ⟨fun k => - p k⟩⟩
/-- Coefficient-wise wrapping subtraction (`update_with_wrapping_sub`, used at /repo/src/rlwe.rs:96-101,139-143,163-166). -/
instance : Sub (Poly n) := ⟨fun p q => ⟨fun k => p k - q k⟩⟩

/-- The monomial `X^m` reduced modulo `X^n + 1`: coefficient `m % n` is `(-1)^(m / n)`  (/repo/src/rlwe.rs:168-175; concrete-core). -/
def mono (n m : Nat) : Poly n := ⟨fun k => if m % n = k.val then (-1) ^ (m / n) else 0⟩

/-- Negacyclic product (concrete-core `update_with_wrapping_add_mul` and the Fourier products up to their error):
the sum of `p_i q_j X^(i+j)` reduced modulo `X^n + 1`  (/repo/src/rlwe.rs:1181-1203). -/
def mul (p q : Poly n) : Poly n := ⟨fun k => ∑ i : Fin n, ∑ j : Fin n, p i * q j * mono n (i.val + j.val) k⟩

/-- The negacyclic product as `*`, /repo/src/rlwe.rs:1181-1203. -/
instance : Mul (Poly n) := ⟨mul⟩
/-- The constant polynomial 1 (`gen_unit_pt`, /repo/src/context.rs:206-214, before encoding). -/
instance : One (Poly n) := ⟨mono n 0⟩

/-- `utils::mul_const`, /repo/src/utils.rs:11-18: multiply every coefficient by a word, wrapping. -/
def mulConst (p : Poly n) (c : Scalar) : Poly n := ⟨fun k => p k * c⟩

/-- The polynomial with a single (constant) coefficient `c`; the all-zero vector with element 0 set  (/repo/src/context.rs:206-214). -/
def const (n : Nat) (c : Scalar) : Poly n := ⟨fun k => if k.val = 0 then c else 0⟩

/-- Write coefficient `j` of a buffer (`*p.get_element_mut(j) = v`)  (/repo/src/context.rs:187-195). -/
def set (p : Poly n) (j : Nat) (v : Scalar) : Poly n := ⟨fun k => if k.val = j then v else p k⟩

/-- Coefficient `i` as a total function (the code only reads in-range indices)  (/repo/src/context.rs:187-195). -/
def get (p : Poly n) (i : Nat) : Scalar := if h : i < n then p ⟨i, h⟩ else 0

end Poly

/-- Body of the loop of `eval_x_k_in_memory`, /repo/src/utils.rs:46-56, for index `i`. -/
def evalXkStep {n : Nat} (p : Poly n) (k : Nat) (out : Poly n) (i : Nat) : Poly n :=
  let j := i * k % n
  let sign : Scalar := if (i * k) / n % 2 == 0 then 1 else 0xFFFFFFFFFFFFFFFF#64
  out.set j (sign * p.get i)

/-- `utils::eval_x_k_in_memory`, /repo/src/utils.rs:36-57: the loop writes into the caller's buffer `out`.
`none` = a failed assertion.  The `usize` product `i*k` is taken exact (it is below `n^2` at every call site). -/
def evalXkInMemory {n : Nat} (out p : Poly n) (k : Nat) : Option (Poly n) :=
  if k % 2 = 1 then
    if isPow2 n then
      some ((List.range' 1 (n - 1)).foldl (evalXkStep p k) (out.set 0 (p.get 0)))
    else none
  else none

/-- `utils::eval_x_k`, /repo/src/utils.rs:26-33: same with a fresh zero buffer. -/
def evalXk {n : Nat} (p : Poly n) (k : Nat) : Option (Poly n) := evalXkInMemory 0 p k

end Panacea
