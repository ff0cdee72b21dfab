import Verif.Model.Fourier
import Verif.Lemmas.ExtProd
import Mathlib.Algebra.Field.GeomSum

/-! # The exact negacyclic Fourier transform and the propagation of rounding errors -/

namespace Panacea
open Complex Finset
variable {n : Nat}

namespace Fourier

/-! ## Negacyclic products over any ring -/

/-- `X^m` reduced modulo `X^n + 1`, over any ring. -/
def monoR (R : Type) [CommRing R] (n m : Nat) (k : Fin n) : R := if m % n = k.val then (-1) ^ (m / n) else 0

/-- Negacyclic product over any ring. -/
def negMul {R : Type} [CommRing R] (x y : Fin n → R) : Fin n → R := fun k => ∑ i : Fin n, ∑ j : Fin n, x i * y j * monoR R n (i.val + j.val) k

theorem monoR_map {R S : Type} [CommRing R] [CommRing S] (f : R →+* S) (m : Nat) (k : Fin n) : f (monoR R n m k) = monoR S n m k := by
  unfold monoR; split <;> simp

theorem negMul_map {R S : Type} [CommRing R] [CommRing S] (f : R →+* S) (x y : Fin n → R) (k : Fin n) :
    f (negMul x y k) = negMul (fun i => f (x i)) (fun i => f (y i)) k := by
  unfold negMul
  rw [map_sum]
  refine Finset.sum_congr rfl fun i _ => ?_
  rw [map_sum]
  refine Finset.sum_congr rfl fun j _ => ?_
  rw [map_mul, map_mul, monoR_map]

theorem intCast_toInt (x : Scalar) : ((x.toInt : ℤ) : Scalar) = x := by
  exact BitVec.ofInt_toInt

/-- The negacyclic product of the signed coefficients, reduced modulo `2^64`, is the product of the polynomials. -/
theorem negMul_poly (p q : Poly n) (k : Fin n) :
    ((negMul (fun i => (p i).toInt) (fun i => (q i).toInt) k : ℤ) : Scalar) = (p * q) k := by
  have := negMul_map (Int.castRingHom Scalar) (fun i => (p i).toInt) (fun i => (q i).toInt) k
  have h2 : ((negMul (fun i => (p i).toInt) (fun i => (q i).toInt) k : ℤ) : Scalar)
      = negMul (fun i => (((p i).toInt : ℤ) : Scalar)) (fun i => (((q i).toInt : ℤ) : Scalar)) k := this
  rw [h2]
  simp only [intCast_toInt]
  rfl

/-! ## The transform is evaluation at the odd powers of `zeta` -/

theorem zeta_pow (m : Nat) : zeta n ^ m = Complex.exp (m * (Real.pi * I / n)) := by
  unfold zeta; rw [← Complex.exp_nat_mul]

theorem zeta_ne_zero : zeta n ≠ 0 := Complex.exp_ne_zero _

theorem norm_zeta : ‖zeta n‖ = 1 := by
  unfold zeta
  rw [show (Real.pi * I / n : ℂ) = ((Real.pi / n : ℝ) : ℂ) * I by push_cast; ring]
  exact Complex.norm_exp_ofReal_mul_I _

theorem zeta_pow_n (hn : 0 < n) : zeta n ^ n = -1 := by
  rw [zeta_pow]
  have : (n : ℂ) ≠ 0 := by exact_mod_cast hn.ne'
  rw [show (n : ℂ) * (Real.pi * I / n) = Real.pi * I by field_simp]
  exact Complex.exp_pi_mul_I

theorem zeta_pow_half (hn : 0 < n) (he : n % 2 = 0) : zeta n ^ (n / 2) = I := by
  rw [zeta_pow]
  have h0 : (n : ℂ) ≠ 0 := by exact_mod_cast hn.ne'
  have h2 : ((n / 2 : Nat) : ℂ) = n / 2 := by
    have : ((2 * (n / 2) : Nat) : ℂ) = n := by congr 1; omega
    push_cast at this
    rw [← this]; ring
  rw [h2, show (n : ℂ) / 2 * (Real.pi * I / n) = Real.pi / 2 * I by field_simp]
  exact Complex.exp_pi_div_two_mul_I

/-- The point at which entry `j` of the transform evaluates. -/
noncomputable def point (n j : Nat) : ℂ := zeta n ^ (4 * j + 1)

theorem norm_point (j : Nat) : ‖point n j‖ = 1 := by unfold point; rw [norm_pow, norm_zeta, one_pow]

theorem point_pow_n (hn : 0 < n) (j : Nat) : point n j ^ n = -1 := by
  unfold point
  rw [← pow_mul, mul_comm, pow_mul, zeta_pow_n hn]
  exact Odd.neg_one_pow ⟨2 * j, by ring⟩

theorem point_pow_half (hn : 0 < n) (he : n % 2 = 0) (j : Nat) : point n j ^ (n / 2) = I := by
  unfold point
  rw [← pow_mul, mul_comm, pow_mul, zeta_pow_half hn he, pow_add, pow_mul, Complex.I_pow_four, one_pow, one_mul, pow_one]

/-- Value of the polynomial with coefficients `x` at `y`. -/
noncomputable def evalC (x : Fin n → ℝ) (y : ℂ) : ℂ := ∑ k : Fin n, (x k : ℂ) * y ^ k.val

theorem sum_halves (he : n % 2 = 0) (f : Nat → ℂ) :
    ∑ k : Fin n, f k.val = ∑ k : Fin (n / 2), (f k.val + f (k.val + n / 2)) := by
  rw [Fin.sum_univ_eq_sum_range (fun k => f k) n, Fin.sum_univ_eq_sum_range (fun k => f k + f (k + n / 2)) (n / 2), Finset.sum_add_distrib]
  conv_lhs => rw [show n = n / 2 + n / 2 by omega]
  rw [Finset.sum_range_add]
  congr 1
  refine Finset.sum_congr rfl fun k _ => ?_
  rw [add_comm]

theorem forward_eq (hn : 0 < n) (he : n % 2 = 0) (x : Fin n → ℝ) (j : Fin (n / 2)) : forward x j = evalC x (point n j.val) := by
  have h1 : evalC x (point n j.val) = ∑ k : Fin n, (at0 x k.val : ℂ) * point n j.val ^ k.val := by
    unfold evalC
    refine Finset.sum_congr rfl fun k _ => ?_
    simp [at0]
  rw [h1, sum_halves he fun k => (at0 x k : ℂ) * point n j.val ^ k]
  unfold forward
  refine Finset.sum_congr rfl fun k _ => ?_
  rw [pow_add, point_pow_half hn he]
  have : point n j.val ^ k.val = zeta n ^ k.val * (zeta n ^ 4) ^ (j.val * k.val) := by
    unfold point
    rw [← pow_mul, ← pow_mul, ← pow_add]
    congr 1; ring
  rw [this]; ring

theorem sum_mono_pow {y : ℂ} (hn : 0 < n) (hy : y ^ n = -1) (m : Nat) : ∑ k : Fin n, monoR ℂ n m k * y ^ k.val = y ^ m := by
  rw [Finset.sum_eq_single (⟨m % n, Nat.mod_lt _ hn⟩ : Fin n)]
  · unfold monoR
    rw [if_pos rfl, ← hy, ← pow_mul, ← pow_add]
    congr 1
    rw [add_comm]; exact Nat.mod_add_div m n
  · intro b _ hb
    unfold monoR
    rw [if_neg, zero_mul]
    intro h; exact hb (Fin.ext h.symm)
  · simp

/-- Evaluation at a root of `X^n + 1` is multiplicative for the negacyclic product. -/
theorem evalC_negMul (hn : 0 < n) {y : ℂ} (hy : y ^ n = -1) (a b : Fin n → ℝ) : evalC (negMul a b) y = evalC a y * evalC b y := by
  have h1 : ∀ k, ((negMul a b k : ℝ) : ℂ) = ∑ i : Fin n, ∑ j : Fin n, (a i : ℂ) * (b j : ℂ) * monoR ℂ n (i.val + j.val) k := fun k =>
    negMul_map Complex.ofRealHom a b k
  unfold evalC
  rw [Finset.sum_mul_sum]
  simp only [h1, Finset.sum_mul]
  rw [Finset.sum_comm]
  refine Finset.sum_congr rfl fun i _ => ?_
  rw [Finset.sum_comm]
  refine Finset.sum_congr rfl fun j _ => ?_
  rw [show ∑ k : Fin n, (a i : ℂ) * (b j : ℂ) * monoR ℂ n (i.val + j.val) k * y ^ k.val
      = (a i : ℂ) * (b j : ℂ) * ∑ k : Fin n, monoR ℂ n (i.val + j.val) k * y ^ k.val by
    rw [Finset.mul_sum]; refine Finset.sum_congr rfl fun k _ => ?_; ring]
  rw [sum_mono_pow hn hy, pow_add]; ring

/-! ## The inverse -/

theorem omega_primitive (he : n % 2 = 0) (hn : 0 < n) : IsPrimitiveRoot (zeta n ^ 4) (n / 2) := by
  have h := Complex.isPrimitiveRoot_exp (n / 2) (by omega)
  have e : Complex.exp (2 * Real.pi * I / (n / 2 : Nat)) = zeta n ^ 4 := by
    rw [zeta_pow]
    congr 1
    have h0 : (n : ℂ) ≠ 0 := by exact_mod_cast hn.ne'
    have h2 : ((n / 2 : Nat) : ℂ) = n / 2 := by
      have : ((2 * (n / 2) : Nat) : ℂ) = n := by congr 1; omega
      push_cast at this
      rw [← this]; ring
    rw [h2]; push_cast; field_simp; ring
  rw [← e]; exact h

theorem orthogonal {w : ℂ} {h : Nat} (hw : IsPrimitiveRoot w h) {k l : Nat} (hk : k < h) (hl : l < h) :
    ∑ j : Fin h, w ^ (j.val * k) * (w ^ (j.val * l))⁻¹ = if k = l then (h : ℂ) else 0 := by
  have hw0 : w ≠ 0 := hw.ne_zero (by omega)
  have e : ∀ j : Fin h, w ^ (j.val * k) * (w ^ (j.val * l))⁻¹ = (w ^ k * (w ^ l)⁻¹) ^ j.val := fun j => by
    rw [mul_pow, inv_pow, ← pow_mul, ← pow_mul, mul_comm k, mul_comm l]
  simp only [e]
  rw [Fin.sum_univ_eq_sum_range (fun j => (w ^ k * (w ^ l)⁻¹) ^ j) h]
  by_cases hkl : k = l
  · subst hkl
    rw [if_pos rfl, mul_inv_cancel₀ (pow_ne_zero _ hw0)]
    simp
  · rw [if_neg hkl]
    have hr : w ^ k * (w ^ l)⁻¹ ≠ 1 := by
      intro h1
      have h2 : w ^ k = w ^ l := by
        have := congrArg (· * w ^ l) h1
        simpa [mul_assoc, inv_mul_cancel₀ (pow_ne_zero l hw0)] using this
      exact hkl (hw.pow_inj hk hl h2)
    rw [geom_sum_eq hr, mul_pow, inv_pow, ← pow_mul, ← pow_mul, mul_comm k, mul_comm l, pow_mul, pow_mul, hw.pow_eq_one]
    simp

theorem folded_forward (hn : 0 < n) (he : n % 2 = 0) (x : Fin n → ℝ) {l : Nat} (hl : l < n / 2) :
    folded (forward x) l = (at0 x l : ℂ) + (at0 x (l + n / 2) : ℂ) * I := by
  unfold folded forward
  set c : Nat → ℂ := fun k => ((at0 x k : ℂ) + (at0 x (k + n / 2) : ℂ) * I) * zeta n ^ k with hc
  have h1 : ∑ j : Fin (n / 2), (∑ k : Fin (n / 2), c k.val * (zeta n ^ 4) ^ (j.val * k.val)) * ((zeta n ^ 4) ^ (j.val * l))⁻¹
      = c l * (n / 2 : Nat) := by
    simp only [Finset.sum_mul]
    rw [Finset.sum_comm]
    rw [Finset.sum_eq_single (⟨l, hl⟩ : Fin (n / 2))]
    · have := orthogonal (omega_primitive he hn) hl hl
      rw [if_pos rfl] at this
      rw [← this, Finset.mul_sum]
      refine Finset.sum_congr rfl fun j _ => ?_
      ring
    · intro k _ hk
      have := orthogonal (omega_primitive he hn) k.isLt hl
      rw [if_neg (fun h => hk (Fin.ext h))] at this
      rw [show ∑ j : Fin (n / 2), c k.val * (zeta n ^ 4) ^ (j.val * k.val) * ((zeta n ^ 4) ^ (j.val * l))⁻¹
        = c k.val * ∑ j : Fin (n / 2), (zeta n ^ 4) ^ (j.val * k.val) * ((zeta n ^ 4) ^ (j.val * l))⁻¹ by
          rw [Finset.mul_sum]; refine Finset.sum_congr rfl fun j _ => ?_; ring]
      rw [this, mul_zero]
    · simp
  rw [h1]
  have hz : zeta n ^ l ≠ 0 := pow_ne_zero _ zeta_ne_zero
  have h2 : ((n / 2 : Nat) : ℂ) ≠ 0 := by
    have : n / 2 ≠ 0 := by omega
    exact_mod_cast this
  rw [hc]
  field_simp

/-- The two transforms are inverse to each other. -/
theorem backward_forward (hn : 0 < n) (he : n % 2 = 0) (x : Fin n → ℝ) : backward (forward x) = x := by
  funext k
  unfold backward
  by_cases h : k.val < n / 2
  · rw [if_pos h, folded_forward hn he x h]
    simp [at0]
  · rw [if_neg h, folded_forward hn he x (by omega)]
    have e : k.val - n / 2 + n / 2 = k.val := by omega
    simp [e, at0]

/-! ## Linearity and norms -/

theorem norm_evalC_le (x : Fin n → ℝ) {y : ℂ} (hy : ‖y‖ = 1) : ‖evalC x y‖ ≤ ∑ k, |x k| := by
  unfold evalC
  refine le_trans (norm_sum_le _ _) (Finset.sum_le_sum fun k _ => ?_)
  rw [norm_mul, norm_pow, hy, one_pow, mul_one, Complex.norm_real, Real.norm_eq_abs]

theorem norm_forward_le (hn : 0 < n) (he : n % 2 = 0) (x : Fin n → ℝ) (j : Fin (n / 2)) : ‖forward x j‖ ≤ ∑ k, |x k| := by
  rw [forward_eq hn he]; exact norm_evalC_le x (norm_point _)

theorem folded_sub (z w : FVec n) (k : Nat) : folded z k - folded w k = folded (fun j => z j - w j) k := by
  unfold folded
  rw [← sub_div, ← sub_mul, ← Finset.sum_sub_distrib]
  have : ∀ j : Fin (n / 2), z j * ((zeta n ^ 4) ^ (j.val * k))⁻¹ - w j * ((zeta n ^ 4) ^ (j.val * k))⁻¹
      = (z j - w j) * ((zeta n ^ 4) ^ (j.val * k))⁻¹ := fun j => by ring
  simp only [this]

theorem norm_folded_le (z : FVec n) (k : Nat) : ‖folded z k‖ ≤ (∑ j, ‖z j‖) / (n / 2 : Nat) := by
  unfold folded
  rw [norm_div, norm_mul, norm_inv, norm_pow, norm_zeta, one_pow, inv_one, mul_one, Complex.norm_natCast]
  refine div_le_div_of_nonneg_right (le_trans (norm_sum_le _ _) (Finset.sum_le_sum fun j _ => ?_)) (Nat.cast_nonneg _)
  rw [norm_mul, norm_inv, norm_pow, norm_pow, norm_zeta]
  simp

theorem abs_backward_sub_le (z w : FVec n) (k : Fin n) : |backward z k - backward w k| ≤ (∑ j, ‖z j - w j‖) / (n / 2 : Nat) := by
  unfold backward
  split
  · rw [← Complex.sub_re, folded_sub]
    exact le_trans (Complex.abs_re_le_norm _) (norm_folded_le _ _)
  · rw [← Complex.sub_im, folded_sub]
    exact le_trans (Complex.abs_im_le_norm _) (norm_folded_le _ _)

theorem mean_le {z : Fin (n / 2) → ℝ} {B : ℝ} (hB : 0 ≤ B) (h : ∀ j, z j ≤ B) : (∑ j, z j) / (n / 2 : Nat) ≤ B := by
  by_cases h0 : n / 2 = 0
  · rw [show ((n / 2 : Nat) : ℝ) = 0 by rw [h0]; simp, div_zero]; exact hB
  · have : (0 : ℝ) < (n / 2 : Nat) := by exact_mod_cast Nat.pos_of_ne_zero h0
    rw [div_le_iff₀ this]
    calc ∑ j, z j ≤ ∑ _j : Fin (n / 2), B := Finset.sum_le_sum fun j _ => h j
      _ = B * (n / 2 : Nat) := by rw [Finset.sum_const, Finset.card_univ, Fintype.card_fin, nsmul_eq_mul, mul_comm]

/-! ## Rounding to torus words -/

theorem roundAway_err (x : ℝ) : |x - roundAway x| ≤ 1 / 2 := by
  unfold roundAway
  split
  · have h1 := Int.floor_le (x + 1 / 2)
    have h2 := Int.lt_floor_add_one (x + 1 / 2)
    rw [abs_le]; constructor <;> linarith
  · have h1 := Int.le_ceil (x - 1 / 2)
    have h2 := Int.ceil_lt_add_one (x - 1 / 2)
    rw [abs_le]; constructor <;> linarith

theorem roundAway_int (m : ℤ) : roundAway (m : ℝ) = m := by
  unfold roundAway
  split
  · rw [Int.floor_eq_iff]; constructor <;> push_cast <;> linarith
  · rw [Int.ceil_eq_iff]; constructor <;> push_cast <;> linarith

/-- The word is within 3/2 of `2^64 x` modulo `2^64`. -/
theorem torusRound_spec (x : ℝ) : ∃ r : ℤ, torusRound x = BitVec.ofInt 64 r ∧ |x * 2 ^ 64 - r| ≤ 3 / 2 := by
  set t := roundAway ((x - roundAway x) * 2 ^ 64) with ht
  have h1 := roundAway_err ((x - roundAway x) * 2 ^ 64)
  rw [← ht] at h1
  have h2 := roundAway_err x
  have h3 : t ≤ 2 ^ 63 := by
    have h4 : (t : ℝ) ≤ 2 ^ 63 + 1 / 2 := by
      rw [abs_le] at h1 h2
      have : (x - roundAway x) * 2 ^ 64 ≤ 2 ^ 63 := by
        have := h2.2
        nlinarith
      linarith [h1.1]
    have h5 : (t : ℝ) < (2 ^ 63 + 1 : ℤ) := by push_cast; linarith
    have := Int.cast_lt.mp h5
    omega
  refine ⟨min (2 ^ 63 - 1) t + roundAway x * 2 ^ 64, ?_, ?_⟩
  · unfold torusRound
    rw [← ht]
    apply BitVec.eq_of_toInt_eq
    rw [BitVec.toInt_ofInt, BitVec.toInt_ofInt]
    rw [show ((2 : ℤ) ^ 64) = ((2 ^ 64 : Nat) : ℤ) by norm_num, Int.add_mul_bmod_self_right]
  · rw [show x * 2 ^ 64 - ((min (2 ^ 63 - 1) t + roundAway x * 2 ^ 64 : ℤ) : ℝ)
      = ((x - roundAway x) * 2 ^ 64 - t) + ((t : ℝ) - ((min (2 ^ 63 - 1) t : ℤ) : ℝ)) by push_cast; ring]
    have h6 : |(t : ℝ) - ((min (2 ^ 63 - 1) t : ℤ) : ℝ)| ≤ 1 := by
      rw [← Int.cast_sub, ← Int.cast_abs]
      have : |t - min (2 ^ 63 - 1) t| ≤ 1 := by
        rcases le_total (2 ^ 63 - 1) t with h | h
        · rw [min_eq_left h, abs_le]; omega
        · rw [min_eq_right h]; simp
      exact_mod_cast this
    refine le_trans (abs_add_le _ _) (le_trans (add_le_add h1 h6) (by norm_num))

theorem torusRound_zero : torusRound 0 = 0 := by
  have : roundAway 0 = 0 := by have := roundAway_int 0; simpa using this
  unfold torusRound
  rw [this]
  simp only [Int.cast_zero, sub_zero, zero_mul]
  rw [this]; decide

end Fourier

end Panacea
