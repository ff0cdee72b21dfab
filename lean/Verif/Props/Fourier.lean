import Verif.Lemmas.Fourier
import Verif.Props.Keyswitch
import Mathlib.Algebra.BigOperators.Field

/-! # C65: the Fourier domain -/

namespace Panacea
open Complex Finset
variable {n : Nat}

namespace Fourier

/-- Exact transform of a formal sum of products, in torus units. -/
noncomputable def exactSum (ts : FPoly n) : FVec n := fun j =>
  (ts.map fun t => forward (asInteger t.1) j * forward (asInteger t.2) j).sum / 2 ^ 64

/-- Sum of the products of l1 norms. -/
def mag (ts : FPoly n) : Nat := (ts.map fun t => l1 t.1 * l1 t.2).sum

/-- The integer polynomial a formal sum stands for. -/
def intSum (ts : FPoly n) (k : Fin n) : ℤ := (ts.map fun t => negMul (fun i => (t.1 i).toInt) (fun i => (t.2 i).toInt) k).sum

theorem mag_append (u v : FPoly n) : mag (u ++ v) = mag u + mag v := by
  unfold mag; rw [List.map_append, List.sum_append]

theorem exactSum_append (u v : FPoly n) (j) : exactSum (u ++ v) j = exactSum u j + exactSum v j := by
  unfold exactSum; rw [List.map_append, List.sum_append, add_div]

theorem l1_real (p : Poly n) : ∑ k, |asInteger p k| = (l1 p : ℝ) := by
  unfold asInteger l1 nrm
  rw [Nat.cast_sum]
  refine Finset.sum_congr rfl fun k _ => ?_
  rw [Nat.cast_natAbs, Int.cast_abs]

theorem l1_torus (p : Poly n) : ∑ k, |asTorus p k| = (l1 p : ℝ) / 2 ^ 64 := by
  rw [← l1_real, Finset.sum_div]
  refine Finset.sum_congr rfl fun k _ => ?_
  unfold asTorus asInteger
  rw [abs_div, abs_of_pos (show (0 : ℝ) < 2 ^ 64 by positivity)]

theorem forward_torus (p : Poly n) (j) : forward (asTorus p) j = forward (asInteger p) j / 2 ^ 64 := by
  unfold forward
  rw [Finset.sum_div]
  refine Finset.sum_congr rfl fun k _ => ?_
  have h : ∀ i, at0 (asTorus p) i = at0 (asInteger p) i / 2 ^ 64 := fun i => by
    unfold at0 asTorus asInteger; split <;> simp
  rw [h, h]; push_cast; ring

theorem norm_forward_int (hn : 0 < n) (he : n % 2 = 0) (p : Poly n) (j) : ‖forward (asInteger p) j‖ ≤ l1 p := by
  rw [← l1_real]; exact norm_forward_le hn he _ j

theorem norm_exactSum (hn : 0 < n) (he : n % 2 = 0) (ts : FPoly n) (j) : ‖exactSum ts j‖ ≤ (mag ts : ℝ) / 2 ^ 64 := by
  unfold exactSum
  rw [norm_div]
  have h64 : ‖(2 ^ 64 : ℂ)‖ = 2 ^ 64 := by simp
  rw [h64]
  refine div_le_div_of_nonneg_right ?_ (by positivity)
  induction ts with
  | nil => simp [mag]
  | cons t ts ih =>
    rw [List.map_cons, List.sum_cons]
    have e : mag (t :: ts) = l1 t.1 * l1 t.2 + mag ts := rfl
    rw [e, Nat.cast_add, Nat.cast_mul]
    refine le_trans (norm_add_le _ _) (add_le_add ?_ ih)
    rw [norm_mul]
    exact mul_le_mul (norm_forward_int hn he _ _) (norm_forward_int hn he _ _) (norm_nonneg _) (Nat.cast_nonneg _)

theorem forward_one (hn : 0 < n) (he : n % 2 = 0) (j) : forward (asInteger (1 : Poly n)) j = 1 := by
  rw [forward_eq hn he]
  unfold evalC asInteger
  rw [Finset.sum_eq_single (⟨0, hn⟩ : Fin n)]
  · rw [Poly.one_apply, if_pos rfl]
    have : (BitVec.toInt (1 : Scalar)) = 1 := by decide
    simp [this]
  · intro k _ hk
    rw [Poly.one_apply, if_neg (fun h => hk (Fin.ext h))]
    simp
  · simp

theorem l1_one_ge (hn : 0 < n) : 1 ≤ l1 (1 : Poly n) := by
  unfold l1
  refine le_trans ?_ (Finset.single_le_sum (f := fun i => nrm ((1 : Poly n) i)) (fun _ _ => Nat.zero_le _) (Finset.mem_univ (⟨0, hn⟩ : Fin n)))
  rw [Poly.one_apply, if_pos rfl]; decide

/-- The exact transform of a formal sum is the transform of the integer polynomial it stands for. -/
theorem exactSum_eq (hn : 0 < n) (he : n % 2 = 0) (ts : FPoly n) : exactSum ts = forward (fun k => (intSum ts k : ℝ) / 2 ^ 64) := by
  funext j
  rw [forward_eq hn he]
  have e2 : evalC (fun k => (intSum ts k : ℝ) / 2 ^ 64) (point n j.val) = evalC (fun k => (intSum ts k : ℝ)) (point n j.val) / 2 ^ 64 := by
    unfold evalC
    rw [Finset.sum_div]
    refine Finset.sum_congr rfl fun k _ => ?_
    push_cast; ring
  rw [e2]
  unfold exactSum
  congr 1
  clear e2
  induction ts with
  | nil => simp [intSum, evalC]
  | cons t ts ih =>
    rw [List.map_cons, List.sum_cons, ih, forward_eq hn he, forward_eq hn he, ← evalC_negMul hn (point_pow_n hn _)]
    unfold evalC
    rw [← Finset.sum_add_distrib]
    refine Finset.sum_congr rfl fun k _ => ?_
    have e : intSum (t :: ts) k = negMul (fun i => (t.1 i).toInt) (fun i => (t.2 i).toInt) k + intSum ts k := rfl
    have e3 : ((negMul (fun i => (t.1 i).toInt) (fun i => (t.2 i).toInt) k : ℤ) : ℝ) = negMul (asInteger t.1) (asInteger t.2) k :=
      negMul_map (Int.castRingHom ℝ) _ _ k
    simp only [e, ← e3]; push_cast; ring

theorem intSum_eval (ts : FPoly n) (k : Fin n) : ((intSum ts k : ℤ) : Scalar) = FPoly.eval ts k := by
  induction ts with
  | nil => simp [intSum, FPoly.eval]
  | cons t ts ih =>
    have e : intSum (t :: ts) k = negMul (fun i => (t.1 i).toInt) (fun i => (t.2 i).toInt) k + intSum ts k := rfl
    rw [e, Int.cast_add, negMul_poly, ih]; rfl

end Fourier

open Fourier

/-- C65 (exact arithmetic): transforming forward, multiplying entry by entry, adding up and transforming back computes, per coefficient,
`2^-64` times an integer that is the coefficient of the sum of the negacyclic products modulo `2^64`.
Every even polynomial size; no bound on the coefficients or on the number of products. -/
theorem C65_exact (hn : 0 < n) (he : n % 2 = 0) (ts : List (Poly n × Poly n)) (k : Fin n) :
    ∃ N : ℤ, Fourier.backward (fun j => (ts.map fun t => Fourier.forward (Fourier.asTorus t.1) j * Fourier.forward (Fourier.asInteger t.2) j).sum) k = (N : ℝ) / 2 ^ 64 ∧
      (N : Scalar) = (ts.map fun t => t.1 * t.2).sum k := by
  refine ⟨intSum ts k, ?_, ?_⟩
  · have e : (fun j => (ts.map fun t => Fourier.forward (Fourier.asTorus t.1) j * Fourier.forward (Fourier.asInteger t.2) j).sum) = exactSum ts := by
      funext j
      unfold exactSum
      induction ts with
      | nil => simp
      | cons t ts ih => rw [List.map_cons, List.sum_cons, ih, List.map_cons, List.sum_cons, forward_torus]; ring
    rw [e, exactSum_eq hn he, backward_forward hn he]
  · rw [intSum_eval]
    congr 1
    induction ts with
    | nil => rfl
    | cons t ts ih => rw [List.map_cons, List.sum_cons, ← ih]; rfl

/-! ## Rounding errors -/

theorem pow_one_le {u : ℝ} (hu : 0 ≤ u) (d : Nat) : 1 ≤ (1 + u) ^ d := one_le_pow₀ (by linarith)

theorem pow_mono' {u : ℝ} (hu : 0 ≤ u) {d e : Nat} (h : d ≤ e) : (1 + u) ^ d ≤ (1 + u) ^ e := pow_le_pow_right₀ (by linarith) h

/-- One floating-point product of two transforms. -/
theorem prod_err (hn : 0 < n) (he : n % 2 = 0) {F : FloatFft n} {u : ℝ} (hF : F.Accurate u) (p q : Poly n) (j : Fin (n / 2)) :
    ‖F.mul (F.forwardAsTorus p j) (F.forwardAsInteger q j) - forward (asInteger p) j * forward (asInteger q) j / 2 ^ 64‖
      ≤ ((1 + u) ^ 3 - 1) * ((l1 p * l1 q : ℝ) / 2 ^ 64) := by
  have hu := hF.nonneg
  have ha := hF.torus p j
  have hb := hF.integer q j
  rw [l1_torus] at ha
  rw [l1_real] at hb
  have hA : ‖forward (asTorus p) j‖ ≤ (l1 p : ℝ) / 2 ^ 64 := by rw [← l1_torus]; exact norm_forward_le hn he _ j
  have hB := norm_forward_int hn he q j
  set A := forward (asTorus p) j with hAd
  set B := forward (asInteger q) j
  set a := F.forwardAsTorus p j
  set b := F.forwardAsInteger q j
  set P : ℝ := (l1 p : ℝ) / 2 ^ 64
  set Q : ℝ := (l1 q : ℝ)
  have hP : 0 ≤ P := by positivity
  have hQ : 0 ≤ Q := by positivity
  have e0 : forward (asInteger p) j * B / 2 ^ 64 = A * B := by rw [hAd, forward_torus]; ring
  rw [e0]
  have hm := hF.mul a b
  have na : ‖a‖ ≤ (1 + u) * P := by
    calc ‖a‖ = ‖(a - A) + A‖ := by rw [sub_add_cancel]
      _ ≤ ‖a - A‖ + ‖A‖ := norm_add_le _ _
      _ ≤ u * P + P := add_le_add ha hA
      _ = _ := by ring
  have nb : ‖b‖ ≤ (1 + u) * Q := by
    calc ‖b‖ = ‖(b - B) + B‖ := by rw [sub_add_cancel]
      _ ≤ ‖b - B‖ + ‖B‖ := norm_add_le _ _
      _ ≤ u * Q + Q := add_le_add hb hB
      _ = _ := by ring
  have nab : ‖a‖ * ‖b‖ ≤ ((1 + u) * P) * ((1 + u) * Q) := mul_le_mul na nb (norm_nonneg _) (by positivity)
  have e1 : F.mul a b - A * B = (F.mul a b - a * b) + (a - A) * b + A * (b - B) := by ring
  rw [e1]
  have h1 : ‖(a - A) * b‖ ≤ u * P * ((1 + u) * Q) := by
    rw [norm_mul]; exact mul_le_mul ha nb (norm_nonneg _) (by positivity)
  have h2 : ‖A * (b - B)‖ ≤ P * (u * Q) := by
    rw [norm_mul]; exact mul_le_mul hA hb (norm_nonneg _) hP
  have h3 : ‖F.mul a b - a * b‖ ≤ u * (((1 + u) * P) * ((1 + u) * Q)) := le_trans hm (mul_le_mul_of_nonneg_left nab hu)
  calc ‖(F.mul a b - a * b) + (a - A) * b + A * (b - B)‖
      ≤ ‖F.mul a b - a * b‖ + ‖(a - A) * b‖ + ‖A * (b - B)‖ :=
        le_trans (norm_add_le _ _) (add_le_add (norm_add_le _ _) le_rfl)
    _ ≤ u * (((1 + u) * P) * ((1 + u) * Q)) + u * P * ((1 + u) * Q) + P * (u * Q) := add_le_add (add_le_add h3 h1) h2
    _ = ((1 + u) ^ 3 - 1) * (P * Q) := by ring
    _ = _ := by congr 1; show (l1 p : ℝ) / 2 ^ 64 * l1 q = _; ring

/-- Everything the code computes in the Fourier domain is close to the exact transform. -/
theorem computed_err (hn : 0 < n) (he : n % 2 = 0) {F : FloatFft n} {u : ℝ} (hF : F.Accurate u) {ts : FPoly n} {d : Nat} {z : FVec n}
    (h : F.Computed ts d z) : ∀ j, ‖z j - exactSum ts j‖ ≤ ((1 + u) ^ d - 1) * ((mag ts : ℝ) / 2 ^ 64) := by
  have hu := hF.nonneg
  induction h with
  | zero => intro j; simp [exactSum, mag]
  | torus p =>
    intro j
    have ha := hF.torus p j
    rw [l1_torus, forward_torus] at ha
    have e : exactSum [(p, 1)] j = forward (asInteger p) j / 2 ^ 64 := by
      unfold exactSum; simp [forward_one hn he]
    rw [e]
    refine le_trans ha ?_
    have h1 : (1 : ℝ) ≤ l1 (1 : Poly n) := by exact_mod_cast l1_one_ge hn
    have e2 : (mag [(p, (1 : Poly n))] : ℝ) = l1 p * l1 (1 : Poly n) := by simp [mag]
    rw [e2, show (1 + u) ^ 1 - 1 = u by ring]
    refine mul_le_mul_of_nonneg_left (div_le_div_of_nonneg_right ?_ (by positivity)) hu
    have : (0 : ℝ) ≤ l1 p := by positivity
    nlinarith
  | prod p q =>
    intro j
    have := prod_err hn he hF p q j
    simpa [exactSum, mag] using this
  | prodSwap p q =>
    intro j
    have := prod_err hn he hF p q j
    rw [mul_comm (forward (asInteger p) j), mul_comm (l1 p : ℝ)] at this
    simpa [exactSum, mag] using this
  | @mono ts d e z hz h ih =>
    intro j
    refine le_trans (ih j) (mul_le_mul_of_nonneg_right ?_ (by positivity))
    have := pow_mono' hu h
    linarith
  | @add ts us d e z w hz hw ihz ihw =>
    intro j
    have h1 := ihz j
    have h2 := ihw j
    have n1 := norm_exactSum hn he ts j
    have n2 := norm_exactSum hn he us j
    rw [exactSum_append, mag_append]
    set Z := exactSum ts j
    set W := exactSum us j
    set A : ℝ := (mag ts : ℝ) / 2 ^ 64 with hA
    set B : ℝ := (mag us : ℝ) / 2 ^ 64 with hB
    have hA0 : 0 ≤ A := by positivity
    have hB0 : 0 ≤ B := by positivity
    have eAB : ((mag ts + mag us : ℕ) : ℝ) / 2 ^ 64 = A + B := by rw [hA, hB]; push_cast; ring
    rw [eAB]
    set M := max d e with hM
    have hd : (1 + u) ^ d ≤ (1 + u) ^ M := pow_mono' hu (le_max_left _ _)
    have hee : (1 + u) ^ e ≤ (1 + u) ^ M := pow_mono' hu (le_max_right _ _)
    set c := (1 + u) ^ M with hc
    have hz' : ‖z j - Z‖ ≤ (c - 1) * A := le_trans h1 (mul_le_mul_of_nonneg_right (by linarith) hA0)
    have hw' : ‖w j - W‖ ≤ (c - 1) * B := le_trans h2 (mul_le_mul_of_nonneg_right (by linarith) hB0)
    have nz : ‖z j‖ ≤ c * A := by
      calc ‖z j‖ = ‖(z j - Z) + Z‖ := by rw [sub_add_cancel]
        _ ≤ (c - 1) * A + A := le_trans (norm_add_le _ _) (add_le_add hz' n1)
        _ = _ := by ring
    have nw : ‖w j‖ ≤ c * B := by
      calc ‖w j‖ = ‖(w j - W) + W‖ := by rw [sub_add_cancel]
        _ ≤ (c - 1) * B + B := le_trans (norm_add_le _ _) (add_le_add hw' n2)
        _ = _ := by ring
    have ha := hF.add (z j) (w j)
    have ha' : ‖F.add (z j) (w j) - (z j + w j)‖ ≤ u * (c * A + c * B) := le_trans ha (mul_le_mul_of_nonneg_left (add_le_add nz nw) hu)
    calc ‖F.add (z j) (w j) - (Z + W)‖ = ‖(F.add (z j) (w j) - (z j + w j)) + (z j - Z) + (w j - W)‖ := by congr 1; ring
      _ ≤ ‖F.add (z j) (w j) - (z j + w j)‖ + ‖z j - Z‖ + ‖w j - W‖ :=
          le_trans (norm_add_le _ _) (add_le_add (norm_add_le _ _) le_rfl)
      _ ≤ u * (c * A + c * B) + (c - 1) * A + (c - 1) * B := add_le_add (add_le_add ha' hz') hw'
      _ = ((1 + u) ^ (M + 1) - 1) * (A + B) := by rw [pow_succ, ← hc]; ring

/-- After the transformation back, before conversion to words. -/
theorem backward_err (hn : 0 < n) (he : n % 2 = 0) {F : FloatFft n} {u : ℝ} (hF : F.Accurate u) {ts : FPoly n} {d : Nat} {z : FVec n}
    (h : F.Computed ts d z) (k : Fin n) :
    |F.backward z k - (intSum ts k : ℝ) / 2 ^ 64| ≤ ((1 + u) ^ (d + 1) - 1) * ((mag ts : ℝ) / 2 ^ 64) := by
  have hu := hF.nonneg
  have h1 := computed_err hn he hF h
  have h2 : backward (exactSum ts) k = (intSum ts k : ℝ) / 2 ^ 64 := by rw [exactSum_eq hn he, backward_forward hn he]
  set A : ℝ := (mag ts : ℝ) / 2 ^ 64 with hA
  have hA0 : 0 ≤ A := by positivity
  set c := (1 + u) ^ d with hc
  have hc1 : 1 ≤ c := pow_one_le hu d
  have h3 : |Fourier.backward z k - backward (exactSum ts) k| ≤ (c - 1) * A :=
    le_trans (abs_backward_sub_le _ _ _) (mean_le (mul_nonneg (by linarith) hA0) h1)
  have nz : ∀ j, ‖z j‖ ≤ c * A := fun j => by
    calc ‖z j‖ = ‖(z j - exactSum ts j) + exactSum ts j‖ := by rw [sub_add_cancel]
      _ ≤ (c - 1) * A + A := le_trans (norm_add_le _ _) (add_le_add (h1 j) (norm_exactSum hn he ts j))
      _ = _ := by ring
  have h4 : |F.backward z k - Fourier.backward z k| ≤ u * (c * A) :=
    le_trans (hF.backward z k) (mul_le_mul_of_nonneg_left (mean_le (by positivity) nz) hu)
  rw [← h2]
  calc |F.backward z k - backward (exactSum ts) k|
      = |(F.backward z k - Fourier.backward z k) + (Fourier.backward z k - backward (exactSum ts) k)| := by congr 1; ring
    _ ≤ u * (c * A) + (c - 1) * A := le_trans (abs_add_le _ _) (add_le_add h4 h3)
    _ = _ := by rw [pow_succ, ← hc]; ring

theorem nrm_le_two (x : Scalar) : nrm x ≤ 2 ^ 63 := by
  have h1 := BitVec.le_toInt (x := x)
  have h2 := BitVec.toInt_lt (x := x)
  simp at h1 h2
  unfold nrm
  omega

theorem supNorm_le_two (p : Poly n) : supNorm p ≤ 2 ^ 63 := Finset.sup_le fun k _ => nrm_le_two _

theorem l1_le_sup (p : Poly n) : l1 p ≤ n * supNorm p :=
  l1_le fun k => Finset.le_sup (f := fun i => nrm (p i)) (Finset.mem_univ k)

theorem mag_le_weight (ts : FPoly n) : mag ts ≤ n ^ 2 * 2 ^ 63 * FPoly.weight ts := by
  induction ts with
  | nil => simp [mag]
  | cons t ts ih =>
    have e : mag (t :: ts) = l1 t.1 * l1 t.2 + mag ts := rfl
    have e2 : FPoly.weight (t :: ts) = min (supNorm t.1) (supNorm t.2) + FPoly.weight ts := rfl
    rw [e, e2, Nat.mul_add]
    refine Nat.add_le_add ?_ ih
    have h1 := l1_le_sup t.1
    have h2 := l1_le_sup t.2
    have h3 := supNorm_le_two t.1
    have h4 := supNorm_le_two t.2
    calc l1 t.1 * l1 t.2 ≤ (n * supNorm t.1) * (n * supNorm t.2) := Nat.mul_le_mul h1 h2
      _ = n ^ 2 * (max (supNorm t.1) (supNorm t.2) * min (supNorm t.1) (supNorm t.2)) := by rw [max_mul_min]; ring
      _ ≤ n ^ 2 * (2 ^ 63 * min (supNorm t.1) (supNorm t.2)) :=
          Nat.mul_le_mul_left _ (Nat.mul_le_mul_right _ (max_le h3 h4))
      _ = _ := by ring

theorem nrm_ofInt (x : ℤ) : nrm (BitVec.ofInt 64 x) ≤ x.natAbs := by
  exact natAbs_ofInt_le x

/-- C65 (rounding): let every floating-point operation have relative accuracy `u`, and let `z` be any vector the code computes in the Fourier
domain, standing for the sum of products `ts`, with at most `d` roundings on the way to an entry.  Transformed back, it gives the sum of the
negacyclic products up to an error of at most `phi` times the size of the sum per coefficient, where `phi` is about `(d+1) u n^2 2^63`. -/
theorem C65_rounding (hn : 0 < n) (he : n % 2 = 0) {F : FloatFft n} {u : ℝ} (hF : F.Accurate u) {ts : FPoly n} {d phi : Nat} {z : FVec n}
    (h : F.Computed ts d z) (hphi : ((1 + u) ^ (d + 1) - 1) * (n ^ 2 * 2 ^ 63) + 3 / 2 ≤ (phi : ℝ)) :
    Small (F.backwardAsTorus z - (ts.map fun t => t.1 * t.2).sum) (phi * FPoly.weight ts) ∧
      ∀ out, F.addBackwardAsTorus out z = out + F.backwardAsTorus z := by
  refine ⟨fun k => ?_, fun out => rfl⟩
  have hsum : (ts.map fun t => t.1 * t.2).sum = FPoly.eval ts := by
    clear h
    induction ts with
    | nil => rfl
    | cons t ts ih => rw [List.map_cons, List.sum_cons, ih]; rfl
  rw [hsum, Poly.sub_apply, ← intSum_eval]
  have hu := hF.nonneg
  have hb := backward_err hn he hF h k
  show nrm (torusRound (F.backward z k) - ((intSum ts k : ℤ) : Scalar)) ≤ _
  by_cases hw : FPoly.weight ts = 0
  · -- nothing to transform: everything is exactly zero
    have hm : mag ts = 0 := by have := mag_le_weight ts; rw [hw] at this; omega
    rw [hm] at hb
    simp only [Nat.cast_zero, zero_div, mul_zero] at hb
    have h2 : (intSum ts k : ℝ) / 2 ^ 64 = 0 := by
      have h3 : backward (exactSum ts) k = (intSum ts k : ℝ) / 2 ^ 64 := by rw [exactSum_eq hn he, backward_forward hn he]
      have h4 : exactSum ts = fun _ => 0 := by
        funext j
        have := norm_exactSum hn he ts j
        rw [hm] at this
        simpa using this
      have h5 := abs_backward_sub_le (n := n) (fun _ => 0) (fun _ => 0) k
      rw [← h3, h4]
      simp [Fourier.backward, folded]
    rw [h2, sub_zero] at hb
    have h6 : F.backward z k = 0 := abs_eq_zero.mp (le_antisymm hb (abs_nonneg _))
    have h7 : intSum ts k = 0 := by
      have : (intSum ts k : ℝ) = 0 := by
        rcases div_eq_zero_iff.mp h2 with h | h
        · exact h
        · exfalso; have : (2 : ℝ) ^ 64 ≠ 0 := by positivity
          exact this h
      exact_mod_cast this
    rw [h6, h7, torusRound_zero]
    simp [nrm]
  · obtain ⟨r, hr1, hr2⟩ := torusRound_spec (F.backward z k)
    have hw1 : 1 ≤ FPoly.weight ts := Nat.pos_of_ne_zero hw
    set c := (1 + u) ^ (d + 1) with hc
    have hc1 : 1 ≤ c := pow_one_le hu _
    have hm : (mag ts : ℝ) ≤ n ^ 2 * 2 ^ 63 * FPoly.weight ts := by exact_mod_cast mag_le_weight ts
    have h3 : |(r : ℝ) - intSum ts k| ≤ (c - 1) * mag ts + 3 / 2 := by
      have e : (r : ℝ) - intSum ts k = -(F.backward z k * 2 ^ 64 - r) + (F.backward z k - (intSum ts k : ℝ) / 2 ^ 64) * 2 ^ 64 := by
        ring
      rw [e]
      refine le_trans (abs_add_le _ _) ?_
      rw [abs_neg, abs_mul, abs_of_pos (show (0 : ℝ) < 2 ^ 64 by positivity)]
      have h4 : |F.backward z k - (intSum ts k : ℝ) / 2 ^ 64| * 2 ^ 64 ≤ (c - 1) * mag ts := by
        calc _ ≤ (c - 1) * ((mag ts : ℝ) / 2 ^ 64) * 2 ^ 64 := mul_le_mul_of_nonneg_right hb (by positivity)
          _ = _ := by ring
      linarith
    have h5 : |(r : ℝ) - intSum ts k| ≤ (phi * FPoly.weight ts : ℕ) := by
      refine le_trans h3 ?_
      have hw1' : (1 : ℝ) ≤ FPoly.weight ts := by exact_mod_cast hw1
      push_cast
      calc (c - 1) * mag ts + 3 / 2 ≤ (c - 1) * (n ^ 2 * 2 ^ 63 * FPoly.weight ts) + 3 / 2 * FPoly.weight ts := by
            refine add_le_add (mul_le_mul_of_nonneg_left hm (by linarith)) (by linarith)
        _ = ((c - 1) * (n ^ 2 * 2 ^ 63) + 3 / 2) * FPoly.weight ts := by ring
        _ ≤ phi * FPoly.weight ts := mul_le_mul_of_nonneg_right hphi (by positivity)
    have h6 : (r - intSum ts k).natAbs ≤ phi * FPoly.weight ts := by
      have : ((r - intSum ts k).natAbs : ℝ) ≤ (phi * FPoly.weight ts : ℕ) := by
        rw [Nat.cast_natAbs, Int.cast_abs]; push_cast at h5 ⊢; exact h5
      exact_mod_cast this
    rw [hr1]
    have e : BitVec.ofInt 64 r - ((intSum ts k : ℤ) : Scalar) = BitVec.ofInt 64 (r - intSum ts k) := by
      have : ((r : ℤ) : Scalar) - ((intSum ts k : ℤ) : Scalar) = ((r - intSum ts k : ℤ) : Scalar) := (Int.cast_sub _ _).symm
      exact this
    rw [e]
    exact le_trans (nrm_ofInt _) h6

/-! ## Consequences -/

namespace FloatFft

theorem accumulate_computed (F : FloatFft n) (ts : FPoly n) : ∃ d, d ≤ ts.length + 3 ∧ F.Computed ts d (F.accumulate ts) := by
  have key : ∀ (ts us : FPoly n) (d : Nat) (z : FVec n), F.Computed us d z → d ≤ us.length + 3 →
      ∃ d', d' ≤ (us ++ ts).length + 3 ∧ F.Computed (us ++ ts) d'
        (ts.foldl (fun acc t => F.multiplyAccumulate acc (F.forwardAsTorus t.1) (F.forwardAsInteger t.2)) z) := by
    intro ts
    induction ts with
    | nil => intro us d z h hd; exact ⟨d, by simpa using hd, by simpa using h⟩
    | cons t ts ih =>
      intro us d z h hd
      have h2 := Computed.add h (Computed.prod (F := F) t.1 t.2)
      have h3 : max d 3 + 1 ≤ (us ++ [(t.1, t.2)]).length + 3 := by
        rw [List.length_append, List.length_singleton]; omega
      have := ih (us ++ [(t.1, t.2)]) _ _ h2 h3
      rw [List.append_assoc] at this
      exact this
  have := key ts [] 0 _ Computed.zero (by omega)
  rw [List.nil_append] at this
  exact this

theorem keyswitchLoop_computed (F : FloatFft n) : ∀ (rows : List (RLWE n)) (terms : List (Poly n)) (acc : FRLWE n) (z : FourierCt n) (d : Nat),
    F.Computed acc.mask d z.mask → F.Computed acc.body d z.body → 4 ≤ d →
    (fourierKeyswitchLoop rows terms acc = none ∧ F.keyswitchLoop (rows.map F.rowForward) terms z = none) ∨
    ∃ out zo d', fourierKeyswitchLoop rows terms acc = some out ∧ F.keyswitchLoop (rows.map F.rowForward) terms z = some zo ∧
      d' ≤ d + rows.length ∧ F.Computed out.mask d' zo.mask ∧ F.Computed out.body d' zo.body
  | [], terms, acc, z, d, hm, hb, _ => Or.inr ⟨acc, z, d, by rw [fourierKeyswitchLoop], by rw [List.map_nil, keyswitchLoop], by omega, hm, hb⟩
  | [r], terms, acc, z, d, hm, hb, h4 => by
    cases terms with
    | nil => left; exact ⟨rfl, rfl⟩
    | cons t ts =>
      right
      have h1 := Computed.add hm (Computed.prod (F := F) r.mask t)
      have h2 := Computed.add hb (Computed.prod (F := F) r.body t)
      have e : max d 3 + 1 = d + 1 := by omega
      rw [e] at h1 h2
      exact ⟨_, _, d + 1, rfl, rfl, by simp, h1, h2⟩
  | r :: r2 :: rows, terms, acc, z, d, hm, hb, h4 => by
    match terms with
    | [] => left; exact ⟨rfl, rfl⟩
    | [_] => left; exact ⟨rfl, rfl⟩
    | t :: t2 :: ts =>
      have h1 := Computed.add hm (Computed.add (Computed.prod (F := F) r.mask t) (Computed.prod (F := F) r2.mask t2))
      have h2 := Computed.add hb (Computed.add (Computed.prod (F := F) r.body t) (Computed.prod (F := F) r2.body t2))
      have e : max d (max 3 3 + 1) + 1 = d + 1 := by omega
      rw [e] at h1 h2
      have ih := keyswitchLoop_computed F rows ts
        ⟨acc.mask ++ [(r.mask, t), (r2.mask, t2)], acc.body ++ [(r.body, t), (r2.body, t2)]⟩
        ⟨F.twoMultiplyAccumulate z.mask (F.rowForward r).mask (F.forwardAsInteger t) (F.rowForward r2).mask (F.forwardAsInteger t2),
          F.twoMultiplyAccumulate z.body (F.rowForward r).body (F.forwardAsInteger t) (F.rowForward r2).body (F.forwardAsInteger t2)⟩
        (d + 1) h1 h2 (by omega)
      rw [fourierKeyswitchLoop, List.map_cons, List.map_cons, keyswitchLoop]
      rcases ih with ih | ⟨out, zo, d', i1, i2, i3, i4, i5⟩
      · exact Or.inl ih
      · exact Or.inr ⟨out, zo, d', i1, i2, by rw [List.length_cons, List.length_cons]; omega, i4, i5⟩

end FloatFft

/-- Fewer roundings need no larger error bound. -/
theorem phi_mono {F : FloatFft n} {u : ℝ} (hF : F.Accurate u) {d D phi : Nat} (hd : d ≤ D)
    (hphi : ((1 + u) ^ (D + 1) - 1) * (n ^ 2 * 2 ^ 63) + 3 / 2 ≤ (phi : ℝ)) :
    ((1 + u) ^ (d + 1) - 1) * (n ^ 2 * 2 ^ 63) + 3 / 2 ≤ (phi : ℝ) := by
  refine le_trans ?_ hphi
  have h := pow_mono' hF.nonneg (show d + 1 ≤ D + 1 by omega)
  have : (0 : ℝ) ≤ n ^ 2 * 2 ^ 63 := by positivity
  have := mul_le_mul_of_nonneg_right (sub_le_sub_right h 1) this
  linarith

theorem eval_eq_sum (ts : FPoly n) : (ts.map fun t => t.1 * t.2).sum = FPoly.eval ts := by
  induction ts with
  | nil => rfl
  | cons t ts ih => rw [List.map_cons, List.sum_cons, ih]; rfl

/-- C65 (refinement): let `pick ts` be the vector an implementation computes for every sum of at most 128 products, with at most `D`
roundings on the way to an entry.  Then the abstract transform used by every other theorem can be chosen so that transforming back `ts`
is exactly what the implementation returns, and it satisfies the error hypothesis of all those theorems. -/
theorem C65_refines (hn : 0 < n) (he : n % 2 = 0) {F : FloatFft n} {u : ℝ} (hF : F.Accurate u) {D phi : Nat}
    (hphi : ((1 + u) ^ (D + 1) - 1) * (n ^ 2 * 2 ^ 63) + 3 / 2 ≤ (phi : ℝ)) (pick : FPoly n → FVec n)
    (hp : ∀ ts, ts.length ≤ 128 → ∃ d, d ≤ D ∧ F.Computed ts d (pick ts)) :
    ∃ fft : Fft n, fft.Bounded phi ∧ ∀ ts, fft.backward ts = F.backwardAsTorus (pick ts) := by
  refine ⟨⟨fun ts => F.backwardAsTorus (pick ts) - FPoly.eval ts⟩, fun ts hts => ?_, fun ts => ?_⟩
  · obtain ⟨d, hd, hc⟩ := hp ts hts
    have := (C65_rounding hn he hF hc (phi_mono hF hd hphi)).1
    rwa [eval_eq_sum] at this
  · unfold Fft.backward; ring

/-- C65 (accumulation): starting from zero and adding one product after the other is such an implementation, with at most 131 roundings. -/
theorem C65_accumulate (hn : 0 < n) (he : n % 2 = 0) {F : FloatFft n} {u : ℝ} (hF : F.Accurate u) {phi : Nat}
    (hphi : ((1 + u) ^ 132 - 1) * (n ^ 2 * 2 ^ 63) + 3 / 2 ≤ (phi : ℝ)) :
    ∃ fft : Fft n, fft.Bounded phi ∧ ∀ ts, fft.backward ts = F.backwardAsTorus (F.accumulate ts) :=
  C65_refines (D := 131) hn he hF hphi F.accumulate fun ts hts => by
    obtain ⟨d, hd, hc⟩ := F.accumulate_computed ts
    exact ⟨d, by omega, hc⟩

/-- C65 (one product): the two polynomial multiplications of the API compute the negacyclic product modulo `2^64`, up to an error relative
to the smaller factor; the accumulating one adds that product to the output. -/
theorem C65_mul (hn : 0 < n) (he : n % 2 = 0) {F : FloatFft n} {u : ℝ} (hF : F.Accurate u) {phi : Nat}
    (hphi : ((1 + u) ^ 4 - 1) * (n ^ 2 * 2 ^ 63) + 3 / 2 ≤ (phi : ℝ)) (p q : Poly n) :
    Small (F.updateWithMul p q - p * q) (phi * min (supNorm p) (supNorm q)) ∧
      ∀ out, F.updateWithMulAcc out p q = out + F.updateWithMul p q := by
  have h := C65_rounding hn he hF (FloatFft.Computed.prod (F := F) p q) hphi
  refine ⟨?_, h.2⟩
  have h1 := h.1
  simp only [FPoly.weight, List.map_cons, List.map_nil, List.sum_cons, List.sum_nil, add_zero] at h1
  exact h1

/-- C65 (key switching on the data): the Fourier-domain key switch, with its loop over vectors of complex numbers and one or two rows at a
time, panics on no well-formed key, and `backward_as_torus` of the result decrypts under `s` to what the input decrypts to under `before`,
up to an explicit error which includes the floating-point errors of all its operations. -/
theorem C65_keyswitch (hn : 0 < n) (he : n % 2 = 0) {F : FloatFft n} {u : ℝ} (hF : F.Accurate u) {s before : Poly n} (hs : Binary s)
    (hb : Small before 1) {K : KeyswitchKey n} (hK : K.WF) {E phi : Nat} (hE : IsKsk s K before E)
    (hphi : ((1 + u) ^ (K.levelCount + 5) - 1) * (n ^ 2 * 2 ^ 63) + 3 / 2 ≤ (phi : ℝ)) (c : RLWE n) :
    ∃ out, F.keyswitchCiphertext K c = some out ∧
      Enc s (F.ctBackward out) (decryptRlwe before c) (n * 2 ^ (63 - K.baseLog * K.levelCount) +
        (K.levelCount * (n * 2 ^ (K.baseLog - 1) * E) + fftNoise n phi (1 + K.levelCount * 2 ^ (K.baseLog - 1)))) := by
  have h0 := fourierKeyswitchLoop_spec K.ksks.reverse ((maskTerms K.baseLog K.levelCount c.mask).map fun t => (⟨fun k => 0 - t k⟩ : Poly n))
    ⟨[], [(c.body, 1)]⟩ (by rw [List.length_reverse, hE.len, List.length_map, maskTerms_length])
  rcases F.keyswitchLoop_computed K.ksks.reverse ((maskTerms K.baseLog K.levelCount c.mask).map fun t => (⟨fun k => 0 - t k⟩ : Poly n))
    ⟨[], [(c.body, 1)]⟩ ⟨fun _ => 0, F.forwardAsTorus c.body⟩ 4 (.mono .zero (by omega)) (.mono (.torus _) (by omega)) le_rfl with h | h
  · rw [h0] at h; simp at h
  obtain ⟨out, zo, d, h1, h2, h3, h4, h5⟩ := h
  rw [List.length_reverse, hE.len] at h3
  have hlm : out.mask.length ≠ out.body.length := by
    rw [h0] at h1
    cases h1
    simp
  refine ⟨zo, ?_, ?_⟩
  · unfold FloatFft.keyswitchCiphertext
    rw [← List.map_reverse]; exact h2
  have hphi' := phi_mono (d := d) (D := K.levelCount + 4) hF (by omega) hphi
  have r1 := (C65_rounding hn he hF h4 hphi').1
  have r2 := (C65_rounding hn he hF h5 hphi').1
  rw [eval_eq_sum] at r1 r2
  let fft : Fft n := ⟨fun ts => if ts = out.mask then F.backwardAsTorus zo.mask - FPoly.eval ts
    else if ts = out.body then F.backwardAsTorus zo.body - FPoly.eval ts else 0⟩
  have hne : out.body ≠ out.mask := fun h => hlm (by rw [h])
  have e1 : fft.backward out.mask = F.backwardAsTorus zo.mask := by
    show FPoly.eval out.mask + (if out.mask = out.mask then _ else _) = _
    rw [if_pos rfl]; ring
  have e2 : fft.backward out.body = F.backwardAsTorus zo.body := by
    show FPoly.eval out.body + (if out.body = out.mask then _ else if out.body = out.body then _ else _) = _
    rw [if_neg hne, if_pos rfl]; ring
  have hf : fft.Bounded phi := fun ts _ => by
    show Small (if ts = out.mask then _ else if ts = out.body then _ else 0) _
    split
    · next h => rw [h]; exact r1
    · split
      · next h => rw [h]; exact r2
      · exact Small.zero _
  obtain ⟨out', k1, k2⟩ := C25_keyswitch_fourier hf hs hb hK hE c
  have k3 : out' = out := by
    have := k1 ⟨[], []⟩
    unfold KeyswitchKey.fourierKeyswitchCiphertext at this
    rw [h1] at this
    exact (Option.some.inj this).symm
  rw [k3] at k2
  unfold FRLWE.backwardAsTorus at k2
  rw [e1, e2, zero_add, zero_add] at k2
  have e3 : F.ctBackward zo = ⟨F.backwardAsTorus zo.mask, F.backwardAsTorus zo.body⟩ := by
    unfold FloatFft.ctBackward
    have hz : ∀ z, F.addBackwardAsTorus 0 z = F.backwardAsTorus z := fun z => by
      have : F.addBackwardAsTorus 0 z = 0 + F.backwardAsTorus z := rfl
      rw [this, zero_add]
    rw [hz, hz]
  rw [e3]; exact k2

/-! ## Non-vacuity -/

/-- A transform whose multiplications lose half a bit of a 50-bit mantissa and whose sums and inverse transform err as well. -/
noncomputable def lossyFft (n : Nat) : FloatFft n where
  forwardAsTorus p j := Fourier.forward (Fourier.asTorus p) j
  forwardAsInteger p j := Fourier.forward (Fourier.asInteger p) j
  mul a b := a * b * (1 + 2⁻¹ ^ 50 : ℝ)
  add a b := (a + b) * (1 - 2⁻¹ ^ 50 : ℝ)
  backward z k := Fourier.backward z k * (1 + 2⁻¹ ^ 50)

theorem lossyFft_accurate : (lossyFft n).Accurate (2⁻¹ ^ 50) where
  nonneg := by positivity
  torus p j := by
    show ‖Fourier.forward _ j - Fourier.forward _ j‖ ≤ _
    rw [sub_self, norm_zero]
    exact mul_nonneg (by positivity) (Finset.sum_nonneg fun _ _ => abs_nonneg _)
  integer p j := by
    show ‖Fourier.forward _ j - Fourier.forward _ j‖ ≤ _
    rw [sub_self, norm_zero]
    exact mul_nonneg (by positivity) (Finset.sum_nonneg fun _ _ => abs_nonneg _)
  mul a b := by
    have e : (lossyFft n).mul a b - a * b = a * b * ((2⁻¹ ^ 50 : ℝ) : ℂ) := by
      show a * b * ((1 + 2⁻¹ ^ 50 : ℝ) : ℂ) - a * b = _
      push_cast; ring
    rw [e, norm_mul, norm_mul, Complex.norm_real, Real.norm_eq_abs, abs_of_pos (by positivity), mul_comm]
  add a b := by
    have e : (lossyFft n).add a b - (a + b) = -((a + b) * ((2⁻¹ ^ 50 : ℝ) : ℂ)) := by
      show (a + b) * ((1 - 2⁻¹ ^ 50 : ℝ) : ℂ) - (a + b) = _
      push_cast; ring
    rw [e, norm_neg, norm_mul, Complex.norm_real, Real.norm_eq_abs, abs_of_pos (by positivity), mul_comm]
    exact mul_le_mul_of_nonneg_left (norm_add_le _ _) (by positivity)
  backward z k := by
    have e : (lossyFft n).backward z k - Fourier.backward z k = Fourier.backward z k * 2⁻¹ ^ 50 := by
      show Fourier.backward z k * (1 + 2⁻¹ ^ 50) - Fourier.backward z k = _
      ring
    rw [e, abs_mul, abs_of_pos (show (0 : ℝ) < 2⁻¹ ^ 50 by positivity), mul_comm]
    refine mul_le_mul_of_nonneg_left ?_ (by positivity)
    have := abs_backward_sub_le z (fun _ => 0) k
    have h0 : Fourier.backward (fun _ => 0 : FVec n) k = 0 := by simp [Fourier.backward, folded]
    rw [h0] at this
    simpa using this

/-- Both sizes the code uses (`n = 1024`, `n = 2048`), a 53-bit mantissa with 5 bits lost inside a transform, and the largest number of
roundings: an error of `2^45` per unit of weight, far below the scale `2^56` and more of the messages. -/
example : ((1 + 2⁻¹ ^ 48 : ℝ) ^ 132 - 1) * (((2048 : ℕ) : ℝ) ^ 2 * 2 ^ 63) + 3 / 2 ≤ ((2 ^ 45 : ℕ) : ℝ) := by norm_num

example : ∃ fft : Fft 1024, fft.Bounded (2 ^ 43) ∧ ∀ ts, fft.backward ts = (lossyFft 1024).backwardAsTorus ((lossyFft 1024).accumulate ts) :=
  C65_accumulate (by norm_num) (by norm_num) lossyFft_accurate (by norm_num)

/-- The key switching keys of C25 on the lossy transform. -/
example (c : RLWE 4) : ∃ out, (lossyFft 4).keyswitchCiphertext
    ((KeyswitchKey.allocate 4 8 3).fillWithKeyswitchKey ⟨fun k => if k.val = 0 then 0 else 1⟩ exKey exGen).1 c = some out := by
  obtain ⟨out, h, _⟩ := C65_keyswitch (phi := 2 ^ 24) (by norm_num) (by norm_num) (lossyFft_accurate (n := 4)) exKey_binary
    (before := ⟨fun k => if k.val = 0 then 0 else 1⟩) (by unfold Small; decide)
    (K := ((KeyswitchKey.allocate 4 8 3).fillWithKeyswitchKey ⟨fun k => if k.val = 0 then 0 else 1⟩ exKey exGen).1)
    ⟨by show 1 ≤ 8; omega, by show 1 ≤ 3; omega, by show 8 * 3 < 64; omega⟩ (C25_key _ _ _ exGen_bounded).1
    (by rw [(C25_key (KeyswitchKey.allocate 4 8 3) _ _ exGen_bounded).2.2]; show ((1 + _ : ℝ) ^ (3 + 5) - 1) * _ + _ ≤ _; norm_num) c
  exact ⟨out, h⟩

end Panacea
