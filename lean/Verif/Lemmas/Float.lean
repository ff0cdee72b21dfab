import Verif.Spec.Float
import Mathlib.Analysis.SpecialFunctions.Log.Base
import Mathlib.Analysis.Convex.SpecificFunctions.Basic
import Mathlib.Analysis.Complex.ExponentialBounds

/-!
# `ceil(log2(x))` in double precision
-/

namespace Panacea

theorem isF64_nat {k : Nat} (h : k ≤ 2 ^ 53) : IsF64 k :=
  ⟨k, 0, by rw [abs_of_nonneg (by positivity)]; exact_mod_cast h, by norm_num, by norm_num, by simp⟩

theorem NearestF64.faithful {t y : ℝ} (h : NearestF64 t y) : FaithfulF64 t y := by
  refine ⟨h.1, fun z hz => ⟨fun ⟨a, b⟩ => ?_, fun ⟨a, b⟩ => ?_⟩⟩
  · have := h.2 z hz
    rw [abs_of_neg (by linarith), abs_of_nonpos (by linarith)] at this
    linarith
  · have := h.2 z hz
    rw [abs_of_pos (by linarith), abs_of_nonneg (by linarith)] at this
    linarith

theorem NearestF64.eq {t y : ℝ} (h : NearestF64 t y) (ht : IsF64 t) : y = t := by
  have := h.2 t ht
  rw [sub_self, abs_zero] at this
  exact sub_eq_zero.mp (abs_eq_zero.mp (le_antisymm this (abs_nonneg _)))

theorem FaithfulF64.eq {t y : ℝ} (h : FaithfulF64 t y) (ht : IsF64 t) : y = t := by
  obtain ⟨a, b⟩ := h.2 t ht
  rcases lt_trichotomy y t with h1 | h1 | h1
  · exact absurd ⟨h1, le_rfl⟩ a
  · exact h1
  · exact absurd ⟨le_rfl, h1⟩ b

theorem F64Ops.Exact.ok {F : F64Ops} (h : F.Exact) : F.Ok := ⟨h.1, fun y hy => (h.2 y hy).faithful⟩

theorem logb_pow_two (k : Nat) : Real.logb 2 ((2 : ℝ) ^ k) = k := by
  rw [Real.logb_pow, Real.logb_self_eq_one (by norm_num), mul_one]

/-- `log2(1 + u) ≥ u` on `[0, 1]`. -/
theorem le_logb_one_add {u : ℝ} (h0 : 0 ≤ u) (h1 : u ≤ 1) : u ≤ Real.logb 2 (1 + u) := by
  rw [Real.le_logb_iff_rpow_le (by norm_num) (by linarith)]
  have := rpow_one_add_le_one_add_mul_self (s := 1) (p := u) (by norm_num) h0 h1
  rw [show (2 : ℝ) = 1 + 1 by norm_num]
  linarith

/-- `log2(1 + u) < 2 u`. -/
theorem logb_one_add_lt {u : ℝ} (h0 : 0 < u) : Real.logb 2 (1 + u) < 2 * u := by
  unfold Real.logb
  have hl : (1 / 2 : ℝ) < Real.log 2 := by have := Real.log_two_gt_d9; linarith
  rw [div_lt_iff₀ (by linarith)]
  have := Real.log_lt_sub_one_of_pos (x := 1 + u) (by linarith) (by linarith)
  nlinarith

theorem isF64_next {k : Nat} (hk : k ≤ 60) : IsF64 ((k : ℝ) + 1 / 2 ^ 47) := by
  refine ⟨k * 2 ^ 47 + 1, -47, ?_, by norm_num, by norm_num, ?_⟩
  · rw [abs_of_nonneg (by positivity)]
    have : ((k * 2 ^ 47 + 1 : Nat) : ℤ) ≤ ((2 ^ 53 : Nat) : ℤ) := by exact_mod_cast (show k * 2 ^ 47 + 1 ≤ 2 ^ 53 by omega)
    push_cast at this
    exact this
  · push_cast
    rw [zpow_neg, add_mul, mul_assoc]
    norm_num

/-- Up to `2^48` the floating point computation gives the exact `⌈log2 x⌉`. -/
theorem ceilLog2_eq {F : F64Ops} (hF : F.Ok) {x : Nat} (h1 : 1 ≤ x) (h2 : x ≤ 2 ^ 48) : F.ceilLog2 x = Nat.clog 2 x := by
  unfold F64Ops.ceilLog2
  rw [(hF.1 x).eq (isF64_nat (by omega))]
  have hf := hF.2 x (by exact_mod_cast h1)
  obtain ⟨k, hk1, hk2⟩ : ∃ k, 2 ^ k ≤ x ∧ x < 2 ^ (k + 1) := ⟨Nat.log 2 x, Nat.pow_log_le_self 2 (by omega), Nat.lt_pow_succ_log_self (by decide) x⟩
  rcases hk1.eq_or_lt with he | hlt
  · have hlog : Real.logb 2 (x : ℝ) = k := by rw [← he]; push_cast; exact logb_pow_two k
    have hk : k ≤ 48 := by
      have : 2 ^ k ≤ 2 ^ 48 := by omega
      exact (Nat.pow_le_pow_iff_right (by decide)).mp this
    rw [hlog] at hf
    rw [hf.eq (isF64_nat (by omega)), Nat.ceil_natCast, ← he, Nat.clog_pow 2 k (by decide)]
  · have hk : k ≤ 47 := by
      have : 2 ^ k < 2 ^ 48 := by omega
      have := (Nat.pow_lt_pow_iff_right (by decide : 1 < 2)).mp this
      omega
    have hpow : (0 : ℝ) < 2 ^ k := by positivity
    have hx1 : (2 : ℝ) ^ k + 1 ≤ x := by exact_mod_cast (show 2 ^ k + 1 ≤ x by omega)
    have hx2 : (x : ℝ) ≤ 2 ^ (k + 1) := by exact_mod_cast hk2.le
    have hlow : (k : ℝ) + 1 / 2 ^ 47 ≤ Real.logb 2 x := by
      have hu1 : (1 : ℝ) / 2 ^ k ≤ 1 := by rw [div_le_one hpow]; exact one_le_pow₀ (by norm_num)
      have e : (2 : ℝ) ^ k + 1 = 2 ^ k * (1 + 1 / 2 ^ k) := by field_simp
      calc (k : ℝ) + 1 / 2 ^ 47 ≤ k + 1 / 2 ^ k := by
              have : (1 : ℝ) / 2 ^ 47 ≤ 1 / 2 ^ k := one_div_le_one_div_of_le hpow (pow_le_pow_right₀ (by norm_num) hk)
              linarith
        _ ≤ k + Real.logb 2 (1 + 1 / 2 ^ k) := by have := le_logb_one_add (u := 1 / 2 ^ k) (by positivity) hu1; linarith
        _ = Real.logb 2 (2 ^ k + 1) := by
              rw [e, Real.logb_mul hpow.ne' (by positivity), logb_pow_two]
        _ ≤ Real.logb 2 x := (Real.logb_le_logb (by norm_num) (by positivity) (by positivity)).mpr hx1
    have hhigh : Real.logb 2 x ≤ ((k + 1 : Nat) : ℝ) := by
      rw [← logb_pow_two (k + 1)]
      exact (Real.logb_le_logb (by norm_num) (by linarith) (by positivity)).mpr hx2
    have hgt : (k : ℝ) < F.log2 x := by
      have := (hf.2 _ (isF64_next (by omega : k ≤ 60))).1
      have hnn : (0 : ℝ) < 1 / 2 ^ 47 := by positivity
      by_contra hcon
      exact this ⟨by linarith, hlow⟩
    have hle : F.log2 x ≤ ((k + 1 : Nat) : ℝ) := by
      have := (hf.2 ((k + 1 : Nat) : ℝ) (isF64_nat (by omega))).2
      by_contra hcon
      exact this ⟨hhigh, by linarith⟩
    have hc : Nat.clog 2 x = k + 1 := by
      apply le_antisymm
      · exact (Nat.clog_le_iff_le_pow (by decide)).mpr hk2.le
      · by_contra hcon
        have : Nat.clog 2 x ≤ k := by omega
        have := (Nat.clog_le_iff_le_pow (by decide)).mp this
        omega
    rw [hc]
    apply le_antisymm
    · exact Nat.ceil_le.mpr hle
    · exact Nat.lt_ceil.mpr hgt

/-- The only `f64` within one unit in the last place of 49 is 49. -/
theorem f64_near_49 {y : ℝ} (hy : IsF64 y) (h : |y - 49| < 1 / 2 ^ 47) : y = 49 := by
  obtain ⟨m, e, hm, _, _, rfl⟩ := hy
  by_cases he : -47 ≤ e
  · obtain ⟨j, hj⟩ : ∃ j : ℕ, e + 47 = j := ⟨(e + 47).toNat, by omega⟩
    have e1 : (m : ℝ) * 2 ^ e = ((m * 2 ^ j : ℤ) : ℝ) / 2 ^ 47 := by
      have : (2 : ℝ) ^ e = 2 ^ j / 2 ^ 47 := by
        rw [show e = (j : ℤ) - 47 by omega, zpow_sub₀ (by norm_num)]
        norm_num
      rw [this]; push_cast; ring
    rw [e1] at h ⊢
    have h2 : |((m * 2 ^ j : ℤ) : ℝ) - ((49 * 2 ^ 47 : ℤ) : ℝ)| < 1 := by
      have e2 : ((m * 2 ^ j : ℤ) : ℝ) / 2 ^ 47 - 49 = (((m * 2 ^ j : ℤ) : ℝ) - ((49 * 2 ^ 47 : ℤ) : ℝ)) / 2 ^ 47 := by
        push_cast; ring
      rw [e2, abs_div, abs_of_pos (by positivity : (0 : ℝ) < 2 ^ 47), div_lt_div_iff_of_pos_right (by positivity)] at h
      exact h
    have h3 : |(m * 2 ^ j : ℤ) - 49 * 2 ^ 47| < 1 := by exact_mod_cast h2
    have h4 : (m * 2 ^ j : ℤ) = 49 * 2 ^ 47 := by
      have := Int.abs_lt_one_iff.mp h3
      omega
    rw [h4]; norm_num
  · exfalso
    have h1 : (2 : ℝ) ^ e ≤ 2 ^ (-48 : ℤ) := zpow_le_zpow_right₀ (by norm_num) (by omega)
    have h2 : (m : ℝ) ≤ 2 ^ 53 := by
      have := le_trans (le_abs_self m) hm
      exact_mod_cast this
    have h3 : (m : ℝ) * 2 ^ e ≤ 32 := by
      have hp : (0 : ℝ) < 2 ^ e := by positivity
      calc (m : ℝ) * 2 ^ e ≤ 2 ^ 53 * 2 ^ e := by nlinarith
        _ ≤ 2 ^ 53 * 2 ^ (-48 : ℤ) := by nlinarith
        _ = 32 := by norm_num [zpow_neg]
    have h4 := (abs_lt.mp h).1
    have : (1 : ℝ) / 2 ^ 47 < 1 := by norm_num
    linarith

/-- With a correctly rounded `log2`, `2^49 + 1` gets 49 bits (it needs 50). -/
theorem ceilLog2_wide {F : F64Ops} (hF : F.Exact) : F.ceilLog2 (2 ^ 49 + 1) = 49 := by
  unfold F64Ops.ceilLog2
  rw [(hF.1 _).eq (isF64_nat (by norm_num))]
  have hx : (((2 ^ 49 + 1 : Nat)) : ℝ) = 2 ^ 49 * (1 + 1 / 2 ^ 49) := by push_cast; ring
  have hf := hF.2 ((2 ^ 49 + 1 : Nat) : ℝ) (by positivity)
  have hlog : Real.logb 2 ((2 ^ 49 + 1 : Nat) : ℝ) = 49 + Real.logb 2 (1 + 1 / 2 ^ 49) := by
    rw [hx, Real.logb_mul (by positivity) (by positivity), logb_pow_two]
    norm_num
  have h1 : 0 ≤ Real.logb 2 (1 + 1 / 2 ^ 49 : ℝ) := Real.logb_nonneg (by norm_num) (by norm_num)
  have h2 : Real.logb 2 (1 + 1 / 2 ^ 49 : ℝ) < 2 * (1 / 2 ^ 49) := logb_one_add_lt (by positivity)
  have h49 : IsF64 (49 : ℝ) := isF64_nat (k := 49) (by norm_num)
  have hn := hf.2 49 h49
  rw [hlog] at hn
  have : F.log2 ((2 ^ 49 + 1 : Nat) : ℝ) = 49 := by
    refine f64_near_49 hf.1 ?_
    rw [abs_of_nonpos (a := 49 - (49 + Real.logb 2 (1 + 1 / 2 ^ 49 : ℝ))) (by linarith)] at hn
    rw [abs_le] at hn
    rw [abs_lt]
    constructor <;> linarith
  rw [this]
  exact Nat.ceil_natCast 49

/-! ### Such operations exist -/

theorem isF64_finite : {y : ℝ | IsF64 y}.Finite := by
  refine Set.Finite.subset (((Set.finite_Icc (-2 ^ 53 : ℤ) (2 ^ 53)).prod (Set.finite_Icc (-1074 : ℤ) 971)).image
    fun p : ℤ × ℤ => (p.1 : ℝ) * (2 : ℝ) ^ p.2) ?_
  rintro y ⟨m, e, hm, h1, h2, rfl⟩
  exact ⟨(m, e), ⟨abs_le.mp hm, h1, h2⟩, rfl⟩

theorem exists_nearest (t : ℝ) : ∃ y, NearestF64 t y := by
  obtain ⟨y, hy, h⟩ := Set.exists_min_image {y : ℝ | IsF64 y} (fun y => |y - t|) isF64_finite ⟨((0 : Nat) : ℝ), isF64_nat (by norm_num)⟩
  exact ⟨y, hy, h⟩

/-- Correctly rounded operations. -/
noncomputable def exF64 : F64Ops := ⟨fun x => (exists_nearest x).choose, fun y => (exists_nearest (Real.logb 2 y)).choose⟩

theorem exF64_exact : exF64.Exact := ⟨fun x => (exists_nearest x).choose_spec, fun y _ => (exists_nearest (Real.logb 2 y)).choose_spec⟩

end Panacea
