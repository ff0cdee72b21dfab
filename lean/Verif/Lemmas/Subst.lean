import Verif.Spec.Poly
import Mathlib.Data.Nat.Totient
import Mathlib.Tactic.IntervalCases

namespace Panacea
namespace Poly
open Finset
variable {n : Nat}

theorem mono_pow (a i : Nat) : mono n a ^ i = mono n (a * i) := by
  induction i with
  | zero => simp [one_def]
  | succ i ih => rw [pow_succ, ih, mono_mul_mono, Nat.mul_succ]

theorem mono_add_mul' (m q : Nat) : mono n (m + n * q) = (-1) ^ q * mono n m := by
  rw [← mono_mul_mono, ← mono_pow, mono_n, mul_comm]

theorem mono_mod_two (m : Nat) : mono n (m % (2 * n)) = mono n m := by
  have h := Nat.mod_add_div m (2 * n)
  conv_rhs => rw [← h, show m % (2 * n) + 2 * n * (m / (2 * n)) = m % (2 * n) + n * (2 * (m / (2 * n))) by ring,
    mono_add_mul', pow_mul]
  simp

theorem mono_modEq {a b : Nat} (h : a ≡ b [MOD 2 * n]) : mono n a = mono n b := by
  rw [← mono_mod_two a, ← mono_mod_two b, h]

/-- Substitution `X -> X^k`, as a sum of monomials. -/
def subst (k : Nat) (p : Poly n) : Poly n := ∑ i : Fin n, const n (p i) * mono n (k * i.val)

theorem subst_eq_evalAt (k : Nat) (p : Poly n) : subst k p = Spec.evalAt p (Spec.X n ^ k) := by
  unfold subst Spec.evalAt Spec.X
  refine Finset.sum_congr rfl fun i _ => ?_
  rw [mono_pow, mono_pow]; simp

theorem subst_add (k : Nat) (p q : Poly n) : subst k (p + q) = subst k p + subst k q := by
  unfold subst
  rw [← Finset.sum_add_distrib]
  refine Finset.sum_congr rfl fun i _ => ?_
  rw [add_apply, const_add]; ring

theorem subst_zero (k : Nat) : subst k (0 : Poly n) = 0 := by
  unfold subst
  simp only [zero_apply, const_zero, zero_mul, Finset.sum_const_zero]

theorem subst_neg (k : Nat) (p : Poly n) : subst k (-p) = - subst k p := by
  have := subst_add k (-p) p
  rw [neg_add_cancel, subst_zero] at this
  exact (neg_eq_of_add_eq_zero_left this.symm).symm

theorem subst_sub (k : Nat) (p q : Poly n) : subst k (p - q) = subst k p - subst k q := by
  rw [sub_eq_add_neg, subst_add, subst_neg, ← sub_eq_add_neg]

theorem subst_const_mul (k : Nat) (c : Scalar) (p : Poly n) : subst k (const n c * p) = const n c * subst k p := by
  unfold subst
  rw [Finset.mul_sum]
  refine Finset.sum_congr rfl fun i _ => ?_
  rw [const_mul_apply, const_mul]; ring

theorem subst_sum {ι : Type*} (k : Nat) (s : Finset ι) (f : ι → Poly n) :
    subst k (∑ i ∈ s, f i) = ∑ i ∈ s, subst k (f i) := by
  classical
  induction s using Finset.induction_on with
  | empty => simp [subst_zero]
  | insert a s ha ih => rw [Finset.sum_insert ha, Finset.sum_insert ha, subst_add, ih]

theorem subst_mono_lt (k : Nat) (i : Fin n) : subst k (mono n i.val) = mono n (k * i.val) := by
  unfold subst
  rw [Finset.sum_eq_single i]
  · rw [mono_lt, if_pos rfl, const_one, one_mul]
  · intro b _ hb; rw [mono_lt, if_neg (Ne.symm hb), const_zero, zero_mul]
  · simp

theorem neg_one_pow_odd_mul {k : Nat} (hk : k % 2 = 1) (q : Nat) : ((-1 : Poly n)) ^ (k * q) = (-1) ^ q := by
  rw [pow_mul, Odd.neg_one_pow (Nat.odd_iff.mpr hk)]

theorem neg_one_pow_const (q : Nat) : ((-1 : Poly n)) ^ q = const n ((-1) ^ q) := by
  induction q with
  | zero => simp only [pow_zero, const_one]
  | succ q ih => rw [pow_succ, pow_succ, ih, const_mul, const_neg, const_one]

theorem subst_mono {k : Nat} (hk : k % 2 = 1) (hn : 0 < n) (a : Nat) : subst k (mono n a) = mono n (k * a) := by
  have h := Nat.mod_add_div a n
  conv_lhs => rw [← h, mono_add_mul', neg_one_pow_const, subst_const_mul]
  rw [subst_mono_lt k ⟨a % n, Nat.mod_lt _ hn⟩]
  conv_rhs => rw [← h, Nat.mul_add, show k * (n * (a / n)) = n * (k * (a / n)) by ring, mono_add_mul',
    neg_one_pow_odd_mul hk, neg_one_pow_const]

theorem eq_of_n_zero (h : ¬ 0 < n) (p q : Poly n) : p = q := by
  refine Poly.ext (funext fun k => absurd k.pos h)

theorem subst_mul {k : Nat} (hk : k % 2 = 1) (p q : Poly n) : subst k (p * q) = subst k p * subst k q := by
  by_cases hn : 0 < n
  · have h1 : p * q = ∑ i : Fin n, ∑ j : Fin n, const n (p i * q j) * mono n (i.val + j.val) := by
      conv_lhs => rw [eq_sum_mono p, eq_sum_mono q]
      rw [Finset.sum_mul_sum]
      refine Finset.sum_congr rfl fun i _ => Finset.sum_congr rfl fun j _ => ?_
      rw [← mono_mul_mono, const_mul]; ring
    rw [h1, subst_sum]
    unfold subst at *
    rw [Finset.sum_mul_sum]
    refine Finset.sum_congr rfl fun i _ => ?_
    have h2 := subst_sum (n := n) k (Finset.univ : Finset (Fin n)) (fun j => const n (p i * q j) * mono n (i.val + j.val))
    unfold subst at h2
    rw [h2]
    refine Finset.sum_congr rfl fun j _ => ?_
    have h3 := subst_const_mul (n := n) k (p i * q j) (mono n (i.val + j.val))
    rw [subst_mono hk hn] at h3
    unfold subst at h3
    rw [h3, Nat.mul_add, ← mono_mul_mono, const_mul]; ring
  · exact eq_of_n_zero hn _ _

theorem subst_one (k : Nat) : subst k (1 : Poly n) = 1 := by
  by_cases hn : 0 < n
  · have := subst_mono_lt k (⟨0, hn⟩ : Fin n)
    simp only [Nat.mul_zero] at this
    exact this
  · exact eq_of_n_zero hn _ _

theorem subst_const (k : Nat) (c : Scalar) : subst k (const n c) = const n c := by
  have := subst_const_mul (n := n) k c 1
  rwa [mul_one, subst_one, mul_one] at this

theorem subst_subst {k : Nat} (hk : k % 2 = 1) (k' : Nat) (p : Poly n) :
    subst k (subst k' p) = subst (k * k') p := by
  by_cases hn : 0 < n
  · conv_lhs => unfold subst
    have h : subst k' p = ∑ i : Fin n, const n (p i) * mono n (k' * i.val) := rfl
    have h2 : (∑ i : Fin n, const n ((subst k' p) i) * mono n (k * i.val)) = subst k (subst k' p) := rfl
    have h2' : (∑ i : Fin n, const n ((∑ i, const n (p i) * mono n (k' * i.val) : Poly n) i) * mono n (k * i.val)) = subst k (subst k' p) := rfl
    rw [h2', h, subst_sum]
    unfold subst
    refine Finset.sum_congr rfl fun i _ => ?_
    have h3 := subst_const_mul (n := n) k (p i) (mono n (k' * i.val))
    rw [subst_mono hk hn] at h3
    unfold subst at h3
    rw [h3, Nat.mul_assoc]
  · exact eq_of_n_zero hn _ _

theorem subst_id (p : Poly n) : subst 1 p = p := by
  unfold subst
  simp only [one_mul]
  exact (eq_sum_mono p).symm

theorem subst_modEq {a b : Nat} (h : a ≡ b [MOD 2 * n]) (p : Poly n) : subst a p = subst b p := by
  unfold subst
  refine Finset.sum_congr rfl fun i _ => ?_
  rw [mono_modEq (Nat.ModEq.mul_right _ h)]

end Poly

/-- Multiplication by an odd number is injective modulo a power of two. -/
theorem mul_odd_inj {d k : Nat} (hk : k % 2 = 1) {i j : Nat} (hi : i < 2 ^ d) (hj : j < 2 ^ d)
    (h : i * k % 2 ^ d = j * k % 2 ^ d) : i = j := by
  have hc : Nat.Coprime (2 ^ d) k := by
    apply Nat.Coprime.pow_left
    rw [Nat.coprime_two_left]
    exact Nat.odd_iff.mpr hk
  have h2 : i ≡ j [MOD 2 ^ d] := Nat.ModEq.cancel_right_of_coprime hc h
  have := h2
  unfold Nat.ModEq at this
  rwa [Nat.mod_eq_of_lt hi, Nat.mod_eq_of_lt hj] at this

theorem mul_odd_surj {d k : Nat} (hk : k % 2 = 1) {j : Nat} (hj : j < 2 ^ d) :
    ∃ i, i < 2 ^ d ∧ i * k % 2 ^ d = j := by
  let f : Fin (2 ^ d) → Fin (2 ^ d) := fun i => ⟨i.val * k % 2 ^ d, Nat.mod_lt _ (by positivity)⟩
  have hf : Function.Injective f := by
    intro a b h
    exact Fin.ext (mul_odd_inj hk a.isLt b.isLt (by simpa [f] using h))
  obtain ⟨i, hi⟩ := (Finite.injective_iff_surjective.mp hf) ⟨j, hj⟩
  exact ⟨i.val, i.isLt, by simpa [f] using congrArg Fin.val hi⟩

namespace Poly

theorem subst_apply {d k : Nat} (hk : k % 2 = 1) (p : Poly (2 ^ d)) (i : Fin (2 ^ d)) (j : Fin (2 ^ d))
    (hj : i.val * k % 2 ^ d = j.val) : subst k p j = (-1) ^ (i.val * k / 2 ^ d) * p i := by
  unfold subst
  rw [sum_apply, Finset.sum_eq_single i]
  · rw [const_mul_apply, mono_def, mul_comm k, if_pos hj]; ring
  · intro b _ hb
    rw [const_mul_apply, mono_def, mul_comm k, if_neg, mul_zero]
    intro h
    exact hb (Fin.ext (mul_odd_inj hk b.isLt i.isLt (h.trans hj.symm)))
  · simp

end Poly

theorem evalXk_sign (e : Nat) :
    (if e % 2 == 0 then (1 : Scalar) else 0xFFFFFFFFFFFFFFFF#64) = (-1) ^ e := by
  rcases Nat.mod_two_eq_zero_or_one e with h | h
  · rw [h, Even.neg_one_pow (Nat.even_iff.mpr h)]; rfl
  · rw [h, Odd.neg_one_pow (Nat.odd_iff.mpr h)]; rfl

theorem isPow2_iff_exists {n : Nat} : isPow2 n = true ↔ ∃ d, n = 2 ^ d := by
  unfold isPow2
  constructor
  · intro h
    simp only [Bool.and_eq_true, beq_iff_eq] at h
    exact ⟨_, h.2.symm⟩
  · rintro ⟨d, rfl⟩
    simp

/-- Loop invariant of `eval_x_k_in_memory`. -/
theorem evalXk_loop {d k : Nat} (hk : k % 2 = 1) (p : Poly (2 ^ d)) (out : Poly (2 ^ d)) (m : Nat) (hm : m < 2 ^ d) :
    ∀ i : Fin (2 ^ d), i.val ≤ m → ∀ j : Fin (2 ^ d), i.val * k % 2 ^ d = j.val →
      ((List.range' 1 m).foldl (evalXkStep p k) (out.set 0 (p.get 0))) j = (-1) ^ (i.val * k / 2 ^ d) * p i := by
  induction m with
  | zero =>
    intro i hi j hj
    have hi0 : i.val = 0 := by omega
    rw [hi0] at hj ⊢
    have hj0 : j.val = 0 := by simpa using hj.symm
    simp only [List.range'_zero, List.foldl_nil, Poly.set_apply, hj0, if_true, Nat.zero_mul, Nat.zero_div, pow_zero, one_mul]
    rw [← Poly.get_lt, hi0]
  | succ m ih =>
    intro i hi j hj
    rw [List.range'_concat, List.foldl_append]
    simp only [List.foldl_cons, List.foldl_nil, one_mul]
    unfold evalXkStep
    simp only
    rw [evalXk_sign, Poly.set_apply]
    by_cases h : i.val = 1 + m
    · rw [← h, if_pos hj.symm, Poly.get_lt]
    · rw [if_neg]
      · exact ih (by omega) i (by omega) j hj
      · intro hc
        exact h (mul_odd_inj hk i.isLt (by omega) (hj.trans hc))

theorem evalXkInMemory_eq {d k : Nat} (hk : k % 2 = 1) (out p : Poly (2 ^ d)) :
    evalXkInMemory out p k = some (p.subst k) := by
  unfold evalXkInMemory
  rw [if_pos hk, if_pos (isPow2_iff_exists.mpr ⟨d, rfl⟩)]
  congr 1
  refine Poly.ext (funext fun j => ?_)
  obtain ⟨i, hi, hij⟩ := mul_odd_surj (d := d) hk j.isLt
  have hpos : 0 < 2 ^ d := by positivity
  rw [evalXk_loop hk p out (2 ^ d - 1) (by omega) ⟨i, hi⟩ (by simp only; omega) j hij,
    Poly.subst_apply hk p ⟨i, hi⟩ j hij]

theorem toInt_neg_natAbs (x : Scalar) : (-x).toInt.natAbs = x.toInt.natAbs := by
  rw [BitVec.toInt_neg]
  have h1 : x.toInt < 2 ^ 63 := by simpa using BitVec.toInt_lt (x := x)
  have h2 : -2 ^ 63 ≤ x.toInt := by simpa using BitVec.le_toInt x
  by_cases h : x.toInt = -2 ^ 63
  · rw [h]; decide
  · rw [Int.bmod_eq_of_le] <;> omega

theorem neg_one_pow_mul_natAbs (e : Nat) (x : Scalar) : ((-1) ^ e * x).toInt.natAbs = x.toInt.natAbs := by
  rcases Nat.even_or_odd e with h | h
  · rw [h.neg_one_pow, one_mul]
  · rw [h.neg_one_pow, neg_one_mul, toInt_neg_natAbs]

theorem Small.subst {d k B : Nat} (hk : k % 2 = 1) {p : Poly (2 ^ d)} (h : Small p B) : Small (p.subst k) B := by
  intro j
  obtain ⟨i, hi, hij⟩ := mul_odd_surj (d := d) hk j.isLt
  rw [Poly.subst_apply hk p ⟨i, hi⟩ j hij, neg_one_pow_mul_natAbs]
  exact h _

end Panacea
