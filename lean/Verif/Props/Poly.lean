import Verif.Lemmas.Small
import Verif.Model.Rlwe

/-!
# C07 (substitution X -> X^k), C15 (gadget decomposition), C33 (in-place multiplication)
-/

namespace Panacea
open Finset

/-! ## C07 -/

/-- C07 (panic): the function panics iff `k` is even or the size is not a power of two, whatever the buffer holds. -/
theorem C07_panics_iff {n : Nat} (out p : Poly n) (k : Nat) :
    evalXkInMemory out p k = none ↔ (k % 2 = 0 ∨ ¬ ∃ d, n = 2 ^ d) := by
  unfold evalXkInMemory
  by_cases hk : k % 2 = 1
  · by_cases hn : ∃ d, n = 2 ^ d
    · rw [if_pos hk, if_pos (isPow2_iff_exists.mpr hn)]
      simp [hk, hn]
    · rw [if_pos hk, if_neg (by rw [isPow2_iff_exists]; exact hn)]
      simp [hn]
  · rw [if_neg hk]
    simp only [true_iff]
    left; omega

/-- C07 (value): on success the result is the polynomial evaluated at `X^k` in `Z_q[X]/(X^n+1)`; the old buffer contents
`out` do not appear in it. -/
theorem C07_eval_at_x_pow_k {n : Nat} (out p q : Poly n) (k : Nat) (h : evalXkInMemory out p k = some q) :
    q = Spec.evalAt p (Spec.X n ^ k) := by
  have hk : k % 2 = 1 := by
    by_contra hk
    have := (C07_panics_iff out p k).mpr (Or.inl (by omega))
    rw [this] at h; cases h
  have hn : ∃ d, n = 2 ^ d := by
    by_contra hn
    have := (C07_panics_iff out p k).mpr (Or.inr hn)
    rw [this] at h; cases h
  obtain ⟨d, rfl⟩ := hn
  rw [evalXkInMemory_eq hk] at h
  cases h
  exact Poly.subst_eq_evalAt k p

/-- C07 (homomorphism): for odd `k` evaluation at `X^k` preserves sums, products, 0 and 1. -/
theorem C07_ring_hom {n : Nat} (k : Nat) (hk : k % 2 = 1) (p q : Poly n) :
    Spec.evalAt (p + q) (Spec.X n ^ k) = Spec.evalAt p (Spec.X n ^ k) + Spec.evalAt q (Spec.X n ^ k) ∧
    Spec.evalAt (p * q) (Spec.X n ^ k) = Spec.evalAt p (Spec.X n ^ k) * Spec.evalAt q (Spec.X n ^ k) ∧
    Spec.evalAt (0 : Poly n) (Spec.X n ^ k) = 0 ∧ Spec.evalAt (1 : Poly n) (Spec.X n ^ k) = 1 := by
  simp only [← Poly.subst_eq_evalAt]
  exact ⟨Poly.subst_add k p q, Poly.subst_mul hk p q, Poly.subst_zero k, Poly.subst_one k⟩

/-- C07 (composition): substituting `X^k'` and then `X^k` is substituting `X^(k k')`, in the code. -/
theorem C07_compose {d : Nat} (k k' : Nat) (hk : k % 2 = 1) (hk' : k' % 2 = 1) (p : Poly (2 ^ d)) :
    (evalXk p k').bind (fun q => evalXk q k) = evalXk p (k * k') := by
  unfold evalXk
  have h : (k * k') % 2 = 1 := by rw [Nat.mul_mod, hk, hk']
  rw [evalXkInMemory_eq hk', Option.bind_some, evalXkInMemory_eq hk, evalXkInMemory_eq h, Poly.subst_subst hk]

/-- C07 (bijection): distinct polynomials have distinct images, and every polynomial is an image. -/
theorem C07_bijective {d : Nat} (k : Nat) (hk : k % 2 = 1) :
    (∀ p q : Poly (2 ^ d), evalXk p k = evalXk q k → p = q) ∧ (∀ q : Poly (2 ^ d), ∃ p, evalXk p k = some q) := by
  have hc : Nat.Coprime k (2 * 2 ^ d) := by
    rw [← pow_succ']
    apply Nat.Coprime.pow_right
    rw [Nat.coprime_two_right]
    exact Nat.odd_iff.mpr hk
  have hpos : 1 < 2 * 2 ^ d := by have : 0 < 2 ^ d := by positivity
                                  omega
  obtain ⟨k', _, hk'⟩ := Nat.exists_mul_mod_eq_one_of_coprime hc hpos
  have hodd : k' % 2 = 1 := by
    rcases Nat.mod_two_eq_zero_or_one k' with h | h
    · exfalso
      have h2 : (k * k') % 2 = 0 := by rw [Nat.mul_mod, h]; simp
      have h3 : (k * k' % (2 * 2 ^ d)) % 2 = (k * k') % 2 := Nat.mod_mul_right_mod _ _ _
      rw [hk', h2] at h3
      omega
    · exact h
  have hmod : k' * k ≡ 1 [MOD 2 * 2 ^ d] := by
    unfold Nat.ModEq
    rw [mul_comm, hk', Nat.mod_eq_of_lt hpos]
  have hmod' : k * k' ≡ 1 [MOD 2 * 2 ^ d] := by rw [mul_comm k]; exact hmod
  unfold evalXk
  constructor
  · intro p q h
    rw [evalXkInMemory_eq hk, evalXkInMemory_eq hk] at h
    have h' := congrArg (Poly.subst k') (Option.some.inj h)
    rwa [Poly.subst_subst hodd, Poly.subst_subst hodd, Poly.subst_modEq hmod, Poly.subst_modEq hmod, Poly.subst_id,
      Poly.subst_id] at h'
  · intro q
    refine ⟨q.subst k', ?_⟩
    rw [evalXkInMemory_eq hk, Poly.subst_subst hk, Poly.subst_modEq hmod', Poly.subst_id]

/-- C07 (size): every bound on the coefficients is preserved. -/
theorem C07_small {n : Nat} (out p q : Poly n) (k B : Nat) (h : evalXkInMemory out p k = some q) (hp : Small p B) :
    Small q B := by
  have hk : k % 2 = 1 := by
    by_contra hk
    have := (C07_panics_iff out p k).mpr (Or.inl (by omega))
    rw [this] at h; cases h
  have hn : ∃ d, n = 2 ^ d := by
    by_contra hn
    have := (C07_panics_iff out p k).mpr (Or.inr hn)
    rw [this] at h; cases h
  obtain ⟨d, rfl⟩ := hn
  rw [evalXkInMemory_eq hk] at h
  cases h
  exact hp.subst hk

/-- Instance: `1 + 2X + 3X^2 + 4X^3` at `X^3`, into a dirty buffer, is `1 + 4X - 3X^2 + 2X^3`. -/
example : evalXkInMemory (n := 4) ⟨![9, 9, 9, 9]⟩ ⟨![1, 2, 3, 4]⟩ 3 = some ⟨![1, 4, -3, 2]⟩ := by decide +kernel

/-! ## C15 -/

/-- C15 (digits): exactly `level_count` digits, each balanced. -/
theorem C15_digits (bl lv : Nat) (h1 : 1 ≤ bl) (h2 : 1 ≤ lv) (h3 : bl * lv < 64) (x : Scalar) :
    (decompose bl lv x).length = lv ∧
    ∀ d ∈ decompose bl lv x, -2 ^ (bl - 1) ≤ d.toInt ∧ d.toInt ≤ 2 ^ (bl - 1) := by
  refine ⟨decompose_length bl lv x, fun d hd => ?_⟩
  have hbl : bl < 64 := lt_of_le_of_lt (Nat.le_mul_of_pos_right bl h2) h3
  have h := decomposeIter_small bl h1 hbl lv _ d hd
  have h' : (d.toInt.natAbs : Int) ≤ 2 ^ (bl - 1) := by exact_mod_cast h
  omega

/-- C15 (recomposition): with the digit of level `l` at position `level_count - l` (the iterator yields the last level first),
the sum of `digit_l * 2^(64 - base_log*l)` is the rounded word, modulo `2^64`. -/
theorem C15_recompose (bl lv : Nat) (h1 : 1 ≤ bl) (h2 : 1 ≤ lv) (h3 : bl * lv < 64) (x : Scalar) :
    BitVec.ofInt 64 (∑ l ∈ Icc 1 lv, ((decompose bl lv x).getD (lv - l) 0).toInt * 2 ^ (64 - bl * l))
      = closestRepresentable bl lv x := by
  have e : Icc 1 lv = (range lv).image (· + 1) := by
    ext a
    simp only [mem_Icc, mem_image, mem_range]
    constructor
    · rintro ⟨ha, hb⟩; exact ⟨a - 1, by omega, by omega⟩
    · rintro ⟨b, hb, rfl⟩; omega
  rw [ofInt_sum, e, Finset.sum_image (by intro a _ b _ h; simpa using h), ← decompose_sum bl lv h1 h3 h2 x]
  refine Finset.sum_congr rfl fun i hi => ?_
  have hb : 1 ≤ bl * (i + 1) := Nat.mul_pos h1 (by omega)
  rw [ofInt_mul', ofInt_toInt', ofInt_two_pow _ (by omega)]
  rfl

/-- C15 (rounding): the rounded word is a multiple of `2^(64-base_log*level_count)` and is at centred distance at most
`2^(63-base_log*level_count)` from the word. -/
theorem C15_rounding (bl lv : Nat) (h : bl * lv < 64) (x : Scalar) :
    2 ^ (64 - bl * lv) ∣ (closestRepresentable bl lv x).toNat ∧
    |(closestRepresentable bl lv x - x).toInt| ≤ 2 ^ (63 - bl * lv) := by
  constructor
  · rw [closest_toNat bl lv x h]; exact Dvd.intro_left _ rfl
  · have := closest_error bl lv h x
    rw [Int.abs_eq_natAbs]; exact_mod_cast this

/-- C15 (idempotence): rounding a rounded word changes nothing, so decomposing after an explicit rounding (as the key switch
and the LWE conversion do) gives the same digits. -/
theorem C15_round_idempotent (bl lv : Nat) (h : bl * lv < 64) (x : Scalar) :
    closestRepresentable bl lv (closestRepresentable bl lv x) = closestRepresentable bl lv x ∧
    decompose bl lv (closestRepresentable bl lv x) = decompose bl lv x := by
  have h1 : closestRepresentable bl lv (closestRepresentable bl lv x) = closestRepresentable bl lv x :=
    closest_idem bl lv h x
  refine ⟨h1, ?_⟩
  unfold decompose
  rw [h1]

/-- Instance with the default parameters (base_log 5, 9 levels): hypotheses hold and a digit is negative. -/
example : (1 ≤ 5 ∧ 1 ≤ 9 ∧ 5 * 9 < 64) ∧ ((decompose 5 9 0x123456789ABCDEF0#64).map (·.toInt))
    = [-8, -5, 5, -2, 13, 5, -6, 9, 2] ∧ closestRepresentable 5 9 0x123456789ABCDEF0#64 = 1311768467463995392#64 := by
  decide +kernel

/-! ## C33 -/

/-- C33: `update_mask_with_mul` replaces the mask by its product with the argument and leaves the body alone. -/
theorem C33_mask_mul {n : Nat} (c : RLWE n) (p : Poly n) :
    (c.updateMaskWithMul p).mask = c.mask * p ∧ (c.updateMaskWithMul p).body = c.body := by
  refine ⟨?_, rfl⟩
  show (0 : Poly n) + c.mask * p = c.mask * p
  rw [zero_add]

/-- The product of the model is the negacyclic one: coefficient `k` of `p q` is
`sum_(i ≤ k) p_i q_(k-i) - sum_(i > k) p_i q_(n+k-i)`. -/
theorem C33_negacyclic {n : Nat} (p q : Poly n) (k : Fin n) :
    (p * q) k = ∑ i : Fin n, p i * (if i ≤ k then q.get (k.val - i.val) else - q.get (n + k.val - i.val)) :=
  Poly.mul_apply p q k

/-- C33 FINDING: `update_body_with_mul` always clears the body. -/
theorem C33_body_mul_always_zero {n : Nat} (c : RLWE n) (p : Poly n) : (c.updateBodyWithMul p).body = 0 := by
  show (0 : Poly n) * p = 0
  rw [zero_mul]

/-- C33 FINDING, witness: multiplying by 1 does not preserve the body. -/
theorem C33_body_mul_wrong : ∃ c : RLWE 2, (c.updateBodyWithMul 1).body ≠ c.body * 1 :=
  ⟨⟨0, 1⟩, by decide +kernel⟩

example : ((⟨⟨![1, 2]⟩, ⟨![5, 6]⟩⟩ : RLWE 2).updateMaskWithMul ⟨![3, 4]⟩).mask = ⟨![3 - 8, 4 + 6]⟩ := by decide +kernel

end Panacea
