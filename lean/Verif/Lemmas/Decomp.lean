import Verif.Lemmas.Codec

namespace Panacea

theorem half_up_nat (x j : Nat) (hj : 1 ≤ j) :
    x / 2 ^ j + (x / 2 ^ (j - 1)) % 2 = (x + 2 ^ (j - 1)) / 2 ^ j := by
  obtain ⟨i, rfl⟩ : ∃ i, j = i + 1 := ⟨j - 1, by omega⟩
  simp only [Nat.add_sub_cancel]
  have e1 : x / 2 ^ (i + 1) = x / 2 ^ i / 2 := by rw [pow_succ, Nat.div_div_eq_div_mul]
  have e2 : (x + 2 ^ i) / 2 ^ (i + 1) = (x / 2 ^ i + 1) / 2 := by
    rw [pow_succ, ← Nat.div_div_eq_div_mul]
    congr 1
    rw [Nat.add_div_right _ (by positivity)]
  rw [e1, e2]; omega

theorem closest_toNat_aux (x : Scalar) (j : Nat) (h1 : 1 ≤ j) (h2 : j ≤ 64) :
    (((x >>> j) + ((x &&& ((1 : Scalar) <<< (j - 1))) >>> (j - 1))) <<< j : Scalar).toNat
      = ((x.toNat + 2 ^ (j - 1)) / 2 ^ j) % 2 ^ (64 - j) * 2 ^ j := by
  have hm : (x &&& ((1 : Scalar) <<< (j - 1))) >>> (j - 1) = (x >>> (j - 1)) &&& 1 := by
    rw [BitVec.ushiftRight_and_distrib]
    congr 1
    apply BitVec.eq_of_toNat_eq
    have hlt : (2:Nat) ^ (j - 1) < 2 ^ 64 := Nat.pow_lt_pow_right (by norm_num) (by omega)
    rw [BitVec.toNat_ushiftRight, BitVec.toNat_shiftLeft, Nat.shiftLeft_eq, Nat.shiftRight_eq_div_pow]
    have h1' : (1 : Scalar).toNat = 1 := rfl
    rw [h1', one_mul, Nat.mod_eq_of_lt hlt, Nat.div_self (by positivity)]
  rw [hm]
  rw [BitVec.toNat_shiftLeft, BitVec.toNat_add, BitVec.toNat_and, BitVec.toNat_ushiftRight,
    BitVec.toNat_ushiftRight]
  simp only [Nat.shiftRight_eq_div_pow, Nat.shiftLeft_eq]
  have h1' : (1 : Scalar).toNat = 1 := rfl
  rw [h1', Nat.and_one_is_mod, half_up_nat _ _ h1]
  have hsplit : (2:Nat) ^ 64 = 2 ^ (64 - j) * 2 ^ j := by rw [← pow_add]; congr 1; omega
  have : (x.toNat + 2 ^ (j - 1)) / 2 ^ j % 2 ^ 64 * 2 ^ j % 2 ^ 64
      = (x.toNat + 2 ^ (j - 1)) / 2 ^ j * 2 ^ j % 2 ^ 64 := by
    rw [Nat.mod_mul_mod]
  rw [this, hsplit, Nat.mul_mod_mul_right]

theorem closest_toNat (bl lv : Nat) (x : Scalar) (h : bl * lv < 64) :
    (closestRepresentable bl lv x).toNat
      = ((x.toNat + 2 ^ (63 - bl * lv)) / 2 ^ (64 - bl * lv)) % 2 ^ (bl * lv) * 2 ^ (64 - bl * lv) := by
  unfold closestRepresentable
  have := closest_toNat_aux x (64 - bl * lv) (by omega) (by omega)
  simp only at *
  rw [this]
  have e1 : 64 - bl * lv - 1 = 63 - bl * lv := by omega
  have e2 : 64 - (64 - bl * lv) = bl * lv := by omega
  rw [e1, e2]

/-- The rounded word shifted down: an integer-level formula valid for any representative `z` of `x`. -/
theorem closest_shift_int (bl lv : Nat) (z : Int) (h : bl * lv < 64) :
    (((closestRepresentable bl lv (BitVec.ofInt 64 z)).toNat / 2 ^ (64 - bl * lv) : Nat) : Int)
      = ((z + 2 ^ (63 - bl * lv)) / 2 ^ (64 - bl * lv)) % 2 ^ (bl * lv) := by
  rw [closest_toNat _ _ _ h, Nat.mul_div_cancel _ (by positivity)]
  push_cast
  have hz : ((BitVec.ofInt 64 z).toNat : Int) = z % 2 ^ 64 := by
    rw [BitVec.toNat_ofInt]; norm_num; omega
  rw [hz]
  have hsplit : (2:Int) ^ 64 = 2 ^ (64 - bl * lv) * 2 ^ (bl * lv) := by rw [← pow_add]; congr 1; omega
  have : z % 2 ^ 64 = z + 2 ^ (64 - bl * lv) * (- (2 ^ (bl * lv) * (z / 2 ^ 64))) := by
    have := Int.emod_add_mul_ediv z (2 ^ 64)
    rw [hsplit] at *
    linarith
  rw [this]
  have e : z + 2 ^ (64 - bl * lv) * (- (2 ^ (bl * lv) * (z / 2 ^ 64))) + 2 ^ (63 - bl * lv)
     = z + 2 ^ (63 - bl * lv) + 2 ^ (64 - bl * lv) * (- (2 ^ (bl * lv) * (z / 2 ^ 64))) := by ring
  rw [e, Int.add_mul_ediv_left _ _ (by positivity)]
  have e3 : (z + 2 ^ (63 - bl * lv)) / 2 ^ (64 - bl * lv) + -(2 ^ (bl * lv) * (z / 2 ^ 64))
    = (z + 2 ^ (63 - bl * lv)) / 2 ^ (64 - bl * lv) + (2 ^ (bl * lv)) * (-(z / 2 ^ 64)) := by ring
  rw [e3, Int.add_mul_emod_self_left]

end Panacea
