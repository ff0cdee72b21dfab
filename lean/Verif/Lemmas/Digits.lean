import Verif.Lemmas.Decomp
import Verif.Lemmas.CodecDecode
import Mathlib.Tactic.Ring
import Mathlib.Tactic.Linarith
import Mathlib.Algebra.BigOperators.Intervals
import Mathlib.Algebra.BigOperators.Ring.Finset

namespace Panacea
open Finset

theorem oneLevel_spec (bl : Nat) (h1 : 1 ≤ bl) (h2 : bl < 64) (st : Scalar) :
    ((st.toNat : Int) = (decomposeOneLevel bl st).1.toInt + 2 ^ bl * ((decomposeOneLevel bl st).2.toNat : Int))
    ∧ (decomposeOneLevel bl st).1.toInt.natAbs ≤ 2 ^ (bl - 1) := by
  unfold decomposeOneLevel
  simp only
  set res := st &&& (((1 : Scalar) <<< bl) - 1) with hres
  set st' := st >>> bl with hst'
  set carry := (((res - 1) ||| st') &&& res) >>> (bl - 1) with hcarry
  have hpow : (2:Nat) ^ bl = 2 * 2 ^ (bl - 1) := by rw [← pow_succ']; congr 1; omega
  have hPpos : 0 < 2 ^ (bl - 1) := by positivity
  have hPle : 2 ^ (bl - 1) ≤ 2 ^ 62 := Nat.pow_le_pow_right (by norm_num) (by omega)
  have hmask : ((1 : Scalar) <<< bl - 1).toNat = 2 ^ bl - 1 := by
    have := one_shl_toNat h2
    rw [BitVec.toNat_sub, this]
    have : (1 : Scalar).toNat = 1 := rfl
    rw [this]
    have : 2 ^ bl < 2 ^ 64 := Nat.pow_lt_pow_right (by norm_num) h2
    rw [show 2 ^ 64 - 1 + 2 ^ bl = 2 ^ 64 + (2 ^ bl - 1) by omega, Nat.add_mod_left, Nat.mod_eq_of_lt (by omega)]
  have hresN : res.toNat = st.toNat % 2 ^ bl := by
    rw [hres, BitVec.toNat_and, hmask, Nat.and_two_pow_sub_one_eq_mod]
  have hst'N : st'.toNat = st.toNat / 2 ^ bl := by
    rw [hst', BitVec.toNat_ushiftRight, Nat.shiftRight_eq_div_pow]
  have hreslt : res.toNat < 2 * 2 ^ (bl - 1) := by rw [hresN, ← hpow]; exact Nat.mod_lt _ (by positivity)
  set A := (((res - 1) ||| st') &&& res).toNat with hA
  have hAle : A ≤ res.toNat := by rw [hA, BitVec.toNat_and]; exact Nat.and_le_right
  have hcN : carry.toNat = A / 2 ^ (bl - 1) := by
    rw [hcarry, BitVec.toNat_ushiftRight, Nat.shiftRight_eq_div_pow]
  have hc2 : carry.toNat < 2 := by
    rw [hcN]; apply Nat.div_lt_of_lt_mul; omega
  have hc1 : carry.toNat = 1 → 2 ^ (bl - 1) ≤ res.toNat := by
    intro h
    rw [hcN] at h
    have := Nat.div_mul_le_self A (2 ^ (bl - 1))
    rw [h] at this; omega
  have hc0 : carry.toNat = 0 → res.toNat ≤ 2 ^ (bl - 1) := by
    intro h
    by_contra hgt
    rw [hcN] at h
    have hAlt : A < 2 ^ (bl - 1) := by
      rcases Nat.lt_or_ge A (2 ^ (bl - 1)) with h' | h'
      · exact h'
      · have := Nat.div_pos h' hPpos; omega
    have hr1 : (res - 1).toNat = res.toNat - 1 := by
      have : (1 : Scalar).toNat = 1 := rfl
      rw [BitVec.toNat_sub, this]
      have := res.isLt
      rw [show 2 ^ 64 - 1 + res.toNat = 2 ^ 64 + (res.toNat - 1) by omega, Nat.add_mod_left, Nat.mod_eq_of_lt (by omega)]
    have tb1 : res.toNat.testBit (bl - 1) = true := by
      rw [Nat.testBit_eq_decide_div_mod_eq]
      have : res.toNat / 2 ^ (bl - 1) = 1 := by
        apply Nat.div_eq_of_lt_le <;> omega
      simp [this]
    have tb2 : (res - 1).toNat.testBit (bl - 1) = true := by
      rw [hr1, Nat.testBit_eq_decide_div_mod_eq]
      have : (res.toNat - 1) / 2 ^ (bl - 1) = 1 := by
        apply Nat.div_eq_of_lt_le <;> omega
      simp [this]
    have tbA : A.testBit (bl - 1) = true := by
      rw [hA, BitVec.toNat_and, BitVec.toNat_or, Nat.testBit_and, Nat.testBit_or, tb1, tb2]; rfl
    have := Nat.ge_two_pow_of_testBit tbA
    omega
  have hstlt := st.isLt
  have hst'lt : st'.toNat < 2 ^ 63 := by
    rw [hst'N]
    apply Nat.div_lt_of_lt_mul
    have : 2 ≤ 2 ^ bl := by omega
    calc st.toNat < 2 * 2 ^ 63 := by omega
      _ ≤ 2 ^ bl * 2 ^ 63 := Nat.mul_le_mul_right _ this
  have hst2 : (st' + carry).toNat = st'.toNat + carry.toNat := by
    rw [BitVec.toNat_add, Nat.mod_eq_of_lt (by omega)]
  have hdm := Nat.mod_add_div st.toNat (2 ^ bl)
  rw [← hresN, ← hst'N] at hdm
  have hdig : (res - carry <<< bl).toInt = (res.toNat : Int) - 2 ^ bl * (carry.toNat : Int) := by
    have e : res - carry <<< bl = BitVec.ofInt 64 ((res.toNat : Int) - 2 ^ bl * (carry.toNat : Int)) := by
      have e1 : carry <<< bl = BitVec.ofInt 64 (2 ^ bl * (carry.toNat : Int)) := by
        apply BitVec.eq_of_toNat_eq
        rw [BitVec.toNat_shiftLeft, Nat.shiftLeft_eq, BitVec.toNat_ofInt]
        push_cast
        have : ((2:Int) ^ bl * (carry.toNat : Int)) = ((carry.toNat * 2 ^ bl : Nat) : Int) := by push_cast; ring
        rw [this]; norm_cast
      rw [e1, sub_eq_add_neg, ← BitVec.ofInt_neg]
      conv_lhs => rw [show res = BitVec.ofInt 64 (res.toNat : Int) by
        apply BitVec.eq_of_toNat_eq; rw [BitVec.toNat_ofInt]; have := res.isLt; omega]
      rw [← BitVec.ofInt_add, ← sub_eq_add_neg]
    rw [e, BitVec.toInt_ofInt]
    have hp' : (2:Int) ^ bl = 2 * ((2 ^ (bl - 1) : Nat) : Int) := by
      push_cast; rw [← pow_succ']; congr 1; omega
    rw [hp']
    apply Int.bmod_eq_of_le
    · rcases Nat.lt_or_ge carry.toNat 1 with h | h
      · have : carry.toNat = 0 := by omega
        rw [this]; omega
      · have : carry.toNat = 1 := by omega
        have := hc1 this
        have : carry.toNat = 1 := by omega
        rw [this]; omega
    · rcases Nat.lt_or_ge carry.toNat 1 with h | h
      · have : carry.toNat = 0 := by omega
        rw [this]; omega
      · have : carry.toNat = 1 := by omega
        rw [this]; omega
  constructor
  · rw [hdig, hst2]
    push_cast
    have : (st.toNat : Int) = (res.toNat : Int) + 2 ^ bl * (st'.toNat : Int) := by
      rw [← hdm]; push_cast; ring
    rw [this]; ring
  · rw [hdig]
    have hp' : (2:Int) ^ bl = 2 * ((2 ^ (bl - 1) : Nat) : Int) := by
      push_cast; rw [← pow_succ']; congr 1; omega
    rw [hp']
    rcases Nat.lt_or_ge carry.toNat 1 with h | h
    · have h0 : carry.toNat = 0 := by omega
      have := hc0 h0
      rw [h0]; omega
    · have h0 : carry.toNat = 1 := by omega
      have := hc1 h0
      rw [h0]; omega

theorem decomposeIter_length (bl : Nat) : ∀ (lv : Nat) (st : Scalar), (decomposeIter bl lv st).length = lv
  | 0, _ => rfl
  | k + 1, st => by simp [decomposeIter, decomposeIter_length bl k]

theorem decomposeIter_small (bl : Nat) (h1 : 1 ≤ bl) (h2 : bl < 64) :
    ∀ (lv : Nat) (st : Scalar), ∀ d ∈ decomposeIter bl lv st, d.toInt.natAbs ≤ 2 ^ (bl - 1)
  | 0, _, d, hd => by simp [decomposeIter] at hd
  | k + 1, st, d, hd => by
    simp only [decomposeIter, List.mem_cons] at hd
    rcases hd with rfl | hd
    · exact (oneLevel_spec bl h1 h2 st).2
    · exact decomposeIter_small bl h1 h2 k _ d hd

/-- Value of a digit list, least significant first, in base `2^bl`. -/
def digitsVal (bl : Nat) : List Scalar → Int
  | [] => 0
  | d :: ds => d.toInt + 2 ^ bl * digitsVal bl ds

theorem decomposeIter_val (bl : Nat) (h1 : 1 ≤ bl) (h2 : bl < 64) :
    ∀ (lv : Nat) (st : Scalar), ∃ z : Int, (st.toNat : Int) = digitsVal bl (decomposeIter bl lv st) + 2 ^ (bl * lv) * z
  | 0, st => ⟨st.toNat, by simp [decomposeIter, digitsVal]⟩
  | k + 1, st => by
    obtain ⟨z, hz⟩ := decomposeIter_val bl h1 h2 k (decomposeOneLevel bl st).2
    refine ⟨z, ?_⟩
    have := (oneLevel_spec bl h1 h2 st).1
    simp only [decomposeIter, digitsVal]
    rw [this, hz, Nat.mul_succ, pow_add]; ring

theorem digitsVal_eq_sum (bl : Nat) : ∀ ds : List Scalar,
    digitsVal bl ds = ∑ i ∈ range ds.length, (ds.getD i 0).toInt * 2 ^ (bl * i)
  | [] => rfl
  | d :: ds => by
    rw [digitsVal, digitsVal_eq_sum bl ds, List.length_cons, Finset.sum_range_succ', Finset.mul_sum, add_comm]
    congr 1
    · refine Finset.sum_congr rfl fun i _ => ?_
      rw [List.getD_cons_succ, Nat.mul_succ, pow_add]; ring
    · simp

theorem ofInt_two_pow (k : Nat) (h : k < 64) : BitVec.ofInt 64 (2 ^ k) = (1 : Scalar) <<< k := by
  apply BitVec.eq_of_toNat_eq
  rw [one_shl_toNat h, BitVec.toNat_ofInt]
  have : 2 ^ k < 2 ^ 64 := Nat.pow_lt_pow_right (by norm_num) h
  norm_cast
  rw [Nat.mod_eq_of_lt this]; rfl

theorem ofInt_sum {ι : Type*} (s : Finset ι) (f : ι → Int) :
    BitVec.ofInt 64 (∑ i ∈ s, f i) = ∑ i ∈ s, BitVec.ofInt 64 (f i) := by
  classical
  induction s using Finset.induction_on with
  | empty => rfl
  | insert a s ha ih => rw [Finset.sum_insert ha, Finset.sum_insert ha, BitVec.ofInt_add, ih]

theorem ofInt_toNat (x : Scalar) : BitVec.ofInt 64 (x.toNat : Int) = x := by
  apply BitVec.eq_of_toNat_eq; rw [BitVec.toNat_ofInt]; have := x.isLt; omega

theorem ofInt_mul' (a b : Int) : BitVec.ofInt 64 (a * b) = BitVec.ofInt 64 a * BitVec.ofInt 64 b := by
  rw [BitVec.ofInt_mul]

/-- The digit of level `l` (1 = most significant) of a word. -/
def digit (bl lv : Nat) (x : Scalar) (l : Nat) : Scalar := (decompose bl lv x).getD (lv - l) 0

theorem decompose_length (bl lv : Nat) (x : Scalar) : (decompose bl lv x).length = lv := decomposeIter_length _ _ _

/-- Recomposition: the rounded word is the sum of `digit_l * 2^(64 - bl*l)`. -/
theorem decompose_sum (bl lv : Nat) (h1 : 1 ≤ bl) (h2 : bl * lv < 64) (h3 : 1 ≤ lv) (x : Scalar) :
    ∑ i ∈ range lv, digit bl lv x (i + 1) * ((1 : Scalar) <<< (64 - bl * (i + 1))) = closestRepresentable bl lv x := by
  have hbl : bl < 64 := lt_of_le_of_lt (Nat.le_mul_of_pos_right bl h3) h2
  set w := closestRepresentable bl lv x with hw
  set st := w >>> (64 - bl * lv) with hst
  obtain ⟨z, hz⟩ := decomposeIter_val bl h1 hbl lv st
  have hwst : w = BitVec.ofInt 64 (2 ^ (64 - bl * lv) * (st.toNat : Int)) := by
    apply BitVec.eq_of_toNat_eq
    rw [BitVec.toNat_ofInt]
    have hN := closest_toNat bl lv x h2
    rw [← hw] at hN
    have hst0 : st.toNat = w.toNat / 2 ^ (64 - bl * lv) := by
      rw [hst, BitVec.toNat_ushiftRight, Nat.shiftRight_eq_div_pow]
    have : 2 ^ (64 - bl * lv) * st.toNat = w.toNat := by
      rw [hst0, hN, Nat.mul_div_cancel _ (by positivity)]; ring
    have e : ((2:Int) ^ (64 - bl * lv) * (st.toNat : Int)) = (w.toNat : Int) := by rw [← this]; push_cast; ring
    rw [e]; have := w.isLt; omega
  rw [hwst, hz, digitsVal_eq_sum, decomposeIter_length, mul_add, BitVec.ofInt_add, Finset.mul_sum, ofInt_sum]
  have hzero : BitVec.ofInt 64 (2 ^ (64 - bl * lv) * (2 ^ (bl * lv) * z)) = 0 := by
    rw [← mul_assoc, ← pow_add, show 64 - bl * lv + bl * lv = 64 by omega, ofInt_mul']
    rw [show BitVec.ofInt 64 (2 ^ 64) = 0 by decide, zero_mul]
  rw [hzero, add_zero]
  rw [← Finset.sum_range_reflect]
  refine Finset.sum_congr rfl fun i hi => ?_
  have hi' := Finset.mem_range.mp hi
  have hlvl : lv - 1 - i + 1 = lv - i := by omega
  rw [hlvl]
  have hsub : lv - (lv - i) = i := by omega
  have hmul : bl * (lv - i) = bl * lv - bl * i := Nat.mul_sub _ _ _
  have hle : bl * i ≤ bl * lv := Nat.mul_le_mul_left _ (by omega)
  have hpos : 1 ≤ bl * (lv - i) := Nat.mul_pos h1 (by omega)
  have e : (2:Int) ^ (64 - bl * lv) * ((List.getD (decomposeIter bl lv st) i 0).toInt * 2 ^ (bl * i))
      = (List.getD (decomposeIter bl lv st) i 0).toInt * 2 ^ (64 - bl * (lv - i)) := by
    rw [show 64 - bl * (lv - i) = (64 - bl * lv) + bl * i by omega, pow_add]; ring
  rw [e, ofInt_mul', ofInt_toInt', ofInt_two_pow _ (by omega)]
  unfold digit decompose
  rw [hsub]

theorem digit_small (bl lv : Nat) (h1 : 1 ≤ bl) (h2 : bl < 64) (x : Scalar) (l : Nat) :
    (digit bl lv x l).toInt.natAbs ≤ 2 ^ (bl - 1) := by
  unfold digit
  rw [List.getD_eq_getElem?_getD]
  cases h : (decompose bl lv x)[lv - l]? with
  | none => simp
  | some d =>
    simp only [Option.getD_some]
    exact decomposeIter_small bl h1 h2 lv _ d (List.mem_of_getElem? h)

theorem natAbs_ofInt_le (z : Int) : (BitVec.ofInt 64 z).toInt.natAbs ≤ z.natAbs := by
  rw [BitVec.toInt_ofInt]
  have h1 := Int.bmod_lt (x := z) (m := 2 ^ 64) (by norm_num)
  have h2 := Int.le_bmod (x := z) (m := 2 ^ 64) (by norm_num)
  by_cases h : -2 ^ 63 ≤ z ∧ z < 2 ^ 63
  · rw [Int.bmod_eq_of_le (by omega) (by omega)]
  · omega

/-- Rounding moves a word by at most `2^(63 - bl*lv)`. -/
theorem closest_error (bl lv : Nat) (h : bl * lv < 64) (x : Scalar) :
    (closestRepresentable bl lv x - x).toInt.natAbs ≤ 2 ^ (63 - bl * lv) := by
  have hN := closest_toNat bl lv x h
  set D := 2 ^ (63 - bl * lv) with hD
  have hD2 : 2 ^ (64 - bl * lv) = 2 * D := by rw [hD, ← pow_succ']; congr 1; omega
  rw [hD2] at hN
  set F := (x.toNat + D) / (2 * D) with hF
  have h64 : (2:Nat) ^ 64 = 2 ^ (bl * lv) * (2 * D) := by
    rw [← hD2, ← pow_add]; congr 1; omega
  have e : closestRepresentable bl lv x - x = BitVec.ofInt 64 ((F : Int) * (2 * D) - (x.toNat : Int)) := by
    rw [sub_eq_add_neg ((F : Int) * (2 * D)), BitVec.ofInt_add, BitVec.ofInt_neg, ofInt_toNat, ← sub_eq_add_neg]
    congr 1
    apply BitVec.eq_of_toNat_eq
    rw [hN, BitVec.toNat_ofInt]
    have : ((F:Int) * (2 * D)) = ((F * (2 * D) : Nat) : Int) := by push_cast; ring
    rw [this]
    have h2 : F % 2 ^ (bl * lv) * (2 * D) = (F * (2 * D)) % 2 ^ 64 := by
      rw [h64, Nat.mul_mod_mul_right]
    rw [h2]; norm_cast
  rw [e]
  refine le_trans (natAbs_ofInt_le _) ?_
  have hDpos : 0 < D := by positivity
  have hl := Nat.div_mul_le_self (x.toNat + D) (2 * D)
  have hu := Nat.lt_div_mul_add (a := x.toNat + D) (b := 2 * D) (by omega)
  rw [← hF] at hl hu
  have hl' : (F:Int) * (2 * D) ≤ x.toNat + D := by exact_mod_cast hl
  have hu' : (x.toNat : Int) + D < F * (2 * D) + 2 * D := by exact_mod_cast hu
  generalize (F:Int) * (2 * D) = FD at *
  omega

end Panacea

namespace Panacea

theorem closest_idem (bl lv : Nat) (h : bl * lv < 64) (x : Scalar) :
    closestRepresentable bl lv (closestRepresentable bl lv x) = closestRepresentable bl lv x := by
  apply BitVec.eq_of_toNat_eq
  rw [closest_toNat bl lv (closestRepresentable bl lv x) h]
  have h1 := closest_toNat bl lv x h
  set N := (x.toNat + 2 ^ (63 - bl * lv)) / 2 ^ (64 - bl * lv) % 2 ^ (bl * lv) with hN
  rw [h1]
  have hD2 : 2 ^ (64 - bl * lv) = 2 * 2 ^ (63 - bl * lv) := by rw [← pow_succ']; congr 1; omega
  have hpos : 0 < 2 ^ (63 - bl * lv) := by positivity
  have hdiv : (N * 2 ^ (64 - bl * lv) + 2 ^ (63 - bl * lv)) / 2 ^ (64 - bl * lv) = N := by
    rw [Nat.add_comm, Nat.add_mul_div_right _ _ (by positivity), Nat.div_eq_of_lt (by omega), zero_add]
  rw [hdiv, Nat.mod_eq_of_lt (by rw [hN]; exact Nat.mod_lt _ (by positivity))]

end Panacea
