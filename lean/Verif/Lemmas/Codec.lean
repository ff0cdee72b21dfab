import Verif.Model.Codec
import Mathlib.Tactic.Ring
import Mathlib.Tactic.Linarith
import Mathlib.Data.Nat.Log

namespace Panacea

theorem isPow2_iff (n : Nat) : isPow2 n = true ↔ ∃ k, n = 2 ^ k := by
  unfold isPow2
  simp only [Bool.and_eq_true, bne_iff_ne, ne_eq, beq_iff_eq]
  constructor
  · rintro ⟨_, h⟩; exact ⟨_, h.symm⟩
  · rintro ⟨k, rfl⟩
    refine ⟨by positivity, ?_⟩
    rw [Nat.log2_two_pow]

theorem log2_eq {x : Nat} (h0 : 0 < x) (h1 : x < 2 ^ 64) : log2 x = some (Nat.log2 x) := by
  have hne : (BitVec.ofNat 64 x) ≠ 0#64 := by
    intro h
    have := congrArg BitVec.toNat h
    simp at this
    omega
  have ht : (BitVec.ofNat 64 x).toNat = x := by simp; omega
  have h2 := BitVec.two_pow_sub_clz_le_toNat_of_ne_zero (by norm_num) hne
  have h3 := BitVec.toNat_lt_two_pow_sub_clz (x := BitVec.ofNat 64 x)
  have hlt : (BitVec.ofNat 64 x).clz.toNat < 64 := by
    by_contra hc
    have h4 : 64 - (BitVec.ofNat 64 x).clz.toNat = 0 := by omega
    rw [h4, ht] at h3
    simp at h3; omega
  rw [ht] at h2 h3
  unfold log2
  simp only
  rw [if_neg (by omega)]
  congr 1
  symm
  rw [Nat.log2_eq_iff (by omega)]
  constructor
  · convert h2 using 2; omega
  · have : 64 - (BitVec.ofNat 64 x).clz.toNat - 1 + 1 = 64 - (BitVec.ofNat 64 x).clz.toNat := by omega
    rw [this]; exact h3

theorem log2_zero : log2 0 = none := by
  decide

theorem log2_pow {k : Nat} (h : k < 64) : log2 (2 ^ k) = some k := by
  rw [log2_eq (by positivity) (Nat.pow_lt_pow_right (by norm_num) h), Nat.log2_two_pow]

end Panacea
