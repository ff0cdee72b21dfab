import Verif.Lemmas.Decomp
import Verif.Spec.Codec

namespace Panacea

theorem one_shl_toNat {k : Nat} (h : k < 64) : ((1 : Scalar) <<< k).toNat = 2 ^ k := by
  have hlt : (2:Nat) ^ k < 2 ^ 64 := Nat.pow_lt_pow_right (by norm_num) h
  rw [BitVec.toNat_shiftLeft, Nat.shiftLeft_eq]
  have h1' : (1 : Scalar).toNat = 1 := rfl
  rw [h1', one_mul, Nat.mod_eq_of_lt hlt]

theorem Codec.new_eq_some {t : Scalar} {c : Codec} (h : Codec.new t = some c) :
    ∃ k, 1 ≤ k ∧ k ≤ 63 ∧ t.toNat = 2 ^ k ∧ c.baseLog = k ∧ c.delta = (1 : Scalar) <<< (64 - k) := by
  unfold Codec.new at h
  split at h
  · cases h
  · rename_i hp
    simp only [Bool.not_eq_true, Bool.not_eq_false'] at hp
    obtain ⟨k, hk⟩ := (isPow2_iff _).1 hp
    have hk64 : k < 64 := by
      by_contra hc
      have : 2 ^ 64 ≤ t.toNat := hk ▸ Nat.pow_le_pow_right (by norm_num) (by omega)
      have := t.isLt; omega
    rw [hk, log2_pow hk64] at h
    simp only at h
    split at h
    · injection h with h; subst h
      exact ⟨k, by omega, by omega, hk, rfl, rfl⟩
    · cases h

theorem Codec.new_pow {k : Nat} (h1 : 1 ≤ k) (h2 : k ≤ 63) :
    Codec.new (BitVec.ofNat 64 (2 ^ k)) = some { baseLog := k, delta := (1 : Scalar) <<< (64 - k) } := by
  have hlt : (2:Nat) ^ k < 2 ^ 64 := Nat.pow_lt_pow_right (by norm_num) (by omega)
  have ht : (BitVec.ofNat 64 (2 ^ k)).toNat = 2 ^ k := by
    rw [BitVec.toNat_ofNat, Nat.mod_eq_of_lt hlt]
  unfold Codec.new
  have hp : isPow2 (2 ^ k) = true := (isPow2_iff _).2 ⟨k, rfl⟩
  rw [ht, hp, log2_pow (by omega)]
  simp; omega

/-- A well-formed codec: what `Codec.new` returns. -/
structure Codec.WF (c : Codec) : Prop where
  one_le : 1 ≤ c.baseLog
  le : c.baseLog ≤ 63
  delta : c.delta = (1 : Scalar) <<< (64 - c.baseLog)

theorem Codec.new_wf {t : Scalar} {c : Codec} (h : Codec.new t = some c) :
    c.WF ∧ t.toNat = 2 ^ c.baseLog := by
  obtain ⟨k, h1, h2, h3, rfl, h5⟩ := Codec.new_eq_some h
  exact ⟨⟨h1, h2, h5⟩, h3⟩

theorem Codec.WF.delta_toNat {c : Codec} (h : c.WF) : c.delta.toNat = 2 ^ (64 - c.baseLog) := by
  have := h.one_le
  rw [h.delta, one_shl_toNat (by omega)]

theorem Codec.WF.ptModulus_toNat {c : Codec} (h : c.WF) : c.ptModulus.toNat = 2 ^ c.baseLog := by
  have := h.le
  unfold Codec.ptModulus
  rw [one_shl_toNat (by omega)]

theorem Codec.WF.encode_eq {c : Codec} (h : c.WF) (x : Scalar) :
    c.encode x = if x.toNat < 2 ^ c.baseLog then some (x * c.delta) else none := by
  have := h.one_le; have := h.le
  unfold Codec.encode
  simp only [BitVec.le_def, h.ptModulus_toNat, h.delta_toNat]
  by_cases hx : x.toNat < 2 ^ c.baseLog
  · rw [if_neg (by omega), if_pos hx, if_pos]
    have hs : (2:Nat) ^ 64 = 2 ^ c.baseLog * 2 ^ (64 - c.baseLog) := by
      rw [← pow_add]; congr 1; omega
    rw [hs]
    exact Nat.mul_lt_mul_of_pos_right hx (by positivity)
  · rw [if_pos (by omega), if_neg hx]

theorem Codec.WF.decode_int {c : Codec} (h : c.WF) (z : Int) :
    ((c.decode (BitVec.ofInt 64 z)).toNat : Int)
      = ((z + 2 ^ (63 - c.baseLog)) / 2 ^ (64 - c.baseLog)) % 2 ^ c.baseLog := by
  have h1 := h.one_le; have h2 := h.le
  have := closest_shift_int c.baseLog 1 z (by omega)
  rw [mul_one] at this
  rw [← this]
  unfold Codec.decode
  rw [BitVec.toNat_udiv, h.delta_toNat]

theorem ofInt_toInt' (x : Scalar) : BitVec.ofInt 64 x.toInt = x := by simp

theorem mul_delta_ofInt {c : Codec} (h : c.WF) (x : Scalar) :
    x * c.delta = BitVec.ofInt 64 (x.toNat * 2 ^ (64 - c.baseLog)) := by
  apply BitVec.eq_of_toNat_eq
  rw [BitVec.toNat_mul, h.delta_toNat]
  apply Int.ofNat_inj.1
  rw [BitVec.toNat_ofInt]
  push_cast
  rw [Int.toNat_of_nonneg (Int.emod_nonneg _ (by norm_num))]

/-- Decoding an encoding of `m` plus an integer error. -/
theorem Codec.WF.decode_encode_add {c : Codec} (h : c.WF) (M E : Int) :
    ((c.decode (BitVec.ofInt 64 (M * 2 ^ (64 - c.baseLog) + E))).toNat : Int)
      = (M + (E + 2 ^ (63 - c.baseLog)) / 2 ^ (64 - c.baseLog)) % 2 ^ c.baseLog := by
  rw [h.decode_int]
  congr 1
  have : M * 2 ^ (64 - c.baseLog) + E + 2 ^ (63 - c.baseLog)
     = E + 2 ^ (63 - c.baseLog) + 2 ^ (64 - c.baseLog) * M := by ring
  rw [this, Int.add_mul_ediv_left _ _ (by positivity)]
  ring

theorem delta_int {k : Nat} (h : k ≤ 63) : (2 ^ 64 : Int) / ((2 ^ k : Nat) : Int) = 2 * 2 ^ (63 - k) := by
  have e64 : (2:Int) ^ 64 = 2 ^ k * (2 * 2 ^ (63 - k)) := by
    rw [← pow_succ', ← pow_add]; congr 1; omega
  rw [Nat.cast_pow, Nat.cast_ofNat, e64, Int.mul_ediv_cancel_left _ (by positivity)]

theorem inWindow_iff {k : Nat} (h : k ≤ 63) (e : Int) :
    Spec.InWindow (2 ^ k) e ↔ -2 ^ (63 - k) ≤ e ∧ e < 2 ^ (63 - k) := by
  unfold Spec.InWindow
  rw [delta_int h]
  constructor <;> rintro ⟨a, b⟩ <;> constructor <;> linarith

theorem window_div_iff {k : Nat} (h : k ≤ 63) (e : Int) :
    (e + 2 ^ (63 - k)) / 2 ^ (64 - k) = 0 ↔ Spec.InWindow (2 ^ k) e := by
  rw [inWindow_iff h]
  have e2 : (2:Int) ^ (64 - k) = 2 * 2 ^ (63 - k) := by
    rw [← pow_succ']; congr 1; omega
  rw [e2]
  have hD : (0:Int) < 2 ^ (63 - k) := by positivity
  generalize (2:Int) ^ (63 - k) = D at *
  rw [Int.ediv_eq_iff_of_pos (by linarith)]
  constructor <;> rintro ⟨a, b⟩ <;> constructor <;> linarith

/-- Decoding the sum of an exact multiple of delta and an error in the window. -/
theorem Codec.WF.decode_window {c : Codec} (h : c.WF) (M e : Int) (he : Spec.InWindow (2 ^ c.baseLog) e) :
    ((c.decode (BitVec.ofInt 64 (M * 2 ^ (64 - c.baseLog) + e))).toNat : Int) = M % 2 ^ c.baseLog := by
  rw [h.decode_encode_add, (window_div_iff h.le e).2 he, add_zero]

end Panacea
