import Verif.Lemmas.Encrypt
import Verif.Props.Codec

namespace Panacea
open Finset
variable {n : Nat}

theorem fourierMul_decrypt (fft : Fft n) (s t : Poly n) (c : RLWE n) :
    decryptRlwe s ⟨fourierUpdateWithMul fft c.mask t, fourierUpdateWithMul fft c.body t⟩
      = t * decryptRlwe s c + (fft.err [(c.body, t)] - fft.err [(c.mask, t)] * s) := by
  unfold decryptRlwe fourierUpdateWithMul Fft.backward
  simp only [FPoly.eval_cons, FPoly.eval_nil]; ring

theorem mul_mono_zero_coeff (hn : 0 < n) (t : Poly n) (m : Nat) (hm : m < n) :
    (t * Poly.mono n m) ⟨0, hn⟩ = if m = 0 then t ⟨0, hn⟩ else - t.get (n - m) := by
  rw [mul_comm, Poly.mul_apply, Finset.sum_eq_single (⟨m, hm⟩ : Fin n)]
  · rw [Poly.mono_lt ⟨m, hm⟩, if_pos rfl, one_mul]
    by_cases h : m = 0
    · subst h
      simp [Poly.get, hn]
    · rw [if_neg h, if_neg]
      · simp
      · intro h'; exact h (Nat.le_zero.mp h')
  · intro b _ hb
    rw [Poly.mono_lt ⟨m, hm⟩, if_neg (Ne.symm hb), zero_mul]
  · simp

theorem leqPoly_coeff (hn : 0 < n) {m d : Nat} (hm : m < n) (hd : d < n) :
    (RLWE.leqPoly n d * Poly.mono n m) ⟨0, hn⟩ = if m ≤ d then 1 else 0 := by
  rw [mul_mono_zero_coeff hn _ m hm]
  by_cases h : m = 0
  · subst h
    rw [if_pos rfl, if_pos (Nat.zero_le _)]
    unfold RLWE.leqPoly
    simp only
    rw [if_neg (by omega), if_true]
  · rw [if_neg h]
    have hlt : n - m < n := by omega
    unfold Poly.get RLWE.leqPoly
    simp only [hlt, dif_pos]
    by_cases h2 : m ≤ d
    · rw [if_pos (by omega), if_pos h2, scalarMAX_eq, neg_neg]
    · rw [if_neg (by omega), if_neg (by omega), if_neg h2, neg_zero]

theorem eqPoly_coeff (hn : 0 < n) {m d : Nat} (hm : m < n) (hd : d < n) :
    (RLWE.eqPoly n d * Poly.mono n m) ⟨0, hn⟩ = if m = d then 1 else 0 := by
  rw [mul_mono_zero_coeff hn _ m hm]
  unfold RLWE.eqPoly
  by_cases hd0 : d = 0
  · subst hd0
    rw [if_pos rfl]
    by_cases h : m = 0
    · rw [if_pos h, if_pos h, Poly.set_apply, if_pos rfl]
    · rw [if_neg h, if_neg h]
      have hlt : n - m < n := by omega
      unfold Poly.get
      simp only [hlt, dif_pos]
      rw [Poly.set_apply, if_neg (by simp only; omega), Poly.zero_apply, neg_zero]
  · rw [if_neg hd0]
    by_cases h : m = 0
    · subst h
      rw [if_pos rfl, if_neg (by omega), Poly.set_apply, if_neg (by simp only; omega), Poly.zero_apply]
    · rw [if_neg h]
      have hlt : n - m < n := by omega
      unfold Poly.get
      simp only [hlt, dif_pos]
      rw [Poly.set_apply]
      by_cases h2 : m = d
      · subst h2; rw [if_pos rfl, if_pos rfl, scalarMAX_eq, neg_neg]
      · rw [if_neg (by simp only; omega), if_neg h2, Poly.zero_apply, neg_zero]

theorem l1_leqPoly {d : Nat} (hd : d < n) : l1 (RLWE.leqPoly n d) ≤ d + 1 := by
  have h1 : l1 (RLWE.leqPoly n d) ≤ ∑ k : Fin n, ((if n - d ≤ k.val then 1 else 0) + (if k.val = 0 then 1 else 0)) := by
    unfold l1
    refine Finset.sum_le_sum fun k _ => ?_
    unfold RLWE.leqPoly
    simp only
    by_cases h : n - d ≤ k.val
    · rw [if_pos h, if_pos h]
      have : nrm scalarMAX = 1 := by decide
      rw [this]; omega
    · rw [if_neg h, if_neg h]
      by_cases h0 : k.val = 0
      · rw [if_pos h0, if_pos h0, nrm_one]
      · rw [if_neg h0, if_neg h0, nrm_zero]
  refine le_trans h1 ?_
  rw [Finset.sum_add_distrib]
  have hn : 0 < n := by omega
  have h2 : (∑ k : Fin n, if n - d ≤ k.val then 1 else 0) = d := by
    rw [Fin.sum_univ_eq_sum_range (fun k => if n - d ≤ k then 1 else 0) n, ← Finset.sum_filter, Finset.sum_const, smul_eq_mul, mul_one]
    have : (range n).filter (fun k => n - d ≤ k) = Ico (n - d) n := by
      ext a; simp only [mem_filter, mem_range, mem_Ico]; omega
    rw [this, Nat.card_Ico]; omega
  have h3 : (∑ k : Fin n, if k.val = 0 then 1 else 0) = 1 := by
    rw [Finset.sum_eq_single (⟨0, hn⟩ : Fin n)]
    · simp
    · intro b _ hb; rw [if_neg (fun h => hb (Fin.ext h))]
    · simp
  omega

theorem l1_set_zero (j : Nat) (v : Scalar) : l1 (Poly.set (0 : Poly n) j v) ≤ nrm v := by
  unfold l1
  by_cases hj : j < n
  · rw [Finset.sum_eq_single (⟨j, hj⟩ : Fin n)]
    · rw [Poly.set_apply, if_pos rfl]
    · intro b _ hb
      rw [Poly.set_apply, if_neg (fun h => hb (Fin.ext h)), Poly.zero_apply, nrm_zero]
    · simp
  · refine le_trans (le_of_eq (Finset.sum_eq_zero fun k _ => ?_)) (Nat.zero_le _)
    rw [Poly.set_apply, if_neg (by have := k.isLt; omega), Poly.zero_apply, nrm_zero]

theorem l1_eqPoly (d : Nat) : l1 (RLWE.eqPoly n d) ≤ 1 := by
  unfold RLWE.eqPoly
  split
  · exact le_trans (l1_set_zero _ _) (by decide)
  · exact le_trans (l1_set_zero _ _) (by decide)

theorem coeff_const_mul_sub {p q : Poly n} {B : Nat} (h : Small (p - q) B) (k : Fin n) : nrm (p k - q k) ≤ B := h k

/-- From an encryption of an encoded polynomial with small enough error, decryption + decoding is exact. -/
theorem decode_of_small {t : Scalar} {c : Codec} (hc : Codec.new t = some c) {m w x : Scalar} (hw : c.encode m = some w)
    {e : Nat} (hx : nrm (x - w) ≤ e) (he : 2 * e < 2 ^ 64 / t.toNat) : c.decode x = m := by
  have h := (C01_decode_iff hc m w hw (x - w).toInt (by simpa using BitVec.le_toInt (x - w))
    (by simpa using BitVec.toInt_lt (x := x - w))).mpr ?_
  · rw [ofInt_toInt'] at h
    rwa [show w + (x - w) = x by ring] at h
  · unfold Spec.InWindow
    have h1 : (((x - w).toInt.natAbs : Nat) : Int) ≤ e := by exact_mod_cast hx
    have h2 : ((2 * e : Nat) : Int) < ((2 ^ 64 / t.toNat : Nat) : Int) := by exact_mod_cast he
    have h3 : ((2 ^ 64 / t.toNat : Nat) : Int) = 2 ^ 64 / (t.toNat : Int) := by push_cast; rfl
    rw [h3] at h2
    push_cast at h2
    omega

theorem polyEncode_some {c : Codec} {p q : Poly n} (h : c.polyEncode p = some q) (k : Fin n) :
    c.encode (p k) = some (q k) := by
  unfold Codec.polyEncode at h
  split at h
  · rename_i hk
    cases h
    obtain ⟨w, hw⟩ := Option.isSome_iff_exists.mp (hk k)
    simp only [hw, Option.getD_some]
  · cases h

theorem polyTernaryEncode_some {p q : Poly n} (h : polyTernaryEncode p = some q) (k : Fin n) :
    ternaryEncode (p k) = some (q k) := by
  unfold polyTernaryEncode at h
  split at h
  · rename_i hk
    cases h
    obtain ⟨w, hw⟩ := Option.isSome_iff_exists.mp (hk k)
    simp only [hw, Option.getD_some]
  · cases h

theorem decryptDecode_of_enc {ctx : Ctx} {t : Scalar} (hc : Codec.new t = some ctx.codec) {s pt enc : Poly n}
    (hp : ctx.codec.polyEncode pt = some enc) {c : RLWE n} {e : Nat} (h : Enc s c enc e)
    (he : 2 * e < 2 ^ 64 / t.toNat) : decryptDecodeRlwe ctx s c = pt := by
  refine Poly.ext (funext fun k => ?_)
  exact decode_of_small hc (polyEncode_some hp k) (h k) he

end Panacea
