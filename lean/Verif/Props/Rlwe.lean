import Verif.Lemmas.RlweOps
import Verif.Lemmas.MonoDiv
import Verif.Model.Lwe

/-!
# C16-C24: encryption, additive homomorphism, external product, cmux, RGSW encryption, NOT, comparisons
-/

namespace Panacea
open Finset

/-! ## Concrete generator and parameters for the examples -/

/-- A generator with non-zero masks and noise at most 3 (ring size 4). -/
def exGen : Gen 4 := ⟨fun i => ⟨fun k => BitVec.ofNat 64 (7919 * i + 104729 * k.val + 13)⟩,
  fun i => ⟨fun k => BitVec.ofInt 64 (((i + k.val) % 7 : Nat) - 3 : Int)⟩, fun i => ⟨fun k => BitVec.ofNat 64 (i + k.val)⟩, 0⟩

theorem exGen_bounded : exGen.Bounded 3 := by
  intro i k
  have h : (i + k.val) % 7 < 7 := Nat.mod_lt _ (by decide)
  unfold exGen
  simp only
  generalize (i + k.val) % 7 = r at h
  revert h; revert r; decide

/-- Parameters for the examples: base log 8, 3 levels; plaintext modulus 16. -/
def exCtx : Ctx := ⟨8, 3, 8, 3, 8, 3, ⟨4, 1 <<< 60⟩⟩
/-- A binary key of size 4. -/
def exKey : Poly 4 := ⟨fun k => if k.val = 2 then 0 else 1⟩

theorem exKey_binary : Binary exKey := by unfold Binary; decide

/-! ## C16 -/

/-- C16 (noise): decryption of an encryption is off by exactly the drawn noise polynomial. -/
theorem C16_decrypt_encrypt {n : Nat} (s m : Poly n) (g : Gen n) :
    decryptRlwe s (encryptRlwe s m g).1 - m = g.noises g.pos := by
  rw [decrypt_encrypt, add_sub_cancel_left]

/-- C16 (panic): `encode_encrypt_rlwe` panics iff some coefficient is at least the plaintext modulus. -/
theorem C16_panics_iff {n : Nat} {t : Scalar} {ctx : Ctx} (hc : Codec.new t = some ctx.codec) (s pt : Poly n) (g : Gen n) :
    encodeEncryptRlwe ctx s pt g = none ↔ ∃ k, t.toNat ≤ (pt k).toNat := by
  unfold encodeEncryptRlwe Codec.polyEncode
  have h : ∀ k, (ctx.codec.encode (pt k)).isSome ↔ ¬ t.toNat ≤ (pt k).toNat := fun k => by
    rw [← (C02_encode hc (pt k)).1, Option.isSome_iff_ne_none]
  by_cases ha : ∀ k, (ctx.codec.encode (pt k)).isSome
  · rw [if_pos ha]
    simp only [reduceCtorEq, false_iff, not_exists]
    exact fun k => (h k).mp (ha k)
  · rw [if_neg ha]
    simp only [true_iff]
    rw [not_forall] at ha
    obtain ⟨k, hk⟩ := ha
    exact ⟨k, by by_contra hh; exact hk ((h k).mpr hh)⟩

/-- C16 (round trip): encoding, encrypting, decrypting and decoding gives the plaintext back iff every noise coefficient
lies in the half-open half-delta window. -/
theorem C16_roundtrip_iff {n : Nat} {t : Scalar} {ctx : Ctx} (hc : Codec.new t = some ctx.codec) (s pt : Poly n) (g : Gen n)
    (r : RLWE n × Gen n) (hr : encodeEncryptRlwe ctx s pt g = some r) :
    decryptDecodeRlwe ctx s r.1 = pt ↔ ∀ k, Spec.InWindow t.toNat (g.noises g.pos k).toInt := by
  unfold encodeEncryptRlwe at hr
  rcases hp : ctx.codec.polyEncode pt with _ | enc
  · rw [hp] at hr; cases hr
  · rw [hp] at hr
    cases hr
    have key : ∀ k, ctx.codec.decode (decryptRlwe s (encryptRlwe s enc g).1 k) = pt k ↔
        Spec.InWindow t.toNat (g.noises g.pos k).toInt := fun k => by
      rw [decrypt_encrypt, Poly.add_apply]
      have := C01_decode_iff hc (pt k) (enc k) (polyEncode_some hp k) (g.noises g.pos k).toInt
        (by simpa using BitVec.le_toInt (g.noises g.pos k)) (by simpa using BitVec.toInt_lt (x := g.noises g.pos k))
      rwa [BitVec.ofInt_toInt] at this
    constructor
    · intro h k
      rw [← key k]
      exact congrFun (congrArg Poly.coeff h) k
    · intro h
      exact Poly.ext (funext fun k => (key k).mpr (h k))

/-- C16 (ternary): the ternary pair round-trips for every noise below `0x2AAAAAAAAAAAA800`; it panics iff some coefficient is not
one of 0, 1, -1. -/
theorem C16_ternary {n : Nat} (s pt : Poly n) (g : Gen n) :
    (ternaryEncryptRlwe s pt g = none ↔ ∃ k, ¬ (pt k = 0 ∨ pt k = 1 ∨ pt k = -1)) ∧
    (∀ r, ternaryEncryptRlwe s pt g = some r → Small (g.noises g.pos) (0x2AAAAAAAAAAAA800 - 1) →
      ternaryDecryptRlwe s r.1 = pt) := by
  constructor
  · unfold ternaryEncryptRlwe polyTernaryEncode
    have h : ∀ k, (ternaryEncode (pt k)).isSome ↔ (pt k = 0 ∨ pt k = 1 ∨ pt k = -1) := fun k => by
      have := (C03_ternary_reject (pt k)).1
      rw [scalarMAX_eq] at this
      rw [Option.isSome_iff_ne_none, ne_eq, this, not_not]
    by_cases ha : ∀ k, (ternaryEncode (pt k)).isSome
    · rw [if_pos ha]
      simp only [reduceCtorEq, false_iff, not_exists, not_not]
      exact fun k => (h k).mp (ha k)
    · rw [if_neg ha]
      simp only [true_iff]
      rw [not_forall] at ha
      obtain ⟨k, hk⟩ := ha
      exact ⟨k, fun hh => hk ((h k).mpr hh)⟩
  · intro r hr hsm
    unfold ternaryEncryptRlwe at hr
    rcases hp : polyTernaryEncode pt with _ | enc
    · rw [hp] at hr; cases hr
    · rw [hp] at hr
      cases hr
      refine Poly.ext (funext fun k => ?_)
      have hk := polyTernaryEncode_some hp k
      have hm : pt k = 0 ∨ pt k = 1 ∨ pt k = scalarMAX := by
        by_contra hh
        rw [(C03_ternary_reject (pt k)).1.mpr hh] at hk; cases hk
      obtain ⟨w, hw, hd⟩ := C03_ternary_roundtrip (pt k) hm (g.noises g.pos k).toInt (by
        have := hsm k
        rw [abs_lt]; omega)
      rw [hw] at hk; cases hk
      rw [BitVec.ofInt_toInt] at hd
      unfold ternaryDecryptRlwe polyTernaryDecode
      simp only
      rw [decrypt_encrypt, Poly.add_apply]
      exact hd

/-- C16 (constant): `encrypt_constant_rlwe` encrypts the constant polynomial. -/
theorem C16_constant {n : Nat} (s : Poly n) (c : Scalar) (g : Gen n) :
    decryptRlwe s (encryptConstantRlwe s c g).1 = Poly.const n c + g.noises g.pos := by
  unfold encryptConstantRlwe
  rw [decrypt_encrypt, set_zero_eq_const]

example : ∃ r, encodeEncryptRlwe exCtx exKey ⟨fun k => BitVec.ofNat 64 (5 * k.val)⟩ exGen = some r ∧
    decryptDecodeRlwe exCtx exKey r.1 = ⟨fun k => BitVec.ofNat 64 (5 * k.val)⟩ := by
  refine ⟨_, rfl, ?_⟩; decide +kernel
example : encodeEncryptRlwe exCtx exKey ⟨fun k => BitVec.ofNat 64 (6 * k.val)⟩ exGen = none := by
  rw [C16_panics_iff (t := 16) (by decide +kernel)]; exact ⟨3, by decide⟩
example : ∃ r, ternaryEncryptRlwe exKey ⟨fun k => if k.val = 1 then 1 else -1⟩ exGen = some r ∧ Small (exGen.noises exGen.pos) 3 :=
  ⟨_, rfl, exGen_bounded _⟩

/-! ## C17 -/

/-- C17 (noise): LWE decryption of an encryption is off by exactly the drawn noise word. -/
theorem C17_decrypt_encrypt {n : Nat} (s : Poly n) (m : Scalar) (g : Gen n) :
    decryptLwe s (encryptLwe s m g).1 - m = (g.noises g.pos).get 0 := by
  unfold decryptLwe encryptLwe; simp only; ring

/-- C17: `encode_encrypt_lwe` panics iff the plaintext is at least `t`; otherwise decrypting and decoding gives it back
iff the noise lies in the half-delta window. -/
theorem C17_roundtrip_iff {n : Nat} {t : Scalar} {ctx : Ctx} (hc : Codec.new t = some ctx.codec) (s : Poly n) (m : Scalar)
    (g : Gen n) :
    (encodeEncryptLwe ctx s m g = none ↔ t.toNat ≤ m.toNat) ∧
    ∀ r, encodeEncryptLwe ctx s m g = some r →
      (decodeDecryptLwe ctx s r.1 = m ↔ Spec.InWindow t.toNat ((g.noises g.pos).get 0).toInt) := by
  unfold encodeEncryptLwe
  rcases hp : ctx.codec.encode m with _ | w
  · exact ⟨by simp [← (C02_encode hc m).1, hp], fun r hr => by cases hr⟩
  · refine ⟨by simp [← (C02_encode hc m).1, hp], fun r hr => ?_⟩
    cases hr
    have h := C17_decrypt_encrypt s w g
    unfold decodeDecryptLwe
    rw [show decryptLwe s (encryptLwe s w g).1 = w + (g.noises g.pos).get 0 by rw [← h]; ring]
    have := C01_decode_iff hc m w hp ((g.noises g.pos).get 0).toInt
      (by simpa using BitVec.le_toInt ((g.noises g.pos).get 0)) (by simpa using BitVec.toInt_lt (x := (g.noises g.pos).get 0))
    rwa [BitVec.ofInt_toInt] at this

example : Codec.new 16 = some exCtx.codec ∧ ∃ r, encodeEncryptLwe exCtx exKey 11 exGen = some r ∧
    decodeDecryptLwe exCtx exKey r.1 = 11 := ⟨by decide +kernel, _, rfl, by decide +kernel⟩

/-! ## C18 -/

/-- C18 (exact): decryption is additive. -/
theorem C18_exact {n : Nat} (s : Poly n) (c d : RLWE n) :
    decryptRlwe s (c + d) = decryptRlwe s c + decryptRlwe s d ∧
    decryptRlwe s (c - d) = decryptRlwe s c - decryptRlwe s d := ⟨decrypt_add s c d, decrypt_sub s c d⟩

/-- C18 (noise): messages add / subtract and error bounds add. -/
theorem C18_noise {n : Nat} {s : Poly n} {c d : RLWE n} {m m' : Poly n} {e e' : Nat} (h : Enc s c m e) (h' : Enc s d m' e') :
    Enc s (c + d) (m + m') (e + e') ∧ Enc s (c - d) (m - m') (e + e') := ⟨h.add h', h.sub h'⟩

/-- C18 (monomial division): multiplying the new decryption by `X^m` gives the old one; error bounds do not change. -/
theorem C18_monomial_div {n : Nat} (s : Poly n) (c : RLWE n) (m : Nat) :
    Spec.X n ^ m * decryptRlwe s (c.monomialDiv m) = decryptRlwe s c ∧
    ∀ (p : Poly n) (e : Nat), Enc s c (Spec.X n ^ m * p) e → Enc s (c.monomialDiv m) p e := by
  have h1 : Spec.X n ^ m * decryptRlwe s (c.monomialDiv m) = decryptRlwe s c := by
    unfold Spec.X decryptRlwe RLWE.monomialDiv
    simp only
    rw [Poly.mono_pow, one_mul, mul_sub, ← mul_assoc, mono_mul_div, mono_mul_div]
  refine ⟨h1, fun p e h => ?_⟩
  unfold Enc at *
  rw [← h1, ← mul_sub] at h
  have h2 := Small.mono_mul (2 * n * m - m) h
  have hx : Spec.X n ^ m = Poly.mono n m := by unfold Spec.X; rw [Poly.mono_pow, one_mul]
  rw [hx, ← mul_assoc, Poly.mono_mul_mono] at h2
  have hone : Poly.mono n (2 * n * m - m + m) = 1 := by
    rcases Nat.eq_zero_or_pos n with hn | hn
    · exact Poly.eq_of_n_zero (by omega) _ _
    · have : m ≤ 2 * n * m := Nat.le_mul_of_pos_left _ (by omega)
      rw [Nat.sub_add_cancel this, Poly.one_def]
      exact Poly.mono_modEq (Nat.modEq_zero_iff_dvd.mpr (Dvd.intro _ rfl))
  rwa [hone, one_mul] at h2

example : Enc exKey (encryptRlwe exKey (Spec.X 4 ^ 3) exGen).1 (Spec.X 4 ^ 3) 3 := encryptRlwe_enc exGen_bounded

/-! ## C19 -/

/-- C19: the output of `external_product` decrypts to its previous decryption plus `mu` times the decryption of the operand,
up to an explicit error. -/
theorem C19_external_product {n : Nat} {fft : Fft n} {phi : Nat} (hf : fft.Bounded phi) {s : Poly n} (hs : Binary s)
    {C : RGSW n} (hC : C.WF) {mu : Poly n} {E : Nat} (hG : EncG s C mu E) (out d : RLWE n) :
    Enc s (externalProduct fft C out d) (decryptRlwe s out + mu * decryptRlwe s d)
      (l1 mu * ((1 + n) * 2 ^ (63 - C.baseLog * C.levelCount)) +
        (2 * C.levelCount * (n * 2 ^ (C.baseLog - 1) * E) + fftNoise n phi (2 * C.levelCount * 2 ^ (C.baseLog - 1)))) :=
  externalProduct_enc hf hs.small hC hG out d

/-- C19 (messages): with encryptions of `m0` and `m` as output buffer and operand, the result encrypts `m0 + mu*m`. -/
theorem C19_messages {n : Nat} {fft : Fft n} {phi : Nat} (hf : fft.Bounded phi) {s : Poly n} (hs : Binary s)
    {C : RGSW n} (hC : C.WF) {mu : Poly n} {E : Nat} (hG : EncG s C mu E) {out d : RLWE n} {m0 m : Poly n} {e0 e : Nat}
    (h0 : Enc s out m0 e0) (hd : Enc s d m e) :
    Enc s (externalProduct fft C out d) (m0 + mu * m)
      (e0 + l1 mu * e + extNoise n C.baseLog C.levelCount E phi (l1 mu)) := by
  have h := externalProduct_enc hf hs.small hC hG out d
  unfold Enc at *
  have e1 : decryptRlwe s (externalProduct fft C out d) - (m0 + mu * m)
      = (decryptRlwe s out - m0) + mu * (decryptRlwe s d - m)
        + (decryptRlwe s (externalProduct fft C out d) - (decryptRlwe s out + mu * decryptRlwe s d)) := by ring
  rw [e1]
  exact (h0.add (Small.l1_mul mu hd)).add h

/-- The hypotheses of C19 hold for an honestly generated RGSW ciphertext, and the bound is far below the torus size. -/
example : (encryptConstantRgsw exKey 8 3 1 exGen).1.WF ∧ EncG exKey (encryptConstantRgsw exKey 8 3 1 exGen).1 (Poly.const 4 1) 3 ∧
    extNoise 4 8 3 3 1000 1 < 2 ^ 42 :=
  ⟨encryptConstantRgsw_wf _ _ _ (by decide) (by decide) (by decide), (encryptConstantRgsw_enc 8 3 1 exGen_bounded).1, by decide⟩

/-! ## C20 -/

/-- C20: `cmux` decrypts to the decryption of `ct1` when the RGSW plaintext is 1 and of `ct0` when it is 0, up to an
explicit error that does not depend on the operands; the old contents of the output buffer are irrelevant. -/
theorem C20_cmux {n : Nat} {fft : Fft n} {phi : Nat} (hf : fft.Bounded phi) {s : Poly n} (hs : Binary s)
    {C : RGSW n} (hC : C.WF) {b : Bool} {E : Nat} (hG : EncG s C (if b then 1 else 0) E) (out ct0 ct1 : RLWE n) :
    Enc s (cmux fft C out ct0 ct1) (decryptRlwe s (if b then ct1 else ct0))
      (extNoise n C.baseLog C.levelCount E phi 1) := by
  have h := externalProduct_enc hf hs.small hC hG ct0 (ct1 - ct0)
  have hl : l1 (if b then 1 else 0 : Poly n) ≤ 1 := by
    cases b
    · simp only [Bool.false_eq_true, if_false]; rw [← Poly.const_zero]
      exact le_trans (l1_const 0) (by decide)
    · exact l1_one
  unfold cmux
  simp only
  rw [decrypt_sub] at h
  have e : decryptRlwe s ct0 + (if b then 1 else 0 : Poly n) * (decryptRlwe s ct1 - decryptRlwe s ct0)
      = decryptRlwe s (if b then ct1 else ct0) := by
    cases b
    · simp only [Bool.false_eq_true, if_false]; ring
    · simp only [if_true]; ring
  rw [e] at h
  refine h.mono ?_
  unfold extNoise
  have := Nat.mul_le_mul_right ((1 + n) * 2 ^ (63 - C.baseLog * C.levelCount)) hl
  omega

/-- C20 (messages): if the operands encrypt `m0` and `m1` with errors at most `e`, the result encrypts `m_b`. -/
theorem C20_messages {n : Nat} {fft : Fft n} {phi : Nat} (hf : fft.Bounded phi) {s : Poly n} (hs : Binary s)
    {C : RGSW n} (hC : C.WF) {b : Bool} {E : Nat} (hG : EncG s C (if b then 1 else 0) E) (out : RLWE n) {ct0 ct1 : RLWE n}
    {m0 m1 : Poly n} {e0 e1 : Nat} (h0 : Enc s ct0 m0 e0) (h1 : Enc s ct1 m1 e1) :
    Enc s (cmux fft C out ct0 ct1) (if b then m1 else m0)
      ((if b then e1 else e0) + extNoise n C.baseLog C.levelCount E phi 1) := by
  have h := C20_cmux hf hs hC hG out ct0 ct1
  unfold Enc at *
  have hb : Small (decryptRlwe s (if b then ct1 else ct0) - if b then m1 else m0) (if b then e1 else e0) := by
    cases b
    · exact h0
    · exact h1
  have e : decryptRlwe s (cmux fft C out ct0 ct1) - (if b then m1 else m0)
      = (decryptRlwe s (if b then ct1 else ct0) - if b then m1 else m0)
        + (decryptRlwe s (cmux fft C out ct0 ct1) - decryptRlwe s (if b then ct1 else ct0)) := by ring
  rw [e]
  exact hb.add h

/-- C20 (old contents): two calls that differ only in the initial output buffer give the same ciphertext. -/
theorem C20_out_irrelevant {n : Nat} (fft : Fft n) (C : RGSW n) (out out' ct0 ct1 : RLWE n) :
    cmux fft C out ct0 ct1 = cmux fft C out' ct0 ct1 := rfl

example : EncG exKey (encryptConstantRgsw exKey 8 3 1 exGen).1 (if true then 1 else 0) 3 := by
  have := (encryptConstantRgsw_enc (s := exKey) 8 3 1 exGen_bounded).1
  rwa [Poly.const_one] at this

/-! ## C21 -/

/-- C21 (constants): `encrypt_constant_rgsw` yields a well-formed RGSW encryption of the constant; shape as allocated. -/
theorem C21_constant {n : Nat} {s : Poly n} (bl lv : Nat) (mu : Scalar) {g : Gen n} {B : Nat} (hg : g.Bounded B) :
    EncG s (encryptConstantRgsw s bl lv mu g).1 (Poly.const n mu) B ∧
    (encryptConstantRgsw s bl lv mu g).1.baseLog = bl ∧ (encryptConstantRgsw s bl lv mu g).1.levelCount = lv :=
  ⟨(encryptConstantRgsw_enc bl lv mu hg).1, rfl, encryptConstantRgsw_levelCount s bl lv mu g⟩

/-- C21 (polynomials): `encrypt_rgsw` yields a well-formed encryption of a polynomial when the ciphertext was allocated with the
context's base log. -/
theorem C21_poly {n : Nat} {ctx : Ctx} {s m : Poly n} (lv : Nat) {g : Gen n} {B : Nat} (hg : g.Bounded B) :
    EncG s (encryptRgsw ctx s ctx.baseLog lv m g).1 m B ∧
    (encryptRgsw ctx s ctx.baseLog lv m g).1.baseLog = ctx.baseLog ∧
    (encryptRgsw ctx s ctx.baseLog lv m g).1.levelCount = lv :=
  ⟨encryptRgsw_enc lv hg, rfl, encryptRgsw_levelCount ctx s m ctx.baseLog lv g⟩

/-- C21 (what the vocabulary means): spelled out without `EncG`: at every level `i + 1` the second row of the encryption of the constant
`mu` has `body - mask * s` within `B` of the constant polynomial `2^(64 - base_log*(i+1)) * mu`, the first row within `B` of `-s` times it. -/
theorem C21_rows {n : Nat} {s : Poly n} (bl lv : Nat) (mu : Scalar) {g : Gen n} {B : Nat} (hg : g.Bounded B) {i : Nat}
    {r : RLWE n × RLWE n} (hr : (encryptConstantRgsw s bl lv mu g).1.rows[i]? = some r) :
    Small (r.2.body - r.2.mask * s - Poly.const n (BitVec.ofNat 64 (2 ^ (64 - bl * (i + 1))) * mu)) B ∧
    Small (r.1.body - r.1.mask * s + s * Poly.const n (BitVec.ofNat 64 (2 ^ (64 - bl * (i + 1))) * mu)) B := by
  have hgad : gadget bl (i + 1) = BitVec.ofNat 64 (2 ^ (64 - bl * (i + 1))) := by
    unfold gadget
    apply BitVec.eq_of_toNat_eq
    rw [BitVec.toNat_shiftLeft, Nat.shiftLeft_eq]
    simp
  obtain ⟨h1, h2⟩ := (C21_constant (s := s) bl lv mu hg).1 i r hr
  have hbl : (encryptConstantRgsw s bl lv mu g).1.baseLog = bl := rfl
  rw [hbl, hgad] at h1 h2
  unfold Enc decryptRlwe at h1 h2
  constructor
  · rwa [← Poly.const_mul] at h2
  · rw [Poly.const_mul]
    rwa [show Poly.const n (BitVec.ofNat 64 (2 ^ (64 - bl * (i + 1)))) * -(s * Poly.const n mu)
      = -(s * (Poly.const n (BitVec.ofNat 64 (2 ^ (64 - bl * (i + 1)))) * Poly.const n mu)) by ring, sub_neg_eq_add] at h1

/-- C21 (-s): with `negs_base_log = base_log` and a binary key, `neg_gsw` does not panic and encrypts `-s`. -/
theorem C21_neg_gsw {n : Nat} {ctx : Ctx} (hctx : ctx.negsBaseLog = ctx.baseLog) {s : Poly n} (hs : Binary s) {g : Gen n} {B : Nat}
    (hg : g.Bounded B) :
    ∃ r, negGsw ctx s g = some r ∧ EncG s r.1 (-s) B ∧ r.1.baseLog = ctx.negsBaseLog ∧
      r.1.levelCount = ctx.negsLevelCount ∧ r.2.Bounded B := by
  refine ⟨_, negGsw_eq hs g, ?_, rfl, encryptRgsw_levelCount ctx s (-s) _ _ g, encryptRgsw_gen _ _ hg⟩
  rw [hctx]; exact encryptRgsw_enc _ hg

/-- C21 (panic): `neg_gsw` panics (checked multiplication) iff the key is not binary. -/
theorem C21_neg_gsw_panics_iff {n : Nat} (ctx : Ctx) (s : Poly n) (g : Gen n) : negGsw ctx s g = none ↔ ¬ Binary s := by
  unfold negGsw Binary
  by_cases h : ∀ k, s k = 0 ∨ s k = 1
  · rw [if_pos h]; simp only [reduceCtorEq, false_iff, not_not]; exact h
  · rw [if_neg h]; simp only [true_iff]; exact h

theorem nrm_gadget_sub {a b : Nat} (ha : 1 ≤ a) (hab : a < b) (hb : b < 64) :
    2 ^ (64 - b) ≤ nrm (gadget a 1 - gadget b 1) := by
  have hg : ∀ c, 1 ≤ c → c < 64 → gadget c 1 = BitVec.ofNat 64 (2 ^ (64 - c)) := fun c h1 h2 => by
    unfold gadget
    apply BitVec.eq_of_toNat_eq
    rw [BitVec.toNat_shiftLeft, Nat.shiftLeft_eq, Nat.mul_one]
    simp
  have hlt : 2 ^ (64 - b) * 2 ≤ 2 ^ (64 - a) := by
    rw [← pow_succ]; exact Nat.pow_le_pow_right (by decide) (by omega)
  have hle : 2 ^ (64 - a) ≤ 2 ^ 63 := Nat.pow_le_pow_right (by decide) (by omega)
  have hpos : 0 < 2 ^ (64 - b) := by positivity
  rw [hg a ha (by omega), hg b (by omega) hb]
  generalize 2 ^ (64 - a) = x at *
  generalize 2 ^ (64 - b) = y at *
  have e : BitVec.ofNat 64 x - BitVec.ofNat 64 y = BitVec.ofInt 64 ((x - y : Nat) : Int) := by
    apply BitVec.eq_of_toNat_eq
    rw [BitVec.toNat_sub, BitVec.toNat_ofInt, BitVec.toNat_ofNat, BitVec.toNat_ofNat]
    omega
  unfold nrm
  rw [e, BitVec.toInt_ofInt]
  have : (((x - y : Nat) : Int)).bmod (2 ^ 64) = ((x - y : Nat) : Int) := by
    rw [Int.bmod_eq_of_le] <;> omega
  rw [this]
  omega

/-- C21 (FINDING): if `negs_base_log` differs from `base_log`, then for every non-zero binary key and all randomness with noise at
most `B`, `neg_gsw` is not an RGSW encryption of `-s` with row errors `E`, unless `E + B` is as large as the smallest gadget
factor `2^(64 - max(base_log, negs_base_log))` itself. -/
theorem C21_neg_gsw_malformed {n : Nat} {ctx : Ctx} (hne : ctx.negsBaseLog ≠ ctx.baseLog) (h1 : 1 ≤ ctx.baseLog)
    (h2 : 1 ≤ ctx.negsBaseLog) (h3 : ctx.baseLog < 64) (h4 : ctx.negsBaseLog < 64) (hl : 1 ≤ ctx.negsLevelCount)
    {s : Poly n} (hs : Binary s) (hnz : s ≠ 0) {g : Gen n} {B : Nat} (hg : g.Bounded B) {r : RGSW n × Gen n}
    (hr : negGsw ctx s g = some r) {E : Nat} (hE : EncG s r.1 (-s) E) :
    2 ^ (64 - max ctx.baseLog ctx.negsBaseLog) ≤ E + B := by
  rw [negGsw_eq hs g] at hr
  cases hr
  have hlen := encryptRgsw_levelCount ctx s (-s) ctx.negsBaseLog ctx.negsLevelCount g
  unfold RGSW.levelCount at hlen
  obtain ⟨row, hrow⟩ : ∃ row, (encryptRgsw ctx s ctx.negsBaseLog ctx.negsLevelCount (-s) g).1.rows[0]? = some row :=
    ⟨_, List.getElem?_eq_getElem (by omega)⟩
  have ha := (encryptRgsw_rows ctx.negsBaseLog ctx.negsLevelCount hg 0 row hrow).2
  have hb := (hE 0 row hrow).2
  have hbl : (encryptRgsw ctx s ctx.negsBaseLog ctx.negsLevelCount (-s) g).1.baseLog = ctx.negsBaseLog := rfl
  rw [hbl] at hb
  obtain ⟨k, hk⟩ : ∃ k, s k = 1 := by
    by_contra hh
    rw [not_exists] at hh
    exact hnz (Poly.ext (funext fun k => (hs k).resolve_right (hh k)))
  unfold Enc at ha hb
  have hd := (Small.sub hb ha) k
  have e : (decryptRlwe s row.2 - Poly.const n (gadget ctx.negsBaseLog (0 + 1)) * -s
      - (decryptRlwe s row.2 - Poly.const n (gadget ctx.baseLog (0 + 1)) * -s))
      = Poly.const n (gadget ctx.negsBaseLog 1 - gadget ctx.baseLog 1) * s := by
    rw [Poly.const_sub]; ring
  rw [e, Poly.const_mul_apply, hk, mul_one] at hd
  rcases Nat.lt_or_gt_of_ne hne with h | h
  · rw [Nat.max_eq_left (by omega)]
    exact le_trans (nrm_gadget_sub h2 h h3) hd
  · rw [Nat.max_eq_right (by omega)]
    have := nrm_gadget_sub h1 h h4
    rw [← nrm_neg, neg_sub] at this
    exact le_trans this hd

example : ∃ r, negGsw exCtx exKey exGen = some r ∧ EncG exKey r.1 (-exKey) 3 := by
  obtain ⟨r, h1, h2, _⟩ := C21_neg_gsw (ctx := exCtx) rfl exKey_binary exGen_bounded
  exact ⟨r, h1, h2⟩
/-- Witness of the finding: with `negs_base_log = 6`, any claimed error bound is at least `2^56 - 3`. -/
example {E : Nat} {r : RGSW 4 × Gen 4} (hr : negGsw { exCtx with negsBaseLog := 6 } exKey exGen = some r)
    (h : EncG exKey r.1 (-exKey) E) : 2 ^ 56 ≤ E + 3 :=
  C21_neg_gsw_malformed (ctx := { exCtx with negsBaseLog := 6 }) (by decide) (by decide) (by decide) (by decide) (by decide)
    (by decide) exKey_binary (by decide) exGen_bounded hr h
example : (negGsw { exCtx with negsBaseLog := 6 } exKey exGen).isSome := by
  rw [Option.isSome_iff_ne_none]; intro h
  exact (C21_neg_gsw_panics_iff _ _ _).mp h exKey_binary

/-! ## C22 -/

theorem not_eq_notInPlace {n : Nat} (c : RLWE n) : c.not = c.notInPlace := rfl

theorem decrypt_not {n : Nat} (s : Poly n) (c : RLWE n) :
    decryptRlwe s c.not = Poly.const n ((1 : Scalar) <<< 63) - decryptRlwe s c := by
  have hb : (c.not).body = Poly.const n ((1 : Scalar) <<< 63) - c.body := by
    refine Poly.ext (funext fun k => ?_)
    unfold RLWE.not
    simp only [Poly.set_apply, Poly.sub_apply, Poly.const_apply]
    by_cases hk : k.val = 0
    · rw [if_pos hk, if_pos hk]
      have := Poly.get_lt (0 - c : RLWE n).body k
      rw [hk] at this
      rw [this, RLWE.sub_body, Poly.sub_apply]
      rw [show (0 : RLWE n).body k = 0 from rfl]; ring
    · rw [if_neg hk, if_neg hk, RLWE.sub_body, Poly.sub_apply]
      rfl
  have hm : (c.not).mask = - c.mask := by
    change (0 : Poly n) - c.mask = - c.mask
    ring
  unfold decryptRlwe
  rw [hb, hm]; ring

/-- C22 (same function): `not` and `not_in_place` give the same ciphertext. -/
theorem C22_same {n : Nat} (c : RLWE n) : c.not = c.notInPlace := not_eq_notInPlace c

/-- C22 (involution): applying NOT twice gives the same ciphertext back, exactly. -/
theorem C22_involution {n : Nat} (c : RLWE n) : c.not.not = c := by
  have hb : c.not.not.body = c.body := by
    refine Poly.ext (funext fun k => ?_)
    have hz : ∀ (q : Poly n) (k : Fin n), ((0 : RLWE n).body - q) k = - q k := fun q k => by
      rw [Poly.sub_apply, show (0 : RLWE n).body k = 0 from rfl, zero_sub]
    have hnb : ∀ (c : RLWE n) (k : Fin n), c.not.body k = if k.val = 0 then - c.body k + (1 : Scalar) <<< 63 else - c.body k := by
      intro c k
      unfold RLWE.not
      simp only [Poly.set_apply]
      by_cases hk : k.val = 0
      · have g0 := Poly.get_lt (0 - c : RLWE n).body k
        rw [hk] at g0
        rw [if_pos hk, if_pos hk, g0, RLWE.sub_body, hz]
      · rw [if_neg hk, if_neg hk, RLWE.sub_body, hz]
    rw [hnb, hnb]
    by_cases hk : k.val = 0
    · rw [if_pos hk, if_pos hk]; ring
    · rw [if_neg hk, if_neg hk]; ring
  have hm : c.not.not.mask = c.mask := by
    change (0 : Poly n) - (0 - c.mask) = c.mask
    ring
  exact RLWE.ext hm hb

/-- C22 (noise): the decryption of `not(c)` is the constant `2^63` minus the decryption of `c`, exactly. -/
theorem C22_decrypt {n : Nat} (s : Poly n) (c : RLWE n) :
    decryptRlwe s c.not = Poly.const n (2 ^ 63) - decryptRlwe s c := by
  rw [decrypt_not, show (1 : Scalar) <<< 63 = 2 ^ 63 by decide +kernel]

/-- C22 (message): with plaintext modulus 2, if `c` encrypts the encoding of bit `b` in its constant coefficient with error below
`2^62`, then decrypting and decoding `c` gives `b` and decrypting and decoding `not(c)` gives `1 - b`, zero elsewhere. -/
theorem C22_flips {n : Nat} {ctx : Ctx} (hc : Codec.new 2 = some ctx.codec) {s : Poly n} {c : RLWE n} {b : Bool} {e : Nat}
    (h : Enc s c (Poly.const n (if b then 2 ^ 63 else 0)) e) (he : e < 2 ^ 62) :
    decryptDecodeRlwe ctx s c = Poly.const n (if b then 1 else 0) ∧
    decryptDecodeRlwe ctx s c.not = Poly.const n (if b then 0 else 1) := by
  have hcd : ctx.codec = ⟨1, 1 <<< 63⟩ := by
    have : Codec.new 2 = some ⟨1, 1 <<< 63⟩ := by decide +kernel
    rw [this] at hc; exact (Option.some.inj hc).symm
  have hp : ∀ b : Bool, ctx.codec.polyEncode (Poly.const n (if b then 1 else 0)) = some (Poly.const n (if b then 2 ^ 63 else 0)) := by
    intro b
    have h01 : ∀ k : Fin n, ctx.codec.encode (Poly.const n (if b then 1 else 0) k) = some (Poly.const n (if b then 2 ^ 63 else 0) k) := by
      intro k
      rw [Poly.const_apply, Poly.const_apply, hcd]
      by_cases hk : k.val = 0
      · rw [if_pos hk, if_pos hk]; cases b <;> decide +kernel
      · rw [if_neg hk, if_neg hk]; decide +kernel
    unfold Codec.polyEncode
    rw [if_pos (fun k => by rw [h01 k]; rfl)]
    congr 1
    refine Poly.ext (funext fun k => ?_)
    simp only [h01 k, Option.getD_some]
  have hw : 2 * e < 2 ^ 64 / (2 : Scalar).toNat := by
    have : (2 ^ 64 / (2 : Scalar).toNat) = 2 ^ 63 := by decide
    omega
  refine ⟨decryptDecode_of_enc hc (hp b) h hw, ?_⟩
  have h' : Enc s c.not (Poly.const n (if (!b) then 2 ^ 63 else 0)) e := by
    unfold Enc at *
    rw [C22_decrypt]
    have e2 : Poly.const n (2 ^ 63) - decryptRlwe s c - Poly.const n (if (!b) then 2 ^ 63 else 0)
        = -(decryptRlwe s c - Poly.const n (if b then 2 ^ 63 else 0)) := by
      cases b
      · simp only [Bool.not_false, if_true, Bool.false_eq_true, if_false, Poly.const_zero]; ring
      · simp only [Bool.not_true, if_true, Bool.false_eq_true, if_false, Poly.const_zero]; ring
    rw [e2]; exact Small.neg h
  have := decryptDecode_of_enc hc (hp (!b)) h' hw
  rw [this]
  cases b <;> rfl

example : Enc exKey (encryptRlwe exKey (Poly.const 4 (if true then 2 ^ 63 else 0)) exGen).1 (Poly.const 4 (if true then 2 ^ 63 else 0)) 3 ∧
    3 < 2 ^ 62 ∧ ∃ c, Codec.new 2 = some c := ⟨encryptRlwe_enc exGen_bounded, by decide, _, rfl⟩

/-! ## C23, C24 -/

theorem leqPoly_small {n : Nat} (d : Nat) : Small (RLWE.leqPoly n d) 1 := fun k => by
  unfold RLWE.leqPoly
  simp only
  split
  · decide
  · split <;> decide

theorem eqPoly_small {n : Nat} (d : Nat) : Small (RLWE.eqPoly n d) 1 := fun k => by
  unfold RLWE.eqPoly
  split
  · rw [Poly.set_apply, Poly.zero_apply]; split <;> decide
  · rw [Poly.set_apply, Poly.zero_apply]; split <;> decide

theorem fourier_const_coeff {n : Nat} {fft : Fft n} {phi : Nat} (hf : fft.Bounded phi) {s : Poly n} (hs : Binary s) (hn : 0 < n)
    {c : RLWE n} {v : Scalar} {m : Nat} {e : Nat} (h : Enc s c (Poly.const n v * Poly.mono n m) e) (t : Poly n) (h1t : Small t 1) (x : Scalar)
    (ht : (t * Poly.mono n m) ⟨0, hn⟩ = x) :
    nrm ((decryptRlwe s ⟨fourierUpdateWithMul fft c.mask t, fourierUpdateWithMul fft c.body t⟩).get 0 - v * x)
      ≤ l1 t * e + fftNoise n phi 1 := by
  rw [fourierMul_decrypt]
  have hone : ∀ p : Poly n, FPoly.weight [(p, t)] ≤ 1 := fun p => by
    have := weight_le (B := 1) (ts := [(p, t)]) fun u hu => by
      rw [List.mem_singleton.mp hu]; exact Or.inr h1t
    simpa using this
  have h1 := (Small.l1_mul t h).add (fft_pair_small hf hs.small (by simp) (by simp) (hone c.body) (hone c.mask))
  have h2 := h1 ⟨0, hn⟩
  have hg := Poly.get_lt (t * decryptRlwe s c + (fft.err [(c.body, t)] - fft.err [(c.mask, t)] * s)) ⟨0, hn⟩
  simp only at hg
  rw [hg]
  have e1 : t * (decryptRlwe s c - Poly.const n v * Poly.mono n m) + (fft.err [(c.body, t)] - fft.err [(c.mask, t)] * s)
      = (t * decryptRlwe s c + (fft.err [(c.body, t)] - fft.err [(c.mask, t)] * s)) - Poly.const n v * (t * Poly.mono n m) := by ring
  rw [e1, Poly.sub_apply, Poly.const_mul_apply, ht] at h2
  exact h2

/-- C23: for an encryption of `v * X^m` with error at most `e`, `less_eq_than(d)` with `m, d < n` succeeds and the constant
coefficient of the decryption of its result is `v` if `m ≤ d` and 0 otherwise, up to `(d+1) e` plus the FFT error. -/
theorem C23_less_eq_than {n : Nat} {fft : Fft n} {phi : Nat} (hf : fft.Bounded phi) {s : Poly n} (hs : Binary s)
    {c : RLWE n} {v : Scalar} {m d e : Nat} (hm : m < n) (hd : d < n) (h : Enc s c (Poly.const n v * Spec.X n ^ m) e) :
    ∃ c', c.lessEqThan fft d = some c' ∧
      nrm ((decryptRlwe s c').get 0 - (if m ≤ d then v else 0)) ≤ (d + 1) * e + fftNoise n phi 1 := by
  unfold RLWE.lessEqThan
  rw [if_pos hd]
  refine ⟨_, rfl, ?_⟩
  have hx : Spec.X n ^ m = Poly.mono n m := by unfold Spec.X; rw [Poly.mono_pow, one_mul]
  rw [hx] at h
  have h1 := fourier_const_coeff hf hs (by omega) h (RLWE.leqPoly n d) (leqPoly_small d) _ (leqPoly_coeff (by omega) hm hd)
  rw [show v * (if m ≤ d then 1 else 0) = if m ≤ d then v else 0 by split <;> simp] at h1
  exact le_trans h1 (Nat.add_le_add_right (Nat.mul_le_mul_right _ (l1_leqPoly hd)) _)

/-- C23 (panic): `less_eq_than(d)` panics iff `d ≥ n`. -/
theorem C23_panics_iff {n : Nat} (fft : Fft n) (c : RLWE n) (d : Nat) : c.lessEqThan fft d = none ↔ n ≤ d := by
  unfold RLWE.lessEqThan
  split <;> simp <;> omega

/-- C23 (decision): with bit encoded at `v` and total error below `v/2`, the rounded constant coefficient decides `m ≤ d`. -/
theorem C23_decides {n : Nat} {t : Scalar} {ctx : Ctx} (hc : Codec.new t = some ctx.codec) {v : Scalar}
    (hv : ctx.codec.encode 1 = some v) {fft : Fft n} {phi : Nat} (hf : fft.Bounded phi) {s : Poly n} (hs : Binary s)
    {c : RLWE n} {m d e : Nat} (hm : m < n) (hd : d < n) (h : Enc s c (Poly.const n v * Spec.X n ^ m) e)
    (he : 2 * ((d + 1) * e + fftNoise n phi 1) < 2 ^ 64 / t.toNat) :
    ∃ c', c.lessEqThan fft d = some c' ∧ (decryptDecodeRlwe ctx s c').get 0 = if m ≤ d then 1 else 0 := by
  obtain ⟨c', h1, h2⟩ := C23_less_eq_than hf hs hm hd h
  refine ⟨c', h1, ?_⟩
  have hn : 0 < n := by omega
  have hw : ctx.codec.encode (if m ≤ d then 1 else 0) = some (if m ≤ d then v else 0) := by
    split
    · exact hv
    · rcases h0 : ctx.codec.encode 0 with _ | w
      · have := (C02_encode hc 0).1.mp h0
        have h3 : t.toNat = 0 := by simpa using this
        obtain ⟨k, hk⟩ := (C02_new_isSome_iff t).mp (by rw [hc]; rfl)
        have : 0 < 2 ^ k := by positivity
        omega
      · have := (C02_encode hc 0).2 w h0
        congr 1
        apply BitVec.eq_of_toNat_eq
        rw [this]; simp
  have hd' := decode_of_small hc hw h2 he
  have g1 := Poly.get_lt (decryptDecodeRlwe ctx s c') ⟨0, hn⟩
  have g2 := Poly.get_lt (decryptRlwe s c') ⟨0, hn⟩
  simp only at g1 g2
  rw [g1]
  rw [g2] at hd'
  exact hd'

/-- C24: same for equality; the old error is not amplified. -/
theorem C24_eq_to {n : Nat} {fft : Fft n} {phi : Nat} (hf : fft.Bounded phi) {s : Poly n} (hs : Binary s)
    {c : RLWE n} {v : Scalar} {m d e : Nat} (hm : m < n) (hd : d < n) (h : Enc s c (Poly.const n v * Spec.X n ^ m) e) :
    ∃ c', c.eqTo fft d = some c' ∧
      nrm ((decryptRlwe s c').get 0 - (if m = d then v else 0)) ≤ e + fftNoise n phi 1 := by
  unfold RLWE.eqTo
  rw [if_pos hd]
  refine ⟨_, rfl, ?_⟩
  have hx : Spec.X n ^ m = Poly.mono n m := by unfold Spec.X; rw [Poly.mono_pow, one_mul]
  rw [hx] at h
  have h1 := fourier_const_coeff hf hs (by omega) h (RLWE.eqPoly n d) (eqPoly_small d) _ (eqPoly_coeff (by omega) hm hd)
  rw [show v * (if m = d then 1 else 0) = if m = d then v else 0 by split <;> simp] at h1
  refine le_trans h1 (Nat.add_le_add_right ?_ _)
  have := Nat.mul_le_mul_right e (l1_eqPoly (n := n) d)
  omega

/-- C24 (panic): `eq_to(d)` panics iff `d ≥ n`. -/
theorem C24_panics_iff {n : Nat} (fft : Fft n) (c : RLWE n) (d : Nat) : c.eqTo fft d = none ↔ n ≤ d := by
  unfold RLWE.eqTo
  split <;> simp <;> omega

/-- C24 (decision): with bit encoded at `v` and total error below `v/2`, the rounded constant coefficient decides `m = d`. -/
theorem C24_decides {n : Nat} {t : Scalar} {ctx : Ctx} (hc : Codec.new t = some ctx.codec) {v : Scalar}
    (hv : ctx.codec.encode 1 = some v) {fft : Fft n} {phi : Nat} (hf : fft.Bounded phi) {s : Poly n} (hs : Binary s)
    {c : RLWE n} {m d e : Nat} (hm : m < n) (hd : d < n) (h : Enc s c (Poly.const n v * Spec.X n ^ m) e)
    (he : 2 * (e + fftNoise n phi 1) < 2 ^ 64 / t.toNat) :
    ∃ c', c.eqTo fft d = some c' ∧ (decryptDecodeRlwe ctx s c').get 0 = if m = d then 1 else 0 := by
  obtain ⟨c', h1, h2⟩ := C24_eq_to hf hs hm hd h
  refine ⟨c', h1, ?_⟩
  have hn : 0 < n := by omega
  have hw : ctx.codec.encode (if m = d then 1 else 0) = some (if m = d then v else 0) := by
    split
    · exact hv
    · rcases h0 : ctx.codec.encode 0 with _ | w
      · have := (C02_encode hc 0).1.mp h0
        have h3 : t.toNat = 0 := by simpa using this
        obtain ⟨k, hk⟩ := (C02_new_isSome_iff t).mp (by rw [hc]; rfl)
        have : 0 < 2 ^ k := by positivity
        omega
      · have := (C02_encode hc 0).2 w h0
        congr 1
        apply BitVec.eq_of_toNat_eq
        rw [this]; simp
  have hd' := decode_of_small hc hw h2 he
  have g1 := Poly.get_lt (decryptDecodeRlwe ctx s c') ⟨0, hn⟩
  have g2 := Poly.get_lt (decryptRlwe s c') ⟨0, hn⟩
  simp only at g1 g2
  rw [g1]
  rw [g2] at hd'
  exact hd'

/-- An FFT whose every coefficient is off by 5 unless it transforms zero, for the examples. -/
def exFft : Fft 4 := ⟨fun ts => if FPoly.weight ts = 0 then 0 else ⟨fun _ => 5⟩⟩
theorem exFft_bounded : exFft.Bounded 5 := fun ts _ k => by
  show (BitVec.toInt ((if FPoly.weight ts = 0 then (0 : Poly 4) else ⟨fun _ => 5⟩) k)).natAbs ≤ 5 * FPoly.weight ts
  split
  · simp
  · have : (BitVec.toInt (5 : Scalar)).natAbs = 5 := by decide
    show (BitVec.toInt (5 : Scalar)).natAbs ≤ _
    omega

example : Enc exKey (encryptRlwe exKey (Poly.const 4 (1 <<< 60) * Spec.X 4 ^ 2) exGen).1 (Poly.const 4 (1 <<< 60) * Spec.X 4 ^ 2) 3 ∧
    exCtx.codec.encode 1 = some (1 <<< 60) ∧ 2 * ((3 + 1) * 3 + fftNoise 4 5 1) < 2 ^ 64 / (16 : Scalar).toNat :=
  ⟨encryptRlwe_enc exGen_bounded, by decide +kernel, by decide⟩

end Panacea
