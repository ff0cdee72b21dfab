import Verif.Model.Tests
import Verif.Props.Bench
import Verif.Props.Lwe
import Verif.Props.NaiveHash
import Verif.Props.Simulate
import Verif.Props.Noise
import Verif.Props.Prog

/-!
# C83: the crate's own tests

Each theorem says that a test passes for every key, every randomness and every rounding of the Fourier transform within the stated bounds.
-/

namespace Panacea
variable {n : Nat}

/-! ## Helpers -/

theorem assertT_pos {p : Prop} [Decidable p] (h : p) : assertT p = some () := if_pos h

theorem forT_inv {σ : Type} {f : Nat → σ → Option σ} {P : σ → Prop} : ∀ (l : List Nat), (∀ i ∈ l, ∀ x, P x → ∃ y, f i x = some y ∧ P y) →
    ∀ x, P x → ∃ y, forT f l x = some y ∧ P y
  | [], _, x, hx => ⟨x, rfl, hx⟩
  | i :: is, h, x, hx => by
    obtain ⟨y, e, hy⟩ := h i (by simp) x hx
    obtain ⟨z, e2, hz⟩ := forT_inv is (fun j hj => h j (by simp [hj])) y hy
    refine ⟨z, ?_, hz⟩
    rw [forT, e]
    exact e2

theorem noiseMax_some {s : Poly n} {c : RLWE n} {m : Poly n} {e : Nat} (h : Enc s c m e) (he : e < 2 ^ 63) :
    ∃ x, computeNoiseMax s c m = some x := by
  rw [← Option.isSome_iff_exists, Option.isSome_iff_ne_none, ne_eq, C32_panics_iff]
  rintro ⟨k, hk⟩
  have := h k
  rw [hk] at this
  have h2 : Int.natAbs (-2 ^ 63) = 2 ^ 63 := by decide
  omega

theorem noiseEncodedMax_some {codec : Codec} {s : Poly n} {c : RLWE n} {m enc : Poly n} {e : Nat} (hm : codec.polyEncode m = some enc)
    (h : Enc s c enc e) (he : e < 2 ^ 63) : ∃ x, computeNoiseEncodedMax codec s c m = some x := by
  unfold computeNoiseEncodedMax
  rw [hm]
  exact noiseMax_some h he

theorem ternary_encodings {m w : Scalar} (h : ternaryEncode m = some w) :
    (m = 0 ∧ w = 0) ∨ (m = 1 ∧ w = encTHIRD) ∨ (m = -1 ∧ w = 2 * encTHIRD) := by
  have hm : m = 0 ∨ m = 1 ∨ m = scalarMAX := by
    by_contra hne
    rw [((C03_ternary_reject m).1).mpr hne] at h
    cases h
  rcases hm with rfl | rfl | rfl
  · exact Or.inl ⟨rfl, (Option.some.inj h).symm⟩
  · exact Or.inr (Or.inl ⟨rfl, (Option.some.inj h).symm⟩)
  · rw [show ternaryEncode scalarMAX = some (2 * encTHIRD) by decide +kernel] at h
    exact Or.inr (Or.inr ⟨scalarMAX_eq, (Option.some.inj h).symm⟩)

theorem noiseTernaryMax_some {s : Poly n} {c : RLWE n} {m enc : Poly n} {e : Nat} (hm : polyTernaryEncode m = some enc)
    (h : Enc s c enc e) (he : e < 0x2AAAAAAAAAAAA800) : ∃ x, computeNoiseTernaryMax s c m = some x := by
  unfold computeNoiseTernaryMax
  rw [← Option.isSome_iff_exists, Option.isSome_iff_ne_none, ne_eq, C32_panics_iff]
  rintro ⟨k, hk⟩
  have hx : ((decryptRlwe s c - polyTernaryDecode m) : Poly n) k = BitVec.ofInt 64 (-2 ^ 63) := by
    rw [← hk, ofInt_toInt']
  have hd : polyTernaryDecode m k = 0 := by
    show ternaryDecode (m k) = 0
    rcases ternary_encodings (polyTernaryEncode_some hm k) with ⟨e1, _⟩ | ⟨e1, _⟩ | ⟨e1, _⟩ <;> rw [e1] <;> decide +kernel
  rw [Poly.sub_apply, hd, sub_zero] at hx
  have hb : nrm (decryptRlwe s c k - enc k) ≤ e := h k
  rw [hx] at hb
  have h0 : nrm (BitVec.ofInt 64 (-2 ^ 63) - 0) = 0x8000000000000000 := by decide +kernel
  have h1 : nrm (BitVec.ofInt 64 (-2 ^ 63) - encTHIRD) = 0x2AAAAAAAAAAAAC00 := by decide +kernel
  have h2 : nrm (BitVec.ofInt 64 (-2 ^ 63) - 2 * encTHIRD) = 0x2AAAAAAAAAAAA800 := by decide +kernel
  rcases ternary_encodings (polyTernaryEncode_some hm k) with ⟨_, e1⟩ | ⟨_, e1⟩ | ⟨_, e1⟩ <;> rw [e1] at hb <;> omega

theorem ternary_encodable {m : Poly n} (h : ∀ k, m k = 0 ∨ m k = 1 ∨ m k = -1) : ∃ enc, polyTernaryEncode m = some enc := by
  have hv : ∀ k, (ternaryEncode (m k)).isSome := fun k => by
    rw [Option.isSome_iff_ne_none, ne_eq, (C03_ternary_reject _).1, not_not, scalarMAX_eq]
    exact h k
  unfold polyTernaryEncode
  rw [if_pos hv]
  exact ⟨_, rfl⟩

theorem ternaryEncrypt_eq {m enc : Poly n} (h : polyTernaryEncode m = some enc) (s : Poly n) (g : Gen n) :
    ternaryEncryptRlwe s m g = some (encryptRlwe s enc g) := by
  unfold ternaryEncryptRlwe
  rw [h]

theorem encodeEncrypt_eq {ctx : Ctx} {m enc : Poly n} (h : ctx.codec.polyEncode m = some enc) (s : Poly n) (g : Gen n) :
    encodeEncryptRlwe ctx s m g = some (encryptRlwe s enc g) := by
  unfold encodeEncryptRlwe
  rw [h]

theorem encryptRlwe_bounded {s m : Poly n} {g : Gen n} {B : Nat} (h : g.Bounded B) : (encryptRlwe s m g).2.Bounded B := h
theorem genTernary_bounded {g : Gen n} {B : Nat} (h : g.Bounded B) : (genTernaryPtxt g).2.Bounded B := h
theorem genBinary_bounded {g : Gen n} {B : Nat} (h : g.Bounded B) : (genBinaryPt g).2.Bounded B := h

/-! ## codec.rs and naive_hash.rs -/

/-- C83: `test_binary_encoder` and `test_generic_encoder` pass. -/
theorem C83_codec : testBinaryEncoder = some () ∧ testGenericEncoder = some () := by decide +kernel

/-- C83: `test_naive_hash` and `test_naive_hash_to_mapping` pass for every shuffle. -/
theorem C83_naive_hash (shuffle : List Nat → List Nat) (hs : ∀ l, (shuffle l).Perm l) :
    testNaiveHash shuffle = some () ∧ testNaiveHashToMapping shuffle = some () := by
  have hnew : NaiveHash.new shuffle 1 16 = some ⟨shuffle (List.range (1 * 16)), 1, 16⟩ := rfl
  set H : NaiveHash := ⟨shuffle (List.range (1 * 16)), 1, 16⟩ with hH
  obtain ⟨_, tot, _, _⟩ := C09_hash_bijection shuffle hs 1 16 H hnew
  have ck := C09_checked_hash shuffle hs 1 16 H hnew
  have tup := (C10_tuple_bijection shuffle hs 1 16 H hnew 8 2 (by omega) (by omega)).1
  constructor
  · obtain ⟨a, ha1, ha2, _⟩ := ck 1 0
    obtain ⟨b, hb1, hb2, _⟩ := ck 0 16
    obtain ⟨r, c, ht, _, _, hh⟩ := tup 0 8 (by omega) (by omega)
    have ha : a = none := ha2.mpr (by omega)
    have hb : b = none := hb2.mpr (by omega)
    obtain ⟨_, hl, _⟩ := forT_inv (f := fun i _ => do
      let v ← H.hash0 i
      assertT (v < 16)) (P := fun _ : Unit => True) (List.range 16) (fun i hi x _ => by
        obtain ⟨y, h1, h2⟩ := tot 0 i (by omega) (List.mem_range.mp hi)
        refine ⟨(), ?_, trivial⟩
        show (H.hash 0 i).bind _ = _
        rw [h1]
        exact assertT_pos (by omega)) () trivial
    unfold testNaiveHash
    simp only [hnew, Option.bind_eq_bind, Option.bind_some] at hl ⊢
    rw [hl]
    simp only [ha1, hb1, ht, hh, ha, hb, Option.bind_some, assertT, if_true]
  · obtain ⟨r, c, ht, hr, _, hh⟩ := tup 0 0 (by omega) (by omega)
    have hm : H.hashToMapping [0] 2 = some (NaiveHash.Mapping.insert (fun _ => none) r (c, 0)) := by
      show (match H.mapOne 2 0 [0] (fun _ => none) with | none => none | some out' => H.mapAll 2 [] out') = _
      have : H.mapOne 2 0 [0] (fun _ => none) = some (NaiveHash.Mapping.insert (fun _ => none) r (c, 0)) := by
        unfold NaiveHash.mapOne
        rw [ht]
      rw [this]
      rfl
    have hlen : ((List.range 16).filter fun i => ((NaiveHash.Mapping.insert (fun _ => none) r (c, 0)) i).isSome).length = 1 := by
      have hi : ∀ r : Fin 8, ((List.range 16).filter fun i => ((NaiveHash.Mapping.insert (fun _ => none) r.val (c, 0)) i).isSome).length = 1 := by
        intro r
        fin_cases r <;> rfl
      exact hi ⟨r, hr⟩
    have hat : NaiveHash.Mapping.insert (fun _ => none) r (c, 0) r = some (c, 0) := if_pos rfl
    unfold testNaiveHashToMapping
    simp only [hnew, hm, ht, Option.bind_eq_bind, Option.bind_some]
    rw [assertT_pos hlen]
    simp only [Option.bind_some, hat, assertT, if_true]

/-! ## rlwe.rs: encryption and key switching -/

/-- C83: `test_ternary_enc` passes whenever the noise is below a sixth of the torus. -/
theorem C83_ternary_enc (sg : SecretGen) {g : Gen n} {B : Nat} (hg : g.Bounded B) (hB : B < 0x2AAAAAAAAAAAA800) : testTernaryEnc sg g = some () := by
  obtain ⟨enc, he⟩ := ternary_encodable (genTernary_values g)
  unfold testTernaryEnc
  simp only [ternaryEncrypt_eq he, Option.bind_eq_bind, Option.bind_some]
  exact assertT_pos (ternary_of_enc he (encryptRlwe_enc (genTernary_bounded hg)) hB)

/-- C83: `test_binary_enc` passes *exactly* if every coefficient of the noise is inside the decoding window. -/
theorem C83_binary_enc {t : Scalar} {ctx : Ctx} (hc : Codec.new t = some ctx.codec) (sg : SecretGen) (g : Gen n) :
    testBinaryEnc ctx sg g = some () ↔ ∀ j, Spec.InWindow t.toNat (g.noises (g.pos + 1) j).toInt := by
  obtain ⟨enc, he⟩ := polyEncode_total hc (genBinaryPt_encodable hc g)
  have step := encodeEncrypt_eq he (genRlweSk n sg).1 (genBinaryPt g).2
  have := C16_roundtrip_iff hc (genRlweSk n sg).1 (genBinaryPt g).1 _ _ step
  unfold testBinaryEnc
  simp only [step, Option.bind_eq_bind, Option.bind_some]
  have e : ∀ (p : Prop) [Decidable p], assertT p = some () ↔ p := fun p _ => by unfold assertT; split <;> simp_all
  rw [e]
  exact this

/-- What the three key switching tests have in common: the key switching key and the fresh ternary ciphertext. -/
theorem testKs_setup (ctx : Ctx) (sg : SecretGen) {g : Gen n} {B : Nat} (hg : g.Bounded B) :
    ∃ K g2 enc, (KeyswitchKey.allocate n ctx.ksBaseLog ctx.ksLevelCount).fillWithKeyswitchKey (benchKeys n sg).2 (benchKeys n sg).1 (genTernaryPtxt g).2
        = (K, g2) ∧ IsKsk (benchKeys n sg).1 K (benchKeys n sg).2 B ∧ K.baseLog = ctx.ksBaseLog ∧ K.levelCount = ctx.ksLevelCount ∧
      polyTernaryEncode (genTernaryPtxt g).1 = some enc ∧ Enc (benchKeys n sg).2 (encryptRlwe (benchKeys n sg).2 enc g2).1 enc B := by
  obtain ⟨h1, h2⟩ := fillWithKeyswitchKey_spec (KeyswitchKey.allocate n ctx.ksBaseLog ctx.ksLevelCount) (benchKeys n sg).2 (benchKeys n sg).1 (genTernary_bounded hg)
  obtain ⟨enc, he⟩ := ternary_encodable (genTernary_values g)
  exact ⟨_, _, enc, rfl, h1, rfl, rfl, he, encryptRlwe_enc h2⟩

theorem Enc.through {s s' : Poly n} {c c' : RLWE n} {m : Poly n} {e e' : Nat} (h : Enc s c m e) (h' : Enc s' c' (decryptRlwe s c) e') :
    Enc s' c' m (e + e') := by
  unfold Enc at *
  have e : decryptRlwe s' c' - m = (decryptRlwe s c - m) + (decryptRlwe s' c' - decryptRlwe s c) := by ring
  rw [e]
  exact h.add h'

/-- C83: `test_keyswitching` (rlwe.rs) passes. -/
theorem C83_keyswitching {ctx : Ctx} (h1 : 1 ≤ ctx.ksBaseLog) (h2 : 1 ≤ ctx.ksLevelCount) (h3 : ctx.ksBaseLog * ctx.ksLevelCount < 64)
    {fft : Fft n} {phi : Nat} (hf : fft.Bounded phi) (sg : SecretGen) {g : Gen n} {B : Nat} (hg : g.Bounded B)
    (hB : B + ksNoise n ctx.ksBaseLog ctx.ksLevelCount B (ctx.ksLevelCount * fftNoise n phi (2 ^ (ctx.ksBaseLog - 1))) < 0x2AAAAAAAAAAAA800) :
    testKeyswitching ctx fft sg g = some () := by
  obtain ⟨K, g2, enc, e1, e2, e3, e4, e5, e6⟩ := testKs_setup ctx sg hg
  have hb := benchKeys_binary (n := n) sg
  have hwf : K.WF := ⟨by rw [e3]; exact h1, by rw [e4]; exact h2, by rw [e3, e4]; exact h3⟩
  obtain ⟨out, o1, o2⟩ := C25_keyswitch hf hb.1 hb.2.small hwf e2 (encryptRlwe (benchKeys n sg).2 enc g2).1
  rw [e3, e4] at o2
  have hE := e6.through o2
  have d1 := ternary_of_enc e5 e6 (by omega)
  have d2 := ternary_of_enc e5 hE hB
  obtain ⟨x1, n1⟩ := noiseTernaryMax_some e5 e6 (by omega)
  obtain ⟨x2, n2⟩ := noiseTernaryMax_some e5 hE hB
  unfold testKeyswitching
  unfold benchKeys at *
  simp only at *
  simp only [e1, ternaryEncrypt_eq e5, o1, n1, n2, d1, d2, Option.bind_eq_bind, Option.bind_some, assertT, if_true, Option.pure_def]

/-- C83: `test_keyswitching_fourier` passes. -/
theorem C83_keyswitching_fourier {ctx : Ctx} (h1 : 1 ≤ ctx.ksBaseLog) (h2 : 1 ≤ ctx.ksLevelCount) (h3 : ctx.ksBaseLog * ctx.ksLevelCount < 64)
    {fft : Fft n} {phi : Nat} (hf : fft.Bounded phi) (sg : SecretGen) {g : Gen n} {B : Nat} (hg : g.Bounded B)
    (hB : B + ksNoise n ctx.ksBaseLog ctx.ksLevelCount B (fftNoise n phi (1 + ctx.ksLevelCount * 2 ^ (ctx.ksBaseLog - 1))) < 0x2AAAAAAAAAAAA800) :
    testKeyswitchingFourier ctx fft sg g = some () := by
  obtain ⟨K, g2, enc, e1, e2, e3, e4, e5, e6⟩ := testKs_setup ctx sg hg
  have hb := benchKeys_binary (n := n) sg
  have hwf : K.WF := ⟨by rw [e3]; exact h1, by rw [e4]; exact h2, by rw [e3, e4]; exact h3⟩
  obtain ⟨out, o1, o2⟩ := C25_keyswitch_fourier hf hb.1 hb.2.small hwf e2 (encryptRlwe (benchKeys n sg).2 enc g2).1
  rw [e3, e4] at o2
  have hE := e6.through o2
  have d1 := ternary_of_enc e5 e6 (by omega)
  have d2 := ternary_of_enc e5 hE hB
  obtain ⟨x1, n1⟩ := noiseTernaryMax_some e5 e6 (by omega)
  obtain ⟨x2, n2⟩ := noiseTernaryMax_some e5 hE hB
  unfold testKeyswitchingFourier
  unfold benchKeys at *
  simp only at *
  simp only [e1, ternaryEncrypt_eq e5, o1, n1, n2, d1, d2, Option.bind_eq_bind, Option.bind_some, assertT, if_true, Option.pure_def]

theorem decryptRlwe_zero (s : Poly n) : decryptRlwe s 0 = 0 := by
  unfold decryptRlwe
  show (0 : Poly n) - 0 * s = 0
  rw [zero_mul, sub_zero]

/-- C83: `test_keyswitching` (rgsw.rs) passes. -/
theorem C83_keyswitching_rgsw {ctx : Ctx} (h1 : 1 ≤ ctx.ksBaseLog) (h2 : 1 ≤ ctx.ksLevelCount) (h3 : ctx.ksBaseLog * ctx.ksLevelCount < 64)
    {fft : Fft n} {phi : Nat} (hf : fft.Bounded phi) (sg : SecretGen) {g : Gen n} {B : Nat} (hg : g.Bounded B)
    (hB : B + extNoise n ctx.ksBaseLog ctx.ksLevelCount B phi 1 < 0x2AAAAAAAAAAAA800) :
    testKeyswitchingRgsw ctx fft sg g = some () := by
  obtain ⟨K, g2, enc, e1, e2, e3, e4, e5, e6⟩ := testKs_setup ctx sg hg
  have hb := benchKeys_binary (n := n) sg
  have hwf : K.WF := ⟨by rw [e3]; exact h1, by rw [e4]; exact h2, by rw [e3, e4]; exact h3⟩
  obtain ⟨C, o1, o2⟩ := C26_keyswitch_rgsw hf hb.1 hb.2.small hwf e2
  have o2 := o2 0 (encryptRlwe (benchKeys n sg).2 enc g2).1
  rw [e3, e4, decryptRlwe_zero, zero_add] at o2
  have hE := (e6.through o2).mono (show _ ≤ B + extNoise n ctx.ksBaseLog ctx.ksLevelCount B phi 1 by unfold extNoise; rw [one_mul])
  have d1 := ternary_of_enc e5 e6 (by omega)
  have d2 := ternary_of_enc e5 hE hB
  obtain ⟨x1, n1⟩ := noiseTernaryMax_some e5 e6 (by omega)
  obtain ⟨x2, n2⟩ := noiseTernaryMax_some e5 hE hB
  unfold testKeyswitchingRgsw
  unfold benchKeys at *
  simp only at *
  simp only [e1, ternaryEncrypt_eq e5, o1, n1, n2, d1, d2, Option.bind_eq_bind, Option.bind_some, assertT, if_true, Option.pure_def]

/-! ## rlwe.rs: substitution and trace -/

theorem neg_one_pow_scalar (e : Nat) : ((-1 : Scalar) ^ e = 1) ∨ ((-1 : Scalar) ^ e = -1) := by
  rcases Nat.mod_two_eq_zero_or_one e with h | h
  · exact Or.inl (Even.neg_one_pow (Nat.even_iff.mpr h))
  · exact Or.inr (Odd.neg_one_pow (Nat.odd_iff.mpr h))

/-- A ternary plaintext after a substitution is ternary again, and its encoding is the substituted encoding up to 1024. -/
theorem ternary_subst {d k : Nat} (hk : k % 2 = 1) {m enc : Poly (2 ^ d)} (h : polyTernaryEncode m = some enc) :
    ∃ enc', polyTernaryEncode (m.subst k) = some enc' ∧ Small (enc.subst k - enc') 1024 := by
  have key : ∀ j, ∃ w, ternaryEncode (m.subst k j) = some w ∧ nrm (enc.subst k j - w) ≤ 1024 := by
    intro j
    obtain ⟨i, hi, hij⟩ := mul_odd_surj (d := d) hk j.isLt
    rw [Poly.subst_apply hk m ⟨i, hi⟩ j hij, Poly.subst_apply hk enc ⟨i, hi⟩ j hij]
    rcases neg_one_pow_scalar (i * k / 2 ^ d) with hp | hp <;> simp only [hp] <;>
      rcases ternary_encodings (polyTernaryEncode_some h ⟨i, hi⟩) with ⟨e1, e2⟩ | ⟨e1, e2⟩ | ⟨e1, e2⟩ <;> rw [e1, e2]
    · exact ⟨0, by decide +kernel, by decide +kernel⟩
    · exact ⟨encTHIRD, by decide +kernel, by decide +kernel⟩
    · exact ⟨2 * encTHIRD, by decide +kernel, by decide +kernel⟩
    · exact ⟨0, by decide +kernel, by decide +kernel⟩
    · exact ⟨2 * encTHIRD, by decide +kernel, by decide +kernel⟩
    · exact ⟨encTHIRD, by decide +kernel, by decide +kernel⟩
  have hv : ∀ j, m.subst k j = 0 ∨ m.subst k j = 1 ∨ m.subst k j = -1 := fun j => by
    obtain ⟨w, h1, _⟩ := key j
    rcases ternary_encodings h1 with ⟨e1, _⟩ | ⟨e1, _⟩ | ⟨e1, _⟩ <;> simp [e1]
  obtain ⟨enc', he⟩ := ternary_encodable hv
  refine ⟨enc', he, fun j => ?_⟩
  obtain ⟨w, h1, h2⟩ := key j
  rw [polyTernaryEncode_some he j] at h1
  cases h1
  exact h2

theorem Enc.shift {s : Poly n} {c : RLWE n} {m m' : Poly n} {e e' : Nat} (h : Enc s c m e) (h' : Small (m - m') e') : Enc s c m' (e + e') := by
  unfold Enc at *
  have e : decryptRlwe s c - m' = (decryptRlwe s c - m) + (m - m') := by ring
  rw [e]
  exact h.add h'

theorem test_k_odd {d : Nat} (hd : 1 ≤ d) : (2 ^ d + 1) % 2 = 1 := by
  obtain ⟨e, rfl⟩ : ∃ e, d = e + 1 := ⟨d - 1, by omega⟩
  rw [pow_succ]
  omega

/-- C83: `test_subs` passes. -/
theorem C83_subs {ctx : Ctx} {d : Nat} (hd : 1 ≤ d) (h1 : 1 ≤ ctx.ksBaseLog) (h2 : 1 ≤ ctx.ksLevelCount) (h3 : ctx.ksBaseLog * ctx.ksLevelCount < 64)
    {fft : Fft (2 ^ d)} {phi : Nat} (hf : fft.Bounded phi) (sg : SecretGen) {g : Gen (2 ^ d)} {B : Nat} (hg : g.Bounded B)
    (hB : B + ksNoise (2 ^ d) ctx.ksBaseLog ctx.ksLevelCount B (ctx.ksLevelCount * fftNoise (2 ^ d) phi (2 ^ (ctx.ksBaseLog - 1))) + 1024
      < 0x2AAAAAAAAAAAA800) :
    testSubs ctx fft sg g = some () := by
  have hk := test_k_odd hd
  obtain ⟨enc, he⟩ := ternary_encodable (genTernary_values g)
  obtain ⟨⟨K, g2⟩, e1, _, _, _, _, e2⟩ := fillWithSubs_spec hk (KeyswitchKey.allocate (2 ^ d) ctx.ksBaseLog ctx.ksLevelCount)
    (genRlweSk (2 ^ d) sg).1 (genTernary_bounded hg)
  obtain ⟨K', g2', e3, e4⟩ := C27_subs hf (benchSk_binary sg) hk h1 h2 h3 (genTernary_bounded hg)
  rw [e1] at e3
  cases e3
  obtain ⟨out, o1, o2⟩ := (e4 _ enc B (encryptRlwe_enc (g := g2) e2)).1 0
  obtain ⟨enc', t1, t2⟩ := ternary_subst hk he
  rw [← Poly.subst_eq_evalAt] at o2
  have d1 := ternary_of_enc t1 (o2.shift t2) hB
  unfold testSubs
  simp only [e1, ternaryEncrypt_eq he, o1, d1, evalXk, evalXkInMemory_eq hk, Option.bind_eq_bind, Option.bind_some, assertT, if_true]

/-- C83: `test_subs_fourier` passes. -/
theorem C83_subs_fourier {ctx : Ctx} {d : Nat} (hd : 1 ≤ d) (h1 : 1 ≤ ctx.ksBaseLog) (h2 : 1 ≤ ctx.ksLevelCount) (h3 : ctx.ksBaseLog * ctx.ksLevelCount < 64)
    {fft : Fft (2 ^ d)} {phi : Nat} (hf : fft.Bounded phi) (sg : SecretGen) {g : Gen (2 ^ d)} {B : Nat} (hg : g.Bounded B)
    (hB : B + ksNoise (2 ^ d) ctx.ksBaseLog ctx.ksLevelCount B (fftNoise (2 ^ d) phi (1 + ctx.ksLevelCount * 2 ^ (ctx.ksBaseLog - 1))) + 1024
      < 0x2AAAAAAAAAAAA800) :
    testSubsFourier ctx fft sg g = some () := by
  have hk := test_k_odd hd
  obtain ⟨enc, he⟩ := ternary_encodable (genTernary_values g)
  obtain ⟨⟨K, g2⟩, e1, _, _, _, _, e2⟩ := fillWithSubs_spec hk (KeyswitchKey.allocate (2 ^ d) ctx.ksBaseLog ctx.ksLevelCount)
    (genRlweSk (2 ^ d) sg).1 (genTernary_bounded hg)
  obtain ⟨K', g2', e3, e4⟩ := C27_subs hf (benchSk_binary sg) hk h1 h2 h3 (genTernary_bounded hg)
  rw [e1] at e3
  cases e3
  obtain ⟨out, o1, o2⟩ := (e4 _ enc B (encryptRlwe_enc (g := g2) e2)).2 ⟨[], []⟩
  obtain ⟨enc', t1, t2⟩ := ternary_subst hk he
  rw [← Poly.subst_eq_evalAt] at o2
  have d1 := ternary_of_enc t1 (o2.shift t2) hB
  unfold testSubsFourier
  simp only [e1, ternaryEncrypt_eq he, o1, d1, evalXk, evalXkInMemory_eq hk, Option.bind_eq_bind, Option.bind_some, assertT, if_true]

/-- C83: `test_eval_poly` passes. -/
theorem C83_eval_poly : testEvalPoly = some () := by decide +kernel

theorem trace_div {t : Scalar} {c : Codec} (hc : Codec.new t = some c) {d : Nat} (hd : d < 64) (hdiv : 2 ^ d * t.toNat ≤ 2 ^ 64) {m w : Scalar}
    (hv : c.encode m = some w) : (2 ^ d : Scalar) * (w / BitVec.ofNat 64 (2 ^ d)) = w := by
  have hw := (C02_encode hc _).2 _ hv
  obtain ⟨j, hj1, hj2, hj⟩ := (C02_new_isSome_iff t).mp (by rw [hc]; rfl)
  have h64 : 2 ^ 64 / t.toNat = 2 ^ (64 - j) := by rw [hj]; exact Nat.pow_div (by omega) (by decide)
  have hdj : d ≤ 64 - j := by
    rw [hj, ← pow_add] at hdiv
    have := (Nat.pow_le_pow_iff_right (by decide)).mp hdiv
    omega
  have hdvd : 2 ^ d ∣ w.toNat := by
    rw [hw, h64]
    exact Dvd.dvd.mul_left (pow_dvd_pow 2 hdj) _
  have hd64 : 2 ^ d < 2 ^ 64 := Nat.pow_lt_pow_right (by decide) hd
  have ec : (2 ^ d : Scalar) = BitVec.ofNat 64 (2 ^ d) := by
    apply BitVec.eq_of_toNat_eq
    have : (2 ^ d : Scalar) = ((2 ^ d : Nat) : Scalar) := by push_cast; rfl
    rw [this]
    rfl
  rw [ec]
  apply BitVec.eq_of_toNat_eq
  rw [BitVec.toNat_mul, BitVec.toNat_udiv, BitVec.toNat_ofNat, Nat.mod_eq_of_lt hd64, Nat.mul_div_cancel' hdvd]
  exact Nat.mod_eq_of_lt w.isLt

theorem polyEncode_set {t : Scalar} {c : Codec} (hc : Codec.new t = some c) {m w : Scalar} (h : c.encode m = some w) (i : Nat) :
    c.polyEncode (Poly.set (0 : Poly n) i m) = some (Poly.set 0 i w) := by
  have h0 := encode_zero hc
  obtain ⟨enc, he⟩ := polyEncode_total hc (p := Poly.set (0 : Poly n) i m) (fun k => by
    have h2 := two_le_modulus hc
    have hm : m.toNat < t.toNat := by
      by_contra hh
      rw [(C02_encode hc m).1.mpr (by omega)] at h
      cases h
    show (if k.val = i then m else 0).toNat < t.toNat
    split
    · exact hm
    · show 0 < t.toNat; omega)
  rw [he]
  congr 1
  refine Poly.ext (funext fun k => ?_)
  have := polyEncode_some he k
  rw [Poly.set_apply] at this ⊢
  split at this
  · next hk => rw [if_pos hk]; rw [h] at this; exact (Option.some.inj this).symm
  · next hk => rw [if_neg hk]; rw [Poly.zero_apply, h0] at this; exact (Option.some.inj this).symm

theorem Poly.set_zero_const (v : Scalar) : Poly.set (0 : Poly n) 0 v = Poly.const n v := rfl

/-- C83: `test_trace1` passes. -/
theorem C83_trace1 {t : Scalar} {ctx : Ctx} {d : Nat} (h : BenchParams ctx t d) (hdiv : 2 ^ d * t.toNat ≤ 2 ^ 64) {fft : Fft (2 ^ d)} {phi : Nat}
    (hf : fft.Bounded phi) (sg : SecretGen) {g : Gen (2 ^ d)} {B : Nat} (hg : g.Bounded B)
    (hB : 2 * benchTraceSlowNoise ctx (2 ^ d) B phi < 2 ^ 64 / t.toNat) : testTrace1 ctx fft sg g = some () := by
  have hn : 0 < 2 ^ d := by positivity
  have h2 := two_le_modulus h.codec
  have h63 : 2 ^ 64 / t.toNat ≤ 2 ^ 63 := by
    rw [Nat.div_le_iff_le_mul_add_pred (by omega)]
    omega
  obtain ⟨enc, he⟩ := polyEncode_total h.codec (genBinaryPt_encodable h.codec g)
  set m : Poly (2 ^ d) := ⟨fun j => enc j / BitVec.ofNat 64 (2 ^ d)⟩ with hm
  obtain ⟨⟨ksks, g2⟩, b1, b2, b3⟩ := genAllSubsKsk_spec h.small ctx (genRlweSk (2 ^ d) sg).1 (genBinary_bounded hg)
  have hfr : Enc (genRlweSk (2 ^ d) sg).1 (encryptRlwe (genRlweSk (2 ^ d) sg).1 m g2).1 m B := encryptRlwe_enc b3
  obtain ⟨out, o1, o2⟩ := trace1_spec h.small hf (benchSk_binary sg).small h.ksBl h.ksLv h.ksLt b2 hfr
  have hv : ctx.codec.encode ((genBinaryPt g).1.get 0) = some (enc ⟨0, hn⟩) := by
    have := polyEncode_some he ⟨0, hn⟩
    rwa [← Poly.get_lt (genBinaryPt g).1 ⟨0, hn⟩] at this
  have hdv : (2 ^ d : Scalar) * m.get 0 = enc ⟨0, hn⟩ := by
    have e0 : m.get 0 = enc ⟨0, hn⟩ / BitVec.ofNat 64 (2 ^ d) := Poly.get_lt m ⟨0, hn⟩
    rw [e0]
    exact trace_div h.codec h.small hdiv hv
  rw [hdv] at o2
  have hset := polyEncode_set (n := 2 ^ d) h.codec hv 0
  have hle : B ≤ benchTraceSlowNoise ctx (2 ^ d) B phi := by
    unfold benchTraceSlowNoise
    exact le_trans (Nat.le_mul_of_pos_left B hn) (Nat.le_add_right _ _)
  have hE : Enc (genRlweSk (2 ^ d) sg).1 out (Poly.set 0 0 (enc ⟨0, hn⟩)) (benchTraceSlowNoise ctx (2 ^ d) B phi) := o2
  obtain ⟨x1, n1⟩ := noiseMax_some hfr (by omega)
  obtain ⟨x2, n2⟩ := noiseEncodedMax_some hset hE (by omega)
  have d1 := decryptDecode_of_enc h.codec hset hE hB
  unfold testTrace1
  simp only [he, b1, ← hm, n1, o1, n2, d1, Option.bind_eq_bind, Option.bind_some, assertT, if_true]

/-! ## RGSW encryption and external products -/

theorem row_zero {s : Poly n} {C : RGSW n} {mu : Poly n} {E : Nat} (h : EncG s C mu E) (hl : 1 ≤ C.levelCount) :
    ∃ r0 r1, C.getNthRow 0 = some r0 ∧ C.getNthRow 1 = some r1 ∧
      Enc s r0 (Poly.const n (gadget C.baseLog 1) * -(s * mu)) E ∧ Enc s r1 (Poly.const n (gadget C.baseLog 1) * mu) E := by
  have hlt : 0 < C.rows.length := hl
  have hr := List.getElem?_eq_getElem hlt
  obtain ⟨a, b⟩ := h 0 _ hr
  exact ⟨_, _, by unfold RGSW.getNthRow; rw [show 0 / 2 = 0 from rfl, hr]; rfl,
    by unfold RGSW.getNthRow; rw [show 1 / 2 = 0 from rfl, hr]; rfl, a, b⟩

theorem row_last {s : Poly n} {C : RGSW n} {mu : Poly n} {E : Nat} (h : EncG s C mu E) (hl : 1 ≤ C.levelCount) :
    ∃ r, C.getLastRow = some r ∧ Enc s r (Poly.const n (gadget C.baseLog C.levelCount) * mu) E := by
  have hlt : C.levelCount - 1 < C.rows.length := by unfold RGSW.levelCount at *; omega
  have hr := List.getElem?_eq_getElem hlt
  obtain ⟨_, b⟩ := h (C.levelCount - 1) _ hr
  rw [show C.levelCount - 1 + 1 = C.levelCount by omega] at b
  refine ⟨_, ?_, b⟩
  unfold RGSW.getLastRow
  rw [if_neg (by omega), show C.levelCount * 2 - 1 = (C.levelCount - 1) * 2 + 1 by omega, getNthRow_body, hr]
  rfl

/-- Encoding a binary plaintext is multiplying it by the encoding of one. -/
theorem polyEncode_binary {t : Scalar} {c : Codec} (hc : Codec.new t = some c) {v : Scalar} (hv : c.encode 1 = some v) {m : Poly n}
    (hm : ∀ k, m k = 0 ∨ m k = 1) : c.polyEncode m = some (m * Poly.const n v) := by
  have h0 := encode_zero hc
  have h2 := two_le_modulus hc
  obtain ⟨enc, he⟩ := polyEncode_total hc (p := m) (fun k => by
    rcases hm k with h | h <;> rw [h]
    · show 0 < t.toNat; omega
    · show 1 < t.toNat; omega)
  rw [he]
  congr 1
  refine Poly.ext (funext fun k => ?_)
  have := polyEncode_some he k
  rw [mul_comm m, Poly.const_mul_apply]
  rcases hm k with h | h <;> rw [h] at this ⊢
  · rw [h0] at this; rw [← Option.some.inj this, mul_zero]
  · rw [hv] at this; rw [← Option.some.inj this, mul_one]

theorem encode_one_some {t : Scalar} {c : Codec} (hc : Codec.new t = some c) : ∃ v, c.encode 1 = some v := by
  have h2 := two_le_modulus hc
  rw [← Option.isSome_iff_exists, Option.isSome_iff_ne_none, ne_eq, (C02_encode hc 1).1]
  show ¬ (t.toNat ≤ 1)
  omega

theorem genBinary_values (g : Gen n) (k : Fin n) : (genBinaryPt g).1 k = 0 ∨ (genBinaryPt g).1 k = 1 := by
  show (g.plains g.pos) k % 2 = 0 ∨ (g.plains g.pos) k % 2 = 1
  have : ((g.plains g.pos) k % 2).toNat < 2 := by
    rw [BitVec.toNat_umod]
    exact Nat.mod_lt _ (by decide)
  generalize (g.plains g.pos) k % 2 = x at this
  rcases (by omega : x.toNat = 0 ∨ x.toNat = 1) with h | h
  · exact Or.inl (BitVec.eq_of_toNat_eq h)
  · exact Or.inr (BitVec.eq_of_toNat_eq h)

theorem genUnitPt_some (hn : 0 < n) : genUnitPt n = some (Poly.set 0 0 1) := if_pos hn

theorem half_modulus {t : Scalar} {c : Codec} (hc : Codec.new t = some c) : 2 ^ 64 / t.toNat ≤ 2 ^ 63 := by
  have h2 := two_le_modulus hc
  rw [Nat.div_le_iff_le_mul_add_pred (by omega)]
  omega

theorem enc_zero_zero (s : Poly n) : Enc s (0 : RLWE n) 0 0 := by
  unfold Enc
  rw [decryptRlwe_zero, sub_zero]
  exact Small.zero 0

theorem l1_binary {m : Poly n} (hm : ∀ k, m k = 0 ∨ m k = 1) : l1 m ≤ n := by
  have := l1_le (p := m) (A := 1) (fun k => by rcases hm k with h | h <;> rw [h] <;> decide)
  rwa [mul_one] at this

theorem extNoise_mono_K (n bl lv E phi : Nat) {K K' : Nat} (h : K ≤ K') : extNoise n bl lv E phi K ≤ extNoise n bl lv E phi K' := extNoise_mono h

/-- C83: `test_encrypt_rgsw` passes. -/
theorem C83_encrypt_rgsw {t : Scalar} {ctx : Ctx} (hc : Codec.new t = some ctx.codec) (h1 : 1 ≤ ctx.baseLog) (h2 : 1 ≤ ctx.levelCount)
    (h3 : ctx.baseLog * ctx.levelCount < 64) (hn : 0 < n) {fft : Fft n} {phi : Nat} (hf : fft.Bounded phi) (sg : SecretGen) {g : Gen n} {B : Nat}
    (hg : g.Bounded B) (hB : 2 * (n * B + extNoise n ctx.baseLog ctx.levelCount B phi n) < 2 ^ 64 / t.toNat) :
    testEncryptRgsw ctx fft sg g = some () := by
  have hs := benchSk_binary (n := n) sg
  unfold testEncryptRgsw
  generalize (genRlweSk n sg).1 = s at *
  have hm := genBinary_values g
  have hhalf := half_modulus hc
  obtain ⟨v, hv⟩ := encode_one_some hc
  have hencm := polyEncode_binary hc hv hm
  have henc1 := polyEncode_set (n := n) hc hv 0
  have hBB : B ≤ n * B := Nat.le_mul_of_pos_left B hn
  have hG : EncG s (encryptRgsw ctx s ctx.baseLog ctx.levelCount (genBinaryPt g).1 (genBinaryPt g).2).1 (genBinaryPt g).1 B :=
    encryptRgsw_enc ctx.levelCount (genBinary_bounded hg)
  have hgb : (encryptRgsw ctx s ctx.baseLog ctx.levelCount (genBinaryPt g).1 (genBinaryPt g).2).2.Bounded B :=
    encryptRgsw_gen ctx.baseLog ctx.levelCount (genBinary_bounded hg)
  have hl : (encryptRgsw ctx s ctx.baseLog ctx.levelCount (genBinaryPt g).1 (genBinaryPt g).2).1.levelCount = ctx.levelCount :=
    encryptRgsw_levelCount ctx s _ ctx.baseLog ctx.levelCount _
  have hbl : (encryptRgsw ctx s ctx.baseLog ctx.levelCount (genBinaryPt g).1 (genBinaryPt g).2).1.baseLog = ctx.baseLog := rfl
  simp only [genUnitPt_some hn, Option.bind_eq_bind, Option.bind_some]
  generalize encryptRgsw ctx s ctx.baseLog ctx.levelCount (genBinaryPt g).1 (genBinaryPt g).2 = R at *
  generalize (genBinaryPt g).1 = m at *
  have hwf : R.1.WF := ⟨by rw [hbl]; exact h1, by rw [hl]; exact h2, by rw [hbl, hl]; exact h3⟩
  have hfr : Enc s (encryptRlwe s (Poly.set 0 0 v) R.2).1 (Poly.set 0 0 v) B := encryptRlwe_enc hgb
  have hx := C19_messages hf hs hwf hG (enc_zero_zero s) hfr
  rw [zero_add, zero_add, hl, hbl, Poly.set_zero_const] at hx
  have hl1 := l1_binary hm
  have hx := hx.mono (Nat.add_le_add (Nat.mul_le_mul_right B hl1) (extNoise_mono_K n ctx.baseLog ctx.levelCount B phi hl1))
  rw [← Poly.set_zero_const] at hx
  obtain ⟨x1, n1⟩ := noiseEncodedMax_some henc1 hfr (by omega)
  obtain ⟨r0, r1, q1, q2, q3, q4⟩ := row_zero hG (by rw [hl]; exact h2)
  obtain ⟨r2, q5, q6⟩ := row_last hG (by rw [hl]; exact h2)
  rw [hl] at q6
  rw [hbl] at q3 q4 q6
  have hpr : printRgswRows ctx s m R.1 = some () := by
    have q3' : Enc s (⟨r0.mask - m.mulConst (gadget ctx.baseLog 1), r0.body⟩ : RLWE n) (genZeroPt n) B := by
      unfold Enc decryptRlwe genZeroPt at *
      have e : r0.body - (r0.mask - m.mulConst (gadget ctx.baseLog 1)) * s - 0 =
        r0.body - r0.mask * s - Poly.const n (gadget ctx.baseLog 1) * -(s * m) := by rw [Poly.mulConst_eq]; ring
      exact e ▸ q3
    rw [← Poly.mulConst_eq] at q4 q6
    obtain ⟨y1, p1⟩ := noiseMax_some q3' (by omega)
    obtain ⟨y2, p2⟩ := noiseMax_some q4 (by omega)
    obtain ⟨y3, p3⟩ := noiseMax_some q6 (by omega)
    unfold printRgswRows
    simp only [q1, q2, q5, p1, p2, p3, Option.bind_eq_bind, Option.bind_some, Option.pure_def]
  have hd := decryptDecode_of_enc hc hencm hx hB
  obtain ⟨x2, n2⟩ := noiseEncodedMax_some hencm hx (by omega)
  simp only [encodeEncrypt_eq henc1, n1, hpr, hd, n2, Option.bind_some, assertT, if_true, Option.pure_def]

/-- C83: `test_external_product` passes. -/
theorem C83_external_product {t : Scalar} {ctx : Ctx} (hc : Codec.new t = some ctx.codec) (h1 : 1 ≤ ctx.baseLog) (h2 : 1 ≤ ctx.levelCount)
    (h3 : ctx.baseLog * ctx.levelCount < 64) {fft : Fft n} {phi : Nat} (hf : fft.Bounded phi) (sg : SecretGen) {g : Gen n} {B : Nat}
    (hg : g.Bounded B) (hB : 2 * (B + extNoise n ctx.baseLog ctx.levelCount B phi 1) < 2 ^ 64 / t.toNat) :
    testExternalProduct ctx fft sg g = some () := by
  have hs := benchSk_binary (n := n) sg
  have hhalf := half_modulus hc
  obtain ⟨enc, he⟩ := polyEncode_total hc (genBinaryPt_encodable hc g)
  have hzero : ctx.codec.polyEncode (0 : Poly n) = some 0 := by
    obtain ⟨v, hv⟩ := encode_one_some hc
    have := polyEncode_binary (n := n) hc hv (m := 0) (fun _ => Or.inl rfl)
    rwa [zero_mul] at this
  unfold testExternalProduct
  dsimp only
  generalize (genRlweSk n sg).1 = s at *
  have a0 := encryptConstantRgsw_enc (s := s) ctx.baseLog ctx.levelCount 0 (genBinary_bounded hg)
  have l0 := encryptConstantRgsw_levelCount s ctx.baseLog ctx.levelCount 0 (genBinaryPt g).2
  have b0 : (encryptConstantRgsw s ctx.baseLog ctx.levelCount 0 (genBinaryPt g).2).1.baseLog = ctx.baseLog := rfl
  generalize encryptConstantRgsw s ctx.baseLog ctx.levelCount 0 (genBinaryPt g).2 = R0 at *
  have a1 := encryptConstantRgsw_enc (s := s) ctx.baseLog ctx.levelCount 1 a0.2
  have l1' := encryptConstantRgsw_levelCount s ctx.baseLog ctx.levelCount 1 R0.2
  have b1 : (encryptConstantRgsw s ctx.baseLog ctx.levelCount 1 R0.2).1.baseLog = ctx.baseLog := rfl
  generalize encryptConstantRgsw s ctx.baseLog ctx.levelCount 1 R0.2 = R1 at *
  have hfr : Enc s (encryptRlwe s enc R1.2).1 enc B := encryptRlwe_enc a1.2
  have w0 : R0.1.WF := ⟨by rw [b0]; exact h1, by rw [l0]; exact h2, by rw [b0, l0]; exact h3⟩
  have w1 : R1.1.WF := ⟨by rw [b1]; exact h1, by rw [l1']; exact h2, by rw [b1, l1']; exact h3⟩
  have e0 := a0.1
  have e1 := a1.1
  rw [Poly.const_zero] at e0
  rw [Poly.const_one] at e1
  have x0 := C19_messages hf hs w0 e0 (enc_zero_zero s) hfr
  have x1 := C19_messages hf hs w1 e1 (enc_zero_zero s) hfr
  rw [zero_add, zero_add, l0, b0, zero_mul, l1_zero_eq, zero_mul, zero_add] at x0
  rw [zero_add, zero_add, l1', b1, one_mul] at x1
  have x0 := x0.mono (show _ ≤ B + extNoise n ctx.baseLog ctx.levelCount B phi 1 from
    le_trans (extNoise_mono_K n _ _ B phi (Nat.zero_le 1)) (Nat.le_add_left _ _))
  have x1 := x1.mono (show _ ≤ B + extNoise n ctx.baseLog ctx.levelCount B phi 1 from
    Nat.add_le_add (le_trans (Nat.mul_le_mul_right B l1_one) (by rw [one_mul])) (extNoise_mono_K n _ _ B phi l1_one))
  obtain ⟨y1, n1⟩ := noiseEncodedMax_some he hfr (by omega)
  obtain ⟨y2, n2⟩ := noiseEncodedMax_some he x1 (by omega)
  have d0 := decryptDecode_of_enc hc hzero x0 hB
  have d1 := decryptDecode_of_enc hc he x1 hB
  simp only [encodeEncrypt_eq he, n1, n2, d0, d1, Option.bind_eq_bind, Option.bind_some, assertT, if_true, Option.pure_def]

theorem testCmuxBlock_spec {ctx : Ctx} (h1 : 1 ≤ ctx.baseLog) (h2 : 1 ≤ ctx.levelCount) (h3 : ctx.baseLog * ctx.levelCount < 64)
    {fft : Fft n} {phi : Nat} (hf : fft.Bounded phi) {s : Poly n} (hs : Binary s) {g : Gen n} {B : Nat} (hg : g.Bounded B)
    (hB : B + extNoise n ctx.baseLog ctx.levelCount B phi 1 < 0x2AAAAAAAAAAAA800) (b : Bool) {c0 c1 : RLWE n} {m0 m1 e0 e1 : Poly n}
    (p0 : polyTernaryEncode m0 = some e0) (p1 : polyTernaryEncode m1 = some e1) (q0 : Enc s c0 e0 B) (q1 : Enc s c1 e1 B) :
    ∃ g', testCmuxBlock ctx fft s (if b then 1 else 0) c0 c1 (if b then m1 else m0) g = some g' ∧ g'.Bounded B := by
  unfold testCmuxBlock
  have a0 := encryptConstantRgsw_enc (s := s) ctx.baseLog ctx.levelCount (if b then 1 else 0) hg
  have l0 := encryptConstantRgsw_levelCount s ctx.baseLog ctx.levelCount (if b then 1 else 0) g
  have b0 : (encryptConstantRgsw s ctx.baseLog ctx.levelCount (if b then 1 else 0) g).1.baseLog = ctx.baseLog := rfl
  generalize encryptConstantRgsw s ctx.baseLog ctx.levelCount (if b then 1 else 0) g = R at *
  have w0 : R.1.WF := ⟨by rw [b0]; exact h1, by rw [l0]; exact h2, by rw [b0, l0]; exact h3⟩
  have e : EncG s R.1 (if b then 1 else 0) B := by
    have hcst : Poly.const n (if b then 1 else 0) = if b then 1 else 0 := by
      cases b
      · exact Poly.const_zero
      · exact Poly.const_one
    exact hcst ▸ a0.1
  have := C20_messages hf hs w0 e 0 q0 q1
  rw [l0, b0] at this
  have d : ternaryDecryptRlwe s (cmux fft R.1 0 c0 c1) = if b then m1 else m0 := by
    cases b
    · exact ternary_of_enc p0 this hB
    · exact ternary_of_enc p1 this hB
  refine ⟨R.2, ?_, a0.2⟩
  simp only [d, assertT, if_true, Option.bind_eq_bind, Option.bind_some, Option.pure_def]

/-- C83: `test_cmux` passes. -/
theorem C83_cmux {ctx : Ctx} (h1 : 1 ≤ ctx.baseLog) (h2 : 1 ≤ ctx.levelCount) (h3 : ctx.baseLog * ctx.levelCount < 64) {fft : Fft n} {phi : Nat}
    (hf : fft.Bounded phi) (sg : SecretGen) {g : Gen n} {B : Nat} (hg : g.Bounded B)
    (hB : B + extNoise n ctx.baseLog ctx.levelCount B phi 1 < 0x2AAAAAAAAAAAA800) : testCmux ctx fft sg g = some () := by
  have hs := benchSk_binary (n := n) sg
  obtain ⟨e0, p0⟩ := ternary_encodable (genTernary_values g)
  obtain ⟨e1, p1⟩ := ternary_encodable (genTernary_values (genTernaryPtxt g).2)
  unfold testCmux
  generalize (genRlweSk n sg).1 = s at *
  simp only [ternaryEncrypt_eq p0, ternaryEncrypt_eq p1, Option.bind_eq_bind, Option.bind_some]
  have q0 : Enc s (encryptRlwe s e0 (genTernaryPtxt (genTernaryPtxt g).2).2).1 e0 B := encryptRlwe_enc hg
  have q1 : Enc s (encryptRlwe s e1 (encryptRlwe s e0 (genTernaryPtxt (genTernaryPtxt g).2).2).2).1 e1 B := encryptRlwe_enc hg
  have hg2 : (encryptRlwe s e1 (encryptRlwe s e0 (genTernaryPtxt (genTernaryPtxt g).2).2).2).2.Bounded B := hg
  obtain ⟨g1, r1, r2⟩ := testCmuxBlock_spec h1 h2 h3 hf hs hg2 hB false p0 p1 q0 q1
  obtain ⟨g2, r3, _⟩ := testCmuxBlock_spec h1 h2 h3 hf hs r2 hB true p0 p1 q0 q1
  simp only [Bool.false_eq_true, if_true, if_false] at r1 r3
  simp only [r1, r3, Option.bind_some, Option.pure_def]

/-- C83: `test_negs` passes. -/
theorem C83_negs {ctx : Ctx} (h0 : ctx.negsBaseLog = ctx.baseLog) (h1 : 1 ≤ ctx.negsBaseLog) (h2 : 1 ≤ ctx.negsLevelCount)
    (h3 : ctx.negsBaseLog * ctx.negsLevelCount < 64) (hn : 0 < n) {fft : Fft n} {phi : Nat} (hf : fft.Bounded phi) (sg : SecretGen) {g gNoisy : Gen n}
    {B B' : Nat} (hg : g.Bounded B) (hg' : gNoisy.Bounded B') (hBs : B < 2 ^ 63)
    (hB : n * B' + extNoise n ctx.negsBaseLog ctx.negsLevelCount B phi n + 1024 < 0x2AAAAAAAAAAAA800) :
    testNegs ctx fft sg g gNoisy = some () := by
  have hs := benchSk_binary (n := n) sg
  unfold testNegs
  generalize (genRlweSk n sg).1 = s at *
  obtain ⟨⟨N, g1⟩, a1, a2, a3, a4, _⟩ := C21_neg_gsw h0 hs hg
  have hneg : (⟨fun k => s k * scalarMAX⟩ : Poly n) = -s := by
    refine Poly.ext (funext fun k => ?_)
    show s k * scalarMAX = -(s k)
    rw [scalarMAX_eq, mul_neg_one]
  have hwf : N.WF := ⟨by rw [a3]; exact h1, by rw [a4]; exact h2, by rw [a3, a4]; exact h3⟩
  obtain ⟨_, r1, _, q2, _, q4⟩ := row_zero a2 (by rw [a4]; exact h2)
  obtain ⟨r2, q5, q6⟩ := row_last a2 (by rw [a4]; exact h2)
  simp only at a3 a4 a2 q2 q5
  rw [show N.baseLog = ctx.negsBaseLog from a3] at q4 q6
  rw [show N.levelCount = ctx.negsLevelCount from a4] at q6
  rw [← Poly.mulConst_eq] at q4 q6
  obtain ⟨y1, n1⟩ := noiseMax_some q4 hBs
  obtain ⟨y2, n2⟩ := noiseMax_some q6 hBs
  have hone : polyTernaryEncode (Poly.set (0 : Poly n) 0 1) = some (Poly.set 0 0 encTHIRD) := by
    obtain ⟨enc, he⟩ := ternary_encodable (m := Poly.set (0 : Poly n) 0 1) (fun k => by
      show (if k.val = 0 then (1 : Scalar) else 0) = 0 ∨ (if k.val = 0 then (1 : Scalar) else 0) = 1 ∨ _
      split
      · exact Or.inr (Or.inl rfl)
      · exact Or.inl rfl)
    rw [he]
    congr 1
    refine Poly.ext (funext fun k => ?_)
    have := polyTernaryEncode_some he k
    rw [Poly.set_apply] at this ⊢
    split at this
    · next hk => rw [if_pos hk]; exact (Option.some.inj this).symm
    · next hk => rw [if_neg hk]; exact (Option.some.inj this).symm
  have hfr : Enc s (encryptRlwe s (Poly.set 0 0 encTHIRD) gNoisy).1 (Poly.set 0 0 encTHIRD) B' := encryptRlwe_enc hg'
  have hBB : B' ≤ n * B' := Nat.le_mul_of_pos_left B' hn
  obtain ⟨y3, n3⟩ := noiseTernaryMax_some hone hfr (by omega)
  have hx := C19_messages hf hs hwf a2 (enc_zero_zero s) hfr
  rw [zero_add, zero_add, show N.baseLog = ctx.negsBaseLog from a3, show N.levelCount = ctx.negsLevelCount from a4] at hx
  have hl1 : l1 (-s) ≤ n := by rw [l1_neg]; exact l1_binary hs
  have hx := hx.mono (Nat.add_le_add (Nat.mul_le_mul_right B' hl1) (extNoise_mono_K n ctx.negsBaseLog ctx.negsLevelCount B phi hl1))
  have hnt : ∀ k, (-s) k = 0 ∨ (-s) k = 1 ∨ (-s) k = -1 := fun k => by
    rw [Poly.neg_apply]
    rcases hs k with h | h <;> rw [h]
    · exact Or.inl rfl
    · exact Or.inr (Or.inr rfl)
  obtain ⟨enc, he⟩ := ternary_encodable hnt
  have hsm : Small (-s * Poly.set 0 0 encTHIRD - enc) 1024 := fun k => by
    rw [Poly.sub_apply, Poly.set_zero_const, mul_comm (-s), Poly.const_mul_apply]
    have hk := polyTernaryEncode_some he k
    rw [Poly.neg_apply] at hk ⊢
    rcases hs k with h | h <;> rw [h] at hk ⊢
    · rw [← Option.some.inj hk]; decide +kernel
    · rw [show ternaryEncode (-1 : Scalar) = some (2 * encTHIRD) by decide +kernel] at hk
      rw [← Option.some.inj hk]; decide +kernel
  have hE := hx.shift hsm
  have d1 := ternary_of_enc he hE hB
  obtain ⟨y4, n4⟩ := noiseTernaryMax_some he hE hB
  simp only [hneg, a1, genUnitPt_some hn, q2, q5, n1, n2, ternaryEncrypt_eq hone, n3, d1, n4, Option.bind_eq_bind, Option.bind_some, assertT, if_true,
    Option.pure_def]
  rw [if_pos (show ∀ k, s k = 0 ∨ s k = 1 from hs)]
  rfl

/-! ## Comparisons -/

theorem set_eq_mul_X {m : Nat} (hm : m < n) (v : Scalar) : Poly.set (0 : Poly n) m v = Poly.const n v * Spec.X n ^ m := by
  rw [Spec.X, Poly.mono_pow, one_mul]
  refine Poly.ext (funext fun j => ?_)
  rw [Poly.const_mul_apply, Poly.set_apply, Poly.zero_apply]
  show _ = v * (if m % n = j.val then (-1) ^ (m / n) else 0)
  rw [Nat.mod_eq_of_lt hm, Nat.div_eq_of_lt hm, pow_zero]
  by_cases h : j.val = m
  · rw [if_pos h, if_pos h.symm, mul_one]
  · rw [if_neg h, if_neg (Ne.symm h), mul_zero]

theorem halfPt_some (hn : 0 < n) : halfPt n = some (Poly.set 0 (n / 2) 1) := if_pos (by omega)

/-- C83: `test_less_eq` passes. -/
theorem C83_less_eq {t : Scalar} {ctx : Ctx} (hc : Codec.new t = some ctx.codec) (hn : 0 < n) {fft : Fft n} {phi : Nat} (hf : fft.Bounded phi)
    (sg : SecretGen) {g : Gen n} {B : Nat} (hg : g.Bounded B) (hB : 2 * (n * B + fftNoise n phi 1) < 2 ^ 64 / t.toNat) :
    testLessEq ctx fft sg g = some () := by
  have hs := benchSk_binary (n := n) sg
  obtain ⟨v, hv⟩ := encode_one_some hc
  have hm : n / 2 < n := by omega
  have henc := polyEncode_set (n := n) hc hv (n / 2)
  unfold testLessEq
  dsimp only
  generalize (genRlweSk n sg).1 = s at *
  have step : ∀ (g : Gen n), g.Bounded B → ∀ d, d < n → ∃ c', RLWE.lessEqThan fft (encryptRlwe s (Poly.set 0 (n / 2) v) g).1 d = some c' ∧
      (decryptDecodeRlwe ctx s c').get 0 = if n / 2 ≤ d then 1 else 0 := fun g hg d hd => by
    have hE : Enc s (encryptRlwe s (Poly.set 0 (n / 2) v) g).1 (Poly.set 0 (n / 2) v) B := encryptRlwe_enc hg
    rw [set_eq_mul_X hm] at hE ⊢
    refine C23_decides hc hv hf hs hm hd hE (lt_of_le_of_lt ?_ hB)
    exact Nat.mul_le_mul_left 2 (Nat.add_le_add_right (Nat.mul_le_mul_right B (by omega)) _)
  simp only [halfPt_some hn, encodeEncrypt_eq henc, Option.bind_eq_bind, Option.bind_some]
  obtain ⟨g1, r1, r2⟩ := forT_inv (P := fun g : Gen n => g.Bounded B) (f := fun i g =>
    (RLWE.lessEqThan fft (encryptRlwe s (Poly.set 0 (n / 2) v) g).1 (n / 2 + i)).bind fun c =>
      (assertT ((decryptDecodeRlwe ctx s c).get 0 = 1)).bind fun _ => pure (encryptRlwe s (Poly.set 0 (n / 2) v) g).2)
    (List.range' 1 (n - n / 2 - 1)) (fun i hi g hg => by
      rw [List.mem_range'_1] at hi
      obtain ⟨c, e1, e2⟩ := step g hg (n / 2 + i) (by omega)
      rw [if_pos (by omega)] at e2
      refine ⟨_, ?_, encryptRlwe_bounded (s := s) (m := Poly.set 0 (n / 2) v) hg⟩
      rw [e1, Option.bind_some, assertT_pos e2]
      rfl) g hg
  obtain ⟨g2, r3, _⟩ := forT_inv (P := fun g : Gen n => g.Bounded B) (f := fun i g =>
    (RLWE.lessEqThan fft (encryptRlwe s (Poly.set 0 (n / 2) v) g).1 (n / 2 - i)).bind fun c =>
      (assertT ((decryptDecodeRlwe ctx s c).get 0 = 0)).bind fun _ => pure (encryptRlwe s (Poly.set 0 (n / 2) v) g).2)
    (List.range' 1 (n - n / 2 - 1)) (fun i hi g hg => by
      rw [List.mem_range'_1] at hi
      obtain ⟨c, e1, e2⟩ := step g hg (n / 2 - i) (by omega)
      rw [if_neg (by omega)] at e2
      refine ⟨_, ?_, encryptRlwe_bounded (s := s) (m := Poly.set 0 (n / 2) v) hg⟩
      rw [e1, Option.bind_some, assertT_pos e2]
      rfl) g1 r2
  rw [r1, Option.bind_some, r3]
  rfl

/-- C83: `test_eq_to` passes. -/
theorem C83_eq_to {t : Scalar} {ctx : Ctx} (hc : Codec.new t = some ctx.codec) (hn : 0 < n) {fft : Fft n} {phi : Nat} (hf : fft.Bounded phi)
    (sg : SecretGen) {g : Gen n} {B : Nat} (hg : g.Bounded B) (hB : 2 * (B + fftNoise n phi 1) < 2 ^ 64 / t.toNat) :
    testEqTo ctx fft sg g = some () := by
  have hs := benchSk_binary (n := n) sg
  obtain ⟨v, hv⟩ := encode_one_some hc
  have hm : n / 2 < n := by omega
  have henc := polyEncode_set (n := n) hc hv (n / 2)
  unfold testEqTo
  dsimp only
  generalize (genRlweSk n sg).1 = s at *
  simp only [halfPt_some hn, encodeEncrypt_eq henc, Option.bind_eq_bind, Option.bind_some]
  obtain ⟨g1, r1, r2⟩ := forT_inv (P := fun g : Gen n => g.Bounded B) (f := fun i g =>
    (RLWE.eqTo fft (encryptRlwe s (Poly.set 0 (n / 2) v) g).1 i).bind fun c =>
      (if i = n / 2 then assertT ((decryptDecodeRlwe ctx s c).get 0 = 1) else assertT ((decryptDecodeRlwe ctx s c).get 0 = 0)).bind fun _ =>
        pure (encryptRlwe s (Poly.set 0 (n / 2) v) g).2)
    (List.range n) (fun i hi g hg => by
      rw [List.mem_range] at hi
      have hE : Enc s (encryptRlwe s (Poly.set 0 (n / 2) v) g).1 (Poly.const n v * Spec.X n ^ (n / 2)) B := by
        rw [← set_eq_mul_X hm]; exact encryptRlwe_enc hg
      obtain ⟨c, e1, e2⟩ := C24_decides hc hv hf hs hm hi hE hB
      refine ⟨_, ?_, encryptRlwe_bounded (s := s) (m := Poly.set 0 (n / 2) v) hg⟩
      rw [e1, Option.bind_some]
      by_cases h : i = n / 2
      · rw [if_pos h.symm] at e2
        rw [if_pos h, assertT_pos e2]; rfl
      · rw [if_neg (Ne.symm h)] at e2
        rw [if_neg h, assertT_pos e2]; rfl) g hg
  refine Eq.trans (congrArg (Option.bind · _) ?_) (b := (some g1).bind fun _ => some ()) rfl
  rw [← r1]
  congr 1
  funext i g
  cases RLWE.eqTo fft (encryptRlwe s (Poly.set 0 (n / 2) v) g).1 i with
  | none => rfl
  | some c => by_cases h : i = n / 2 <;> simp only [h, if_true, if_false, Option.bind_some]

/-! ## Negation -/

theorem test_not_facts (ctx : Ctx) (hn : 0 < n) {s : Poly n} {g : Gen n} {B : Nat} (hg : g.Bounded B) (hB : B < 2 ^ 62) :
    ∃ codec, Codec.new 2 = some codec ∧ ∃ ct, encodeEncryptRlwe { ctx with codec := codec } s (Poly.set 0 0 1) g = some ct ∧
      genZeroPt n = decryptDecodeRlwe { ctx with codec := codec } s ct.1.not ∧
      Poly.set 0 0 1 = decryptDecodeRlwe { ctx with codec := codec } s ct.1.not.not ∧ ct.1.notInPlace = ct.1.not ∧
      ct.1.not.notInPlace = ct.1.not.not := by
  obtain ⟨codec, hc⟩ : ∃ c, Codec.new 2 = some c := ⟨_, rfl⟩
  refine ⟨codec, hc, ?_⟩
  have hone : codec.encode 1 = some (2 ^ 63) := by
    have : some codec = Codec.new 2 := hc.symm
    cases this
    decide +kernel
  have hp := polyEncode_set (n := n) hc hone 0
  have hst := encodeEncrypt_eq (ctx := { ctx with codec := codec }) hp s g
  have hE : Enc s (encryptRlwe s (Poly.set 0 0 (2 ^ 63)) g).1 (Poly.const n (if true then 2 ^ 63 else 0)) B := encryptRlwe_enc hg
  have hf := C22_flips (ctx := { ctx with codec := codec }) hc hE hB
  refine ⟨_, hst, ?_, ?_, ?_, ?_⟩
  · rw [hf.2]
    exact Poly.const_zero.symm
  · rw [C22_involution, hf.1]
    rfl
  · exact (C22_same _).symm
  · exact (C22_same _).symm

/-- C83: `test_not` and `test_not_in_place` pass. -/
theorem C83_not (ctx : Ctx) (hn : 0 < n) (sg : SecretGen) {g : Gen n} {B : Nat} (hg : g.Bounded B) (hB : B < 2 ^ 62) :
    testNot ctx sg g = some () ∧ testNotInPlace ctx sg g = some () := by
  obtain ⟨codec, hc, ct, e1, e2, e3, e4, e5⟩ := test_not_facts ctx hn (s := (genRlweSk n sg).1) hg hB
  constructor
  · unfold testNot
    simp only [hc, genUnitPt_some hn, e1, Option.bind_eq_bind, Option.bind_some]
    rw [assertT_pos e2, Option.bind_some, assertT_pos e3]
  · unfold testNotInPlace
    simp only [hc, genUnitPt_some hn, e1, e4, e5, Option.bind_eq_bind, Option.bind_some]
    rw [assertT_pos e2, Option.bind_some, assertT_pos e3]

/-! ## lwe.rs -/

theorem encodeEncryptLwe_eq {ctx : Ctx} {m w : Scalar} (h : ctx.codec.encode m = some w) (s : Poly n) (g : Gen n) :
    encodeEncryptLwe ctx s m g = some (encryptLwe s w g) := by
  unfold encodeEncryptLwe
  rw [h]

theorem lwe_noise {g : Gen n} {B : Nat} (hg : g.Bounded B) (i : Nat) : nrm ((g.noises i).get 0) ≤ B := by
  unfold Poly.get
  split
  · exact hg i _
  · exact Nat.zero_le _

theorem scalarBinary_encodes {t : Scalar} {c : Codec} (hc : Codec.new t = some c) (g : Gen n) :
    ∃ w, c.encode (genScalarBinaryPt g).1 = some w := by
  have h2 := two_le_modulus hc
  rw [← Option.isSome_iff_exists, Option.isSome_iff_ne_none, ne_eq, (C02_encode hc _).1]
  have : (genScalarBinaryPt g).1.toNat < 2 := by
    show ((g.plains g.pos).get 0 % 2).toNat < 2
    rw [BitVec.toNat_umod]
    exact Nat.mod_lt _ (by decide)
  omega

theorem lwe_decodes {t : Scalar} {ctx : Ctx} (hc : Codec.new t = some ctx.codec) {m w : Scalar} (h : ctx.codec.encode m = some w) (s : Poly n) {g : Gen n}
    {B : Nat} (hg : g.Bounded B) (hB : 2 * B < 2 ^ 64 / t.toNat) : m = decodeDecryptLwe ctx s (encryptLwe s w g).1 := by
  refine (decode_of_small hc h (e := B) ?_ hB).symm
  rw [C17_decrypt_encrypt]
  exact lwe_noise hg _

/-- C83: `test_lwe` and `test_lwe_fill` pass. -/
theorem C83_lwe {t : Scalar} {ctx : Ctx} (hc : Codec.new t = some ctx.codec) (sg : SecretGen) {g : Gen n} {B : Nat} (hg : g.Bounded B)
    (hB : 2 * B < 2 ^ 64 / t.toNat) : testLwe ctx sg g = some () ∧ testLweFill ctx sg g = some () := by
  constructor
  · unfold testLwe
    obtain ⟨g1, r1, _⟩ := forT_inv (P := fun g : Gen n => g.Bounded B) (f := fun _ g =>
      (encodeEncryptLwe ctx (genLweSk n sg).1 (genScalarBinaryPt g).1 (genScalarBinaryPt g).2).bind fun ct =>
        (assertT ((genScalarBinaryPt g).1 = decodeDecryptLwe ctx (genLweSk n sg).1 ct.1)).bind fun _ => pure ct.2)
      (List.range 10) (fun i _ g hg => by
        obtain ⟨w, hw⟩ := scalarBinary_encodes hc g
        have hg' : (genScalarBinaryPt g).2.Bounded B := hg
        refine ⟨(encryptLwe (genLweSk n sg).1 w (genScalarBinaryPt g).2).2, ?_, hg⟩
        rw [encodeEncryptLwe_eq hw, Option.bind_some, assertT_pos (lwe_decodes hc hw _ hg' hB)]
        rfl) g hg
    simp only [Option.bind_eq_bind]
    rw [r1]
    rfl
  · obtain ⟨w, hw⟩ := scalarBinary_encodes hc g
    have hg' : (genScalarBinaryPt g).2.Bounded B := hg
    unfold testLweFill
    simp only [encodeEncryptLwe_eq hw, Option.bind_eq_bind, Option.bind_some]
    exact assertT_pos (lwe_decodes hc hw _ hg' hB)

theorem lweSk_binary (sg : SecretGen) : Binary (genLweSk n sg).1 := (C62_keys n sg).2.1

theorem Poly.const_zero_apply (hn : 0 < n) (x : Scalar) : Poly.const n x ⟨0, hn⟩ = x := by
  show (if (0 : Nat) = 0 then x else 0) = x
  rw [if_pos rfl]

/-- C83: `test_lwe_to_rlwe` passes. -/
theorem C83_lwe_to_rlwe {t : Scalar} {ctx : Ctx} (hc : Codec.new t = some ctx.codec) (h1 : 1 ≤ ctx.ksBaseLog) (h2 : 1 ≤ ctx.ksLevelCount)
    (h3 : ctx.ksBaseLog * ctx.ksLevelCount < 64) (hn : 0 < n) (sg : SecretGen) {g : Gen n} {B : Nat} (hg : g.Bounded B)
    (hB : 2 * (B + convNoise n ctx.ksBaseLog ctx.ksLevelCount B) < 2 ^ 64 / t.toNat) : testLweToRlwe ctx sg g = some () := by
  have hs := lweSk_binary (n := n) sg
  obtain ⟨w, hw⟩ := scalarBinary_encodes hc g
  unfold testLweToRlwe
  dsimp only
  generalize (genLweSk n sg).1 = s at *
  have hg' : (encryptLwe s w (genScalarBinaryPt g).2).2.Bounded B := hg
  have hg2 : (genScalarBinaryPt g).2.Bounded B := hg
  have hE := C31_conv hs h1 h2 h3 hg' (encryptLwe s w (genScalarBinaryPt g).2).1
  simp only [encodeEncryptLwe_eq hw, Option.bind_eq_bind, Option.bind_some]
  refine assertT_pos ⟨hn, ?_⟩
  have hk := hE ⟨0, hn⟩
  rw [Poly.get, dif_pos hn]
  refine decode_of_small hc hw (e := B + convNoise n ctx.ksBaseLog ctx.ksLevelCount B) ?_ hB
  have e : decryptRlwe (toRlweSk s) (convLweToRlwe ctx (lweToRlweKeyswitchKey ctx s (encryptLwe s w (genScalarBinaryPt g).2).2).1
      (encryptLwe s w (genScalarBinaryPt g).2).1) ⟨0, hn⟩ - w =
    (decryptLwe s (encryptLwe s w (genScalarBinaryPt g).2).1 - w) +
      (decryptRlwe s (convLweToRlwe ctx (lweToRlweKeyswitchKey ctx s (encryptLwe s w (genScalarBinaryPt g).2).2).1
      (encryptLwe s w (genScalarBinaryPt g).2).1) - Poly.const n (decryptLwe s (encryptLwe s w (genScalarBinaryPt g).2).1)) ⟨0, hn⟩ := by
    have hc0 : ∀ x, Poly.const n x ⟨0, hn⟩ = x := fun x => Poly.const_zero_apply hn x
    rw [Poly.sub_apply, hc0]
    unfold toRlweSk
    ring
  rw [e]
  refine le_trans (nrm_add _ _) (Nat.add_le_add ?_ hk)
  rw [C17_decrypt_encrypt]
  exact lwe_noise hg2 _

/-- C83: `test_sample_extract` passes. -/
theorem C83_sample_extract {t : Scalar} {ctx : Ctx} (hc : Codec.new t = some ctx.codec) (hn : 0 < n) (sg : SecretGen) {g : Gen n} {B : Nat}
    (hg : g.Bounded B) (hB : 2 * B < 2 ^ 64 / t.toNat) : testSampleExtract ctx sg g = some () := by
  obtain ⟨enc, he⟩ := polyEncode_total hc (genBinaryPt_encodable hc g)
  unfold testSampleExtract
  dsimp only
  generalize (genLweSk n sg).1 = s at *
  simp only [encodeEncrypt_eq he, Option.bind_eq_bind, Option.bind_some]
  refine assertT_pos ⟨hn, ?_⟩
  have hE : Enc (toRlweSk s) (encryptRlwe (toRlweSk s) enc (genBinaryPt g).2).1 enc B := encryptRlwe_enc (genBinary_bounded hg)
  rw [Poly.get, dif_pos hn]
  refine (decode_of_small hc (polyEncode_some he ⟨0, hn⟩) (e := B) ?_ hB).symm
  rw [C30_const_extract hn]
  exact hE ⟨0, hn⟩

/-! ## Demultiplexer -/

theorem polyEncode_zero {t : Scalar} {c : Codec} (hc : Codec.new t = some c) : c.polyEncode (genZeroPt n) = some 0 := by
  obtain ⟨v, hv⟩ := encode_one_some hc
  have := polyEncode_binary (n := n) hc hv (m := 0) (fun _ => Or.inl rfl)
  rwa [zero_mul] at this

theorem demuxBlock_asserts {t : Scalar} {ctx : Ctx} (hc : Codec.new t = some ctx.codec) (hn : 0 < n) {s : Poly n} {v : Scalar}
    (hv : ctx.codec.encode 1 = some v) {E : Nat} (hE2 : 2 * E < 2 ^ 64 / t.toNat) {fft : Fft n} {bits : List (RGSW n)} {cts : List (RLWE n)} {b : Bool}
    {g' : Gen n} (hd : demux fft ctx bits = some cts) (hlen : cts.length = 2 ^ 2)
    (o3 : ∀ (j : Nat) c, cts[j]? = some c → Enc s c (if j = (if b then 0 else 3) then Poly.const n v else 0) E) :
    ((demux fft ctx bits).bind fun cts => (assertT (cts.length = 4)).bind fun _ => (cts[0]?).bind fun c0 => (cts[1]?).bind fun c1 =>
      (cts[2]?).bind fun c2 => (cts[3]?).bind fun c3 => (genUnitPt n).bind fun unit =>
      (assertT (decryptDecodeRlwe ctx s c0 = if 0 = (if b then 0 else 3) then unit else genZeroPt n)).bind fun _ =>
      (assertT (decryptDecodeRlwe ctx s c1 = if 1 = (if b then 0 else 3) then unit else genZeroPt n)).bind fun _ =>
      (assertT (decryptDecodeRlwe ctx s c2 = if 2 = (if b then 0 else 3) then unit else genZeroPt n)).bind fun _ =>
      (assertT (decryptDecodeRlwe ctx s c3 = if 3 = (if b then 0 else 3) then unit else genZeroPt n)).bind fun _ =>
      (computeNoiseEncodedMax ctx.codec s c1 (genZeroPt n)).bind fun _ => some g') = some g' := by
  have hhalf := half_modulus hc
  have henc1 : ctx.codec.polyEncode (Poly.set 0 0 1 : Poly n) = some (Poly.const n v) := polyEncode_set (n := n) hc hv 0
  rw [show (2 ^ 2 : Nat) = 4 by norm_num] at hlen
  have hj : ∀ (j : Nat) c, cts[j]? = some c → decryptDecodeRlwe ctx s c =
      if j = (if b then 0 else 3) then Poly.set 0 0 1 else genZeroPt n := fun j c hjc => by
    have hE := o3 j c hjc
    by_cases h : j = (if b then 0 else 3)
    · rw [if_pos h] at hE ⊢
      exact decryptDecode_of_enc hc henc1 hE hE2
    · rw [if_neg h] at hE ⊢
      exact decryptDecode_of_enc hc (polyEncode_zero hc) hE hE2
  have h0 := List.getElem?_eq_getElem (l := cts) (i := 0) (by omega)
  have h1 := List.getElem?_eq_getElem (l := cts) (i := 1) (by omega)
  have h2 := List.getElem?_eq_getElem (l := cts) (i := 2) (by omega)
  have h3 := List.getElem?_eq_getElem (l := cts) (i := 3) (by omega)
  have hno : ∃ x, computeNoiseEncodedMax ctx.codec s cts[1] (genZeroPt n) = some x := by
    have := o3 1 _ h1
    rw [if_neg (by cases b <;> simp)] at this
    exact noiseEncodedMax_some (polyEncode_zero hc) this (by omega)
  obtain ⟨x, hx⟩ := hno
  rw [hd, Option.bind_some, assertT_pos hlen, Option.bind_some, h0, Option.bind_some, h1, Option.bind_some, h2, Option.bind_some, h3,
    Option.bind_some, genUnitPt_some hn, Option.bind_some, assertT_pos (hj 0 _ h0), Option.bind_some, assertT_pos (hj 1 _ h1), Option.bind_some,
    assertT_pos (hj 2 _ h2), Option.bind_some, assertT_pos (hj 3 _ h3), Option.bind_some, hx, Option.bind_some]

theorem testDemuxBlock_spec {t : Scalar} {ctx : Ctx} (hc : Codec.new t = some ctx.codec) (h1 : 1 ≤ ctx.baseLog) (h2 : 1 ≤ ctx.levelCount)
    (h3 : ctx.baseLog * ctx.levelCount < 64) (hn : 0 < n) {fft : Fft n} {phi : Nat} (hf : fft.Bounded phi) {s : Poly n} (hs : Binary s) {g : Gen n}
    {B : Nat} (hg : g.Bounded B) (hB : 2 * (2 * extNoise n ctx.baseLog ctx.levelCount B phi 1) < 2 ^ 64 / t.toNat) (b : Bool) :
    ∃ g', testDemuxBlock ctx fft s (if b then 1 else 0) (if b then 0 else 3) g = some g' ∧ g'.Bounded B := by
  obtain ⟨one, v, hone, hv, hdec⟩ := trivialOne_enc (n := n) hc s
  have hbit : ∀ g : Gen n, g.Bounded B →
      EncBit s (encryptConstantRgsw s ctx.baseLog ctx.levelCount (if b then 1 else 0) g).1 b ctx.baseLog ctx.levelCount B := fun g hg => by
    have l0 := encryptConstantRgsw_levelCount s ctx.baseLog ctx.levelCount (if b then 1 else 0) g
    refine ⟨⟨h1, by rw [l0]; exact h2, by rw [l0]; exact h3⟩, rfl, l0, ?_⟩
    have hcst : Poly.const n (if b then 1 else 0) = if b then 1 else 0 := by
      cases b
      · exact Poly.const_zero
      · exact Poly.const_one
    exact hcst ▸ (encryptConstantRgsw_enc (s := s) ctx.baseLog ctx.levelCount (if b then 1 else 0) hg).1
  have hb0 := hbit g hg
  have hg1 := (encryptConstantRgsw_enc (s := s) ctx.baseLog ctx.levelCount (if b then 1 else 0) hg).2
  have hb1 := hbit _ hg1
  have hg2 := (encryptConstantRgsw_enc (s := s) ctx.baseLog ctx.levelCount (if b then 1 else 0) hg1).2
  have hidx : EncIndex s [(encryptConstantRgsw s ctx.baseLog ctx.levelCount (if b then 1 else 0) g).1,
      (encryptConstantRgsw s ctx.baseLog ctx.levelCount (if b then 1 else 0) (encryptConstantRgsw s ctx.baseLog ctx.levelCount (if b then 1 else 0) g).2).1]
      2 (if b then 0 else 3) ctx.baseLog ctx.levelCount B := by
    refine ⟨by cases b <;> decide, [!b, !b], rfl, by cases b <;> rfl, ?_⟩
    refine List.Forall₂.cons ?_ (List.Forall₂.cons ?_ List.Forall₂.nil)
    · rw [Bool.not_not]; exact hb0
    · rw [Bool.not_not]; exact hb1
  obtain ⟨cts, o1, o2, o3⟩ := C40_demux hf hs (by decide : 1 ≤ 2) hidx one
  rw [hdec] at o3
  refine ⟨_, ?_, hg2⟩
  have hd : demux fft ctx [(encryptConstantRgsw s ctx.baseLog ctx.levelCount (if b then 1 else 0) g).1,
      (encryptConstantRgsw s ctx.baseLog ctx.levelCount (if b then 1 else 0) (encryptConstantRgsw s ctx.baseLog ctx.levelCount (if b then 1 else 0) g).2).1]
      = some cts := by
    unfold demux
    rw [hone]
    exact o1
  have key := demuxBlock_asserts (g' := (encryptConstantRgsw s ctx.baseLog ctx.levelCount (if b then 1 else 0)
    (encryptConstantRgsw s ctx.baseLog ctx.levelCount (if b then 1 else 0) g).2).2) hc hn hv hB hd o2 o3
  unfold testDemuxBlock
  simp only [Option.bind_eq_bind, Option.pure_def]
  exact key

/-- C83: `test_demux` passes. -/
theorem C83_demux {t : Scalar} {ctx : Ctx} (hc : Codec.new t = some ctx.codec) (h1 : 1 ≤ ctx.baseLog) (h2 : 1 ≤ ctx.levelCount)
    (h3 : ctx.baseLog * ctx.levelCount < 64) (hn : 0 < n) {fft : Fft n} {phi : Nat} (hf : fft.Bounded phi) (sg : SecretGen) {g : Gen n}
    {B : Nat} (hg : g.Bounded B) (hB : 2 * (2 * extNoise n ctx.baseLog ctx.levelCount B phi 1) < 2 ^ 64 / t.toNat) :
    testDemux ctx fft sg g = some () := by
  have hs := benchSk_binary (n := n) sg
  obtain ⟨g1, r1, r2⟩ := testDemuxBlock_spec hc h1 h2 h3 hn hf hs hg hB true
  obtain ⟨g2, r3, _⟩ := testDemuxBlock_spec hc h1 h2 h3 hn hf hs r2 hB false
  simp only [Bool.false_eq_true, if_true, if_false] at r1 r3
  unfold testDemux
  simp only [r1, r3, Option.bind_eq_bind, Option.bind_some, Option.pure_def]

/-- C83: `test_demux_long` passes; the noise it prints compares the first output with one and the last with zero, so the plaintext
modulus must not be 2 (the difference of the two messages would be -2^63, whose absolute value panics). -/
theorem C83_demux_long {t : Scalar} {ctx : Ctx} (hc : Codec.new t = some ctx.codec) (ht : 4 ≤ t.toNat) (h1 : 1 ≤ ctx.baseLog) (h2 : 1 ≤ ctx.levelCount)
    (h3 : ctx.baseLog * ctx.levelCount < 64) (hn : 0 < n) {fft : Fft n} {phi : Nat} (hf : fft.Bounded phi) (sg : SecretGen) {g : Gen n}
    {B : Nat} (hg : g.Bounded B) (hB : 2 * (4 * extNoise n ctx.baseLog ctx.levelCount B phi 1) < 2 ^ 64 / t.toNat) :
    testDemuxLong ctx fft sg g = some () := by
  have hs := benchSk_binary (n := n) sg
  have hq : 2 ^ 64 / t.toNat ≤ 2 ^ 62 := by
    rw [Nat.div_le_iff_le_mul_add_pred (by omega)]
    omega
  unfold testDemuxLong
  dsimp only
  generalize (genRlweSk n sg).1 = s at *
  obtain ⟨one, v, hone, hv, hdec⟩ := trivialOne_enc (n := n) hc s
  have henc1 := polyEncode_set (n := n) hc hv 0
  have hvn : nrm v ≤ 2 ^ 62 := by
    have := (C02_encode hc 1).2 v hv
    rw [show (1 : Scalar).toNat = 1 from rfl, one_mul] at this
    unfold nrm
    rw [BitVec.toInt_eq_toNat_of_lt (by rw [this]; omega), this, Int.natAbs_natCast]
    exact hq
  have step : ∀ i ∈ List.range (2 ^ 4), ∀ g : Gen n, g.Bounded B → ∃ g', ((bitDecomposedRgsw ctx s i (2 ^ 4) g).bind fun bits =>
      (demux fft ctx bits.1).bind fun cts => (assertT (cts.length = 2 ^ 4)).bind fun _ => (genUnitPt n).bind fun unit =>
        (forT (fun j _ => (cts[j]?).bind fun c => if j = i then assertT (decryptDecodeRlwe ctx s c = unit) else
          assertT (decryptDecodeRlwe ctx s c = genZeroPt n)) (List.range (2 ^ 4)) ()).bind fun _ => (cts[0]?).bind fun first =>
          (computeNoiseEncodedMax ctx.codec s first unit).bind fun _ => (cts[2 ^ 4 - 1]?).bind fun last =>
            (computeNoiseEncodedMax ctx.codec s last (genZeroPt n)).bind fun _ => pure bits.2) = some g' ∧ g'.Bounded B := by
    intro i hi g hg
    rw [List.mem_range] at hi
    obtain ⟨bits, g', e1, e2, e3⟩ := bitDecomposed_spec h1 h2 h3 s i (2 ^ 4) 4 (log2_pow (by decide)) hg
    rw [Nat.mod_eq_of_lt hi] at e3
    obtain ⟨cts, o1, o2, o3⟩ := C40_demux hf hs (by decide : 1 ≤ 4) e3 one
    rw [hdec] at o3
    have hd : demux fft ctx bits = some cts := by
      unfold demux
      rw [hone]
      exact o1
    refine ⟨g', ?_, e2⟩
    have hloop : ∃ y, forT (fun j _ => (cts[j]?).bind fun c => if j = i then assertT (decryptDecodeRlwe ctx s c = Poly.set 0 0 1) else
          assertT (decryptDecodeRlwe ctx s c = genZeroPt n)) (List.range (2 ^ 4)) () = some y ∧ True := by
      refine forT_inv (P := fun _ => True) _ (fun j hj _ _ => ⟨(), ?_, trivial⟩) () trivial
      rw [List.mem_range] at hj
      have hjc := List.getElem?_eq_getElem (l := cts) (i := j) (by rw [o2]; exact hj)
      have := o3 j _ hjc
      rw [hjc, Option.bind_some]
      by_cases h : j = i
      · rw [if_pos h] at this
        rw [if_pos h]
        exact assertT_pos (decryptDecode_of_enc hc henc1 this hB)
      · rw [if_neg h] at this
        rw [if_neg h]
        exact assertT_pos (decryptDecode_of_enc hc (polyEncode_zero hc) this hB)
    obtain ⟨_, hloop, _⟩ := hloop
    have h0c := List.getElem?_eq_getElem (l := cts) (i := 0) (by rw [o2]; decide)
    have h15 := List.getElem?_eq_getElem (l := cts) (i := 2 ^ 4 - 1) (by rw [o2]; decide)
    have hdiff : ∀ (p : Prop) [Decidable p], Small ((if p then Poly.const n v else 0) - Poly.const n v : Poly n) (2 ^ 62) ∧
        Small ((if p then Poly.const n v else 0) - 0 : Poly n) (2 ^ 62) := fun p _ => by
      have hz : Small (Poly.const n v) (2 ^ 62) := fun k => by
        show ((if k.val = 0 then v else 0 : Scalar)).toInt.natAbs ≤ _
        split
        · exact hvn
        · simp
      split
      · exact ⟨by rw [sub_self]; exact Small.zero _, by rw [sub_zero]; exact hz⟩
      · exact ⟨by rw [zero_sub]; exact hz.neg, by rw [sub_zero]; exact Small.zero _⟩
    obtain ⟨x1, n1⟩ := noiseEncodedMax_some henc1 ((o3 0 _ h0c).shift (hdiff _).1) (by omega)
    obtain ⟨x2, n2⟩ := noiseEncodedMax_some (polyEncode_zero hc) ((o3 (2 ^ 4 - 1) _ h15).shift (hdiff _).2) (by omega)
    rw [e1, Option.bind_some, hd, Option.bind_some, assertT_pos o2, Option.bind_some, genUnitPt_some hn, Option.bind_some, hloop, Option.bind_some,
      h0c, Option.bind_some, n1, Option.bind_some, h15, Option.bind_some, n2]
    rfl
  obtain ⟨g', r, _⟩ := forT_inv (P := fun g : Gen n => g.Bounded B) (List.range (2 ^ 4)) step g hg
  simp only [Option.bind_eq_bind]
  rw [r]
  rfl

end Panacea
