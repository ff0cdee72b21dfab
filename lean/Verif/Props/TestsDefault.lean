import Verif.Props.TestsMore

/-!
# C83, continued: the test suite at the default parameters
-/

namespace Panacea
variable {n : Nat}

/-- The noise conditions of the tests below in the ring of size `2^d`. -/
def TestBudget (ctx : Ctx) (t : Scalar) (n B B' phi : Nat) : Prop :=
  B + ksNoise n ctx.ksBaseLog ctx.ksLevelCount B (ctx.ksLevelCount * fftNoise n phi (2 ^ (ctx.ksBaseLog - 1))) + 1024 < 0x2AAAAAAAAAAAA800 ∧
  B + ksNoise n ctx.ksBaseLog ctx.ksLevelCount B (fftNoise n phi (1 + ctx.ksLevelCount * 2 ^ (ctx.ksBaseLog - 1))) + 1024 < 0x2AAAAAAAAAAAA800 ∧
  B + extNoise n ctx.ksBaseLog ctx.ksLevelCount B phi 1 < 0x2AAAAAAAAAAAA800 ∧
  B + extNoise n ctx.baseLog ctx.levelCount B phi 1 < 0x2AAAAAAAAAAAA800 ∧
  n * B' + extNoise n ctx.negsBaseLog ctx.negsLevelCount B phi n + 1024 < 0x2AAAAAAAAAAAA800 ∧
  2 * benchTraceSlowNoise ctx n B phi < 2 ^ 64 / t.toNat ∧
  2 * (n * B + extNoise n ctx.baseLog ctx.levelCount B phi n) < 2 ^ 64 / t.toNat ∧
  2 * (B + extNoise n ctx.baseLog ctx.levelCount B phi 1) < 2 ^ 64 / t.toNat ∧
  2 * (n * B + fftNoise n phi 1) < 2 ^ 64 / t.toNat ∧
  2 * (B + fftNoise n phi 1) < 2 ^ 64 / t.toNat ∧
  2 * (2 * extNoise n ctx.baseLog ctx.levelCount B phi 1) < 2 ^ 64 / t.toNat ∧
  2 * (4 * extNoise n ctx.baseLog ctx.levelCount B phi 1) < 2 ^ 64 / t.toNat ∧
  2 * B < 2 ^ 64 / t.toNat ∧ B < 2 ^ 62

theorem tests_aux {d : Nat} {t : Scalar} {ctx : Ctx} (h : BenchParams ctx t d) (ht : 4 ≤ t.toNat) (hdiv : 2 ^ d * t.toNat ≤ 2 ^ 64) {B B' phi : Nat}
    {fft : Fft (2 ^ d)} (hf : fft.Bounded phi) (sg : SecretGen) {g gNoisy : Gen (2 ^ d)} (hg : g.Bounded B) (hg' : gNoisy.Bounded B')
    (hw : ∀ i j, Spec.InWindow t.toNat (g.noises i j).toInt) (hb : TestBudget ctx t (2 ^ d) B B' phi) :
    testKeyswitching ctx fft sg g = some () ∧ testKeyswitchingFourier ctx fft sg g = some () ∧ testKeyswitchingRgsw ctx fft sg g = some () ∧
    testSubs ctx fft sg g = some () ∧ testSubsFourier ctx fft sg g = some () ∧ testTrace1 ctx fft sg g = some () ∧
    testBinaryEnc ctx sg g = some () ∧ testTernaryEnc sg g = some () ∧ testEncryptRgsw ctx fft sg g = some () ∧
    testNegs ctx fft sg g gNoisy = some () ∧ testLessEq ctx fft sg g = some () ∧ testEqTo ctx fft sg g = some () ∧
    testNotInPlace ctx sg g = some () ∧ testNot ctx sg g = some () ∧ testLwe ctx sg g = some () ∧ testLweFill ctx sg g = some () ∧
    testSampleExtract ctx sg g = some () ∧ testExternalProduct ctx fft sg g = some () ∧ testCmux ctx fft sg g = some () ∧
    testDemux ctx fft sg g = some () ∧ testDemuxLong ctx fft sg g = some () := by
  obtain ⟨b1, b2, b3, b4, b5, b6, b7, b8, b9, b10, b11, b12, b13, b14⟩ := hb
  have hn : 0 < 2 ^ d := by positivity
  have hd1 : 1 ≤ d := le_trans (by norm_num) h.two
  have hneg1 : 1 ≤ ctx.negsBaseLog := by rw [h.negBl]; exact h.bl
  have n1 := C83_not ctx hn sg hg b14
  have n2 := C83_lwe h.codec sg hg b13
  exact ⟨C83_keyswitching h.ksBl h.ksLv h.ksLt hf sg hg (by omega), C83_keyswitching_fourier h.ksBl h.ksLv h.ksLt hf sg hg (by omega),
    C83_keyswitching_rgsw h.ksBl h.ksLv h.ksLt hf sg hg b3, C83_subs hd1 h.ksBl h.ksLv h.ksLt hf sg hg b1,
    C83_subs_fourier hd1 h.ksBl h.ksLv h.ksLt hf sg hg b2, C83_trace1 h hdiv hf sg hg b6,
    (C83_binary_enc h.codec sg g).mpr (hw _), C83_ternary_enc sg hg (by omega), C83_encrypt_rgsw h.codec h.bl h.lv h.lt hn hf sg hg b7,
    C83_negs h.negBl hneg1 h.negLv h.negLt hn hf sg hg hg' (by omega) b5, C83_less_eq h.codec hn hf sg hg b9, C83_eq_to h.codec hn hf sg hg b10,
    n1.1, n1.2, n2.1, n2.2, C83_sample_extract h.codec hn sg hg b13, C83_external_product h.codec h.bl h.lv h.lt hf sg hg b8,
    C83_cmux h.bl h.lv h.lt hf sg hg b4, C83_demux h.codec h.bl h.lv h.lt hn hf sg hg b11, C83_demux_long h.codec ht h.bl h.lv h.lt hn hf sg hg b12⟩

theorem testBudget_default : TestBudget defaultCtx 256 (2 ^ 11) (2 ^ 12) (2 ^ 30) (2 ^ 20) := by
  unfold TestBudget benchTraceSlowNoise extNoise ksNoise fftNoise defaultCtx
  rw [show (256 : Scalar).toNat = 256 from rfl]
  norm_num

theorem expandSlowBudget_default : testExpandSlowNoise defaultCtx (2 ^ 8) (2 ^ 12) (2 ^ 20) < 2 ^ 62 ∧
    2 * (2 ^ 12 + extNoise (2 ^ 8) 5 9 (testExpandSlowNoise defaultCtx (2 ^ 8) (2 ^ 12) (2 ^ 20)) (2 ^ 20) 1) < 2 ^ 64 / (256 : Scalar).toNat := by
  unfold testExpandSlowNoise expandNoise convNoise extNoise fftNoise defaultCtx
  rw [show (256 : Scalar).toNat = 256 from rfl]
  norm_num

theorem lweBudget_default : 2 * (2 ^ 12 + convNoise (2 ^ 10) 5 11 (2 ^ 12)) < 2 ^ 64 / (256 : Scalar).toNat := by
  unfold convNoise
  rw [show (256 : Scalar).toNat = 256 from rfl]
  norm_num

/-- C83 (default parameters): with `TFHEParameters::default()`, for every secret and public randomness with noise at most `2^12` (`2^30` for the noisy
generator of `test_negs`) and every Fourier transform with relative error at most `2^20`, these tests of the crate never fail. -/
theorem C83_default {F : Type} (m55 : F) {N : Nat} (hN : N = (TFHEParameters.default' m55).polynomialSize) {ctx : Ctx}
    (hctx : Ctx.ofParams (TFHEParameters.default' m55) = some ctx) {fft : Fft N} (hf : fft.Bounded (2 ^ 20)) (sg : SecretGen) {g gNoisy : Gen N}
    (hg : g.Bounded (2 ^ 12)) (hg' : gNoisy.Bounded (2 ^ 30)) :
    testKeyswitching ctx fft sg g = some () ∧ testKeyswitchingFourier ctx fft sg g = some () ∧ testKeyswitchingRgsw ctx fft sg g = some () ∧
    testSubs ctx fft sg g = some () ∧ testSubsFourier ctx fft sg g = some () ∧ testTrace1 ctx fft sg g = some () ∧
    testBinaryEnc ctx sg g = some () ∧ testTernaryEnc sg g = some () ∧ testEncryptRgsw ctx fft sg g = some () ∧
    testNegs ctx fft sg g gNoisy = some () ∧ testLessEq ctx fft sg g = some () ∧ testEqTo ctx fft sg g = some () ∧
    testNotInPlace ctx sg g = some () ∧ testNot ctx sg g = some () ∧ testLwe ctx sg g = some () ∧ testLweFill ctx sg g = some () ∧
    testSampleExtract ctx sg g = some () ∧ testExternalProduct ctx fft sg g = some () ∧ testCmux ctx fft sg g = some () ∧
    testDemux ctx fft sg g = some () ∧ testDemuxLong ctx fft sg g = some () := by
  obtain rfl : N = 2 ^ 11 := by rw [hN]; rfl
  obtain rfl : ctx = defaultCtx := by
    have hcod : Codec.new (BitVec.ofNat 64 (2 ^ 8)) = some ⟨8, 2 ^ 56⟩ := by decide
    unfold Ctx.ofParams at hctx
    rw [show (TFHEParameters.default' m55).plaintextModulus = 2 ^ 8 from rfl, hcod] at hctx
    exact (Option.some.inj hctx).symm
  exact tests_aux benchParams_default (by decide) (by decide) hf sg hg hg' (inWindow_small hg) testBudget_default

/-- C83 (smaller rings): the two tests that override the ring size, `test_lwe_to_rlwe` (1024) and `test_expand_slow` (256), with the remaining default
parameters. -/
theorem C83_default_small {F : Type} (m55 : F) {ctx : Ctx} (hctx : Ctx.ofParams (TFHEParameters.default' m55) = some ctx) (sg : SecretGen) :
    (∀ {g : Gen (2 ^ 10)}, g.Bounded (2 ^ 12) → testLweToRlwe ctx sg g = some ()) ∧
    (∀ {F : F64Arith}, F.Ok → ∀ {fft : Fft (2 ^ 8)}, fft.Bounded (2 ^ 20) → ∀ {g : Gen (2 ^ 8)}, g.Bounded (2 ^ 12) →
      testExpandSlow F ctx fft sg g = some ()) := by
  obtain rfl : ctx = defaultCtx := by
    have hcod : Codec.new (BitVec.ofNat 64 (2 ^ 8)) = some ⟨8, 2 ^ 56⟩ := by decide
    unfold Ctx.ofParams at hctx
    rw [show (TFHEParameters.default' m55).plaintextModulus = 2 ^ 8 from rfl, hcod] at hctx
    exact (Option.some.inj hctx).symm
  have h := benchParams_default
  refine ⟨fun hg => ?_, fun hF _ hf _ hg => ?_⟩
  · exact C83_lwe_to_rlwe h.codec h.ksBl h.ksLv h.ksLt (by positivity) sg hg lweBudget_default
  · exact C83_expand_slow h.codec h.bl h.lv h.lt h.ksBl (by decide) h.negBl h.negLv h.negLt (by positivity) hF hf sg hg expandSlowBudget_default.1
      expandSlowBudget_default.2

/-- The hypotheses are met by the default context in the ring of size 2048 with a non-trivial generator and a rounding transform. -/
example (sg : SecretGen) : testNegs defaultCtx treeFft sg treeGen treeGen = some () ∧ testDemuxLong defaultCtx treeFft sg treeGen = some () := by
  have hg : treeGen.Bounded (2 ^ 12) := fun i => (treeGen_bounded i).mono (by decide)
  have hg' : treeGen.Bounded (2 ^ 30) := fun i => (treeGen_bounded i).mono (by decide)
  have hf : treeFft.Bounded (2 ^ 20) := fun ts h => (treeFft_bounded ts h).mono (Nat.mul_le_mul_right _ (by decide))
  have := tests_aux benchParams_default (by decide) (by decide) hf sg hg hg' (inWindow_small hg) testBudget_default
  exact ⟨this.2.2.2.2.2.2.2.2.2.1, this.2.2.2.2.2.2.2.2.2.2.2.2.2.2.2.2.2.2.2.2⟩

/-- The conditions of `C83_expand`, of the traversal tests and of the expected-failure theorems are met in small rings. -/
example : BenchParams exTreeCtx 16 2 ∧ 2 ≤ exTreeCtx.baseLog ∧ testExpandNoise exTreeCtx (2 ^ 2) 3 5 < 2 ^ 62 ∧
    2 * (3 + extNoise (2 ^ 2) 3 20 (testExpandNoise exTreeCtx (2 ^ 2) 3 5) 5 1) < 2 ^ 64 / 16 ∧
    2 * (4 * (3 * extNoise (2 ^ 2) 3 20 (compareNoise exTreeCtx (2 ^ 2) 3 5) 5 1)) < 2 ^ 64 / 16 ∧
    2 * (11 * (10 * extNoise (2 ^ 4) 3 20 (compareNoise exTreeCtx (2 ^ 4) 3 5) 5 1)) < 2 ^ 64 / 16 :=
  ⟨⟨by decide +kernel, by decide, by decide, by decide, by decide, by decide, by decide, by decide, by decide, by decide, by decide, by decide,
    by decide⟩, by decide, by decide +kernel, by decide +kernel, by decide +kernel, by decide +kernel⟩

/-- A generator whose products stay away from 0: the ternary polynomials are 1, the uniform ones have all coefficients `2^40`; its noises are
1 and 3 alternately. -/
def farGen : Gen 4 := ⟨fun _ => 0, fun i => ⟨fun _ => if i % 2 = 0 then 3 else 1⟩,
  fun i => if i % 2 = 0 then ⟨fun k => if k.val = 0 then 1 else 0⟩ else ⟨fun _ => 2 ^ 40⟩, 0⟩

/-- `test_fourier_mul` passes with `farGen` and can fail with `exGen`, whose first product has the coefficient 5. -/
example : testFourierMul exF64 (fun x y => (exists_nearest (x - y)).choose) (2 ^ 34) exFft farGen = some () ∧
    ∃ fft : Fft 4, fft.Bounded 8 ∧ testFourierMul exF64 (fun x y => (exists_nearest (x - y)).choose) (2 ^ 34) fft exGen = none := by
  refine ⟨C83_fourier_mul exF64_exact.ok (fun x y => (exists_nearest (x - y)).choose_spec) (le_refl _) exFft_bounded (by norm_num) farGen ?_,
    C83_fourier_mul_fails exF64_exact.ok (fun x y => (exists_nearest (x - y)).choose_spec) (by norm_num) exGen 1 (by norm_num) ?_ ?_⟩
  · decide +kernel
  · decide +kernel
  · decide +kernel

/-- `test_compute_noise` passes with `farGen` (noises 1, then 3) and fails with a generator without noise. -/
example (sg : SecretGen) : testComputeNoise exF64 11 exCtx sg farGen = some () ∧
    testComputeNoise exF64 11 exCtx sg { farGen with noises := fun _ => 0 } = none := by
  refine ⟨C83_compute_noise (t := 16) (by decide +kernel) exF64_exact.ok sg farGen (k := 0) (by norm_num) (by norm_num) (by decide +kernel)
    ⟨0, by decide +kernel⟩ (by decide +kernel), C83_compute_noise_fails (t := 16) (by decide +kernel) exF64_exact.ok 11 sg _ (Or.inl rfl)⟩

end Panacea
