import Verif.Model.Keyswitch
import Verif.Model.Lwe
import Verif.Model.EncEval
import Verif.Model.Oram
import Verif.Model.Context
import Verif.Model.Noise
import Verif.Model.Tree
import Verif.Model.NaiveHash

/-!
# The crate's own tests (`#[cfg(test)]` modules)

Every test is a function of the context (`Context::new(TFHEParameters::default())` where the code says so; instantiated in `Props/Tests`), the
secret generator, the other generators and the rounding of the Fourier transform.  Its result is `some ()` if the test passes and `none`
if it panics: a failed assertion or a panic in any function called.  What is printed is not modelled, but the noise computations whose
results are printed are run, because they can panic.  Output buffers are allocated as zero, as in the code.
-/

namespace Panacea
variable {n : Nat}

/-- `assert!(p)`, `assert_eq!(a, b)` (as `a = b`), e.g. /repo/src/rlwe.rs:1360. -/
def assertT (p : Prop) [Decidable p] : Option Unit := if p then some () else none

/-- `for i in l { .. }` over a captured state, e.g. /repo/src/rlwe.rs:1861. -/
def forT {σ : Type} (f : Nat → σ → Option σ) : List Nat → σ → Option σ
  | [], x => some x
  | i :: is, x =>
    match f i x with
    | none => none
    | some y => forT f is y

/-! ## /repo/src/codec.rs -/

/-- `test_binary_encoder`, /repo/src/codec.rs:122-149. -/
def testBinaryEncoder : Option Unit := do
  let codec ← Codec.new (1 <<< 1)
  let x ← codec.encode 0
  assertT (x = 0)
  let x ← codec.encode 1
  assertT (x = (1 : Scalar) <<< 63)
  assertT (codec.decode 10 = 0)
  assertT (codec.decode scalarMAX = 0)
  assertT (codec.decode ((1 : Scalar) <<< 63) = 1)

/-- One block of `test_generic_encoder`, /repo/src/codec.rs:153-167, 169-183; `encoded + largest_error` and `encoded - largest_error` are
checked (`none` = overflow). -/
def testGenericEncoderBlock (t expected : Scalar) : Option Unit := do
  let codec ← Codec.new t
  let encoded ← codec.encode expected
  assertT (encoded.toNat + codec.largestError.toNat < 2 ^ 64 ∧ 1 ≤ encoded.toNat + codec.largestError.toNat)
  assertT (codec.largestError.toNat ≤ encoded.toNat)
  assertT (codec.decode (encoded + codec.largestError - 1) = expected)
  assertT (codec.decode (encoded - codec.largestError + 1) = expected)

/-- `test_generic_encoder`, /repo/src/codec.rs:152-184. -/
def testGenericEncoder : Option Unit := do
  testGenericEncoderBlock 4 3
  testGenericEncoderBlock (1 <<< 12) (1 <<< 6)

/-! ## /repo/src/naive_hash.rs -/

/-- `test_naive_hash`, /repo/src/naive_hash.rs:96-107. -/
def testNaiveHash (shuffle : List Nat → List Nat) : Option Unit := do
  let nh ← NaiveHash.new shuffle 1 16
  forT (fun i _ => do
    let v ← nh.hash0 i
    assertT (v < 16)) (List.range 16) ()
  let a ← nh.checkedHash 1 0
  assertT (a = none)
  let b ← nh.checkedHash 0 16
  assertT (b = none)
  let rc ← nh.hashToTuple 0 8 2
  let h ← nh.hash 0 8
  assertT (h = 2 * rc.1 + rc.2)

/-- `test_naive_hash_to_mapping`, /repo/src/naive_hash.rs:110-119.  The length of the map is the number of its keys among the 16 rows that
exist (`16 / 2` of them). -/
def testNaiveHashToMapping (shuffle : List Nat → List Nat) : Option Unit := do
  let nh ← NaiveHash.new shuffle 1 16
  let out ← nh.hashToMapping [0] 2
  assertT (((List.range 16).filter fun r => (out r).isSome).length = 1)
  let rc ← nh.hashToTuple 0 0 2
  let e ← out rc.1
  assertT (e.1 = rc.2)

/-! ## /repo/src/rlwe.rs -/

/-- `test_keyswitching`, /repo/src/rlwe.rs:1324-1366. -/
def testKeyswitching (ctx : Ctx) (fft : Fft n) (sg : SecretGen) (g : Gen n) : Option Unit := do
  let msg := genTernaryPtxt g
  let after := genRlweSk n sg
  let before := genRlweSk n after.2
  let ksk := (KeyswitchKey.allocate n ctx.ksBaseLog ctx.ksLevelCount).fillWithKeyswitchKey before.1 after.1 msg.2
  let ct ← ternaryEncryptRlwe before.1 msg.1 ksk.2
  let dec1 := ternaryDecryptRlwe before.1 ct.1
  let _ ← computeNoiseTernaryMax before.1 ct.1 msg.1
  let out ← ksk.1.keyswitchCiphertext fft 0 ct.1
  let dec2 := ternaryDecryptRlwe after.1 out
  assertT (dec1 = dec2)
  assertT (dec1 = msg.1)
  let _ ← computeNoiseTernaryMax after.1 out msg.1
  pure ()

/-- `test_keyswitching_fourier`, /repo/src/rlwe.rs:1369-1414. -/
def testKeyswitchingFourier (ctx : Ctx) (fft : Fft n) (sg : SecretGen) (g : Gen n) : Option Unit := do
  let msg := genTernaryPtxt g
  let after := genRlweSk n sg
  let before := genRlweSk n after.2
  let ksk := (KeyswitchKey.allocate n ctx.ksBaseLog ctx.ksLevelCount).fillWithKeyswitchKey before.1 after.1 msg.2
  let ct ← ternaryEncryptRlwe before.1 msg.1 ksk.2
  let dec1 := ternaryDecryptRlwe before.1 ct.1
  let _ ← computeNoiseTernaryMax before.1 ct.1 msg.1
  let outF ← ksk.1.fourierKeyswitchCiphertext ⟨[], []⟩ ct.1
  let out := outF.backwardAsTorus fft
  let dec2 := ternaryDecryptRlwe after.1 out
  assertT (dec1 = dec2)
  assertT (dec1 = msg.1)
  let _ ← computeNoiseTernaryMax after.1 out msg.1
  pure ()

/-- `test_subs`, /repo/src/rlwe.rs:1417-1452.  `fill_with_subs_keyswitch_key` overwrites `sk_before`, whose random content is not used. -/
def testSubs (ctx : Ctx) (fft : Fft n) (sg : SecretGen) (g : Gen n) : Option Unit := do
  let msg := genTernaryPtxt g
  let k := n + 1
  let after := genRlweSk n sg
  let ksk ← (KeyswitchKey.allocate n ctx.ksBaseLog ctx.ksLevelCount).fillWithSubsKeyswitchKey after.1 k msg.2
  let ct ← ternaryEncryptRlwe after.1 msg.1 ksk.2
  let out ← ksk.1.subs fft 0 ct.1
  let decrypted := ternaryDecryptRlwe after.1 out
  let expected ← evalXk msg.1 k
  assertT (decrypted = expected)

/-- `test_subs_fourier`, /repo/src/rlwe.rs:1455-1493. -/
def testSubsFourier (ctx : Ctx) (fft : Fft n) (sg : SecretGen) (g : Gen n) : Option Unit := do
  let msg := genTernaryPtxt g
  let k := n + 1
  let after := genRlweSk n sg
  let ksk ← (KeyswitchKey.allocate n ctx.ksBaseLog ctx.ksLevelCount).fillWithSubsKeyswitchKey after.1 k msg.2
  let ct ← ternaryEncryptRlwe after.1 msg.1 ksk.2
  let outF ← ksk.1.fourierSubs ⟨[], []⟩ ct.1
  let out := outF.backwardAsTorus fft
  let decrypted := ternaryDecryptRlwe after.1 out
  let expected ← evalXk msg.1 k
  assertT (decrypted = expected)

/-- `test_eval_poly`, /repo/src/rlwe.rs:1496-1511. -/
def testEvalPoly : Option Unit := do
  let poly : Poly 4 := ⟨fun k => [0, 1, 2, 3].getD k.val 0⟩
  let out ← evalXk poly 3
  assertT (out = (⟨fun k => [0, 3, scalarMAX - 1, 1].getD k.val 0⟩ : Poly 4))
  let out ← evalXk poly 5
  assertT (out = (⟨fun k => [0, scalarMAX, 2, scalarMAX - 2].getD k.val 0⟩ : Poly 4))

/-- `test_trace1`, /repo/src/rlwe.rs:1514-1561. -/
def testTrace1 (ctx : Ctx) (fft : Fft n) (sg : SecretGen) (g : Gen n) : Option Unit := do
  let orig := genBinaryPt g
  let encoded ← ctx.codec.polyEncode orig.1
  let encoded : Poly n := ⟨fun j => encoded j / BitVec.ofNat 64 n⟩
  let s := (genRlweSk n sg).1
  let ksks ← genAllSubsKsk ctx s orig.2
  let ct := encryptRlwe s encoded ksks.2
  let _ ← computeNoiseMax s ct.1 encoded
  let out ← trace1 fft ksks.1 ct.1
  let decrypted := decryptDecodeRlwe ctx s out
  let expected : Poly n := Poly.set 0 0 (orig.1.get 0)
  let _ ← computeNoiseEncodedMax ctx.codec s out expected
  assertT (decrypted = expected)

/-- `test_binary_enc`, /repo/src/rlwe.rs:1564-1576. -/
def testBinaryEnc (ctx : Ctx) (sg : SecretGen) (g : Gen n) : Option Unit := do
  let expected := genBinaryPt g
  let s := (genRlweSk n sg).1
  let ct ← encodeEncryptRlwe ctx s expected.1 expected.2
  assertT (decryptDecodeRlwe ctx s ct.1 = expected.1)

/-- `test_ternary_enc`, /repo/src/rlwe.rs:1579-1591. -/
def testTernaryEnc (sg : SecretGen) (g : Gen n) : Option Unit := do
  let expected := genTernaryPtxt g
  let s := (genRlweSk n sg).1
  let ct ← ternaryEncryptRlwe s expected.1 expected.2
  assertT (ternaryDecryptRlwe s ct.1 = expected.1)

/-- The noise of the rows printed by `test_encrypt_rgsw`, /repo/src/rlwe.rs:1610-1647: the first row after subtracting `m q/B` from its mask,
the second and the last one against `m q/B` and `m q/B^l`. -/
def printRgswRows (ctx : Ctx) (s m : Poly n) (C : RGSW n) : Option Unit := do
  let row0 ← C.getNthRow 0
  let row0 : RLWE n := ⟨row0.mask - m.mulConst (gadget ctx.baseLog 1), row0.body⟩
  let _ ← computeNoiseMax s row0 (genZeroPt n)
  let row1 ← C.getNthRow 1
  let _ ← computeNoiseMax s row1 (m.mulConst (gadget ctx.baseLog 1))
  let last ← C.getLastRow
  let _ ← computeNoiseMax s last (m.mulConst (gadget ctx.baseLog ctx.levelCount))
  pure ()

/-- `test_encrypt_rgsw`, /repo/src/rlwe.rs:1594-1659. -/
def testEncryptRgsw (ctx : Ctx) (fft : Fft n) (sg : SecretGen) (g : Gen n) : Option Unit := do
  let gswPt := genBinaryPt g
  let one ← genUnitPt n
  let s := (genRlweSk n sg).1
  let gsw := encryptRgsw ctx s ctx.baseLog ctx.levelCount gswPt.1 gswPt.2
  let ct ← encodeEncryptRlwe ctx s one gsw.2
  let _ ← computeNoiseEncodedMax ctx.codec s ct.1 one
  printRgswRows ctx s gswPt.1 gsw.1
  let prod := externalProduct fft gsw.1 0 ct.1
  assertT (decryptDecodeRlwe ctx s prod = gswPt.1)
  let _ ← computeNoiseEncodedMax ctx.codec s prod gswPt.1
  pure ()

/-- `test_negs`, /repo/src/rlwe.rs:1662-1723.  `gNoisy` is the generator of `ctx_noisy`, with its larger standard deviation.  `y * Scalar::MAX`
is a checked product (`none` unless the key is binary). -/
def testNegs (ctx : Ctx) (fft : Fft n) (sg : SecretGen) (g gNoisy : Gen n) : Option Unit := do
  let s := (genRlweSk n sg).1
  assertT (∀ k, s k = 0 ∨ s k = 1)
  let negSk : Poly n := ⟨fun k => s k * scalarMAX⟩
  let negS ← negGsw ctx s g
  let last ← negS.1.getLastRow
  let _ ← computeNoiseMax s last (negSk.mulConst (gadget ctx.negsBaseLog ctx.negsLevelCount))
  let row1 ← negS.1.getNthRow 1
  let _ ← computeNoiseMax s row1 (negSk.mulConst (gadget ctx.negsBaseLog 1))
  let one ← genUnitPt n
  let ct ← ternaryEncryptRlwe s one gNoisy
  let _ ← computeNoiseTernaryMax s ct.1 one
  let prod := externalProduct fft negS.1 0 ct.1
  assertT (ternaryDecryptRlwe s prod = negSk)
  let _ ← computeNoiseTernaryMax s prod negSk
  pure ()

/-- The noise of the rows printed by `test_expand`, /repo/src/rlwe.rs:1741-1791 (with the base log of `neg_s`, as in the code), and the
average of `compute_noise_rgsw1`. -/
def printExpandRows (F : F64Arith) (ctx : Ctx) (s : Poly n) (C : RGSW n) : Option Unit := do
  assertT (∀ k, s k = 0 ∨ s k = 1)
  let negSk : Poly n := ⟨fun k => s k * scalarMAX⟩
  let unit ← genUnitPt n
  let row0 ← C.getNthRow 0
  let _ ← computeNoiseMax s row0 (naiveUpdateWithMul (unit.mulConst (gadget ctx.negsBaseLog 1)) negSk)
  let row1 ← C.getNthRow 1
  let _ ← computeNoiseMax s row1 (unit.mulConst (gadget ctx.negsBaseLog 1))
  let last ← C.getLastRow
  let _ ← computeNoiseMax s last (unit.mulConst (gadget ctx.negsBaseLog ctx.negsLevelCount))
  let _ ← computeNoiseRgsw1 F ctx s C
  pure ()

/-- `test_expand`, /repo/src/rlwe.rs:1726-1820. -/
def testExpand (F : F64Arith) (ctx : Ctx) (fft : Fft n) (sg : SecretGen) (g : Gen n) : Option Unit := do
  let s := (genRlweSk n sg).1
  let negS ← negGsw ctx s g
  let ksks ← genAllSubsKsk ctx s negS.2
  let pt := genBinaryPt ksks.2
  let test ← encodeEncryptRlwe ctx s pt.1 pt.2
  let cts1 ← makeDecomposedRlweCt ctx s 1 test.2
  let gsw1 ← expand fft ctx cts1.1 ksks.1 negS.1
  printExpandRows F ctx s gsw1
  let out1 := externalProduct fft gsw1 0 test.1
  assertT (pt.1 = decryptDecodeRlwe ctx s out1)
  let _ ← computeNoiseEncodedMax ctx.codec s out1 pt.1
  let cts0 ← makeDecomposedRlweCt ctx s 0 cts1.2
  let gsw0 ← expand fft ctx cts0.1 ksks.1 negS.1
  let out0 := externalProduct fft gsw0 0 test.1
  assertT (genZeroPt n = decryptDecodeRlwe ctx s out0)
  let _ ← computeNoiseEncodedMax ctx.codec s out0 (genZeroPt n)
  pure ()

open Classical in
/-- The assertion of `test_fourier_mul`, /repo/src/rlwe.rs:1844, on one pair of coefficients: both words are converted to `f64` *as unsigned
numbers*, subtracted, and the absolute value compared with `1e-9 * Scalar::MAX as f64` (a double `tol`). -/
noncomputable def fourierMulCheck (F : F64Ops) (sub : ℝ → ℝ → ℝ) (tol : ℝ) (actual expected : Scalar) : Option Unit :=
  assertT (|sub (F.ofNat actual.toNat) (F.ofNat expected.toNat)| < tol)

open Classical in
/-- `test_fourier_mul`, /repo/src/rlwe.rs:1823-1847: ten accumulations of random ternary times random uniform polynomials; the two random
polynomials of an iteration come from the plaintext stream. -/
noncomputable def testFourierMul (F : F64Ops) (sub : ℝ → ℝ → ℝ) (tol : ℝ) (fft : Fft n) (g : Gen n) : Option Unit := do
  let _ ← forT (fun _ (st : (Poly n × Poly n) × Gen n) => do
    let a := genTernaryPtxt st.2
    let b := a.2.plains a.2.pos
    let outF := fourierUpdateWithMulAcc fft st.1.1 a.1 b
    let outN := naiveUpdateWithMulAcc st.1.2 a.1 b
    let _ ← mapOption (fun k => fourierMulCheck F sub tol (outF k) (outN k)) (List.finRange n)
    pure ((outF, outN), a.2.next)) (List.range 10) ((0, 0), g)
  pure ()

/-- The plaintext with a one at degree `m` of `test_less_eq` and `test_eq_to`, /repo/src/rlwe.rs:1854-1859, 1897-1902; `none` = the degree
does not exist. -/
def halfPt (n : Nat) : Option (Poly n) := if n / 2 < n then some (Poly.set 0 (n / 2) 1) else none

/-- `test_less_eq`, /repo/src/rlwe.rs:1850-1890. -/
def testLessEq (ctx : Ctx) (fft : Fft n) (sg : SecretGen) (g : Gen n) : Option Unit := do
  let s := (genRlweSk n sg).1
  let m := n / 2
  let pt ← halfPt n
  let g ← forT (fun i g => do
    let ct ← encodeEncryptRlwe ctx s pt g
    let c ← ct.1.lessEqThan fft (m + i)
    assertT ((decryptDecodeRlwe ctx s c).get 0 = 1)
    pure ct.2) (List.range' 1 (n - m - 1)) g
  let _ ← forT (fun i g => do
    let ct ← encodeEncryptRlwe ctx s pt g
    let c ← ct.1.lessEqThan fft (m - i)
    assertT ((decryptDecodeRlwe ctx s c).get 0 = 0)
    pure ct.2) (List.range' 1 (n - m - 1)) g
  pure ()

/-- `test_eq_to`, /repo/src/rlwe.rs:1893-1921. -/
def testEqTo (ctx : Ctx) (fft : Fft n) (sg : SecretGen) (g : Gen n) : Option Unit := do
  let s := (genRlweSk n sg).1
  let m := n / 2
  let pt ← halfPt n
  let _ ← forT (fun i g => do
    let ct ← encodeEncryptRlwe ctx s pt g
    let c ← ct.1.eqTo fft i
    let res := (decryptDecodeRlwe ctx s c).get 0
    if i = m then assertT (res = 1) else assertT (res = 0)
    pure ct.2) (List.range n) g
  pure ()

/-- `a < b` on the reported values (`f64`, false for `NaN`), /repo/src/rlwe.rs:1949, 1955. -/
def F64Val.lt : F64Val → F64Val → Prop
  | .nan, _ => False
  | _, .nan => False
  | _, .negInf => False
  | .negInf, .fin _ => True
  | .fin x, .fin y => x < y

open Classical in
/-- `test_compute_noise`, /repo/src/rlwe.rs:1924-1957; `support` is `max_log_support as f64`. -/
noncomputable def testComputeNoise (F : F64Ops) (support : ℝ) (ctx : Ctx) (sg : SecretGen) (g : Gen n) : Option Unit := do
  let s := (genRlweSk n sg).1
  let pt := genBinaryPt g
  let msg ← ctx.codec.polyEncode pt.1
  let ct := encryptRlwe s msg pt.2
  let ctZero := encryptRlwe s 0 ct.2
  let noise0 ← computeNoise F s ct.1 msg
  assertT (noise0.lt (.fin support))
  let noise1 ← computeNoise F s (ct.1 + ctZero.1) msg
  assertT (noise0.lt noise1)

/-- `test_not_in_place`, /repo/src/rlwe.rs:1960-1983 (the codec is replaced by that of modulus 2). -/
def testNotInPlace (ctx : Ctx) (sg : SecretGen) (g : Gen n) : Option Unit := do
  let codec ← Codec.new 2
  let ctx : Ctx := { ctx with codec := codec }
  let s := (genRlweSk n sg).1
  let one ← genUnitPt n
  let ct ← encodeEncryptRlwe ctx s one g
  let c1 := ct.1.notInPlace
  assertT (genZeroPt n = decryptDecodeRlwe ctx s c1)
  let c2 := c1.notInPlace
  let one ← genUnitPt n
  assertT (one = decryptDecodeRlwe ctx s c2)

/-- `test_not`, /repo/src/rlwe.rs:1986-2008. -/
def testNot (ctx : Ctx) (sg : SecretGen) (g : Gen n) : Option Unit := do
  let codec ← Codec.new 2
  let ctx : Ctx := { ctx with codec := codec }
  let s := (genRlweSk n sg).1
  let one ← genUnitPt n
  let ct ← encodeEncryptRlwe ctx s one g
  assertT (genZeroPt n = decryptDecodeRlwe ctx s ct.1.not)
  let one ← genUnitPt n
  assertT (one = decryptDecodeRlwe ctx s ct.1.not.not)

/-- `test_expand_slow`, /repo/src/rlwe.rs:2011-2053 (`ks_level_count` is replaced by 11; the ring size 256 is the parameter `n`). -/
def testExpandSlow (F : F64Arith) (ctx : Ctx) (fft : Fft n) (sg : SecretGen) (g : Gen n) : Option Unit := do
  let ctx : Ctx := { ctx with ksLevelCount := 11 }
  let lweSk := (genLweSk n sg).1
  let s := toRlweSk lweSk
  let negS ← negGsw ctx s g
  let ksks := lweToRlweKeyswitchKey ctx lweSk negS.2
  let pt ← genUnitPt n
  let test ← encodeEncryptRlwe ctx s pt ksks.2
  let cts ← makeDecomposedRlweCt2 ctx s 1 test.2
  let gsw ← expandSlow fft ctx cts.1 ksks.1 negS.1
  let out := externalProduct fft gsw 0 test.1
  let dec := decryptDecodeRlwe ctx s out
  assertT (pt = dec)
  let _ ← computeNoiseRgsw1 F ctx s gsw
  let _ ← computeNoiseEncodedMax ctx.codec s out dec
  pure ()

/-! ## /repo/src/lwe.rs -/

/-- `test_lwe`, /repo/src/lwe.rs:247-259. -/
def testLwe (ctx : Ctx) (sg : SecretGen) (g : Gen n) : Option Unit := do
  let s := (genLweSk n sg).1
  let _ ← forT (fun _ g => do
    let expected := genScalarBinaryPt g
    let ct ← encodeEncryptLwe ctx s expected.1 expected.2
    assertT (expected.1 = decodeDecryptLwe ctx s ct.1)
    pure ct.2) (List.range 10) g
  pure ()

/-- `test_lwe_fill`, /repo/src/lwe.rs:262-276: `fill_with_tensor` copies all words of the ciphertext. -/
def testLweFill (ctx : Ctx) (sg : SecretGen) (g : Gen n) : Option Unit := do
  let s := (genLweSk n sg).1
  let expected := genScalarBinaryPt g
  let ct ← encodeEncryptLwe ctx s expected.1 expected.2
  let ct2 : LWE n := ⟨⟨fun k => ct.1.mask k⟩, ct.1.body⟩
  assertT (expected.1 = decodeDecryptLwe ctx s ct2)

/-- `test_lwe_to_rlwe`, /repo/src/lwe.rs:279-304 (the ring size 1024 is the parameter `n`). -/
def testLweToRlwe (ctx : Ctx) (sg : SecretGen) (g : Gen n) : Option Unit := do
  let lweSk := (genLweSk n sg).1
  let s := toRlweSk lweSk
  let expected := genScalarBinaryPt g
  let ct ← encodeEncryptLwe ctx lweSk expected.1 expected.2
  let ksks := lweToRlweKeyswitchKey ctx lweSk ct.2
  let out := convLweToRlwe ctx ksks.1 ct.1
  let actual := decryptDecodeRlwe ctx s out
  assertT (0 < n ∧ actual.get 0 = expected.1)

/-- `test_sample_extract`, /repo/src/lwe.rs:307-325. -/
def testSampleExtract (ctx : Ctx) (sg : SecretGen) (g : Gen n) : Option Unit := do
  let lweSk := (genLweSk n sg).1
  let s := toRlweSk lweSk
  let pt := genBinaryPt g
  let ct ← encodeEncryptRlwe ctx s pt.1 pt.2
  let lwe := constSampleExtract ct.1
  assertT (0 < n ∧ pt.1.get 0 = decodeDecryptLwe ctx lweSk lwe)

/-! ## /repo/src/rgsw.rs -/

/-- `test_external_product`, /repo/src/rgsw.rs:266-302. -/
def testExternalProduct (ctx : Ctx) (fft : Fft n) (sg : SecretGen) (g : Gen n) : Option Unit := do
  let pt := genBinaryPt g
  let s := (genRlweSk n sg).1
  let gsw0 := encryptConstantRgsw s ctx.baseLog ctx.levelCount 0 pt.2
  let gsw1 := encryptConstantRgsw s ctx.baseLog ctx.levelCount 1 gsw0.2
  let ct ← encodeEncryptRlwe ctx s pt.1 gsw1.2
  let _ ← computeNoiseEncodedMax ctx.codec s ct.1 pt.1
  let out0 := externalProduct fft gsw0.1 0 ct.1
  let out1 := externalProduct fft gsw1.1 0 ct.1
  assertT (decryptDecodeRlwe ctx s out0 = 0)
  assertT (decryptDecodeRlwe ctx s out1 = pt.1)
  let _ ← computeNoiseEncodedMax ctx.codec s out1 pt.1
  pure ()

/-- `test_keyswitching`, /repo/src/rgsw.rs:351-394. -/
def testKeyswitchingRgsw (ctx : Ctx) (fft : Fft n) (sg : SecretGen) (g : Gen n) : Option Unit := do
  let msg := genTernaryPtxt g
  let after := genRlweSk n sg
  let before := genRlweSk n after.2
  let slow := (KeyswitchKey.allocate n ctx.ksBaseLog ctx.ksLevelCount).fillWithKeyswitchKey before.1 after.1 msg.2
  let ksk ← RGSW.fromKeyswitchKey slow.1
  let ct ← ternaryEncryptRlwe before.1 msg.1 slow.2
  let dec1 := ternaryDecryptRlwe before.1 ct.1
  let _ ← computeNoiseTernaryMax before.1 ct.1 msg.1
  let out := ksk.keyswitchCiphertext fft 0 ct.1
  let dec2 := ternaryDecryptRlwe after.1 out
  assertT (dec1 = dec2)
  assertT (dec1 = msg.1)
  let _ ← computeNoiseTernaryMax after.1 out msg.1
  pure ()

/-- One block of `test_cmux`, /repo/src/rgsw.rs:410-419, 421-430: encrypt the choice bit, select, decrypt. -/
def testCmuxBlock (ctx : Ctx) (fft : Fft n) (s : Poly n) (bit : Scalar) (ct0 ct1 : RLWE n) (expected : Poly n) (g : Gen n) : Option (Gen n) := do
  let gsw := encryptConstantRgsw s ctx.baseLog ctx.levelCount bit g
  let out := cmux fft gsw.1 0 ct0 ct1
  assertT (ternaryDecryptRlwe s out = expected)
  pure gsw.2

/-- `test_cmux`, /repo/src/rgsw.rs:397-431. -/
def testCmux (ctx : Ctx) (fft : Fft n) (sg : SecretGen) (g : Gen n) : Option Unit := do
  let pt0 := genTernaryPtxt g
  let pt1 := genTernaryPtxt pt0.2
  let s := (genRlweSk n sg).1
  let ct0 ← ternaryEncryptRlwe s pt0.1 pt1.2
  let ct1 ← ternaryEncryptRlwe s pt1.1 ct0.2
  let g ← testCmuxBlock ctx fft s 0 ct0.1 ct1.1 pt0.1 ct1.2
  let _ ← testCmuxBlock ctx fft s 1 ct0.1 ct1.1 pt1.1 g
  pure ()

/-! ## /repo/src/decision_tree.rs -/

/-- The tree of `test_clear_node`, /repo/src/decision_tree.rs:752-766. -/
def clearNodeTree : Tree :=
  .internal ⟨1, 2, 4, .leq⟩ (.internal ⟨11, 22, 44, .gt⟩ (.leaf 0) (Tree.newWithDepth 1)) (.leaf 0)

/-- `Node::inner_value` applied to the root, keeping index, left and right child: /repo/src/decision_tree.rs:773-778; `none` = a leaf or a
missing child (`unwrap`). -/
def innerValue : Tree → Option (Nat × Tree × Tree)
  | .internal d l r => some (d.index, l, r)
  | _ => none

/-- `test_clear_node`, /repo/src/decision_tree.rs:751-779. -/
def testClearNode : Option Unit := do
  let root ← clearNodeTree.fixIndex
  assertT (root.2 = 2)
  assertT (root.1.flatten.map NodeData.index = List.range root.1.flatten.length)
  let internal ← innerValue root.1
  assertT (internal.1 = 0)
  let left ← innerValue internal.2.1
  assertT (left.1 = 1)
  let right ← innerValue left.2.2
  assertT (right.1 = 2)

/-- The clear part of `test_traversal_1`, /repo/src/decision_tree.rs:792-823, and `test_traversal_2`, 839-870: number the nodes of `tree`, count, and
evaluate at `[2, 3]`; returns the numbered tree. -/
def testTraversalClear (tree : Tree) (expected : Nat) : Option Tree := do
  let root ← tree.fixIndex
  assertT (root.2 = 2)
  assertT (root.1.countLeaf = 4)
  assertT (root.1.countInternal = 3)
  assertT (root.1.maxFeatureIndex = 1)
  let y ← root.1.eval [2, 3]
  assertT (expected = y)
  pure root.1

/-- The tree of `test_traversal_1`, /repo/src/decision_tree.rs:793-814. -/
def traversalTree1 : Tree :=
  .internal ⟨2, 0, 0, .leq⟩ (.internal ⟨2, 1, 0, .leq⟩ (.leaf 0) (.internal ⟨3, 1, 0, .leq⟩ (.leaf 10) (.leaf 0))) (.leaf 0)

/-- The tree of `test_traversal_2`, /repo/src/decision_tree.rs:840-861. -/
def traversalTree2 : Tree :=
  .internal ⟨2, 0, 0, .leq⟩ (.internal ⟨2, 1, 0, .leq⟩ (.leaf 1) (.internal ⟨1, 1, 0, .leq⟩ (.leaf 1) (.leaf 0))) (.leaf 1)

/-- `test_traversal_1`, /repo/src/decision_tree.rs:782-826. -/
def testTraversal1 (ctx : Ctx) (ceilLog2 : Nat → Nat) (fft : Fft n) (sg : SecretGen) (g : Gen n) : Option Unit := do
  let root ← testTraversalClear traversalTree1 10
  let _ ← simulate fft ctx ceilLog2 (genRlweSk n sg).1 root [[2, 3]] g
  pure ()

/-- `test_traversal_2`, /repo/src/decision_tree.rs:829-873. -/
def testTraversal2 (ctx : Ctx) (ceilLog2 : Nat → Nat) (fft : Fft n) (sg : SecretGen) (g : Gen n) : Option Unit := do
  let root ← testTraversalClear traversalTree2 0
  let _ ← simulate fft ctx ceilLog2 (genRlweSk n sg).1 root [[2, 3]] g
  pure ()

/-- `gen_line` of `test_traversal_long`, /repo/src/decision_tree.rs:879-892. -/
def genLine : Nat → Tree
  | 0 => .leaf 1
  | d + 1 => .internal ⟨10, 0, 0, .leq⟩ (genLine d) (.leaf 0)

/-- `test_traversal_long`, /repo/src/decision_tree.rs:876-908; the two calls of `simulate` create contexts (and generators) of their own. -/
def testTraversalLong (ctx : Ctx) (ceilLog2 : Nat → Nat) (fft : Fft n) (sg1 sg2 : SecretGen) (g1 g2 : Gen n) : Option Unit := do
  let root ← (genLine 10).fixIndex
  assertT (root.2 = 10 - 1)
  let y ← root.1.eval [1]
  assertT (1 = y)
  let _ ← simulate fft ctx ceilLog2 (genRlweSk n sg1).1 root.1 [[1]] g1
  let y ← root.1.eval [11]
  assertT (0 = y)
  let _ ← simulate fft ctx ceilLog2 (genRlweSk n sg2).1 root.1 [[11]] g2
  pure ()

/-- `test_depth`, /repo/src/decision_tree.rs:911-915. -/
def testDepth : Option Unit := do
  assertT ((Tree.newWithDepth 0).countDepth = 0)
  assertT ((Tree.newWithDepth 1).countDepth = 1)
  assertT ((Tree.newWithDepth 3).countDepth = 3)

/-- One block of `test_demux`, /repo/src/decision_tree.rs:944-978, 980-1014: two encryptions of `bit`, and a one expected at `pos`. -/
def testDemuxBlock (ctx : Ctx) (fft : Fft n) (s : Poly n) (bit : Scalar) (pos : Nat) (g : Gen n) : Option (Gen n) := do
  let b0 := encryptConstantRgsw s ctx.baseLog ctx.levelCount bit g
  let b1 := encryptConstantRgsw s ctx.baseLog ctx.levelCount bit b0.2
  let cts ← demux fft ctx [b0.1, b1.1]
  assertT (cts.length = 4)
  let c0 ← cts[0]?
  let c1 ← cts[1]?
  let c2 ← cts[2]?
  let c3 ← cts[3]?
  let unit ← genUnitPt n
  let expect : Nat → Poly n := fun j => if j = pos then unit else genZeroPt n
  assertT (decryptDecodeRlwe ctx s c0 = expect 0)
  assertT (decryptDecodeRlwe ctx s c1 = expect 1)
  assertT (decryptDecodeRlwe ctx s c2 = expect 2)
  assertT (decryptDecodeRlwe ctx s c3 = expect 3)
  let _ ← computeNoiseEncodedMax ctx.codec s c1 (genZeroPt n)
  pure b1.2

/-- `test_demux`, /repo/src/decision_tree.rs:939-1015. -/
def testDemux (ctx : Ctx) (fft : Fft n) (sg : SecretGen) (g : Gen n) : Option Unit := do
  let s := (genRlweSk n sg).1
  let g ← testDemuxBlock ctx fft s 1 0 g
  let _ ← testDemuxBlock ctx fft s 0 3 g
  pure ()

/-- `test_demux_long`, /repo/src/decision_tree.rs:1018-1057. -/
def testDemuxLong (ctx : Ctx) (fft : Fft n) (sg : SecretGen) (g : Gen n) : Option Unit := do
  let s := (genRlweSk n sg).1
  let _ ← forT (fun i g => do
    let bits ← bitDecomposedRgsw ctx s i (2 ^ 4) g
    let cts ← demux fft ctx bits.1
    assertT (cts.length = 2 ^ 4)
    let unit ← genUnitPt n
    forT (fun j _ => do
      let c ← cts[j]?
      if j = i then assertT (decryptDecodeRlwe ctx s c = unit) else assertT (decryptDecodeRlwe ctx s c = genZeroPt n)) (List.range (2 ^ 4)) ()
    let first ← cts[0]?
    let _ ← computeNoiseEncodedMax ctx.codec s first unit
    let last ← cts[2 ^ 4 - 1]?
    let _ ← computeNoiseEncodedMax ctx.codec s last (genZeroPt n)
    pure bits.2) (List.range (2 ^ 4)) g
  pure ()

end Panacea
