import Verif.Model.Keyswitch
import Verif.Model.Oram
import Verif.Model.Context

/-!
# The benchmark suite, /repo/benches/my_benchmark.rs

Every benchmark prepares keys and ciphertexts with a fresh context and then hands a closure to criterion, which runs it some number `k` of
times on the same captured buffers.  A benchmark is modelled as a function of the context, the secret generator, the other generators, the
rounding of the Fourier transform and `k`; its result is the final content of the captured output (`none` = panic).

Simplifications: criterion itself (measuring, `c.bench_function`) is not modelled beyond "the closure runs `k` times"; the fft buffers are
scratch space (see `Model/Poison`); the standard deviation is part of the generator.  The order of draws from each generator is the
code's.  `Context::new(TFHEParameters::default())` is the argument `ctx`, instantiated in `Props/Bench`.
-/

namespace Panacea
variable {n : Nat}

/-- `b.iter(|| ..)` running its closure `k` times on the captured state, as in /repo/benches/my_benchmark.rs:45. -/
def benchIter {σ : Type} (f : σ → Option σ) : Nat → σ → Option σ
  | 0, x => some x
  | k + 1, x =>
    match f x with
    | none => none
    | some y => benchIter f k y

/-- `enc_benchmark`, /repo/benches/my_benchmark.rs:229-241: the last ciphertext and the generator. -/
def encBenchmark (ctx : Ctx) (sg : SecretGen) (g : Gen n) (k : Nat) : Option (RLWE n × Gen n) :=
  let s := (genRlweSk n sg).1
  let pt := genBinaryPt g
  benchIter (fun st => encodeEncryptRlwe ctx s pt.1 st.2) k (0, pt.2)

/-- `dec_benchmark`, /repo/benches/my_benchmark.rs:243-257: the plaintext buffer. -/
def decBenchmark (ctx : Ctx) (sg : SecretGen) (g : Gen n) (k : Nat) : Option (Poly n) :=
  let s := (genRlweSk n sg).1
  let pt := genBinaryPt g
  match encodeEncryptRlwe ctx s pt.1 pt.2 with
  | none => none
  | some (ct, _) => benchIter (fun _ => some (decryptDecodeRlwe ctx s ct)) k 0

/-- `external_product_benchmark`, /repo/benches/my_benchmark.rs:212-227. -/
def externalProductBenchmark (ctx : Ctx) (fft : Fft n) (sg : SecretGen) (g : Gen n) (k : Nat) : Option (RLWE n) :=
  let s := (genRlweSk n sg).1
  let gsw := encryptConstantRgsw s ctx.baseLog ctx.levelCount 1 g
  let ct0 := encryptConstantRlwe s 0 gsw.2
  benchIter (fun out => some (externalProduct fft gsw.1 out ct0.1)) k 0

/-- `cmux_benchmark`, /repo/benches/my_benchmark.rs:193-210. -/
def cmuxBenchmark (ctx : Ctx) (fft : Fft n) (sg : SecretGen) (g : Gen n) (k : Nat) : Option (RLWE n) :=
  let s := (genRlweSk n sg).1
  let gsw := encryptConstantRgsw s ctx.baseLog ctx.levelCount 1 g
  let ct0 := encryptConstantRlwe s 0 gsw.2
  let ct1 := encryptConstantRlwe s 1 ct0.2
  benchIter (fun out => some (cmux fft gsw.1 out ct0.1 ct1.1)) k 0

/-- The two keys of the key switching benchmarks, /repo/benches/my_benchmark.rs:113-114, 142-143, 169-170: `(sk_after, sk_before)`. -/
def benchKeys (n : Nat) (sg : SecretGen) : Poly n × Poly n := ((genRlweSk n sg).1, (genRlweSk n (genRlweSk n sg).2).1)

/-- The preparation of the key switching benchmarks, /repo/benches/my_benchmark.rs:120-126, 129-130 (148-154, 157-158; 175-181, 183-184): a
key switching key from `sk_before` to `sk_after` and an encryption of a random ternary polynomial under `sk_before`. -/
def benchKeyswitchSetup (ctx : Ctx) (sg : SecretGen) (g : Gen n) : Option (KeyswitchKey n × RLWE n) :=
  let ks := benchKeys n sg
  let ksk := (KeyswitchKey.allocate n ctx.baseLog ctx.levelCount).fillWithKeyswitchKey ks.2 ks.1 g
  let msg := genTernaryPtxt ksk.2
  match ternaryEncryptRlwe ks.2 msg.1 msg.2 with
  | none => none
  | some (ct, _) => some (ksk.1, ct)

/-- The random message of the key switching benchmarks, /repo/benches/my_benchmark.rs:129, 157, 183. -/
def benchKeyswitchMessage (ctx : Ctx) (sg : SecretGen) (g : Gen n) : Poly n :=
  (genTernaryPtxt ((KeyswitchKey.allocate n ctx.baseLog ctx.levelCount).fillWithKeyswitchKey (benchKeys n sg).2 (benchKeys n sg).1 g).2).1

/-- `keyswitch_benchmark`, /repo/benches/my_benchmark.rs:167-191. -/
def keyswitchBenchmark (ctx : Ctx) (fft : Fft n) (sg : SecretGen) (g : Gen n) (k : Nat) : Option (RLWE n) :=
  match benchKeyswitchSetup ctx sg g with
  | none => none
  | some (ksk, ct) => benchIter (fun after => ksk.keyswitchCiphertext fft after ct) k 0

/-- `keyswitch_fourier_benchmark`, /repo/benches/my_benchmark.rs:139-165. -/
def keyswitchFourierBenchmark (ctx : Ctx) (sg : SecretGen) (g : Gen n) (k : Nat) : Option (FRLWE n) :=
  match benchKeyswitchSetup ctx sg g with
  | none => none
  | some (ksk, ct) => benchIter (fun after => ksk.fourierKeyswitchCiphertext after ct) k ⟨[], []⟩

/-- `keyswitch_gsw_benchmark`, /repo/benches/my_benchmark.rs:111-137. -/
def keyswitchGswBenchmark (ctx : Ctx) (fft : Fft n) (sg : SecretGen) (g : Gen n) (k : Nat) : Option (RLWE n) :=
  match benchKeyswitchSetup ctx sg g with
  | none => none
  | some (ksk, ct) =>
    match RGSW.fromKeyswitchKey ksk with
    | none => none
    | some fast => benchIter (fun after => some (fast.keyswitchCiphertext fft after ct)) k 0

/-- The preparation of the expansion benchmarks, /repo/benches/my_benchmark.rs:74-83, 94-102: the `-s` encryption, the trace keys and the
decomposed ciphertexts of 1.  The unused `test_ct` is encrypted in between, which moves the generator. -/
def benchExpandSetup (ctx : Ctx) (sg : SecretGen) (g : Gen n) : Option (RGSW n × KskMap n × List (RLWE n)) :=
  let s := (genRlweSk n sg).1
  match negGsw ctx s g with
  | none => none
  | some (negS, g) =>
    match genAllSubsKsk ctx s g with
    | none => none
    | some (ksks, g) =>
      let pt := genBinaryPt g
      match encodeEncryptRlwe ctx s pt.1 pt.2 with
      | none => none
      | some (_, g) =>
        match makeDecomposedRlweCt ctx s 1 g with
        | none => none
        | some (cs, _) => some (negS, ksks, cs)

/-- `expand_benchmark`, /repo/benches/my_benchmark.rs:92-109.  The code drops the returned ciphertext; here the last one is kept. -/
def expandBenchmark (ctx : Ctx) (fft : Fft n) (sg : SecretGen) (g : Gen n) (k : Nat) : Option (Option (RGSW n)) :=
  match benchExpandSetup ctx sg g with
  | none => none
  | some (negS, ksks, cs) => benchIter (fun _ => (expand fft ctx cs ksks negS).map some) k none

/-- `expand_fourier_benchmark`, /repo/benches/my_benchmark.rs:72-90.  The code drops the returned ciphertext; here the last one is kept. -/
def expandFourierBenchmark (ctx : Ctx) (fft : Fft n) (sg : SecretGen) (g : Gen n) (k : Nat) : Option (Option (RGSW n)) :=
  match benchExpandSetup ctx sg g with
  | none => none
  | some (negS, ksks, cs) => benchIter (fun _ => (expandFourier fft ctx cs ksks negS).map some) k none

/-- `less_eq_benchmark`, /repo/benches/my_benchmark.rs:51-70: the ciphertext is changed in place in every iteration.  Writing the monomial
of degree `n / 2` panics when `n = 0` (`get_mut_monomial`). -/
def lessEqBenchmark (ctx : Ctx) (fft : Fft n) (sg : SecretGen) (g : Gen n) (k : Nat) : Option (RLWE n) :=
  let s := (genRlweSk n sg).1
  let m := n / 2
  if m < n then
    match encodeEncryptRlwe ctx s (Poly.set 0 m 1) g with
    | none => none
    | some (ct, _) => benchIter (fun ct => ct.lessEqThan fft (m + 1)) k ct
  else none

/-- `trace1_fourier_benchmark`, /repo/benches/my_benchmark.rs:20-49: the encoded coefficients are divided by `n` (a panic for `n = 0`, where
there are no coefficients) before encryption. -/
def trace1FourierBenchmark (ctx : Ctx) (fft : Fft n) (sg : SecretGen) (g : Gen n) (k : Nat) : Option (RLWE n) :=
  let pt := genBinaryPt g
  match ctx.codec.polyEncode pt.1 with
  | none => none
  | some enc =>
    let enc : Poly n := ⟨fun j => enc j / BitVec.ofNat 64 n⟩
    let s := (genRlweSk n sg).1
    let ct := encryptRlwe s enc pt.2
    match genAllSubsKsk ctx s ct.2 with
    | none => none
    | some (ksks, _) => benchIter (fun _ => trace1Fourier fft ksks ct.1) k 0

end Panacea
