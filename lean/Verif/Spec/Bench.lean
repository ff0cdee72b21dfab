import Verif.Spec.Keyswitch

/-! # Vocabulary for the benchmark suite -/

namespace Panacea
variable {n : Nat}

/-- The parameters with which the benchmarks make sense in the ring of size `2^d` and with plaintext modulus `t`: the codec accepts `t`, all
decompositions are non-empty and fit in 64 bits (for the expansion with room for the factor `2^d`), and the ring has a degree above the half. -/
structure BenchParams (ctx : Ctx) (t : Scalar) (d : Nat) : Prop where
  codec : Codec.new t = some ctx.codec
  bl : 1 ≤ ctx.baseLog
  lv : 1 ≤ ctx.levelCount
  lt : ctx.baseLog * ctx.levelCount < 64
  room : ctx.baseLog * ctx.levelCount + d ≤ 64
  ksBl : 1 ≤ ctx.ksBaseLog
  ksLv : 1 ≤ ctx.ksLevelCount
  ksLt : ctx.ksBaseLog * ctx.ksLevelCount < 64
  negBl : ctx.negsBaseLog = ctx.baseLog
  negLv : 1 ≤ ctx.negsLevelCount
  negLt : ctx.negsBaseLog * ctx.negsLevelCount < 64
  two : 2 ≤ d
  small : d < 64

/-- The representative of `z` modulo 3 in -1, 0, 1, as a scalar (`-1` is the largest scalar). -/
def balanced3 (z : Int) : Scalar := if z % 3 = 0 then 0 else if z % 3 = 1 then 1 else -1

/-- Noise of the ordinary and the Fourier key switch and of the key switch through RGSW, with the context's `base_log`/`level_count`. -/
def benchKsNoise (ctx : Ctx) (n B phi : Nat) : Nat :=
  ksNoise n ctx.baseLog ctx.levelCount B (ctx.levelCount * fftNoise n phi (2 ^ (ctx.baseLog - 1)))
/-- See `benchKsNoise`. -/
def benchKsFourierNoise (ctx : Ctx) (n B phi : Nat) : Nat :=
  ksNoise n ctx.baseLog ctx.levelCount B (fftNoise n phi (1 + ctx.levelCount * 2 ^ (ctx.baseLog - 1)))
/-- See `benchKsNoise`. -/
def benchKsGswNoise (ctx : Ctx) (n B phi : Nat) : Nat := extNoise n ctx.baseLog ctx.levelCount B phi 1

/-- Noise of `trace1_fourier` of a fresh encryption. -/
def benchTraceNoise (ctx : Ctx) (n B phi : Nat) : Nat :=
  n * B + (n - 1) * ksNoise n ctx.ksBaseLog ctx.ksLevelCount B (fftNoise n phi (1 + ctx.ksLevelCount * 2 ^ (ctx.ksBaseLog - 1)))

/-- Noise of `trace1` of a fresh encryption. -/
def benchTraceSlowNoise (ctx : Ctx) (n B phi : Nat) : Nat :=
  n * B + (n - 1) * ksNoise n ctx.ksBaseLog ctx.ksLevelCount B (ctx.ksLevelCount * fftNoise n phi (2 ^ (ctx.ksBaseLog - 1)))

/-- What an in-place comparison with `d` multiplies the message by: `1 + X^(-1) + ... + X^(-d)`, where `X^(-i) = -X^(n-i)`. -/
noncomputable def leqFactor (n d : Nat) : Poly n := -∑ i ∈ Finset.range (d + 1), Spec.X n ^ (n - i)

/-- Noise after `k` in-place comparisons with `d`, starting from `e`. -/
def benchLeqNoise (n phi d e : Nat) : Nat → Nat
  | 0 => e
  | k + 1 => (d + 1) * benchLeqNoise n phi d e k + fftNoise n phi 1

end Panacea
