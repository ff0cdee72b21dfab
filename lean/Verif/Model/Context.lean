import Verif.Model.Oram
import Verif.Model.Lwe

/-!
# Plaintext and key generators of `Context`: /repo/src/context.rs

`gen_binary_pt` and `gen_pt` are `genBinaryPt` and `genPt` in `Model/Oram`.
-/

namespace Panacea
variable {n : Nat}

/-- `Context::gen_scalar_binary_pt`, /repo/src/context.rs:182-184: one uniform bit of the random generator (the constant coefficient of the
plaintext stream modulo 2). -/
def genScalarBinaryPt (g : Gen n) : Scalar × Gen n := ((g.plains g.pos).get 0 % 2, g.next)

/-- `Context::gen_demuxed_pt`, /repo/src/context.rs:187-194; `none` = `get_mut_monomial` out of range. -/
def genDemuxedPt (n i : Nat) : Option (Poly n) := if i < n then some (Poly.set 0 i 1) else none

/-- One uniform ternary word (concrete-core's uniform ternary distribution yields 0, 1 or the word of -1), from a stream word  (/repo/src/context.rs:197-203). -/
def ternaryOf (x : Scalar) : Scalar := if x % 3 = 0 then 0 else if x % 3 = 1 then 1 else -1

/-- `Context::gen_ternary_ptxt`, /repo/src/context.rs:197-203. -/
def genTernaryPtxt (g : Gen n) : Poly n × Gen n := (⟨fun k => ternaryOf (g.plains g.pos k)⟩, g.next)

/-- `Context::gen_unit_pt`, /repo/src/context.rs:206-213; `none` = ring of size 0. -/
def genUnitPt (n : Nat) : Option (Poly n) := if 0 < n then some (Poly.set 0 0 1) else none

/-- `Context::gen_scalar_unit_pt`, /repo/src/context.rs:216-218. -/
def genScalarUnitPt : Scalar := 1

/-- `Context::gen_zero_pt`, /repo/src/context.rs:221-223. -/
def genZeroPt (n : Nat) : Poly n := 0

/-- `Context::gen_scalar_zero_pt`, /repo/src/context.rs:226-228. -/
def genScalarZeroPt : Scalar := 0

/-- The secret generator of `Context` (/repo/src/context.rs:51): an arbitrary stream of words with a position. -/
structure SecretGen where
  words : Nat → Scalar
  pos : Nat

/-- `Context::gen_rlwe_sk`, /repo/src/context.rs:231-233, /repo/src/rlwe.rs:310-319: `n` uniform bits of the secret generator. -/
def genRlweSk (n : Nat) (g : SecretGen) : Poly n × SecretGen := (⟨fun k => g.words (g.pos + k.val) % 2⟩, ⟨g.words, g.pos + n⟩)

/-- `Context::gen_lwe_sk`, /repo/src/context.rs:236-238, /repo/src/lwe.rs:91-96: as many bits as the ring size (`lwe_dim`,
/repo/src/context.rs:147-149). -/
def genLweSk (n : Nat) (g : SecretGen) : Poly n × SecretGen := (⟨fun k => g.words (g.pos + k.val) % 2⟩, ⟨g.words, g.pos + n⟩)

/-- `RLWESecretKey::zero`, /repo/src/rlwe.rs:322-327. -/
def zeroSk (n : Nat) : Poly n := 0

end Panacea
