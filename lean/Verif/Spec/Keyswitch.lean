import Verif.Spec.Enc
import Verif.Model.Keyswitch

/-! # Key switching keys: what it means to be one, and noise bounds -/

namespace Panacea
variable {n : Nat}

/-- `K` is a key switching key from `before` to `s`: one row per level, level `l` (1-based) decrypting under `s` to
`2^(64-bl*l) * before` up to `E`. -/
structure IsKsk (s : Poly n) (K : KeyswitchKey n) (before : Poly n) (E : Nat) : Prop where
  len : K.ksks.length = K.levelCount
  row : ∀ i r, K.ksks[i]? = some r → Enc s r (Poly.const n (gadget K.baseLog (i + 1)) * before) E

/-- The decomposition parameters of `K` are usable. -/
structure KeyswitchKey.WF (K : KeyswitchKey n) : Prop where
  bl : 1 ≤ K.baseLog
  lv : 1 ≤ K.levelCount
  lt : K.baseLog * K.levelCount < 64

/-- Worst-case noise added by one key switch: rounding of the mask, row noise, FFT error `f`. -/
def ksNoise (n bl lv E f : Nat) : Nat := n * 2 ^ (63 - bl * lv) + (lv * (n * 2 ^ (bl - 1) * E) + f)

/-- Row noise of an expanded RGSW ciphertext: `eT` is the noise after the trace. -/
def expandNoise (n nbl nlv B phi eT : Nat) : Nat := n * eT + extNoise n nbl nlv B phi n

end Panacea
