import Verif.Spec.Poly
import Verif.Model.Rlwe

/-!
# What it means for a ciphertext to encrypt a message with bounded noise

Everything is stated with `decryptRlwe` (the API's decryption), the ring of polynomials and centred absolute values.
-/

namespace Panacea
variable {n : Nat}

/-- `c` decrypts under `s` to `m` up to an error of at most `e` per coefficient. -/
def Enc (s : Poly n) (c : RLWE n) (m : Poly n) (e : Nat) : Prop := Small (decryptRlwe s c - m) e

/-- `C` is a gadget ciphertext under `s`: at every level `l` (1-based) the first row decrypts to `2^(64-bl*l) * t0` and the
second one to `2^(64-bl*l) * t1`, up to errors of at most `E`. -/
def GadgetEnc (s : Poly n) (C : RGSW n) (t0 t1 : Poly n) (E : Nat) : Prop :=
  ∀ i r, C.rows[i]? = some r →
    Enc s r.1 (Poly.const n (gadget C.baseLog (i + 1)) * t0) E ∧
    Enc s r.2 (Poly.const n (gadget C.baseLog (i + 1)) * t1) E

/-- `C` is an RGSW encryption of the polynomial `mu` under `s` with row errors at most `E`. -/
def EncG (s : Poly n) (C : RGSW n) (mu : Poly n) (E : Nat) : Prop := GadgetEnc s C (-(s * mu)) mu E

/-- The decomposition parameters of `C` are usable. -/
structure RGSW.WF (C : RGSW n) : Prop where
  bl : 1 ≤ C.baseLog
  lv : 1 ≤ C.levelCount
  lt : C.baseLog * C.levelCount < 64

/-- Every noise polynomial the generator will ever produce is at most `B`. -/
def Gen.Bounded (g : Gen n) (B : Nat) : Prop := ∀ i, Small (g.noises i) B

/-- The size of a sum of products for the floating-point transform: of every product, the smaller of the two largest coefficients
(the other factor is taken to be full-range: its coefficients are below `2^63` in any case). -/
def FPoly.weight (ts : FPoly n) : Nat := (ts.map fun t => min (supNorm t.1) (supNorm t.2)).sum

/-- Floating-point rounding is *relative*: every inverse FFT has, per coefficient, an error of at most `phi` times the size of the sum of
products it transforms back; the code never sums more than 128 products (at most two per decomposition level) before transforming back.
`C65_refines` derives this from error bounds on the single floating-point operations. -/
def Fft.Bounded (fft : Fft n) (phi : Nat) : Prop := ∀ ts, ts.length ≤ 128 → Small (fft.err ts) (phi * FPoly.weight ts)

/-- What rounding contributes to the phase of a ciphertext whose mask and body were both transformed back from sums of size `w`. -/
def fftNoise (n phi w : Nat) : Nat := (1 + n) * (phi * w)

/-- A binary secret key (`generate_binary`). -/
def Binary (s : Poly n) : Prop := ∀ k, s k = 0 ∨ s k = 1

/-- Worst-case noise added by one external product: rounding, row noise, FFT error. `K` is the l1 norm of the RGSW message. -/
def extNoise (n bl lv E phi K : Nat) : Nat :=
  K * ((1 + n) * 2 ^ (63 - bl * lv)) + (2 * lv * (n * 2 ^ (bl - 1) * E) + fftNoise n phi (2 * lv * 2 ^ (bl - 1)))

end Panacea
