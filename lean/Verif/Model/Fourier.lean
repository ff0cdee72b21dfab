import Verif.Model.Keyswitch
import Mathlib.Analysis.SpecialFunctions.Complex.Log
import Mathlib.RingTheory.RootsOfUnity.Complex

/-!
# The Fourier domain with its actual data: /repo/src/rlwe.rs:720-913, 1077-1179

The other models keep a Fourier-domain polynomial as the formal sum of products it stands for (`FPoly`) and give the transformation back
an arbitrary error.  Here a Fourier-domain polynomial is what the code stores, a vector of `n/2` complex numbers, and the code's loops
over these vectors are written out.  The four operations the code takes from libraries are parameters with explicit accuracy
(`FloatFft`, `FloatFft.Accurate`): the forward and backward transform of concrete-core and the complex multiplication and addition of
concrete-fft.  Numbers are real numbers: overflow, subnormals and NaN are not modelled.
-/

namespace Panacea
open Complex
variable {n : Nat}

/-- `FourierPolynomial { data }`, `n/2` complex numbers (/repo/src/rlwe.rs:1089-1094, 729-735). -/
abbrev FVec (n : Nat) := Fin (n / 2) → ℂ

namespace Fourier

/-- The primitive `2n`-th root of unity `exp(i pi / n)`  (concrete-core / concrete-fft, called by /repo/src/rlwe.rs:643-691, 740-770, 1077-1157). -/
noncomputable def zeta (n : Nat) : ℂ := Complex.exp (Real.pi * I / n)

/-- Coefficient `k` of a vector as a total function  (support, /repo/src/rlwe.rs:1077-1157). -/
def at0 (x : Fin n → ℝ) (k : Nat) : ℝ := if h : k < n then x ⟨k, h⟩ else 0

/-- The exact negacyclic transform concrete-core computes (`Fft::forward_as_*`): fold the two halves into one complex vector, multiply by
the twisties `zeta^k`, discrete Fourier transform of size `n/2`  (called by /repo/src/rlwe.rs:1077-1157, 595-640). -/
noncomputable def forward (x : Fin n → ℝ) : FVec n := fun j =>
  ∑ k : Fin (n / 2), ((at0 x k.val : ℂ) + (at0 x (k.val + n / 2) : ℂ) * I) * zeta n ^ k.val * (zeta n ^ 4) ^ (j.val * k.val)

/-- The exact inverse (`Fft::backward_*`): inverse discrete Fourier transform, inverse twisties  (called by /repo/src/rlwe.rs:740-770, 1077-1157). -/
noncomputable def folded (z : FVec n) (k : Nat) : ℂ :=
  (∑ j : Fin (n / 2), z j * ((zeta n ^ 4) ^ (j.val * k))⁻¹) * (zeta n ^ k)⁻¹ / (n / 2 : Nat)

/-- Real and imaginary part are the two halves of the coefficients  (called by /repo/src/rlwe.rs:740-770, 1077-1157). -/
noncomputable def backward (z : FVec n) : Fin n → ℝ := fun k =>
  if k.val < n / 2 then (folded z k.val).re else (folded z (k.val - n / 2)).im

/-- `forward_as_integer` converts a word to its signed value  (called by /repo/src/rlwe.rs:1077-1157). -/
noncomputable def asInteger (p : Poly n) : Fin n → ℝ := fun k => ((p k).toInt : ℝ)

/-- `forward_as_torus` converts a word to its signed value divided by `2^64`  (called by /repo/src/rlwe.rs:1077-1157). -/
noncomputable def asTorus (p : Poly n) : Fin n → ℝ := fun k => ((p k).toInt : ℝ) / 2 ^ 64

/-- `f64::round`: nearest integer, ties away from zero  (concrete-core, behind /repo/src/rlwe.rs:740-770). -/
noncomputable def roundAway (x : ℝ) : ℤ := if 0 ≤ x then ⌊x + 1 / 2⌋ else ⌈x - 1 / 2⌉

/-- Conversion of a real to a torus word (`FromTorus` of concrete-core, used by `backward_as_torus`): the fractional part times `2^64`,
rounded, saturated as a signed word  (behind /repo/src/rlwe.rs:740-770, 1077-1157). -/
noncomputable def torusRound (x : ℝ) : Scalar :=
  BitVec.ofInt 64 (min (2 ^ 63 - 1) (roundAway ((x - roundAway x) * 2 ^ 64)))

end Fourier

/-- The operations on Fourier-domain data that come from libraries, as some implementation computes them  (/repo/src/rlwe.rs:1077-1179). -/
structure FloatFft (n : Nat) where
  /-- `Fft::forward_as_torus` -/
  forwardAsTorus : Poly n → FVec n
  /-- `Fft::forward_as_integer` -/
  forwardAsInteger : Poly n → FVec n
  /-- `Complex<f64>` multiplication -/
  mul : ℂ → ℂ → ℂ
  /-- `Complex<f64>` addition -/
  add : ℂ → ℂ → ℂ
  /-- the inverse transform inside `Fft::backward_as_torus`, before conversion to words -/
  backward : FVec n → Fin n → ℝ

namespace FloatFft

/-- Relative accuracy `u` of every operation: a transform errs by at most `u` times the sum of the absolute values it adds up, a
multiplication by `u` times the product, an addition by `u` times the sum of absolute values  (an assumption about the libraries behind /repo/src/rlwe.rs:1077-1179, see C65). -/
structure Accurate (F : FloatFft n) (u : ℝ) : Prop where
  nonneg : 0 ≤ u
  torus : ∀ p j, ‖F.forwardAsTorus p j - Fourier.forward (Fourier.asTorus p) j‖ ≤ u * ∑ k, |Fourier.asTorus p k|
  integer : ∀ p j, ‖F.forwardAsInteger p j - Fourier.forward (Fourier.asInteger p) j‖ ≤ u * ∑ k, |Fourier.asInteger p k|
  mul : ∀ a b, ‖F.mul a b - a * b‖ ≤ u * (‖a‖ * ‖b‖)
  add : ∀ a b, ‖F.add a b - (a + b)‖ ≤ u * (‖a‖ + ‖b‖)
  backward : ∀ z k, |F.backward z k - Fourier.backward z k| ≤ u * ((∑ j, ‖z j‖) / (n / 2 : Nat))

/-- `Fft::backward_as_torus`: overwrites the polynomial  (/repo/src/rlwe.rs:740-770, 1077-1116). -/
noncomputable def backwardAsTorus (F : FloatFft n) (z : FVec n) : Poly n := ⟨fun k => Fourier.torusRound (F.backward z k)⟩

/-- `Fft::add_backward_as_torus`: wrapping addition to the polynomial  (/repo/src/rlwe.rs:1118-1157). -/
noncomputable def addBackwardAsTorus (F : FloatFft n) (out : Poly n) (z : FVec n) : Poly n :=
  ⟨fun k => out k + Fourier.torusRound (F.backward z k)⟩

/-- `fourier_update_with_mul`, /repo/src/rlwe.rs:1077-1116. -/
noncomputable def updateWithMul (F : FloatFft n) (p1 p2 : Poly n) : Poly n :=
  let fp1 := F.forwardAsTorus p1
  let fp2 := F.forwardAsInteger p2
  F.backwardAsTorus fun j => F.mul (fp1 j) (fp2 j)

/-- `fourier_update_with_mul_acc`, /repo/src/rlwe.rs:1118-1157. -/
noncomputable def updateWithMulAcc (F : FloatFft n) (out p1 p2 : Poly n) : Poly n :=
  let fp1 := F.forwardAsTorus p1
  let fp2 := F.forwardAsInteger p2
  F.addBackwardAsTorus out fun j => F.mul (fp1 j) (fp2 j)

/-- `pre_fourier_update_with_multiply_accumulate`, /repo/src/rlwe.rs:1159-1167. -/
def multiplyAccumulate (F : FloatFft n) (out fp1 fp2 : FVec n) : FVec n := fun j => F.add (out j) (F.mul (fp1 j) (fp2 j))

/-- `pre_fourier_update_with_two_multiply_accumulate`, /repo/src/rlwe.rs:1169-1179. -/
def twoMultiplyAccumulate (F : FloatFft n) (out fp1 fp2 fp3 fp4 : FVec n) : FVec n :=
  fun j => F.add (out j) (F.add (F.mul (fp1 j) (fp2 j)) (F.mul (fp3 j) (fp4 j)))

end FloatFft

/-- `struct FourierRLWECiphertext` with its data, /repo/src/rlwe.rs:722-725. -/
structure FourierCt (n : Nat) where
  mask : FVec n
  body : FVec n

namespace FloatFft

/-- `FourierRLWECiphertext::backward_as_torus`, /repo/src/rlwe.rs:740-768. -/
noncomputable def ctBackward (F : FloatFft n) (c : FourierCt n) : RLWE n := ⟨F.addBackwardAsTorus 0 c.mask, F.addBackwardAsTorus 0 c.body⟩

/-- The rows of a `FourierRLWEKeyswitchKey`, transformed once by `into_fourier`: /repo/src/rlwe.rs:594-640. -/
def rowForward (F : FloatFft n) (r : RLWE n) : FourierCt n := ⟨F.forwardAsTorus r.mask, F.forwardAsTorus r.body⟩

/-- The `loop` of the Fourier `keyswitch_ciphertext`, /repo/src/rlwe.rs:857-912; `none` = `unwrap` on exhausted terms. -/
def keyswitchLoop (F : FloatFft n) : List (FourierCt n) → List (Poly n) → FourierCt n → Option (FourierCt n)
  | [], _, after => some after
  | [first], terms, after =>
    match terms with
    | t1 :: _ =>
      let f1 := F.forwardAsInteger t1
      some ⟨F.multiplyAccumulate after.mask first.mask f1, F.multiplyAccumulate after.body first.body f1⟩
    | [] => none
  | first :: second :: rest, terms, after =>
    match terms with
    | t1 :: t2 :: terms' =>
      let f1 := F.forwardAsInteger t1
      let f2 := F.forwardAsInteger t2
      keyswitchLoop F rest terms' ⟨F.twoMultiplyAccumulate after.mask first.mask f1 second.mask f2,
        F.twoMultiplyAccumulate after.body first.body f1 second.body f2⟩
    | _ => none

/-- `FourierRLWEKeyswitchKey::keyswitch_ciphertext`, /repo/src/rlwe.rs:783-913. -/
def keyswitchCiphertext (F : FloatFft n) (K : KeyswitchKey n) (before : RLWE n) : Option (FourierCt n) :=
  let second := F.forwardAsTorus before.body
  let terms := (maskTerms K.baseLog K.levelCount before.mask).map fun t => (⟨fun k => 0 - t k⟩ : Poly n)
  keyswitchLoop F (K.ksks.map F.rowForward).reverse terms ⟨fun _ => 0, second⟩

/-- The ways the code obtains a Fourier-domain vector, with the formal sum of products it stands for and the largest number of roundings
on the way to an entry: clearing (/repo/src/rlwe.rs:818-820), `forward_as_torus` (811-825), products (1107-1109, 1152-1154 and inside
concrete-core's `external_product`, where the digits are the integers), and sums of these (1164-1166, 1176-1178). -/
inductive Computed (F : FloatFft n) : FPoly n → Nat → FVec n → Prop
  | zero : Computed F [] 0 (fun _ => 0)
  | torus (p : Poly n) : Computed F [(p, 1)] 1 (F.forwardAsTorus p)
  | prod (p q : Poly n) : Computed F [(p, q)] 3 (fun j => F.mul (F.forwardAsTorus p j) (F.forwardAsInteger q j))
  | prodSwap (p q : Poly n) : Computed F [(q, p)] 3 (fun j => F.mul (F.forwardAsTorus p j) (F.forwardAsInteger q j))
  | add {ts us : FPoly n} {d e : Nat} {z w : FVec n} (hz : Computed F ts d z) (hw : Computed F us e w) :
      Computed F (ts ++ us) (max d e + 1) (fun j => F.add (z j) (w j))
  | mono {ts : FPoly n} {d e : Nat} {z : FVec n} (hz : Computed F ts d z) (h : d ≤ e) : Computed F ts e z

/-- Accumulating a list of products with `pre_fourier_update_with_multiply_accumulate`, starting from zero  (/repo/src/rlwe.rs:783-915, 1159-1179). -/
def accumulate (F : FloatFft n) (ts : FPoly n) : FVec n :=
  ts.foldl (fun acc t => F.multiplyAccumulate acc (F.forwardAsTorus t.1) (F.forwardAsInteger t.2)) fun _ => 0

end FloatFft

end Panacea
