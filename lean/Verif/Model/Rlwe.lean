import Verif.Model.Poly
import Verif.Model.Codec

/-!
# RLWE and RGSW ciphertexts: /repo/src/rlwe.rs, /repo/src/rgsw.rs, /repo/src/context.rs

Conventions.
* A function that takes `&mut` returns the new value.  An output buffer that is completely overwritten is not an argument;
  one that is accumulated into (or whose old contents might matter) is.
* The polynomial size is the type parameter `n`.
* `none` is a panic.  Simplification: the gadget shift `64 - base_log*level` is only meant for
  `base_log*level_count < 64` (concrete-core rejects larger products); no panic is modelled for it.
-/

namespace Panacea

variable {n : Nat}

/-! ## Randomness and parameters -/

/-- Encryption generator and random generator of `Context` (/repo/src/context.rs:49-62): arbitrary streams of masks,
noise polynomials and uniformly drawn plaintext polynomials with a shared position.  Nothing is assumed about them here;
theorems quantify over all streams whose noise obeys a bound. -/
structure Gen (n : Nat) where
  masks : Nat → Poly n
  noises : Nat → Poly n
  plains : Nat → Poly n
  pos : Nat

/-- Advance the generator  (/repo/src/context.rs:49-62 (`EncryptionRandomGenerator`, `RandomGenerator`)). -/
def Gen.next (g : Gen n) : Gen n := { g with pos := g.pos + 1 }

/-- The parameter part of `Context`, /repo/src/context.rs:49-62 (built at 123-145 from `TFHEParameters`). -/
structure Ctx where
  baseLog : Nat
  levelCount : Nat
  ksBaseLog : Nat
  ksLevelCount : Nat
  negsBaseLog : Nat
  negsLevelCount : Nat
  codec : Codec

/-- Run `f` on every element of a list, threading the generator (`iter().map(...)` with `ctx` captured mutably)  (/repo/src/rlwe.rs:474-487). -/
def mapGen {α β : Type} (f : α → Gen n → β × Gen n) : List α → Gen n → List β × Gen n
  | [], g => ([], g)
  | a :: as, g =>
    let r := f a g
    let rs := mapGen f as r.2
    (r.1 :: rs.1, rs.2)

/-- Same with possible panics  (/repo/src/decision_tree.rs:547-572). -/
def mapGenM {α β : Type} (f : α → Gen n → Option (β × Gen n)) : List α → Gen n → Option (List β × Gen n)
  | [], g => some ([], g)
  | a :: as, g =>
    match f a g with
    | none => none
    | some (b, g1) =>
      match mapGenM f as g1 with
      | none => none
      | some (bs, g2) => some (b :: bs, g2)

/-! ## Fourier transform -/

/-- A Fourier-domain polynomial as the formal sum of products it was accumulated from
(`FourierPolynomial`; a forward transform of `p` alone is the product `p * 1`)  (/repo/src/rlwe.rs:720-770). -/
abbrev FPoly (n : Nat) := List (Poly n × Poly n)

/-- The floating-point FFT: an arbitrary deterministic error for every accumulated sum of products  (/repo/src/rgsw.rs:64-102, /repo/src/rlwe.rs:740-770, 1077-1157). -/
structure Fft (n : Nat) where
  err : FPoly n → Poly n

/-- The exact polynomial a formal sum of products stands for  (/repo/src/rlwe.rs:740-770). -/
def FPoly.eval (ts : FPoly n) : Poly n := ts.foldr (fun t acc => t.1 * t.2 + acc) 0

/-- `backward_as_torus`: exact value plus rounding error  (/repo/src/rlwe.rs:740-770). -/
def Fft.backward (fft : Fft n) (ts : FPoly n) : Poly n := FPoly.eval ts + fft.err ts

/-- `fourier_update_with_mul`, /repo/src/rlwe.rs:1077-1116. -/
def fourierUpdateWithMul (fft : Fft n) (p1 p2 : Poly n) : Poly n := fft.backward [(p1, p2)]

/-- `fourier_update_with_mul_acc`, /repo/src/rlwe.rs:1118-1157. -/
def fourierUpdateWithMulAcc (fft : Fft n) (out p1 p2 : Poly n) : Poly n := out + fft.backward [(p1, p2)]

/-- `naive_update_with_mul_acc`, /repo/src/rlwe.rs:1181-1192. -/
def naiveUpdateWithMulAcc (out p1 p2 : Poly n) : Poly n := out + p1 * p2

/-- `naive_update_with_mul`, /repo/src/rlwe.rs:1194-1202. -/
def naiveUpdateWithMul (p1 p2 : Poly n) : Poly n := p1 * p2

/-! ## RLWE ciphertexts -/

/-- `struct RLWECiphertext`, /repo/src/rlwe.rs:38-41 (GLWE of dimension 1). -/
@[ext (iff := false)] structure RLWE (n : Nat) where
  mask : Poly n
  body : Poly n
deriving DecidableEq

namespace RLWE

/-- `allocate`, /repo/src/rlwe.rs:44-49 (also the effect of `clear`, 71-73). -/
instance : Zero (RLWE n) := ⟨⟨0, 0⟩⟩

/-- `update_with_add`, /repo/src/rlwe.rs:158-161. -/
instance : Add (RLWE n) := ⟨fun c d => ⟨c.mask + d.mask, c.body + d.body⟩⟩

/-- `update_with_sub`, /repo/src/rlwe.rs:163-166. -/
instance : Sub (RLWE n) := ⟨fun c d => ⟨c.mask - d.mask, c.body - d.body⟩⟩

/-- Wrapping negation of every word, /repo/src/rlwe.rs:284-286,295-297. -/
instance : Neg (RLWE n) := ⟨fun c => ⟨-c.mask, -c.body⟩⟩

/-- `update_mask_with_mul`, /repo/src/rlwe.rs:103-118. -/
def updateMaskWithMul (c : RLWE n) (other : Poly n) : RLWE n :=
  let polyBuffer := c.mask
  { c with mask := naiveUpdateWithMulAcc 0 polyBuffer other }

/-- `update_body_with_mul`, /repo/src/rlwe.rs:145-152: the body is copied to an unused buffer, cleared, then multiplied. -/
def updateBodyWithMul (c : RLWE n) (other : Poly n) : RLWE n :=
  let _polyBuffer := c.body
  let cleared : RLWE n := { c with body := 0 }
  { cleared with body := naiveUpdateWithMul cleared.body other }

/-- concrete-core `update_with_wrapping_unit_monomial_div` on one polynomial: division by `X^m`  (/repo/src/rlwe.rs:168-175). -/
def polyMonomialDiv (p : Poly n) (m : Nat) : Poly n :=
  ⟨fun k => (-1) ^ ((k.val + m) / n) * p.get ((k.val + m) % n)⟩

/-- `update_with_monomial_div`, /repo/src/rlwe.rs:168-176. -/
def monomialDiv (c : RLWE n) (m : Nat) : RLWE n := ⟨polyMonomialDiv c.mask m, polyMonomialDiv c.body m⟩

/-- The polynomial `t` of `less_eq_than`, /repo/src/rlwe.rs:247-254: `t[0] = 1`, then `t[n-d..n] = -1`. -/
def leqPoly (n d : Nat) : Poly n :=
  ⟨fun k => if n - d ≤ k.val then scalarMAX else if k.val = 0 then 1 else 0⟩

/-- `less_eq_than`, /repo/src/rlwe.rs:244-258. -/
def lessEqThan (fft : Fft n) (c : RLWE n) (d : Nat) : Option (RLWE n) :=
  if d < n then
    some ⟨fourierUpdateWithMul fft c.mask (leqPoly n d), fourierUpdateWithMul fft c.body (leqPoly n d)⟩
  else none

/-- The polynomial `t` of `eq_to`, /repo/src/rlwe.rs:265-273. -/
def eqPoly (n d : Nat) : Poly n := if d = 0 then Poly.set 0 0 1 else Poly.set 0 (n - d) scalarMAX

/-- `eq_to`, /repo/src/rlwe.rs:262-277. -/
def eqTo (fft : Fft n) (c : RLWE n) (d : Nat) : Option (RLWE n) :=
  if d < n then
    some ⟨fourierUpdateWithMul fft c.mask (eqPoly n d), fourierUpdateWithMul fft c.body (eqPoly n d)⟩
  else none

/-- `not_in_place`, /repo/src/rlwe.rs:282-289. -/
def notInPlace (c : RLWE n) : RLWE n :=
  let delta : Scalar := (1 : Scalar) <<< 63
  let c1 : RLWE n := ⟨⟨fun k => 0 - c.mask k⟩, ⟨fun k => 0 - c.body k⟩⟩
  { c1 with body := c1.body.set 0 (c1.body.get 0 + delta) }

/-- `not`, /repo/src/rlwe.rs:292-301: allocate (zero), subtract, add delta to the first body word. -/
def not (c : RLWE n) : RLWE n :=
  let delta : Scalar := (1 : Scalar) <<< 63
  let out : RLWE n := 0 - c
  { out with body := out.body.set 0 (out.body.get 0 + delta) }

end RLWE

/-! ## Codec on polynomials -/

/-- `Codec::poly_encode`, /repo/src/codec.rs:78-86: encode every coefficient (any panic is a panic). -/
def Codec.polyEncode (c : Codec) (p : Poly n) : Option (Poly n) :=
  if ∀ k, (c.encode (p k)).isSome then some ⟨fun k => (c.encode (p k)).getD 0⟩ else none

/-- `Codec::poly_decode`, /repo/src/codec.rs:88-95. -/
def Codec.polyDecode (c : Codec) (p : Poly n) : Poly n := ⟨fun k => c.decode (p k)⟩

/-- `Codec::poly_ternary_encode`, /repo/src/codec.rs:97-104. -/
def polyTernaryEncode (p : Poly n) : Option (Poly n) :=
  if ∀ k, (ternaryEncode (p k)).isSome then some ⟨fun k => (ternaryEncode (p k)).getD 0⟩ else none

/-- `Codec::poly_ternary_decode`, /repo/src/codec.rs:106-113. -/
def polyTernaryDecode (p : Poly n) : Poly n := ⟨fun k => ternaryDecode (p k)⟩

/-! ## Secret key operations.  A secret key is its polynomial `s`. -/

/-- `encrypt_rlwe`, /repo/src/rlwe.rs:373-382 = concrete-core `encrypt_glwe`: draw mask `a` and noise `e`;
body `a*s + m + e`. -/
def encryptRlwe (s m : Poly n) (g : Gen n) : RLWE n × Gen n :=
  let a := g.masks g.pos
  let e := g.noises g.pos
  (⟨a, a * s + m + e⟩, g.next)

/-- `encode_encrypt_rlwe`, /repo/src/rlwe.rs:337-352. -/
def encodeEncryptRlwe (ctx : Ctx) (s pt : Poly n) (g : Gen n) : Option (RLWE n × Gen n) :=
  match ctx.codec.polyEncode pt with
  | none => none
  | some enc => some (encryptRlwe s enc g)

/-- `ternary_encrypt_rlwe`, /repo/src/rlwe.rs:355-369. -/
def ternaryEncryptRlwe (s pt : Poly n) (g : Gen n) : Option (RLWE n × Gen n) :=
  match polyTernaryEncode pt with
  | none => none
  | some enc => some (encryptRlwe s enc g)

/-- `encrypt_constant_rlwe`, /repo/src/rlwe.rs:385-402. -/
def encryptConstantRlwe (s : Poly n) (pt : Scalar) (g : Gen n) : RLWE n × Gen n :=
  encryptRlwe s (Poly.set 0 0 pt) g

/-- `decrypt_rlwe`, /repo/src/rlwe.rs:405-407 = concrete-core `decrypt_glwe`: body minus mask times key. -/
def decryptRlwe (s : Poly n) (c : RLWE n) : Poly n := c.body - c.mask * s

/-- `decrypt_decode_rlwe`, /repo/src/rlwe.rs:410-418. -/
def decryptDecodeRlwe (ctx : Ctx) (s : Poly n) (c : RLWE n) : Poly n := ctx.codec.polyDecode (decryptRlwe s c)

/-- `ternary_decrypt_rlwe`, /repo/src/rlwe.rs:421-428. -/
def ternaryDecryptRlwe (s : Poly n) (c : RLWE n) : Poly n := polyTernaryDecode (decryptRlwe s c)

/-! ## RGSW ciphertexts -/

/-- `struct RGSWCiphertext`, /repo/src/rgsw.rs:21-24: a base log and, per level 1, 2, ..., a pair of rows
(list rows `2*(level-1)` and `2*(level-1)+1`). -/
structure RGSW (n : Nat) where
  baseLog : Nat
  rows : List (RLWE n × RLWE n)
deriving DecidableEq

/-- `decomposition_level_count`, /repo/src/rgsw.rs:46-48. -/
def RGSW.levelCount (C : RGSW n) : Nat := C.rows.length

/-- `RGSWCiphertext::allocate`, /repo/src/rgsw.rs:27-40. -/
def RGSW.allocate (n baseLog levelCount : Nat) : RGSW n := ⟨baseLog, List.replicate levelCount (0, 0)⟩

/-- `update_with_add`, /repo/src/rgsw.rs:58-62 (same shape assumed). -/
def RGSW.updateWithAdd (C D : RGSW n) : RGSW n :=
  { C with rows := List.zipWith (fun r q => (r.1 + q.1, r.2 + q.2)) C.rows D.rows }

/-- `get_nth_row`, /repo/src/rgsw.rs:180-192; `none` = `unwrap` of an out-of-range row. -/
def RGSW.getNthRow (C : RGSW n) (i : Nat) : Option (RLWE n) :=
  match C.rows[i / 2]? with
  | none => none
  | some r => some (if i % 2 = 0 then r.1 else r.2)

/-- `get_last_row`, /repo/src/rgsw.rs:176-178 (`none` also for the `0*2-1` underflow). -/
def RGSW.getLastRow (C : RGSW n) : Option (RLWE n) :=
  if C.levelCount = 0 then none else C.getNthRow (C.levelCount * 2 - 1)

/-- The gadget factor `1 << (64 - base_log*level)`, e.g. /repo/src/rlwe.rs:455-457,586-587. -/
def gadget (baseLog level : Nat) : Scalar := (1 : Scalar) <<< (64 - baseLog * level)

/-- concrete-core `encrypt_constant_ggsw` for one level: two encryptions of zero, the gadget-scaled constant added to the
mask of the first and to the body of the second  (/repo/src/rlwe.rs:431-442). -/
def ggswLevel (s : Poly n) (baseLog : Nat) (mu : Scalar) (level : Nat) (g : Gen n) : (RLWE n × RLWE n) × Gen n :=
  let r0 := encryptRlwe s 0 g
  let r1 := encryptRlwe s 0 r0.2
  let c := Poly.const n (mu * gadget baseLog level)
  ((⟨r0.1.mask + c, r0.1.body⟩, ⟨r1.1.mask, r1.1.body + c⟩), r1.2)

/-- `encrypt_constant_rgsw`, /repo/src/rlwe.rs:431-441, into a ciphertext allocated with `baseLog`, `levelCount`. -/
def encryptConstantRgsw (s : Poly n) (baseLog levelCount : Nat) (mu : Scalar) (g : Gen n) : RGSW n × Gen n :=
  let r := mapGen (ggswLevel s baseLog mu) (List.range' 1 levelCount) g
  (⟨baseLog, r.1⟩, r.2)

/-- The row loop of `encrypt_rgsw`, /repo/src/rlwe.rs:453-470, for one level: note the *context's* base log. -/
def encryptRgswLevel (ctx : Ctx) (m : Poly n) (r : RLWE n × RLWE n) (level : Nat) : RLWE n × RLWE n :=
  let buf := m.mulConst (gadget ctx.baseLog level)
  (⟨r.1.mask + buf, r.1.body⟩, ⟨r.2.mask, r.2.body + buf⟩)

/-- `encrypt_rgsw`, /repo/src/rlwe.rs:444-471, into a ciphertext allocated with `baseLog`, `levelCount`. -/
def encryptRgsw (ctx : Ctx) (s : Poly n) (baseLog levelCount : Nat) (m : Poly n) (g : Gen n) : RGSW n × Gen n :=
  let r := encryptConstantRgsw s baseLog levelCount 0 g
  ({ r.1 with rows := List.zipWith (encryptRgswLevel ctx m) r.1.rows (List.range' 1 levelCount) }, r.2)

/-- `encrypt_constant_rgsw_vec`, /repo/src/rlwe.rs:474-487. -/
def encryptConstantRgswVec (ctx : Ctx) (s : Poly n) (v : List Scalar) (g : Gen n) : List (RGSW n) × Gen n :=
  mapGen (encryptConstantRgsw s ctx.baseLog ctx.levelCount) v g

/-- `neg_gsw`, /repo/src/rlwe.rs:494-506.  `y * Scalar::MAX` is a checked product: it panics unless `y` is 0 or 1. -/
def negGsw (ctx : Ctx) (s : Poly n) (g : Gen n) : Option (RGSW n × Gen n) :=
  if ∀ k, s k = 0 ∨ s k = 1 then
    some (encryptRgsw ctx s ctx.negsBaseLog ctx.negsLevelCount ⟨fun k => s k * scalarMAX⟩ g)
  else none

/-! ## External product and cmux -/

/-- The digit polynomial of level `l` (1-based) of a polynomial: term of concrete-core's decomposition iterator  (/repo/src/rlwe.rs:643-691, /repo/src/rgsw.rs:64-102). -/
def digitPoly (baseLog levelCount : Nat) (p : Poly n) (l : Nat) : Poly n :=
  ⟨fun k => (decompose baseLog levelCount (p k)).getD (levelCount - l) 0⟩

/-- The products accumulated by concrete-core's `external_product`: per level, digit of the mask times the first row and
digit of the body times the second row  (/repo/src/rgsw.rs:64-102). -/
def extTerms (C : RGSW n) (d : RLWE n) : List (Poly n × RLWE n) :=
  (C.rows.zipIdx 1).flatMap fun ri =>
    [(digitPoly C.baseLog C.levelCount d.mask ri.2, ri.1.1), (digitPoly C.baseLog C.levelCount d.body ri.2, ri.1.2)]

/-- `external_product(_with_buf(_glwe))`, /repo/src/rgsw.rs:64-116: forward FFT of the ciphertext, then concrete-core's
`external_product`, which *adds* the product to `out`. -/
def externalProduct (fft : Fft n) (C : RGSW n) (out d : RLWE n) : RLWE n :=
  let ts := extTerms C d
  ⟨out.mask + fft.backward (ts.map fun t => (t.1, t.2.mask)), out.body + fft.backward (ts.map fun t => (t.1, t.2.body))⟩

/-- `cmux(_with_buf)`, /repo/src/rgsw.rs:118-143.  The previous contents of `out` are overwritten by `ct0`. -/
def cmux (fft : Fft n) (C : RGSW n) (_out ct0 ct1 : RLWE n) : RLWE n :=
  let tmp := ct1
  let out := ct0
  let tmp := tmp - ct0
  externalProduct fft C out tmp

end Panacea
