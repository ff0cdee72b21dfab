import Verif.Model.Keyswitch

/-! # LWE: /repo/src/lwe.rs and `expand_slow` (/repo/src/rlwe.rs:1035-1057) -/

namespace Panacea
open Finset
variable {n : Nat}

/-- `struct LWECiphertext`, /repo/src/lwe.rs:30-32.  The LWE dimension is the polynomial size
(`Context::lwe_dim`, /repo/src/context.rs:147-153), so the mask is a vector of `n` words. -/
structure LWE (n : Nat) where
  mask : Poly n
  body : Scalar
deriving DecidableEq

/-- Inner product of mask and key, wrapping  (/repo/src/lwe.rs:98-133). -/
def dot (a s : Poly n) : Scalar := ∑ i : Fin n, a i * s i

/-- `encrypt_lwe`, /repo/src/lwe.rs:98-107: body `<a,s> + m + e`.  The noise word is the first word of the drawn noise. -/
def encryptLwe (s : Poly n) (m : Scalar) (g : Gen n) : LWE n × Gen n :=
  let a := g.masks g.pos
  let e := (g.noises g.pos).get 0
  (⟨a, dot a s + m + e⟩, g.next)

/-- `encode_encrypt_lwe`, /repo/src/lwe.rs:109-118. -/
def encodeEncryptLwe (ctx : Ctx) (s : Poly n) (m : Scalar) (g : Gen n) : Option (LWE n × Gen n) :=
  match ctx.codec.encode m with
  | none => none
  | some w => some (encryptLwe s w g)

/-- `decrypt_lwe`, /repo/src/lwe.rs:120-122. -/
def decryptLwe (s : Poly n) (c : LWE n) : Scalar := c.body - dot c.mask s

/-- `decode_decrypt_lwe`, /repo/src/lwe.rs:125-133. -/
def decodeDecryptLwe (ctx : Ctx) (s : Poly n) (c : LWE n) : Scalar := ctx.codec.decode (decryptLwe s c)

/-- `to_rlwe_sk`, /repo/src/lwe.rs:135-139: zero key of the same size, then copy. -/
def toRlweSk (s : Poly n) : Poly n := s

/-- `fill_with_sample_extract`, /repo/src/lwe.rs:64-66 = concrete-core `fill_with_glwe_sample_extraction`:
mask word `i` is `a_(k-i)` for `i ≤ k` and `-a_(n+k-i)` for `i > k`; body word is `b_k`. -/
def sampleExtract (c : RLWE n) (k : Nat) : LWE n :=
  ⟨⟨fun i => if i.val ≤ k then c.mask.get (k - i.val) else - c.mask.get (n + k - i.val)⟩, c.body.get k⟩

/-- `fill_with_const_sample_extract`, /repo/src/lwe.rs:68-71. -/
def constSampleExtract (c : RLWE n) : LWE n := sampleExtract c 0

/-- `LWEtoRLWEKeyswitchKey::fill_with_keyswitching_key`, /repo/src/lwe.rs:164-175: one RGSW encryption per key word. -/
def lweToRlweKeyswitchKey (ctx : Ctx) (s : Poly n) (g : Gen n) : List (RGSW n) × Gen n :=
  mapGen (fun i g => encryptConstantRgsw (toRlweSk s) ctx.ksBaseLog ctx.ksLevelCount (s i) g) (List.finRange n) g

/-- Inner loop of `conv_lwe_to_rlwe`, /repo/src/lwe.rs:204-223: subtract digit times row. -/
def convInner (rows : List (RLWE n)) (digits : List Scalar) (out : RLWE n) : RLWE n :=
  (rows.zip digits).foldl (fun out rd =>
    ⟨out.mask - rd.1.mask.mulConst rd.2, out.body - rd.1.body.mulConst rd.2⟩) out

/-- Body of the outer loop of `conv_lwe_to_rlwe`, /repo/src/lwe.rs:185-224: round, decompose (last level first), and walk the
second rows of the levels in reverse. -/
def convOuter (ctx : Ctx) (out : RLWE n) (ka : RGSW n × Scalar) : RLWE n :=
  let closest := closestRepresentable ctx.ksBaseLog ctx.ksLevelCount ka.2
  let digits := decompose ctx.ksBaseLog ctx.ksLevelCount closest
  convInner ((ka.1.rows.reverse).map fun r => r.2) digits out

/-- `conv_lwe_to_rlwe`, /repo/src/lwe.rs:178-236. -/
def convLweToRlwe (ctx : Ctx) (ksks : List (RGSW n)) (lwe : LWE n) : RLWE n :=
  let out := (ksks.zip ((List.finRange n).map fun i => lwe.mask i)).foldl (convOuter ctx) 0
  { out with body := out.body + Poly.set 0 0 lwe.body }

/-- `expand_slow`, /repo/src/rlwe.rs:1035-1057 (`none` = the assertions, or `cs[0]` on an empty vector). -/
def expandSlow (fft : Fft n) (ctx : Ctx) (cs : List (RLWE n)) (ksks : List (RGSW n)) (negS : RGSW n) :
    Option (RGSW n) :=
  if n = ksks.length ∧ cs.length = ctx.levelCount ∧ cs ≠ [] then
    decomposedRlweToRgsw fft ctx (cs.map fun c => convLweToRlwe ctx ksks (constSampleExtract c)) negS
  else none

end Panacea
