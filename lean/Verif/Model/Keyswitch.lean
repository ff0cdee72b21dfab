import Verif.Model.Rlwe

/-!
# Key switching, substitution, trace, expansion: /repo/src/rlwe.rs:509-1075,1204-1312, /repo/src/rgsw.rs:194-255
-/

namespace Panacea

variable {n : Nat}

/-- `struct RLWEKeyswitchKey`, /repo/src/rlwe.rs:511-517 (level 1 first).  The Fourier version
(/repo/src/rlwe.rs:773-779, obtained by `into_fourier`, 595-640) holds the transforms of the same rows and is represented by the
same structure: forward transforms carry no separate error, see `Fft`. -/
structure KeyswitchKey (n : Nat) where
  ksks : List (RLWE n)
  baseLog : Nat
  levelCount : Nat
  subsK : Nat
deriving DecidableEq

/-- `RLWEKeyswitchKey::allocate`, /repo/src/rlwe.rs:520-532. -/
def KeyswitchKey.allocate (n baseLog levelCount : Nat) : KeyswitchKey n :=
  ⟨List.replicate levelCount 0, baseLog, levelCount, 0⟩

/-- `fill_with_keyswitch_key`, /repo/src/rlwe.rs:566-592: level `l` encrypts `before * 2^(64-bl*l)` under `after`. -/
def KeyswitchKey.fillWithKeyswitchKey (K : KeyswitchKey n) (before after : Poly n) (g : Gen n) :
    KeyswitchKey n × Gen n :=
  let r := mapGen (fun level g => encryptRlwe after (before.mulConst (gadget K.baseLog level)) g)
    (List.range' 1 K.levelCount) g
  ({ K with ksks := r.1, subsK := 0 }, r.2)

/-- `fill_with_subs_keyswitch_key`, /repo/src/rlwe.rs:549-562. -/
def KeyswitchKey.fillWithSubsKeyswitchKey (K : KeyswitchKey n) (after : Poly n) (k : Nat) (g : Gen n) :
    Option (KeyswitchKey n × Gen n) :=
  match evalXk after k with
  | none => none
  | some before =>
    let r := K.fillWithKeyswitchKey before after g
    some ({ r.1 with subsK := k }, r.2)

/-- The terms of `decompose_tensor` applied to the rounded mask, in the order produced (last level first),
/repo/src/rlwe.rs:651-657: the mask is rounded and then decomposed (which rounds again). -/
def maskTerms (baseLog levelCount : Nat) (p : Poly n) : List (Poly n) :=
  let rounded : Poly n := ⟨fun k => closestRepresentable baseLog levelCount (p k)⟩
  (List.range' 1 levelCount).reverse.map fun l => digitPoly baseLog levelCount rounded l

/-- The loop of `keyswitch_ciphertext`, /repo/src/rlwe.rs:664-688: rows in reverse with the remaining terms;
`none` = "no more next_term". -/
def keyswitchLoop (fft : Fft n) : List (RLWE n) → List (Poly n) → RLWE n → Option (RLWE n)
  | [], _, after => some after
  | _ :: _, [], _ => none
  | ksk :: ksks, term :: terms, after =>
    let polyMask := fourierUpdateWithMulAcc fft 0 ksk.mask term
    let polyBody := fourierUpdateWithMulAcc fft 0 ksk.body term
    keyswitchLoop fft ksks terms ⟨after.mask - polyMask, after.body - polyBody⟩

/-- `RLWEKeyswitchKey::keyswitch_ciphertext`, /repo/src/rlwe.rs:643-689.  `_after` is the old content of the output:
it is cleared first. -/
def KeyswitchKey.keyswitchCiphertext (fft : Fft n) (K : KeyswitchKey n) (_after before : RLWE n) : Option (RLWE n) :=
  keyswitchLoop fft K.ksks.reverse (maskTerms K.baseLog K.levelCount before.mask) ⟨0, 0 + before.body⟩

/-- `RLWEKeyswitchKey::subs`, /repo/src/rlwe.rs:693-709. -/
def KeyswitchKey.subs (fft : Fft n) (K : KeyswitchKey n) (after before : RLWE n) : Option (RLWE n) :=
  match evalXk before.mask K.subsK, evalXk before.body K.subsK with
  | some m, some b => K.keyswitchCiphertext fft after ⟨m, b⟩
  | _, _ => none

/-- `struct FourierRLWECiphertext`, /repo/src/rlwe.rs:722-725. -/
structure FRLWE (n : Nat) where
  mask : FPoly n
  body : FPoly n

/-- `backward_as_torus`, /repo/src/rlwe.rs:740-768. -/
def FRLWE.backwardAsTorus (fft : Fft n) (c : FRLWE n) : RLWE n := ⟨0 + fft.backward c.mask, 0 + fft.backward c.body⟩

/-- The `loop` of the Fourier `keyswitch_ciphertext`, /repo/src/rlwe.rs:857-912: two rows at a time, a single one when the
number of rows is odd.  `none` = `unwrap` on exhausted terms. -/
def fourierKeyswitchLoop : List (RLWE n) → List (Poly n) → FRLWE n → Option (FRLWE n)
  | [], _, after => some after
  | [first], terms, after =>
    match terms with
    | t1 :: _ => some ⟨after.mask ++ [(first.mask, t1)], after.body ++ [(first.body, t1)]⟩
    | [] => none
  | first :: second :: rest, terms, after =>
    match terms with
    | t1 :: t2 :: terms' =>
      fourierKeyswitchLoop rest terms'
        ⟨after.mask ++ [(first.mask, t1), (second.mask, t2)], after.body ++ [(first.body, t1), (second.body, t2)]⟩
    | _ => none

/-- `FourierRLWEKeyswitchKey::keyswitch_ciphertext`, /repo/src/rlwe.rs:783-913: mask cleared, body copied, negated terms. -/
def KeyswitchKey.fourierKeyswitchCiphertext (K : KeyswitchKey n) (_after : FRLWE n) (before : RLWE n) : Option (FRLWE n) :=
  let terms := (maskTerms K.baseLog K.levelCount before.mask).map fun t => (⟨fun k => 0 - t k⟩ : Poly n)
  fourierKeyswitchLoop K.ksks.reverse terms ⟨[], [(before.body, 1)]⟩

/-- `FourierRLWEKeyswitchKey::subs`, /repo/src/rlwe.rs:917-933. -/
def KeyswitchKey.fourierSubs (K : KeyswitchKey n) (after : FRLWE n) (before : RLWE n) : Option (FRLWE n) :=
  match evalXk before.mask K.subsK, evalXk before.body K.subsK with
  | some m, some b => K.fourierKeyswitchCiphertext after ⟨m, b⟩
  | _, _ => none

/-! ## Trace -/

/-- The `HashMap<usize, RLWEKeyswitchKey>` of substitution keys as a lookup function  (/repo/src/rlwe.rs:179, 195, 941-987). -/
abbrev KskMap (n : Nat) := Nat → Option (KeyswitchKey n)

/-- The substitution exponent of round `i`, /repo/src/rlwe.rs:184,218,949,973: `n / (1 << (i-1)) + 1`. -/
def traceExp (n i : Nat) : Nat := n / 2 ^ (i - 1) + 1

/-- Loop body of `gen_all_subs_ksk(_fourier)`, /repo/src/rlwe.rs:948-959, 972-983. -/
def genSubsKskLoop (ctx : Ctx) (s : Poly n) : List Nat → KskMap n → Gen n → Option (KskMap n × Gen n)
  | [], hm, g => some (hm, g)
  | i :: is, hm, g =>
    let k := traceExp n i
    match (KeyswitchKey.allocate n ctx.ksBaseLog ctx.ksLevelCount).fillWithSubsKeyswitchKey s k g with
    | none => none
    | some (ksk, g') => genSubsKskLoop ctx s is (fun j => if j = k then some ksk else hm j) g'

/-- `gen_all_subs_ksk`, /repo/src/rlwe.rs:941-961, and `gen_all_subs_ksk_fourier`, 965-985. -/
def genAllSubsKsk (ctx : Ctx) (s : Poly n) (g : Gen n) : Option (KskMap n × Gen n) :=
  match log2 n with
  | none => none
  | some ln => genSubsKskLoop ctx s (List.range' 1 ln) (fun _ => none) g

/-- Loop of `trace1`, /repo/src/rlwe.rs:183-189. -/
def trace1Loop (fft : Fft n) (ksks : KskMap n) : List Nat → RLWE n → RLWE n → Option (RLWE n)
  | [], _, out => some out
  | i :: is, buf, out =>
    let k := traceExp n i
    match ksks k with
    | none => none
    | some ksk =>
      if ksk.subsK = k then
        match ksk.subs fft buf out with
        | none => none
        | some buf' => trace1Loop fft ksks is buf' (out + buf')
      else none

/-- `trace1`, /repo/src/rlwe.rs:179-191. -/
def trace1 (fft : Fft n) (ksks : KskMap n) (c : RLWE n) : Option (RLWE n) :=
  match log2 n with
  | none => none
  | some ln => trace1Loop fft ksks (List.range' 1 ln) 0 c

/-- Loop of `trace1_fourier`, /repo/src/rlwe.rs:217-237. -/
def trace1FourierLoop (fft : Fft n) (ksks : KskMap n) : List Nat → FRLWE n → RLWE n → Option (RLWE n)
  | [], _, out => some out
  | i :: is, buf, out =>
    let k := traceExp n i
    match ksks k with
    | none => none
    | some ksk =>
      if ksk.subsK = k then
        match ksk.fourierSubs buf out with
        | none => none
        | some buf' =>
          trace1FourierLoop fft ksks is buf' ⟨out.mask + fft.backward buf'.mask, out.body + fft.backward buf'.body⟩
      else none

/-- `trace1_fourier`, /repo/src/rlwe.rs:195-238 (`out` is overwritten). -/
def trace1Fourier (fft : Fft n) (ksks : KskMap n) (c : RLWE n) : Option (RLWE n) :=
  match log2 n with
  | none => none
  | some ln => trace1FourierLoop fft ksks (List.range' 1 ln) ⟨[], []⟩ c

/-! ## Expansion to RGSW -/

/-- `decomposed_rlwe_to_rgsw`, /repo/src/rlwe.rs:1059-1075: level pair `k` is (`neg_s` ⊡ `cs[k]` added to zero, `cs[k]`).
`none` = `cs[k]` out of range. -/
def decomposedRlweToRgsw (fft : Fft n) (ctx : Ctx) (cs : List (RLWE n)) (negS : RGSW n) : Option (RGSW n) :=
  if ctx.levelCount ≤ cs.length then
    some ⟨ctx.baseLog, (cs.take ctx.levelCount).map fun c => (externalProduct fft negS 0 c, c)⟩
  else none

/-- `List.mapM` for panicking functions (`iter().map(..).collect()`)  (/repo/src/rlwe.rs:1059-1075). -/
def mapOption {α β : Type} (f : α → Option β) : List α → Option (List β)
  | [] => some []
  | a :: as =>
    match f a, mapOption f as with
    | some b, some bs => some (b :: bs)
    | _, _ => none

/-- `expand`, /repo/src/rlwe.rs:989-1007 (`cs[0]` panics on an empty slice). -/
def expand (fft : Fft n) (ctx : Ctx) (cs : List (RLWE n)) (ksks : KskMap n) (negS : RGSW n) : Option (RGSW n) :=
  if cs = [] then none
  else match mapOption (trace1 fft ksks) cs with
    | none => none
    | some csp => decomposedRlweToRgsw fft ctx csp negS

/-- One iteration of the loop of `expand_fourier`, /repo/src/rlwe.rs:1021-1028: trace, multiply by `neg_s`, store both rows. -/
def expandFourierRow (fft : Fft n) (ksks : KskMap n) (negS : RGSW n) (c : RLWE n) : Option (RLWE n × RLWE n) :=
  match trace1Fourier fft ksks c with
  | none => none
  | some cp => some (externalProduct fft negS 0 cp, cp)

/-- `expand_fourier`, /repo/src/rlwe.rs:1011-1030: traces only the first `level_count` ciphertexts, lazily. -/
def expandFourier (fft : Fft n) (ctx : Ctx) (cs : List (RLWE n)) (ksks : KskMap n) (negS : RGSW n) : Option (RGSW n) :=
  if cs = [] then none
  else if ctx.levelCount ≤ cs.length then
    match mapOption (expandFourierRow fft ksks negS) (cs.take ctx.levelCount) with
    | none => none
    | some rows => some ⟨ctx.baseLog, rows⟩
  else none

/-- One level of `make_decomposed_rlwe_ct`, /repo/src/rlwe.rs:1212-1225. -/
def makeDecomposedLevel (ctx : Ctx) (s : Poly n) (bit : Scalar) (logn level : Nat) (g : Gen n) :
    Option (RLWE n × Gen n) :=
  if ctx.baseLog * level + logn ≤ 64 then
    let shift := 64 - ctx.baseLog * level - logn
    let ptxt := (g.plains g.pos).set 0 (bit <<< shift)
    some (encryptRlwe s ptxt g)
  else none

/-- `make_decomposed_rlwe_ct`, /repo/src/rlwe.rs:1205-1227. -/
def makeDecomposedRlweCt (ctx : Ctx) (s : Poly n) (bit : Scalar) (g : Gen n) : Option (List (RLWE n) × Gen n) :=
  if bit = 1 ∨ bit = 0 then
    match log2 n with
    | none => none
    | some logn => mapGenM (makeDecomposedLevel ctx s bit logn) (List.range' 1 ctx.levelCount) g
  else none

/-- `make_decomposed_rlwe_ct2`, /repo/src/rlwe.rs:1231-1251 (no `logn` in the shift). -/
def makeDecomposedRlweCt2 (ctx : Ctx) (s : Poly n) (bit : Scalar) (g : Gen n) : Option (List (RLWE n) × Gen n) :=
  if bit = 1 ∨ bit = 0 then
    some (mapGen (fun level g =>
      encryptRlwe s ((g.plains g.pos).set 0 (bit <<< (64 - ctx.baseLog * level))) g) (List.range' 1 ctx.levelCount) g)
  else none

/-! ## Key switching through RGSW -/

/-- `RGSWCiphertext::from_keyswitch_key`, /repo/src/rgsw.rs:196-225 (`none` = the length assertion). -/
def RGSW.fromKeyswitchKey (K : KeyswitchKey n) : Option (RGSW n) :=
  if K.ksks.length = K.levelCount then
    some ⟨K.baseLog, (K.ksks.zipIdx 1).map fun kl =>
      ((⟨0 - kl.1.mask, 0 - kl.1.body⟩ : RLWE n), ⟨0, Poly.set 0 0 (gadget K.baseLog kl.2)⟩)⟩
  else none

/-- `RGSWCiphertext::keyswitch_ciphertext(_with_buf)`, /repo/src/rgsw.rs:228-240: an external product *into* `after`. -/
def RGSW.keyswitchCiphertext (fft : Fft n) (C : RGSW n) (after before : RLWE n) : RLWE n :=
  externalProduct fft C after before

/-! ## Noise measurement -/

/-- The maximum computed by `compute_noise`, /repo/src/rlwe.rs:1255-1280, before the final `log2` (reporting only).
`none` = `abs()` overflow on a difference of exactly -2^63 in a checked build. -/
def computeNoiseMax (s : Poly n) (c : RLWE n) (encoded : Poly n) : Option Int :=
  let pt := decryptRlwe s c - encoded
  (List.finRange n).foldl (fun acc k =>
    match acc with
    | none => none
    | some maxE =>
      if (pt k).toInt = -2 ^ 63 then none
      else
        let z : Int := |(pt k).toInt|
        some (if maxE < z then z else maxE)) (some 0)

/-- `compute_noise_ternary`, /repo/src/rlwe.rs:1282-1294: *decodes* the reference plaintext. -/
def computeNoiseTernaryMax (s : Poly n) (c : RLWE n) (pt : Poly n) : Option Int :=
  computeNoiseMax s c (polyTernaryDecode pt)

/-- `compute_noise_encoded`, /repo/src/rlwe.rs:1299-1312. -/
def computeNoiseEncodedMax (codec : Codec) (s : Poly n) (c : RLWE n) (pt : Poly n) : Option Int :=
  match codec.polyEncode pt with
  | none => none
  | some enc => computeNoiseMax s c enc

end Panacea
