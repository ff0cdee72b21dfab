import Verif.Model.Keyswitch

/-!
# Programs over the public ciphertext API

A downstream user of the crate composes calls on `RLWECiphertext` and `RGSWCiphertext` values in whatever order.  Here a program is a list of
calls on two banks of variables (RLWE and RGSW ciphertexts, both initially all-zero or filled with encryptions); every instruction is one call of
the modelled API.  Simplification: Rust's borrow checker forbids passing one variable both mutably and immutably; the model allows it and
behaves as if the read-only argument had been cloned first.
-/

namespace Panacea
variable {n : Nat}

/-- One call.  `o` is the variable written, `a`, `b` are RLWE variables read, `C`, `D` are RGSW variables  (each constructor cites its lines: /repo/src/rlwe.rs, /repo/src/rgsw.rs). -/
inductive Instr (n : Nat)
  /-- `clear`, /repo/src/rlwe.rs:71-73 -/
  | clear (o : Nat)
  /-- `fill_with_copy`, /repo/src/rlwe.rs:75-77 -/
  | copy (o a : Nat)
  /-- `update_with_add`, /repo/src/rlwe.rs:158-161 -/
  | add (o a : Nat)
  /-- `update_with_sub`, /repo/src/rlwe.rs:163-166 -/
  | sub (o a : Nat)
  /-- `update_body_with_add` of a public polynomial, /repo/src/rlwe.rs:130-137 -/
  | addPlain (o : Nat) (p : Poly n)
  /-- `update_body_with_sub` of a public polynomial, /repo/src/rlwe.rs:139-143 -/
  | subPlain (o : Nat) (p : Poly n)
  /-- `update_with_monomial_div`, /repo/src/rlwe.rs:168-176 -/
  | monomialDiv (o m : Nat)
  /-- `not`, /repo/src/rlwe.rs:292-301 -/
  | not (o a : Nat)
  /-- `not_in_place`, /repo/src/rlwe.rs:282-289 -/
  | notInPlace (o : Nat)
  /-- `less_eq_than`, /repo/src/rlwe.rs:244-258 -/
  | lessEqThan (o d : Nat)
  /-- `eq_to`, /repo/src/rlwe.rs:262-277 -/
  | eqTo (o d : Nat)
  /-- `RGSWCiphertext::external_product`, /repo/src/rgsw.rs:64-116 -/
  | externalProduct (C o a : Nat)
  /-- `RGSWCiphertext::cmux`, /repo/src/rgsw.rs:118-143 -/
  | cmux (C o a b : Nat)
  /-- `RLWEKeyswitchKey::subs` with the key for `X -> X^k`, /repo/src/rlwe.rs:693-709 -/
  | subs (o a k : Nat)
  /-- `FourierRLWEKeyswitchKey::subs` followed by `backward_as_torus`, /repo/src/rlwe.rs:917-933, 740-768 -/
  | fourierSubs (o a k : Nat)
  /-- `trace1`, /repo/src/rlwe.rs:178-191 -/
  | trace1 (o a : Nat)
  /-- `trace1_fourier`, /repo/src/rlwe.rs:193-238 -/
  | trace1Fourier (o a : Nat)
  /-- `RGSWCiphertext::update_with_add`, /repo/src/rgsw.rs:58-62 -/
  | addG (C D : Nat)
  /-- `decomposed_rlwe_to_rgsw`, /repo/src/rlwe.rs:1059-1075; the last two arguments have no effect on the call, they are what the author of
  the program asserts about the message: its l1 norm is at most `L`, and it is a bit if `bit` -/
  | pack (C : Nat) (as : List Nat) (L : Nat) (bit : Bool)
  /-- `expand`, /repo/src/rlwe.rs:986-1009; last two arguments as for `pack` -/
  | expand (C : Nat) (as : List Nat) (L : Nat) (bit : Bool)
  /-- `expand_fourier`, /repo/src/rlwe.rs:1011-1033; last two arguments as for `pack` -/
  | expandFourier (C : Nat) (as : List Nat) (L : Nat) (bit : Bool)

/-- The variables of a program  (support: the variables of a caller of /repo/src/rlwe.rs and /repo/src/rgsw.rs). -/
structure Regs (n : Nat) where
  r : Nat → RLWE n
  g : Nat → RGSW n

/-- Assignment to an RLWE variable  (support: `&mut RLWECiphertext` arguments, /repo/src/rlwe.rs, /repo/src/rgsw.rs). -/
def Regs.setR (σ : Regs n) (o : Nat) (c : RLWE n) : Regs n := ⟨fun i => if i = o then c else σ.r i, σ.g⟩

/-- Assignment to an RGSW variable  (support: `&mut RGSWCiphertext` arguments, /repo/src/rgsw.rs:58-62). -/
def Regs.setG (σ : Regs n) (o : Nat) (C : RGSW n) : Regs n := ⟨σ.r, fun i => if i = o then C else σ.g i⟩

/-- What a program is run with: the floating-point transform, the context, the substitution keys, the encryption of the negated key  (/repo/src/rlwe.rs:941-987, /repo/src/oram.rs:417-421). -/
structure ProgEnv (n : Nat) where
  fft : Fft n
  ctx : Ctx
  ksks : KskMap n
  negS : RGSW n

/-- One call; `none` = panic.  See the constructors of `Instr` for the lines in /repo  (/repo/src/rlwe.rs, /repo/src/rgsw.rs). -/
def Instr.step (v : ProgEnv n) : Instr n → Regs n → Option (Regs n)
  | .clear o, σ => some (σ.setR o 0)
  | .copy o a, σ => some (σ.setR o (σ.r a))
  | .add o a, σ => some (σ.setR o (σ.r o + σ.r a))
  | .sub o a, σ => some (σ.setR o (σ.r o - σ.r a))
  | .addPlain o p, σ => some (σ.setR o ⟨(σ.r o).mask, (σ.r o).body + p⟩)
  | .subPlain o p, σ => some (σ.setR o ⟨(σ.r o).mask, (σ.r o).body - p⟩)
  | .monomialDiv o m, σ => some (σ.setR o ((σ.r o).monomialDiv m))
  | .not o a, σ => some (σ.setR o (σ.r a).not)
  | .notInPlace o, σ => some (σ.setR o (σ.r o).notInPlace)
  | .lessEqThan o d, σ => ((σ.r o).lessEqThan v.fft d).map (σ.setR o)
  | .eqTo o d, σ => ((σ.r o).eqTo v.fft d).map (σ.setR o)
  | .externalProduct C o a, σ => some (σ.setR o (Panacea.externalProduct v.fft (σ.g C) (σ.r o) (σ.r a)))
  | .cmux C o a b, σ => some (σ.setR o (Panacea.cmux v.fft (σ.g C) (σ.r o) (σ.r a) (σ.r b)))
  | .subs o a k, σ => (v.ksks k).bind fun K => (K.subs v.fft (σ.r o) (σ.r a)).map (σ.setR o)
  | .fourierSubs o a k, σ =>
    (v.ksks k).bind fun K => (K.fourierSubs ⟨[], []⟩ (σ.r a)).map fun c => σ.setR o (c.backwardAsTorus v.fft)
  | .trace1 o a, σ => (Panacea.trace1 v.fft v.ksks (σ.r a)).map (σ.setR o)
  | .trace1Fourier o a, σ => (Panacea.trace1Fourier v.fft v.ksks (σ.r a)).map (σ.setR o)
  | .addG C D, σ => some (σ.setG C (RGSW.updateWithAdd (σ.g C) (σ.g D)))
  | .pack C as _ _, σ => (decomposedRlweToRgsw v.fft v.ctx (as.map σ.r) v.negS).map (σ.setG C)
  | .expand C as _ _, σ => (Panacea.expand v.fft v.ctx (as.map σ.r) v.ksks v.negS).map (σ.setG C)
  | .expandFourier C as _ _, σ => (Panacea.expandFourier v.fft v.ctx (as.map σ.r) v.ksks v.negS).map (σ.setG C)

/-- A whole program  (support: a caller of /repo/src/rlwe.rs and /repo/src/rgsw.rs). -/
def runProg (v : ProgEnv n) : List (Instr n) → Regs n → Option (Regs n)
  | [], σ => some σ
  | i :: is, σ => (i.step v σ).bind (runProg v is)

/-- The client's side: encrypt the polynomials `ms` (`encrypt_rlwe`, /repo/src/rlwe.rs:373-382) and the bits `bs`
(`encrypt_constant_rgsw`, /repo/src/rlwe.rs:431-441) one after the other into the first variables; the others are freshly allocated. -/
def loadInputs (ctx : Ctx) (s : Poly n) (ms : List (Poly n)) (bs : List Bool) (g : Gen n) : Regs n × Gen n :=
  let x := mapGen (encryptRlwe s) ms g
  let y := mapGen (fun (b : Bool) g => encryptConstantRgsw s ctx.baseLog ctx.levelCount (if b then 1 else 0) g) bs x.2
  (⟨fun i => x.1.getD i 0, fun i => y.1.getD i (RGSW.allocate n ctx.baseLog ctx.levelCount)⟩, y.2)

end Panacea
