import Verif.Spec.Keyswitch
import Verif.Spec.Bench
import Verif.Model.Prog

/-!
# What a program over the ciphertext API means, and its static noise analysis

`Plain` runs the same program on plaintext polynomials; `Budget` computes, from the program text and public parameters only, an error bound for
every variable.  Neither looks at ciphertexts.
-/

namespace Panacea
variable {n : Nat}

/-- Plaintext variables: the message of every ciphertext variable. -/
structure Plain (n : Nat) where
  r : Nat → Poly n
  g : Nat → Poly n

/-- Assignment. -/
def Plain.setR (P : Plain n) (o : Nat) (m : Poly n) : Plain n := ⟨fun i => if i = o then m else P.r i, P.g⟩
/-- Assignment. -/
def Plain.setG (P : Plain n) (o : Nat) (m : Poly n) : Plain n := ⟨P.r, fun i => if i = o then m else P.g i⟩

/-- What the author of a program asserts about the message of a packed ciphertext. -/
def Asserted (mu : Poly n) (L : Nat) (bit : Bool) : Prop := l1 mu ≤ L ∧ (bit = true → mu = 0 ∨ mu = 1)

/-- The plaintext meaning of one call, as a relation between the messages before and after it.  Packing and expanding make sense only if the
given ciphertexts carry the gadget multiples of one common message (for `expand` in their constant coefficients, divided by the ring size) which is as the
author of the program asserts. -/
def Instr.Means (ctx : Ctx) : Instr n → Plain n → Plain n → Prop
  | .clear o, P, Q => Q = P.setR o 0
  | .copy o a, P, Q => Q = P.setR o (P.r a)
  | .add o a, P, Q => Q = P.setR o (P.r o + P.r a)
  | .sub o a, P, Q => Q = P.setR o (P.r o - P.r a)
  | .addPlain o p, P, Q => Q = P.setR o (P.r o + p)
  | .subPlain o p, P, Q => Q = P.setR o (P.r o - p)
  | .monomialDiv o m, P, Q => ∃ q, Spec.X n ^ m * q = P.r o ∧ Q = P.setR o q
  | .not o a, P, Q => Q = P.setR o (Poly.const n (2 ^ 63) - P.r a)
  | .notInPlace o, P, Q => Q = P.setR o (Poly.const n (2 ^ 63) - P.r o)
  | .lessEqThan o d, P, Q => Q = P.setR o (leqFactor n d * P.r o)
  | .eqTo o d, P, Q => ∃ q, Spec.X n ^ d * q = P.r o ∧ Q = P.setR o q
  | .externalProduct C o a, P, Q => Q = P.setR o (P.r o + P.g C * P.r a)
  | .cmux C o a b, P, Q => Q = P.setR o (P.r a + P.g C * (P.r b - P.r a))
  | .subs o a k, P, Q => Q = P.setR o (Spec.evalAt (P.r a) (Spec.X n ^ k))
  | .fourierSubs o a k, P, Q => Q = P.setR o (Spec.evalAt (P.r a) (Spec.X n ^ k))
  | .trace1 o a, P, Q => Q = P.setR o (Poly.const n (n * (P.r a).get 0))
  | .trace1Fourier o a, P, Q => Q = P.setR o (Poly.const n (n * (P.r a).get 0))
  | .addG C D, P, Q => Q = P.setG C (P.g C + P.g D)
  | .pack C as L bit, P, Q => ∃ mu, (∀ (i a : Nat), i < ctx.levelCount → as[i]? = some a → P.r a = Poly.const n (gadget ctx.baseLog (i + 1)) * mu) ∧
      Asserted mu L bit ∧ Q = P.setG C mu
  | .expand C as L bit, P, Q => ∃ mu : Scalar, (∀ (i a : Nat), as[i]? = some a → n * (P.r a).get 0 = mu * gadget ctx.baseLog (i + 1)) ∧
      Asserted (Poly.const n mu) L bit ∧ Q = P.setG C (Poly.const n mu)
  | .expandFourier C as L bit, P, Q => ∃ mu : Scalar, (∀ (i a : Nat), as[i]? = some a → n * (P.r a).get 0 = mu * gadget ctx.baseLog (i + 1)) ∧
      Asserted (Poly.const n mu) L bit ∧ Q = P.setG C (Poly.const n mu)

/-- The plaintext meaning of a program. -/
def ProgMeans (ctx : Ctx) : List (Instr n) → Plain n → Plain n → Prop
  | [], P, Q => Q = P
  | i :: is, P, Q => ∃ R, i.Means ctx P R ∧ ProgMeans ctx is R Q

/-- What is known statically of an RGSW variable: decomposition parameters, row noise, l1 bound of the message, whether it is a bit. -/
structure BudgetG where
  bl : Nat
  lv : Nat
  E : Nat
  L : Nat
  bit : Bool

/-- The error bounds of all variables; RGSW variables that were never assigned have none. -/
structure Budget where
  e : Nat → Nat
  g : Nat → Option BudgetG

/-- Assignment. -/
def Budget.setR (A : Budget) (o e : Nat) : Budget := ⟨fun i => if i = o then e else A.e i, A.g⟩
/-- Assignment. -/
def Budget.setG (A : Budget) (o : Nat) (x : BudgetG) : Budget := ⟨A.e, fun i => if i = o then some x else A.g i⟩

/-- Public noise parameters: `d` with ring size `2^d`, relative FFT error `phi`, noise `B` of the keys. -/
structure NoiseParams where
  d : Nat
  phi : Nat
  B : Nat

/-- The largest bound among some RLWE variables. -/
def Budget.maxOf (A : Budget) (as : List Nat) : Nat := (as.map A.e).foldr max 0

/-- Noise of a trace of a ciphertext with error `e`; `f` is the rounding noise of one substitution. -/
def traceNoise (N : NoiseParams) (ctx : Ctx) (f e : Nat) : Nat :=
  2 ^ N.d * e + (2 ^ N.d - 1) * ksNoise (2 ^ N.d) ctx.ksBaseLog ctx.ksLevelCount N.B f

/-- Rounding noise of an ordinary substitution: one inverse transform per level. -/
def subsRound (N : NoiseParams) (ctx : Ctx) : Nat := ctx.ksLevelCount * fftNoise (2 ^ N.d) N.phi (2 ^ (ctx.ksBaseLog - 1))
/-- Rounding noise of a Fourier substitution: a single inverse transform. -/
def fourierSubsRound (N : NoiseParams) (ctx : Ctx) : Nat := fftNoise (2 ^ N.d) N.phi (1 + ctx.ksLevelCount * 2 ^ (ctx.ksBaseLog - 1))

/-- The bound of an expanded or packed ciphertext whose rows have error at most `eT`. -/
def packBudget (N : NoiseParams) (ctx : Ctx) (eT L : Nat) (bit : Bool) : BudgetG :=
  ⟨ctx.baseLog, ctx.levelCount, expandNoise (2 ^ N.d) ctx.negsBaseLog ctx.negsLevelCount N.B N.phi eT, L, bit⟩

/-- The analysis of one call.  `none` = rejected: comparison with a constant outside the ring, substitution without a key, use of an unassigned RGSW
variable, RGSW addition of different shapes, too few or too many ciphertexts to pack or expand. -/
def Instr.budget (N : NoiseParams) (ctx : Ctx) : Instr n → Budget → Option Budget
  | .clear o, A => some (A.setR o 0)
  | .copy o a, A => some (A.setR o (A.e a))
  | .add o a, A => some (A.setR o (A.e o + A.e a))
  | .sub o a, A => some (A.setR o (A.e o + A.e a))
  | .addPlain _ _, A => some A
  | .subPlain _ _, A => some A
  | .monomialDiv _ _, A => some A
  | .not o a, A => some (A.setR o (A.e a))
  | .notInPlace _, A => some A
  | .lessEqThan o d, A => if d < 2 ^ N.d then some (A.setR o ((d + 1) * A.e o + fftNoise (2 ^ N.d) N.phi 1)) else none
  | .eqTo o d, A => if d < 2 ^ N.d then some (A.setR o (A.e o + fftNoise (2 ^ N.d) N.phi 1)) else none
  | .externalProduct C o a, A => (A.g C).map fun x => A.setR o (A.e o + x.L * A.e a + extNoise (2 ^ N.d) x.bl x.lv x.E N.phi x.L)
  | .cmux C o a b, A => (A.g C).map fun x =>
      A.setR o ((if x.bit then max (A.e a) (A.e b) else A.e a + x.L * (A.e b + A.e a)) + extNoise (2 ^ N.d) x.bl x.lv x.E N.phi x.L)
  | .subs o a k, A => if k ∈ (List.range' 1 N.d).map (traceExp (2 ^ N.d)) then
      some (A.setR o (A.e a + ksNoise (2 ^ N.d) ctx.ksBaseLog ctx.ksLevelCount N.B (subsRound N ctx))) else none
  | .fourierSubs o a k, A => if k ∈ (List.range' 1 N.d).map (traceExp (2 ^ N.d)) then
      some (A.setR o (A.e a + ksNoise (2 ^ N.d) ctx.ksBaseLog ctx.ksLevelCount N.B (fourierSubsRound N ctx))) else none
  | .trace1 o a, A => some (A.setR o (traceNoise N ctx (subsRound N ctx) (A.e a)))
  | .trace1Fourier o a, A => some (A.setR o (traceNoise N ctx (fourierSubsRound N ctx) (A.e a)))
  | .addG C D, A => (A.g C).bind fun x => (A.g D).bind fun y =>
      if x.bl = y.bl ∧ x.lv = y.lv then some (A.setG C ⟨x.bl, x.lv, x.E + y.E, x.L + y.L, false⟩) else none
  | .pack C as L bit, A => if ctx.levelCount ≤ as.length then some (A.setG C (packBudget N ctx (A.maxOf as) L bit)) else none
  | .expand C as L bit, A => if as.length = ctx.levelCount then
      some (A.setG C (packBudget N ctx (traceNoise N ctx (subsRound N ctx) (A.maxOf as)) L bit)) else none
  | .expandFourier C as L bit, A => if as.length = ctx.levelCount then
      some (A.setG C (packBudget N ctx (traceNoise N ctx (fourierSubsRound N ctx) (A.maxOf as)) L bit)) else none

/-- The analysis of a program. -/
def budgetProg (N : NoiseParams) (ctx : Ctx) : List (Instr n) → Budget → Option Budget
  | [], A => some A
  | i :: is, A => (i.budget N ctx A).bind (budgetProg N ctx is)

/-- The ciphertext variables `σ` hold encryptions of the plaintext variables `P` within the budget `A`. -/
structure ProgHolds (s : Poly n) (σ : Regs n) (P : Plain n) (A : Budget) : Prop where
  rlwe : ∀ i, Enc s (σ.r i) (P.r i) (A.e i)
  rgsw : ∀ i x, A.g i = some x → (σ.g i).WF ∧ (σ.g i).baseLog = x.bl ∧ (σ.g i).levelCount = x.lv ∧ EncG s (σ.g i) (P.g i) x.E ∧
    Asserted (P.g i) x.L x.bit

/-- The parameters a program over the API is run with: everything non-empty and within 64 bits. -/
structure ProgParams (ctx : Ctx) (d : Nat) : Prop where
  bl : 1 ≤ ctx.baseLog
  lv : 1 ≤ ctx.levelCount
  lt : ctx.baseLog * ctx.levelCount < 64
  ksBl : 1 ≤ ctx.ksBaseLog
  ksLv : 1 ≤ ctx.ksLevelCount
  ksLt : ctx.ksBaseLog * ctx.ksLevelCount < 64
  negBl : 1 ≤ ctx.negsBaseLog
  negLv : 1 ≤ ctx.negsLevelCount
  negLt : ctx.negsBaseLog * ctx.negsLevelCount < 64
  small : d < 64

/-- The messages of freshly encrypted inputs: the polynomials `ms`, the bits `bs` as constants 0 or 1. -/
def plainInputs (ms : List (Poly n)) (bs : List Bool) : Plain n :=
  ⟨fun i => ms.getD i 0, fun i => if bs.getD i false then 1 else 0⟩

/-- The budget of `k` fresh RLWE and `l` fresh RGSW inputs under generator noise `B`. -/
def budgetInputs (ctx : Ctx) (B k l : Nat) : Budget :=
  ⟨fun i => if i < k then B else 0, fun i => if i < l then some ⟨ctx.baseLog, ctx.levelCount, B, 1, true⟩ else none⟩

end Panacea
