import Verif.Spec.Measured
import Verif.Spec.EncTree
import Verif.Model.EncEval
import Verif.Lemmas.Subst

/-!
# Noise as it is measured in an encrypted tree evaluation

As in `Spec/Measured`: bounds on the errors of the operations that a given evaluation performs, instead of worst-case bounds.
-/

namespace Panacea
variable {n : Nat}

/-- The substitution of `c` with the key `K` has an error of at most `V`, if `K` is a substitution key with row noise at most `E`. -/
def SwitchOk (fft : Fft n) (s : Poly n) (E V : Nat) (K : KeyswitchKey n) (buf : FRLWE n) (c : RLWE n) : Prop :=
  IsKsk s K (s.subst K.subsK) E → ∀ b, K.fourierSubs buf c = some b →
    Enc s ⟨fft.backward b.mask, fft.backward b.body⟩ ((decryptRlwe s c).subst K.subsK) V

/-- The substitutions performed by the rounds `is` of `trace1_fourier`. -/
def traceCalls (fft : Fft n) (ksks : KskMap n) : List Nat → FRLWE n → RLWE n → List (KeyswitchKey n × FRLWE n × RLWE n)
  | [], _, _ => []
  | i :: is, buf, out =>
    match ksks (traceExp n i) with
    | none => []
    | some K => (K, buf, out) ::
      match K.fourierSubs buf out with
      | none => []
      | some b => traceCalls fft ksks is b ⟨out.mask + fft.backward b.mask, out.body + fft.backward b.body⟩

/-- The external products performed by the evaluation of an encrypted tree on `b`. -/
def treeCalls (fft : Fft n) : EncTree (RGSW n) → RLWE n → List (RGSW n × RLWE n)
  | .leaf _, _ => []
  | .internal C l r, b => (C, b) :: (treeCalls fft l (externalProduct fft C 0 b) ++ treeCalls fft r (b - externalProduct fft C 0 b))

/-- Bounds on the measured errors: floating-point error of a comparison, error of a key switch, error of a product with `neg_s` (relative to
the message), error of a product with a choice bit. -/
structure TreeMeasure where
  cmp : Nat
  ks : Nat
  neg : Nat
  bit : Nat

/-- Noise after the trace, for fresh noise `B`. -/
def TreeMeasure.trace (m : TreeMeasure) (n B : Nat) : Nat := n * (n * B + m.cmp) + (n - 1) * m.ks

/-- Row noise of the choice bits. -/
def TreeMeasure.rows (m : TreeMeasure) (n B : Nat) : Nat := max (m.trace n B) m.neg

/-- The errors in making the choice bit of node `nd` from the client's ciphertexts `cts` stay within `m`. -/
structure MeasuredNode (fft : Fft n) (s : Poly n) (ctx : Ctx) (ksks : KskMap n) (negS : RGSW n) (cts : List (List (RLWE n))) (nd : NodeData)
    (B : Nat) (m : TreeMeasure) : Prop where
  /-- the comparison multiplies with the comparison polynomial -/
  cmp : ∀ fc, cts[nd.feature]? = some fc → ∀ c ∈ fc, ∀ c', c.lessEqThan fft nd.threshold = some c' →
    Enc s c' (RLWE.leqPoly n nd.threshold * decryptRlwe s c) m.cmp
  /-- the trace switches keys `log2 n` times -/
  ks : ∀ fc, cts[nd.feature]? = some fc → ∀ c ∈ fc, ∀ c', c.lessEqThan fft nd.threshold = some c' → ∀ ln, log2 n = some ln →
    ∀ x ∈ traceCalls fft ksks (List.range' 1 ln) ⟨[], []⟩ c', SwitchOk fft s B m.ks x.1 x.2.1 x.2.2
  /-- multiplying the traced ciphertexts with `neg_s` -/
  neg : EncG s negS (-s) B → ∀ fc, cts[nd.feature]? = some fc → ∀ (i : Nat) c, fc[i]? = some c → ∀ c',
    c.lessEqThan fft nd.threshold = some c' → ∀ o, trace1Fourier fft ksks c' = some o → ∀ b : Bool,
    Enc s o (Poly.const n (gadget ctx.baseLog (i + 1)) * if b then 1 else 0) (m.trace n B) →
    Enc s (externalProduct fft negS 0 o) (Poly.const n (gadget ctx.baseLog (i + 1)) * -(s * if b then 1 else 0)) m.neg

/-- The errors of one evaluation of `tree` on the client's ciphertexts `cts` stay within `m`. -/
structure MeasuredTree (fft : Fft n) (s : Poly n) (ctx : Ctx) (ksks : KskMap n) (negS : RGSW n) (tree : Tree) (cts : List (List (RLWE n)))
    (B : Nat) (m : TreeMeasure) : Prop where
  nodes : ∀ nd, Spec.HasNode nd tree → MeasuredNode fft s ctx ksks negS cts nd B m
  /-- evaluating the tree multiplies with the choice bits -/
  gates : ∀ bits, compareExpand fft ctx tree.flatten cts ksks negS = some bits → ∀ root rest, EncTree.new tree bits = some (root, rest) →
    ∀ b, trivialOne ctx = some b → ∀ x ∈ treeCalls fft root b,
    GateOk fft s ctx.baseLog ctx.levelCount (m.rows n B) m.bit x.1 x.2

/-- The errors of all evaluations of a run of `simulate` stay within `m`. -/
def MeasuredSimulate (fft : Fft n) (ctx : Ctx) (s : Poly n) (tree : Tree) (features : List (List Nat)) (g : Gen n) (B : Nat)
    (m : TreeMeasure) : Prop :=
  ∀ negS g1 ksks g2 cts g3, negGsw ctx s g = some (negS, g1) → genAllSubsKsk ctx s g1 = some (ksks, g2) →
    mapGenM (encryptFeatureVector ctx s) features g2 = some (cts, g3) → ∀ c ∈ cts, MeasuredTree fft s ctx ksks negS tree c B m

end Panacea
