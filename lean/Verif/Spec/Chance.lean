import Verif.Spec.Session
import Verif.Spec.Oram
import Mathlib.MeasureTheory.Measure.MeasureSpace

/-!
# Specification for C78: failure probabilities

The generators are random: `g : Ω → Gen n` on a space with a measure `μ` (a probability measure, but any measure will do).  The only
assumption about their distribution is a tail bound for every single noise coefficient; no independence is needed.
-/

namespace Panacea.Spec
variable {n : Nat}

/-- Every noise coefficient exceeds `B` in absolute value with probability at most `δ`. -/
def NoiseTail {Ω : Type} [MeasurableSpace Ω] (μ : MeasureTheory.Measure Ω) (g : Ω → Gen n) (B : Nat) (δ : ENNReal) : Prop :=
  ∀ i k, μ {ω | B < nrm (((g ω).noises i) k)} ≤ δ

/-- RLWE encryptions made by the client for one query of a row of `2^D` columns: two per level of each of the `D` index bits and of the
operation flag, and the data. -/
def queryEncryptions (ctx : Ctx) (D : Nat) : Nat := 2 * ctx.levelCount * (D + 1) + 1

/-- RLWE encryptions made by `setup_random_oram` for `N` items: the encrypted negated key, and at most 128 distinct items. -/
def setupEncryptions (ctx : Ctx) (N : Nat) : Nat := 2 * ctx.negsLevelCount + min N 128

/-- RLWE encryptions made by `simulate` for `n = 2^d`: the negated key, `d` substitution keys, and all features. -/
def simulateEncryptions (ctx : Ctx) (d : Nat) (features : List (List Nat)) : Nat :=
  2 * ctx.negsLevelCount + d * ctx.ksLevelCount + (features.map List.length).sum * ctx.levelCount

/-- Setup succeeds, and every answer of the session is the right one. -/
def SessionCorrect (fft : Fft n) (ctx : Ctx) (s : Poly n) (cols : Nat) (H : NaiveHash) (sts : List (Reducer n × Call n)) (g : Gen n) : Prop :=
  ∃ S pts g1 S' g', setupRandomOram ctx s 1 cols H g = some (S, pts, g1) ∧
    runSession fft ctx s cols H sts S g1 = some (Spec.session (fun i => pts.getD i 0) (sts.map Prod.snd), S', g')

/-- Setup succeeds, and every answer of every batch is the right one. -/
def BatchesCorrect (fft : Fft n) (ctx : Ctx) (s : Poly n) (rows cols : Nat) (H : NaiveHash) (cmds : List (BatchCmd n)) (g : Gen n) : Prop :=
  ∃ S pts g1 yss S' g', setupRandomOram ctx s rows cols H g = some (S, pts, g1) ∧
    runBatches fft ctx s rows cols H cmds S g1 = some (yss, S', g') ∧ Spec.batchOk H cols (fun i => pts.getD i 0) cmds yss

/-- `simulate` predicts, for every feature vector, what the plain tree says. -/
def SimulateCorrect (fft : Fft n) (ctx : Ctx) (ceilLog2 : Nat → Nat) (s : Poly n) (tree : Tree) (features : List (List Nat)) (g : Gen n) : Prop :=
  ∃ ys, simulate fft ctx ceilLog2 s tree features g = some ys ∧ List.Forall₂ (fun f y => tree.eval f = some y) features ys

end Panacea.Spec
