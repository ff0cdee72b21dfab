import Verif.Spec.Demux
import Verif.Spec.Keyswitch
import Verif.Spec.Tree

/-! # Specification vocabulary for encrypted tree evaluation -/

namespace Panacea

/-- The comparison made at a node: is the selected feature at most the threshold? -/
def Spec.cmpBit (features : List Nat) (d : NodeData) : Bool :=
  match features[d.feature]? with
  | some v => decide (v ≤ d.threshold)
  | none => false

/-- `cts` encrypt, one per internal node of `t` in `flatten` order, the comparison bits for `features`. -/
def EncChoices {n : Nat} (s : Poly n) (features : List Nat) (t : Tree) (cts : List (RGSW n)) (bl lv E : Nat) : Prop :=
  List.Forall₂ (fun d C => EncBit s C (Spec.cmpBit features d) bl lv E) t.flatten cts

/-- Worst-case row noise of a choice bit produced by `compare_expand` from fresh feature ciphertexts: comparison (at most `n`-fold
amplification plus FFT error), trace, multiplication by `-s`. -/
def compareNoise (ctx : Ctx) (n B phi : Nat) : Nat :=
  expandNoise n ctx.negsBaseLog ctx.negsLevelCount B phi
    (n * (n * B + fftNoise n phi 1) + (n - 1) * ksNoise n ctx.ksBaseLog ctx.ksLevelCount B
      (fftNoise n phi (1 + ctx.ksLevelCount * 2 ^ (ctx.ksBaseLog - 1))))

end Panacea
