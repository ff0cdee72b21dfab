import Verif.Spec.Mixed
import Verif.Spec.MeasuredMulti

/-!
# Measured noise of arbitrary mixtures of `process_one`, `process_multi` and `process_batch` on any number of rows

As `Spec/Measured` and `Spec/MeasuredMulti`: the errors of the external products that the calls of a run perform are bounded, nothing else.
-/

namespace Panacea
variable {n : Nat}

/-- The errors of the external products of every call of a mixed session stay within `m` and, for the products with the summed selectors
of `process_multi`, within `V`. -/
def MeasuredMixed (fft : Fft n) (ctx : Ctx) (s : Poly n) (rows D : Nat) (H : NaiveHash) (B : Nat) (m : Measure) (V : Nat) :
    List (Reducer n × MixedStep n) → Server n → Gen n → Prop
  | [], _, _ => True
  | (R, .one c) :: sts, S, g => ∀ q g', clientQuery ctx s rows (2 ^ D) H c g = some (q, g') →
    (∀ row rest, S.data = row :: rest → MeasuredRow fft s ctx S.negS q row D B m) ∧
    ∀ y S', S.processOne R.one fft q = some (y, S') → MeasuredMixed fft ctx s rows D H B m V sts S' g'
  | (R, .multi cs) :: sts, S, g => ∀ qs g', mapGenM (clientQuery ctx s rows (2 ^ D) H) cs g = some (qs, g') →
    (∀ row rest, S.data = row :: rest → MeasuredMulti fft s ctx S.negS R qs row D B m V) ∧
    ∀ ys S', S.processMulti R.vec R.gsw fft qs = some (ys, S') → MeasuredMixed fft ctx s rows D H B m V sts S' g'
  | (_, .batch c) :: sts, S, g => ∀ qs g', clientBatch ctx s rows (2 ^ D) H c g = some (qs, g') →
    MeasuredBatch fft s S qs H D B m ∧
    ∀ ys S', S.processBatch fft qs H = some (ys, S') → MeasuredMixed fft ctx s rows D H B m V sts S' g'

/-- Measured noise added to the cells by a call (`hc` hash functions). -/
def Measure.step (m : Measure) (V hc : Nat) : MixedStep n → Nat
  | .one _ => m.op + m.sel
  | .multi cs => m.op + cs.length * m.sel + V
  | .batch _ => (2 * hc - 1) * (m.op + m.sel)

/-- Measured noise added by a sequence of calls. -/
def Measure.mixed (m : Measure) (V hc : Nat) (sts : List (MixedStep n)) : Nat := (sts.map (m.step V hc)).sum

/-- Every `process_multi` call has at most `K` commands. -/
def MixedStep.AtMost (K : Nat) : MixedStep n → Prop
  | .multi cs => cs.length ≤ K
  | _ => True

end Panacea
