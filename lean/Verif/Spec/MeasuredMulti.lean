import Verif.Spec.Measured
import Verif.Spec.Session

/-!
# Measured noise of `process_multi` and of sessions mixing it with `process_one`

As `Spec/Measured`, for the multi-query call: the errors of the external products that the calls of a session perform are bounded, nothing
else.
-/

namespace Panacea
variable {n : Nat}

/-- The errors of the external products of one `process_multi` call on `row` stay within `m` and, for the products with the summed
selectors, within `V`. -/
structure MeasuredMulti (fft : Fft n) (s : Poly n) (ctx : Ctx) (negS : RGSW n) (R : Reducer n) (qs : List (ClientQuery n))
    (row : List (RLWE n)) (D B : Nat) (m : Measure) (V : Nat) : Prop where
  /-- every query on its own -/
  rows : ∀ q ∈ qs, MeasuredRow fft s ctx negS q row D B m
  /-- a selector times the cell with the READ/WRITE flag applied -/
  tmp : ∀ q ∈ qs, ∀ y ls, processOneSt fft ctx q row negS = some (y, ls) → ∀ (j : Nat) l c, ls[j]? = some l → row[j]? = some c →
    GateOk fft s ctx.baseLog ctx.levelCount (m.rows D) m.sel l (rw fft q.op q.data c)
  /-- the summed selectors times the change of the cell -/
  sum : ∀ rs, mapOption (fun q => processOneSt fft ctx q row negS) qs = some rs → ∀ (j : Nat) L T c,
    (R.gsw (rs.map Prod.snd))[j]? = some L → (R.vec (List.zipWith (multiTmps fft row) qs (rs.map Prod.snd)))[j]? = some T →
    row[j]? = some c → GateOk fft s ctx.baseLog ctx.levelCount (qs.length * m.rows D) V L (T - c)

/-- The errors of the external products of every call of a session stay within `m` and `V`. -/
def MeasuredSession (fft : Fft n) (ctx : Ctx) (s : Poly n) (D : Nat) (H : NaiveHash) (B : Nat) (m : Measure) (V : Nat) :
    List (Reducer n × Call n) → Server n → Gen n → Prop
  | [], _, _ => True
  | (R, .one c) :: sts, S, g => ∀ q g', clientQuery ctx s 1 (2 ^ D) H c g = some (q, g') →
    (∀ row rest, S.data = row :: rest → MeasuredRow fft s ctx S.negS q row D B m) ∧
    ∀ y S', S.processOne R.one fft q = some (y, S') → MeasuredSession fft ctx s D H B m V sts S' g'
  | (R, .multi cs) :: sts, S, g => ∀ qs g', mapGenM (clientQuery ctx s 1 (2 ^ D) H) cs g = some (qs, g') →
    (∀ row rest, S.data = row :: rest → MeasuredMulti fft s ctx S.negS R qs row D B m V) ∧
    ∀ ys S', S.processMulti R.vec R.gsw fft qs = some (ys, S') → MeasuredSession fft ctx s D H B m V sts S' g'

/-- Measured noise added to the database by a call. -/
def Measure.call (m : Measure) (V : Nat) : Call n → Nat
  | .one _ => m.op + m.sel
  | .multi cs => m.op + cs.length * m.sel + V

/-- Measured noise added by a session. -/
def Measure.session (m : Measure) (V : Nat) (sts : List (Call n)) : Nat := (sts.map (m.call V)).sum

end Panacea
