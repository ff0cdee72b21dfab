import Verif.Spec.MeasuredMain
import Verif.Model.TestsOram

/-!
# The crate's tests of the ORAM with the noise measured in the run

The server calls of each test, in order, as scripts: a step is one call, or a draw of random data that later calls may write.  A script is measured if
the external products of its calls have errors within given bounds (`Spec/Measured`, `Spec/MeasuredMulti`).
-/

namespace Panacea
variable {n : Nat}

/-- A step of a test of the one-row ORAM: draw the data to be written, or a call that may use the data drawn last. -/
inductive TestStep (n : Nat) where
  | draw
  | call (R : Reducer n) (c : Poly n → Call n)

/-- The errors of the external products of every call of a script stay within `m` and `V`. -/
def MeasuredScript (fft : Fft n) (ctx : Ctx) (s : Poly n) (D : Nat) (H : NaiveHash) (B : Nat) (m : Measure) (V : Nat) :
    List (TestStep n) → Poly n → Server n → Gen n → Prop
  | [], _, _, _ => True
  | .draw :: sts, _, S, g => MeasuredScript fft ctx s D H B m V sts (genBinaryPt g).1 S (genBinaryPt g).2
  | .call R c :: sts, p, S, g => MeasuredSession fft ctx s D H B m V [(R, c p)] S g ∧
    ∀ yss S' g', runSession fft ctx s (2 ^ D) H [(R, c p)] S g = some (yss, S', g') → MeasuredScript fft ctx s D H B m V sts p S' g'

/-- A step of a test of the batched ORAM. -/
inductive BatchStep (n : Nat) where
  | draw
  | batch (c : Poly n → BatchCmd n)

/-- The errors of the external products of every batch of a script stay within `m`. -/
def MeasuredBatchScript (fft : Fft n) (ctx : Ctx) (s : Poly n) (rows D : Nat) (H : NaiveHash) (B : Nat) (m : Measure) :
    List (BatchStep n) → Poly n → Server n → Gen n → Prop
  | [], _, _, _ => True
  | .draw :: sts, _, S, g => MeasuredBatchScript fft ctx s rows D H B m sts (genBinaryPt g).1 S (genBinaryPt g).2
  | .batch c :: sts, p, S, g => MeasuredBatches fft ctx s rows D H B m [c p] S g ∧
    ∀ yss S' g', runBatches fft ctx s rows (2 ^ D) H [c p] S g = some (yss, S', g') → MeasuredBatchScript fft ctx s rows D H B m sts p S' g'

/-- The calls of `test_oram`: read item 1, draw data, write it to item 1, read item 1. -/
def oramScript (E : OramTest n) : List (TestStep n) :=
  [.call (E.red 0) fun _ => .one (.read 1), .draw, .call (E.red 1) fun p => .one (.write 1 p), .call (E.red 2) fun _ => .one (.read 1)]

/-- The calls of `test_oram_multi`: read items 1 and 2, draw data, write it to both, read both. -/
def oramMultiScript (E : OramTest n) : List (TestStep n) :=
  [.call (E.red 0) fun _ => .multi [.read 1, .read 2], .draw, .call (E.red 1) fun p => .multi [.write 1 p, .write 2 p],
    .call (E.red 2) fun _ => .multi [.read 1, .read 2]]

/-- The calls of `test_oram_more`: read item 1 (`k` times, with the schedules from `i` on). -/
def oramMoreScript (E : OramTest n) (i k : Nat) : List (TestStep n) := (List.range' i k).map fun j => .call (E.red j) fun _ => .one (.read 1)

/-- The calls of `test_oram_batch`: read items 0 and 1, draw data, write it to items 1 and 2, read them. -/
def oramBatchScript (n : Nat) : List (BatchStep n) :=
  [.batch fun _ => .read [0, 1], .draw, .batch fun p => .write [1, 2] p, .batch fun _ => .read [1, 2]]

/-- The calls of `test_oram_batch_more`: read items 0 and 1, `k` times. -/
def oramBatchMoreScript (n k : Nat) : List (BatchStep n) := List.replicate k (.batch fun _ => .read [0, 1])

/-- The script, run on the database with one row of `2^D` cells that the test sets up, is measured. -/
def ScriptWithin (E : OramTest n) (D B : Nat) (m : Measure) (V : Nat) (sts : List (TestStep n)) : Prop :=
  ∀ H S pts g, NaiveHash.new E.shuffle 1 (2 ^ D) = some H → setupRandomOram E.ctx E.sk 1 (2 ^ D) H E.g = some (S, pts, g) →
    MeasuredScript E.fft E.ctx E.sk D H B m V sts 0 S g

/-- The script, run on the database with `hc` copies of `N` items in `rows` rows of `2^D` cells that the test sets up, is measured. -/
def BatchScriptWithin (E : OramTest n) (rows D hc N B : Nat) (m : Measure) (sts : List (BatchStep n)) : Prop :=
  ∀ H S pts g, NaiveHash.new E.shuffle hc N = some H → setupRandomOram E.ctx E.sk rows (2 ^ D) H E.g = some (S, pts, g) →
    MeasuredBatchScript E.fft E.ctx E.sk rows D H B m sts 0 S g

/-- What is assumed about a run of a test: usable parameters, bounded noise, a shuffle that permutes, reductions that are reductions, and iterations over
hash maps that visit only keys of the map.  Nothing is assumed about the Fourier transform. -/
structure OramTest.Fair (E : OramTest n) (t : Scalar) (cols B : Nat) : Prop where
  bl : 1 ≤ E.ctx.baseLog
  lv : 1 ≤ E.ctx.levelCount
  lt : E.ctx.baseLog * E.ctx.levelCount < 64
  nbl : E.ctx.negsBaseLog = E.ctx.baseLog
  nlv : 1 ≤ E.ctx.negsLevelCount
  nlt : E.ctx.negsBaseLog * E.ctx.negsLevelCount < 64
  codec : Codec.new t = some E.ctx.codec
  gen : E.g.Bounded B
  perm : ∀ l, (E.shuffle l).Perm l
  red : ∀ k, (E.red k).Valid E.ctx cols
  order : ∀ m r, r ∈ E.order m → (m r).isSome

end Panacea
