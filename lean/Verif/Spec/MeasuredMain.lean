import Verif.Spec.MeasuredMulti
import Verif.Model.Main

/-!
# The benchmark binary with the noise measured in the run

The accesses of the three modes of the binary as sessions of `Spec/Session` and batches of `Spec/Oram`, and what is required of a parameter set and of
the external products its run performs.
-/

namespace Panacea
variable {n : Nat}

/-- What is assumed about the randomness and the scheduler: the shuffle permutes, the key is binary, the noise is bounded, the reductions are
reductions.  Nothing is assumed about the Fourier transform. -/
structure Env.Fair (E : Env n) (ctx : Ctx) (cols B : Nat) : Prop where
  perm : ∀ l, (E.shuffle l).Perm l
  key : Binary E.s
  gen : E.g.Bounded B
  red : ∀ k, (E.red k).Valid ctx cols

/-- The calls of `single_query`: read item 0 in every iteration. -/
def singleCalls (E : Env n) (ks : List Nat) : List (Reducer n × Call n) := ks.map fun k => (E.red k, .one (.read 0))

/-- The calls of `multi_query`: read the items `1 ..= query_count` in every iteration. -/
def multiCalls (E : Env n) (queryCount : Nat) (ks : List Nat) : List (Reducer n × Call n) :=
  ks.map fun k => (E.red k, .multi ((List.range queryCount).map fun i => .read (i + 1)))

/-- The calls of `batch_query`: read items 0 and 1 in every iteration. -/
def batchCalls (n : Nat) (ks : List Nat) : List (BatchCmd n) := ks.map fun _ => .read [0, 1]

/-- The external products of the session `sts` on the one-row database with `2^D` columns that the run sets up have errors within `m` and `V`. -/
def SessionWithin (E : Env n) (ctx : Ctx) (D B : Nat) (m : Measure) (V : Nat) (sts : List (Reducer n × Call n)) : Prop :=
  ∀ H S pts g, NaiveHash.new E.shuffle 1 (2 ^ D) = some H → setupRandomOram ctx E.s 1 (2 ^ D) H E.g = some (S, pts, g) →
    MeasuredSession E.fft ctx E.s D H B m V sts S g

/-- The external products of the batches on the database that the run sets up, `N` items stored three times in `rows` rows of `2^D` columns, have errors
within `m`. -/
def BatchesWithin (E : Env n) (ctx : Ctx) (rows N D B : Nat) (m : Measure) (cmds : List (BatchCmd n)) : Prop :=
  ∀ H S pts g, NaiveHash.new E.shuffle 3 N = some H → setupRandomOram ctx E.s rows (2 ^ D) H E.g = some (S, pts, g) →
    MeasuredBatches E.fft ctx E.s rows D H B m cmds S g

/-- The number of columns of the database of a mode. -/
def ORAMParameters.columns : ORAMParameters → Nat
  | .singleQuery ic _ => ic
  | .multiQuery ic _ _ => ic
  | .batched _ cols _ => cols

/-- The external products that the run of a mode performs (setup, then one call per iteration) have errors within `m` and `V`. -/
def ProductsWithin (E : Env n) (ctx : Ctx) (B : Nat) (m : Measure) (V : Nat) : ORAMParameters → Prop
  | .singleQuery ic it => SessionWithin E ctx (Nat.log2 ic) B m V (singleCalls E (List.range it))
  | .multiQuery ic qc it => SessionWithin E ctx (Nat.log2 ic) B m V (multiCalls E qc (List.range it))
  | .batched rows cols it => BatchesWithin E ctx rows (rows * cols / 3) (Nat.log2 cols) B m (batchCalls n (List.range it))

/-- What accumulates in a run of a mode: the fresh noise `B`, the errors of the iterations, and those of the last answer. -/
def Measure.accumulated (m : Measure) (B V : Nat) : ORAMParameters → Nat
  | .singleQuery ic it => B + it * (m.op + m.sel) + ic * m.sel
  | .multiQuery ic qc it => B + it * (m.op + qc * m.sel + V) + ic * m.sel
  | .batched _ cols it => B + it * (5 * (m.op + m.sel)) + cols * m.sel

/-- The sizes a mode can be run with: `2^D` columns (`1 ≤ D < 64`), fewer queries than items, three copies of at least two items. -/
def ORAMParameters.Fits : ORAMParameters → Prop
  | .singleQuery ic it => (∃ D, 1 ≤ D ∧ D < 64 ∧ ic = 2 ^ D) ∧ 0 < it
  | .multiQuery ic qc it => (∃ D, 1 ≤ D ∧ D < 64 ∧ ic = 2 ^ D) ∧ qc < ic ∧ 0 < it
  | .batched rows cols it => (∃ D, 1 ≤ D ∧ D < 64 ∧ cols = 2 ^ D) ∧ 3 ∣ rows * cols ∧ 6 ≤ rows * cols ∧ rows * cols < 2 ^ 64 ∧ 0 < it

end Panacea
