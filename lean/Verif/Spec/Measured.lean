import Verif.Spec.Oram

/-!
# Noise as it is measured in a run

The noise bounds of `Spec/Oram` are worst case over all ciphertexts.  The repository's default parameters are chosen for the typical noise,
far below the worst case.  Here the noise of *the external products that a given run performs* is bounded instead: this is what a user can
measure with the secret key, or bound with high probability.  The correctness theorems for measured noise (C70) hold for all parameters.

`GateOk`: if the RGSW operand encrypts a bit (with row noise at most `E`), then the product of *this* call is off by at most `V`.
The hypothesis is about the size of the error only: which bit is encrypted is for the theorems to prove.
-/

namespace Panacea
variable {n : Nat}

/-- The external product of `C` and `d` has an error of at most `V`, if `C` is an encryption of a bit with row noise at most `E`. -/
def GateOk (fft : Fft n) (s : Poly n) (bl lv E V : Nat) (C : RGSW n) (d : RLWE n) : Prop :=
  ∀ b, EncBit s C b bl lv E → Enc s (externalProduct fft C 0 d) (if b then decryptRlwe s d else 0) V

/-- The external products performed by `demux_with` on `b`: every address bit is multiplied with every intermediate ciphertext. -/
def demuxCalls (fft : Fft n) : List (RGSW n) → RLWE n → List (RGSW n × RLWE n)
  | [], _ => []
  | C :: rest, b =>
    (C, b) :: (demuxCalls fft rest (externalProduct fft C 0 b) ++ demuxCalls fft rest (b - externalProduct fft C 0 b))

/-- Bounds on the measured errors of the external products of a server call: with address bits, with `neg_s` (relative to the message),
with the READ/WRITE flag, with column selectors. -/
structure Measure where
  bit : Nat
  neg : Nat
  op : Nat
  sel : Nat

/-- Row noise of the selectors made from `D` address bits. -/
def Measure.rows (m : Measure) (D : Nat) : Nat := max (D * m.bit) m.neg

/-- The errors of the external products of one access to one row stay within `m`. -/
structure MeasuredRow (fft : Fft n) (s : Poly n) (ctx : Ctx) (negS : RGSW n) (q : ClientQuery n) (row : List (RLWE n)) (D B : Nat)
    (m : Measure) : Prop where
  /-- demultiplexing the gadget elements -/
  bit : ∀ level, 1 ≤ level → level ≤ ctx.levelCount →
    ∀ x ∈ demuxCalls fft q.a ⟨0, Poly.set 0 0 (gadget ctx.baseLog level)⟩, GateOk fft s ctx.baseLog ctx.levelCount B m.bit x.1 x.2
  /-- multiplying the demultiplexed ciphertexts with `neg_s`, an encryption of the negated key with row noise at most `B` -/
  neg : EncG s negS (-s) B → ∀ L, decomposedSelectors fft ctx q row.length = some L → ∀ cs ∈ L, ∀ (k : Nat) c, cs[k]? = some c → ∀ b : Bool,
    Enc s c (Poly.const n (gadget ctx.baseLog (k + 1)) * if b then 1 else 0) (D * m.bit) →
    Enc s (externalProduct fft negS 0 c) (Poly.const n (gadget ctx.baseLog (k + 1)) * -(s * if b then 1 else 0)) m.neg
  /-- selecting the response and updating the cells -/
  sel : ∀ y ls, processOneSt fft ctx q row negS = some (y, ls) → ∀ (j : Nat) l c, ls[j]? = some l → row[j]? = some c →
    GateOk fft s ctx.baseLog ctx.levelCount (m.rows D) m.sel l c ∧
    GateOk fft s ctx.baseLog ctx.levelCount (m.rows D) m.sel l (rw fft q.op q.data c - c)
  /-- applying the READ/WRITE flag -/
  op : ∀ c ∈ row, GateOk fft s ctx.baseLog ctx.levelCount B m.op q.op (q.data - c)

/-- The database after the row updates of a batch. -/
def phase1Db (fft : Fft n) (qs : List (ClientQuery n)) (data : List (List (RLWE n))) (lss : List (List (RGSW n))) : List (List (RLWE n)) :=
  List.zipWith (fun (x : ClientQuery n × List (RLWE n)) l => updateDb fft x.1 x.2 l) (qs.zip data) lss

/-- The errors of the external products of one batch access stay within `m`. -/
structure MeasuredBatch (fft : Fft n) (s : Poly n) (S : Server n) (qs : List (ClientQuery n)) (H : NaiveHash) (D B : Nat) (m : Measure) :
    Prop where
  /-- the access to every row -/
  rows : ∀ (r : Nat) q row, qs[r]? = some q → S.data[r]? = some row → MeasuredRow fft s S.ctx S.negS q row D B m
  /-- the consistency phase: for every item, at each of its positions, the first copy and the copy at this position are multiplied with
  the position's READ/WRITE flag and then with the position's selector -/
  fix : ∀ rs, mapOption (batchRow fft S) (qs.zip S.data) = some rs → ∀ i ps first p v q ls l,
    itemPositions H (2 ^ D) i = some ps → ps.head? = some first → p ∈ ps →
    (cellAt (phase1Db fft qs S.data (rs.map Prod.snd)) first = some v ∨ cellAt (phase1Db fft qs S.data (rs.map Prod.snd)) p = some v) →
    qs[p.1]? = some q → (rs.map Prod.snd)[p.1]? = some ls → ls[p.2]? = some l →
    GateOk fft s S.ctx.baseLog S.ctx.levelCount B m.op q.op v ∧
    GateOk fft s S.ctx.baseLog S.ctx.levelCount (m.rows D) m.sel l (externalProduct fft q.op 0 v)

/-- The same for every call of a run of single-query commands. -/
def MeasuredHistory (fft : Fft n) (ctx : Ctx) (s : Poly n) (D : Nat) (H : NaiveHash) (B : Nat) (m : Measure) :
    List ((List (RLWE n) → RLWE n) × Cmd n) → Server n → Gen n → Prop
  | [], _, _ => True
  | c :: cs, S, g => ∀ q g', clientQuery ctx s 1 (2 ^ D) H c.2 g = some (q, g') →
    (∀ row rest, S.data = row :: rest → MeasuredRow fft s ctx S.negS q row D B m) ∧
    ∀ y S', S.processOne c.1 fft q = some (y, S') → MeasuredHistory fft ctx s D H B m cs S' g'

/-- The same for every call of a run of batch commands. -/
def MeasuredBatches (fft : Fft n) (ctx : Ctx) (s : Poly n) (rows D : Nat) (H : NaiveHash) (B : Nat) (m : Measure) :
    List (BatchCmd n) → Server n → Gen n → Prop
  | [], _, _ => True
  | c :: cs, S, g => ∀ qs g', clientBatch ctx s rows (2 ^ D) H c g = some (qs, g') →
    MeasuredBatch fft s S qs H D B m ∧
    ∀ ys S', S.processBatch fft qs H = some (ys, S') → MeasuredBatches fft ctx s rows D H B m cs S' g'

end Panacea
