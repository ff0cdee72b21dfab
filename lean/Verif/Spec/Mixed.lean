import Verif.Spec.Session
import Verif.Props.OneMultiRow

/-!
# Specification vocabulary for arbitrary mixtures of `process_one`, `process_multi` and `process_batch` on any number of rows

The database is seen as a grid of plain contents, one per cell.  Nothing here mentions ciphertexts, except `runMixed`, the user's program.
-/

namespace Panacea
variable {n : Nat}

/-- One call of the server: a single command, a list of single commands, or a batch command. -/
inductive MixedStep (n : Nat)
  | one (c : Cmd n)
  | multi (cs : List (Cmd n))
  | batch (c : BatchCmd n)

/-- The cell of the first copy of item `i`: hash function 0. -/
def Spec.firstCell (H : NaiveHash) (cols i : Nat) : Nat × Nat := (H.hashToTuple 0 i cols).getD (0, 0)

/-- The item a copy of which is stored in cell `p`. -/
def Spec.itemAt (H : NaiveHash) (cols : Nat) (p : Nat × Nat) : Option Nat :=
  (List.range H.inputDomain).find? fun i => (List.range H.hCount).any fun h => H.hashToTuple h i cols == some p

/-- The cell a single command addresses. -/
def Spec.target (H : NaiveHash) (cols : Nat) (c : Cmd n) : Nat × Nat := Spec.oneCell (Spec.firstCell H cols c.index)

/-- The grid after a single command: a WRITE changes the first copy of its item only, and only if that is in row 0. -/
def Spec.gridOne (H : NaiveHash) (cols : Nat) (U : Nat × Nat → Poly n) (c : Cmd n) : Nat × Nat → Poly n :=
  fun p => Spec.cellAfterOne c (Spec.firstCell H cols c.index) p (U p)

/-- The grid after a batch command: every copy of every item holds the written data if the item is served by a batch WRITE, and what the
*first* copy of the item held before otherwise. -/
noncomputable def Spec.gridBatch (H : NaiveHash) (cols : Nat) (U : Nat × Nat → Poly n) (c : BatchCmd n) : Nat × Nat → Poly n := fun p =>
  match Spec.itemAt H cols p with
  | none => U p
  | some i => Spec.applyBatch H cols (fun j => U (Spec.firstCell H cols j)) c i

/-- The cell row `r` of the answer to a batch shows: the one the mapping names, column 0 in rows without an item. -/
def Spec.rowCell (H : NaiveHash) (cols : Nat) (c : BatchCmd n) (r : Nat) : Nat × Nat :=
  match (H.hashToMapping c.indices cols).bind (fun m => m r) with
  | some (col, _) => (r, col)
  | none => (r, 0)

/-- The answers to a call. -/
def Spec.gridAnswer (H : NaiveHash) (rows cols : Nat) (U : Nat × Nat → Poly n) : MixedStep n → List (Poly n)
  | .one c => [U (Spec.target H cols c)]
  | .multi cs => cs.map fun c => U (Spec.target H cols c)
  | .batch c => (List.range rows).map fun r => U (Spec.rowCell H cols c r)

/-- The grid after a call. -/
noncomputable def Spec.gridAfter (H : NaiveHash) (cols : Nat) (U : Nat × Nat → Poly n) : MixedStep n → Nat × Nat → Poly n
  | .one c => Spec.gridOne H cols U c
  | .multi cs => cs.foldl (Spec.gridOne H cols) U
  | .batch c => Spec.gridBatch H cols U c

/-- The answers to a sequence of calls. -/
noncomputable def Spec.mixed (H : NaiveHash) (rows cols : Nat) (U : Nat × Nat → Poly n) : List (MixedStep n) → List (List (Poly n))
  | [] => []
  | st :: sts => Spec.gridAnswer H rows cols U st :: Spec.mixed H rows cols (Spec.gridAfter H cols U st) sts

/-- A call is valid: existing items, encodable data; the commands of a `process_multi` call address different cells, the items of a batch
are distinct. -/
def MixedStep.Valid (H : NaiveHash) (cols N : Nat) (t : Scalar) : MixedStep n → Prop
  | .one c => c.Valid N t
  | .multi cs => (∀ c ∈ cs, c.Valid N t) ∧ (cs.map (Spec.target H cols)).Nodup
  | .batch c => c.Valid N t

/-- The user's program: for every call generate the query or queries, let the server process them, decrypt and decode the answers. -/
def runMixed (fft : Fft n) (ctx : Ctx) (s : Poly n) (rows cols : Nat) (H : NaiveHash) :
    List (Reducer n × MixedStep n) → Server n → Gen n → Option (List (List (Poly n)) × Server n × Gen n)
  | [], S, g => some ([], S, g)
  | (R, .one c) :: sts, S, g =>
    match clientQuery ctx s rows cols H c g with
    | none => none
    | some (q, g) =>
      match S.processOne R.one fft q with
      | none => none
      | some (y, S) =>
        match runMixed fft ctx s rows cols H sts S g with
        | none => none
        | some (ys, S, g) => some ([decryptDecodeRlwe ctx s y] :: ys, S, g)
  | (R, .multi cs) :: sts, S, g =>
    match mapGenM (clientQuery ctx s rows cols H) cs g with
    | none => none
    | some (qs, g) =>
      match S.processMulti R.vec R.gsw fft qs with
      | none => none
      | some (y, S) =>
        match runMixed fft ctx s rows cols H sts S g with
        | none => none
        | some (ys, S, g) => some (y.map (decryptDecodeRlwe ctx s) :: ys, S, g)
  | (_, .batch c) :: sts, S, g =>
    match clientBatch ctx s rows cols H c g with
    | none => none
    | some (qs, g) =>
      match S.processBatch fft qs H with
      | none => none
      | some (y, S) =>
        match runMixed fft ctx s rows cols H sts S g with
        | none => none
        | some (ys, S, g) => some (y.map (decryptDecodeRlwe ctx s) :: ys, S, g)

/-- Noise added to the cells by a call (`hc` hash functions). -/
def stepNoise (ctx : Ctx) (n B phi D hc : Nat) : MixedStep n → Nat
  | .one c => callNoise ctx n B phi D (.one c)
  | .multi cs => callNoise ctx n B phi D (.multi cs)
  | .batch _ => (2 * hc - 1) * (deltaOp ctx n B phi + deltaSel ctx n B phi D)

/-- Noise added by a sequence of calls. -/
def mixedNoise (ctx : Ctx) (n B phi D hc : Nat) (sts : List (MixedStep n)) : Nat := (sts.map (stepNoise ctx n B phi D hc)).sum

end Panacea
