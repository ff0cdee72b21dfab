import Verif.Model.Oram
import Verif.Model.Params

/-!
# The benchmark binary, /repo/src/main.rs

`none` = the process panics; `some k` = it completes after printing `k` result lines.  Timing and the printed noise are not modelled
(`compute_noise_encoded` of a decoded plaintext cannot panic).  `usize` overflow of `rows * cols` is not modelled.
-/

namespace Panacea
variable {n : Nat}

/-- `Context::new`, /repo/src/context.rs:75-146: copies the parameters; panics only in `Codec::new`.  The generators are not part of it. -/
def Ctx.ofParams {F : Type} (p : TFHEParameters F) : Option Ctx :=
  match Codec.new (BitVec.ofNat 64 p.plaintextModulus) with
  | none => none
  | some codec =>
    some ⟨p.baseLog, p.levelCount, p.keySwitchBaseLog, p.keySwitchLevelCount, p.negsBaseLog, p.negsLevelCount, codec⟩

/-- Everything random or scheduling dependent in one run of a mode: the table shuffle, the secret key, the generators, the Fourier
transform's rounding, and the behaviour of the parallel reductions in every server call  (/repo/src/main.rs:12-178). -/
structure Env (n : Nat) where
  shuffle : List Nat → List Nat
  s : Poly n
  g : Gen n
  fft : Fft n
  red : Nat → Reducer n

/-- State of a benchmark loop: the server, the generators, the number of lines printed  (/repo/src/main.rs:12-178). -/
abbrev RunState (n : Nat) := Server n × Gen n × Nat

/-- `for iter in ..` over the remaining iteration numbers  (/repo/src/main.rs:42, 95, 159). -/
def iterM {σ : Type} (f : Nat → σ → Option σ) : List Nat → σ → Option σ
  | [], st => some st
  | k :: ks, st =>
    match f k st with
    | none => none
    | some st => iterM f ks st

/-- One iteration of `single_query`, /repo/src/main.rs:22-39 and (textually the same) 43-49: read item 0 and assert the answer. -/
def singleIter (E : Env n) (ctx : Ctx) (itemCount : Nat) (H : NaiveHash) (pts : List (Poly n)) (k : Nat) (st : RunState n) :
    Option (RunState n) :=
  match genReadQueryOne ctx E.s 1 itemCount H 0 st.2.1 with
  | none => none
  | some (q, g) =>
    match st.1.processOne (E.red k).one E.fft q with
    | none => none
    | some (y, S) =>
      match pts[0]? with
      | none => none
      | some p => if p = decryptDecodeRlwe ctx E.s y then some (S, g, st.2.2 + 1) else none

/-- `single_query`, /repo/src/main.rs:12-54. -/
def singleQuery (E : Env n) (ctx : Option Ctx) (itemCount iterations : Nat) (dryrun : Bool) : Option Nat :=
  if iterations > 0 then
    match log2 itemCount with
    | none => none
    | some _ =>
      if dryrun then some 1
      else
        match NaiveHash.new E.shuffle 1 itemCount, ctx with
        | some H, some ctx =>
          match setupRandomOram ctx E.s 1 itemCount H E.g with
          | none => none
          | some (S, pts, g) =>
            match iterM (singleIter E ctx itemCount H pts) (List.range iterations) (S, g, 0) with
            | none => none
            | some st => some st.2.2
        | _, _ => none
  else none

/-- The check of `multi_query`, /repo/src/main.rs:84-88, 103-107: response `i` decodes to `pts[i + 1]`; `false` also for an index out of
bounds. -/
def multiCheck (ctx : Ctx) (s : Poly n) (pts : List (Poly n)) (ys : List (RLWE n)) (i : Nat) : Bool :=
  match ys[i]?, pts[i + 1]? with
  | some y, some p => decide (p = decryptDecodeRlwe ctx s y)
  | _, _ => false

/-- One iteration of `multi_query`, /repo/src/main.rs:72-92 and 96-110. -/
def multiIter (E : Env n) (ctx : Ctx) (itemCount queryCount : Nat) (H : NaiveHash) (pts : List (Poly n)) (k : Nat) (st : RunState n) :
    Option (RunState n) :=
  match mapGenM (fun i => genReadQueryOne ctx E.s 1 itemCount H (i + 1)) (List.range queryCount) st.2.1 with
  | none => none
  | some (qs, g) =>
    match st.1.processMulti (E.red k).vec (E.red k).gsw E.fft qs with
    | none => none
    | some (ys, S) => if (List.range queryCount).all (multiCheck ctx E.s pts ys) then some (S, g, st.2.2 + 1) else none

/-- `multi_query`, /repo/src/main.rs:56-115. -/
def multiQuery (E : Env n) (ctx : Option Ctx) (itemCount queryCount iterations : Nat) (dryrun : Bool) : Option Nat :=
  if iterations > 0 then
    match log2 itemCount with
    | none => none
    | some _ =>
      if dryrun then some 1
      else
        match NaiveHash.new E.shuffle 1 itemCount, ctx with
        | some H, some ctx =>
          match setupRandomOram ctx E.s 1 itemCount H E.g with
          | none => none
          | some (S, pts, g) =>
            if itemCount = pts.length then
              match iterM (multiIter E ctx itemCount queryCount H pts) (List.range iterations) (S, g, 0) with
              | none => none
              | some st => some st.2.2
            else none
        | _, _ => none
  else none

/-- The check of `batch_query`, /repo/src/main.rs:150-155, 165-170: for every entry `(r, (_, i))` of the mapping, response `r` decodes to
`pts[indices[i]]` (sic: `i` is already an item, and `indices = [0, 1]`), no index being out of bounds.  The iteration order of the hash map
does not matter. -/
def BatchCheck (ctx : Ctx) (s : Poly n) (pts : List (Poly n)) (indices : List Nat) (mapping : NaiveHash.Mapping) (ys : List (RLWE n)) :
    Prop :=
  ∀ r c i, mapping r = some (c, i) → ∃ y j p, ys[r]? = some y ∧ indices[i]? = some j ∧ pts[j]? = some p ∧ p = decryptDecodeRlwe ctx s y

open Classical in
/-- One iteration of `batch_query`, /repo/src/main.rs:136-157 and 160-173. -/
noncomputable def batchIter (E : Env n) (ctx : Ctx) (rows cols : Nat) (H : NaiveHash) (pts : List (Poly n)) (st : RunState n) :
    Option (RunState n) :=
  let indices := [0, 1]
  match genReadQueryBatch ctx E.s rows cols H indices st.2.1 with
  | none => none
  | some (qs, g) =>
    match st.1.processBatch E.fft qs H with
    | none => none
    | some (ys, S) =>
      match H.hashToMapping indices cols with
      | none => none
      | some mapping => if BatchCheck ctx E.s pts indices mapping ys then some (S, g, st.2.2 + 1) else none

/-- `batch_query`, /repo/src/main.rs:117-178. -/
noncomputable def batchQuery (E : Env n) (ctx : Option Ctx) (rows cols iterations : Nat) (dryrun : Bool) : Option Nat :=
  if iterations > 0 then
    let hCount := 3
    let itemCount := rows * cols / hCount
    match log2 itemCount with
    | none => none
    | some _ =>
      if dryrun then some 1
      else
        match NaiveHash.new E.shuffle hCount itemCount, ctx with
        | some H, some ctx =>
          match setupRandomOram ctx E.s rows cols H E.g with
          | none => none
          | some (S, pts, g) =>
            match iterM (fun _ => batchIter E ctx rows cols H pts) (List.range iterations) (S, g, 0) with
            | none => none
            | some st => some st.2.2
        | _, _ => none
  else none

/-- The body of the loop of `main`, /repo/src/main.rs:232-261: the prefix of the line needs `log2(plaintext_modulus)`; then the mode. -/
noncomputable def runParams {F : Type} (E : (n : Nat) → Env n) (dryrun : Bool) (p : ServerParams F) : Option Nat :=
  match log2 p.tfhe.plaintextModulus with
  | none => none
  | some _ =>
    match p.oram with
    | .singleQuery itemCount iterations => singleQuery (E p.tfhe.polynomialSize) (Ctx.ofParams p.tfhe) itemCount iterations dryrun
    | .multiQuery itemCount queryCount iterations =>
      multiQuery (E p.tfhe.polynomialSize) (Ctx.ofParams p.tfhe) itemCount queryCount iterations dryrun
    | .batched rows cols iterations => batchQuery (E p.tfhe.polynomialSize) (Ctx.ofParams p.tfhe) rows cols iterations dryrun

/-- The loop of `main`, /repo/src/main.rs:232-262, over the selected parameters, with a fresh environment per run: total number of result
lines, or `none` if some run panics. -/
noncomputable def runAll {F : Type} (dryrun : Bool) : List (((n : Nat) → Env n) × ServerParams F) → Option Nat
  | [] => some 0
  | x :: xs =>
    match runParams x.1 dryrun x.2 with
    | none => none
    | some k =>
      match runAll dryrun xs with
      | none => none
      | some m => some (k + m)

end Panacea
