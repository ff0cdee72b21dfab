import Verif.Model.FlatOram
import Verif.Model.Main

/-!
# The benchmark binary on word vectors, /repo/src/main.rs

`Model/Main` runs the three modes on structured ciphertexts.  Here they run on the word vectors of `Model/FlatOram`, the way the code does: one
plaintext buffer `pt` per iteration that every response is decrypted into in turn, responses and plaintexts looked up by index (out of bounds:
a panic, `none`), plaintexts compared word by word, and the hash map of the batch mode visited in the order of any enumeration of its entries.
Timing and the printed noise are not modelled, as in `Model/Main`.
-/

namespace Panacea
namespace Flat
variable {n : Nat}

/-- What is random or scheduling dependent in one run of a mode  (/repo/src/main.rs:12-178): the table shuffle, the words of the secret key, the
generators, the rounding of the Fourier transform, the reductions of every server call (given as functions on word vectors), and the order in
which a hash map is visited. -/
structure Env (n : Nat) where
  shuffle : List Nat → List Nat
  s : Words
  g : Gen n
  fft : Fft n
  redOne : Nat → List Words → Option Words
  redVec : Nat → List (List Words) → Option (List Words)
  redGsw : Nat → List (List Ggsw) → Option (List Ggsw)
  entries : NaiveHash.Mapping → List (Nat × Nat × Nat)

/-- State of a benchmark loop: the server, the generators, the number of lines printed  (/repo/src/main.rs:12-178). -/
abbrev RunState (n : Nat) := Server × Gen n × Nat

/-- One iteration of `single_query`, /repo/src/main.rs:22-39 and 43-49. -/
def singleIter (E : Env n) (ctx : Ctx) (itemCount : Nat) (H : NaiveHash) (pts : List Words) (k : Nat) (st : RunState n) :
    Option (RunState n) :=
  match genReadQueryOne ctx (poly n E.s) 1 itemCount H 0 st.2.1 with
  | none => none
  | some (q, g) =>
    match st.1.processOne (E.redOne k) E.fft q with
    | none => none
    | some (y, S) =>
      let pt := decryptDecodeRlwe ctx (poly n E.s) (List.replicate n 0) y
      match pts[0]? with
      | none => none
      | some p => if p = pt then some (S, g, st.2.2 + 1) else none

/-- `single_query`, /repo/src/main.rs:12-54. -/
def singleQuery (E : Env n) (ctx : Option Ctx) (itemCount iterations : Nat) (dryrun : Bool) : Option Nat :=
  if iterations > 0 then
    match log2 itemCount with
    | none => none
    | some _ =>
      if dryrun then some 1
      else
        match NaiveHash.new E.shuffle 1 itemCount, ctx with
        | some H, some ctx =>
          match setupRandomOram ctx E.s 1 itemCount H E.g with
          | none => none
          | some (S, pts, g) =>
            match iterM (singleIter E ctx itemCount H pts) (List.range iterations) (S, g, 0) with
            | none => none
            | some st => some st.2.2
        | _, _ => none
  else none

/-- The checking loop of `multi_query`, /repo/src/main.rs:84-88, 103-107: response `i` is decrypted into the buffer `pt` and must equal
`pts[i + 1]`.  `false` = a panic. -/
def multiCheck (ctx : Ctx) (s : Poly n) (pts ys : List Words) : List Nat → Words → Bool
  | [], _ => true
  | i :: is, pt =>
    match ys[i]? with
    | none => false
    | some y =>
      let pt := decryptDecodeRlwe ctx s pt y
      match pts[i + 1]? with
      | none => false
      | some p => if p = pt then multiCheck ctx s pts ys is pt else false

/-- One iteration of `multi_query`, /repo/src/main.rs:72-92 and 96-110. -/
def multiIter (E : Env n) (ctx : Ctx) (itemCount queryCount : Nat) (H : NaiveHash) (pts : List Words) (k : Nat) (st : RunState n) :
    Option (RunState n) :=
  match collect (fun i => genReadQueryOne ctx (poly n E.s) 1 itemCount H (i + 1)) (List.range queryCount) st.2.1 with
  | none => none
  | some (qs, g) =>
    match st.1.processMulti (E.redVec k) (E.redGsw k) E.fft qs with
    | none => none
    | some (ys, S) =>
      if multiCheck ctx (poly n E.s) pts ys (List.range queryCount) (List.replicate n 0) then some (S, g, st.2.2 + 1) else none

/-- `multi_query`, /repo/src/main.rs:56-115. -/
def multiQuery (E : Env n) (ctx : Option Ctx) (itemCount queryCount iterations : Nat) (dryrun : Bool) : Option Nat :=
  if iterations > 0 then
    match log2 itemCount with
    | none => none
    | some _ =>
      if dryrun then some 1
      else
        match NaiveHash.new E.shuffle 1 itemCount, ctx with
        | some H, some ctx =>
          match setupRandomOram ctx E.s 1 itemCount H E.g with
          | none => none
          | some (S, pts, g) =>
            if itemCount = pts.length then
              match iterM (multiIter E ctx itemCount queryCount H pts) (List.range iterations) (S, g, 0) with
              | none => none
              | some st => some st.2.2
            else none
        | _, _ => none
  else none

/-- The checking loop of `batch_query` over the entries `(r, (_, i))` of the mapping, /repo/src/main.rs:150-155, 165-170: response `r` is
decrypted into the buffer `pt` and must equal `pts[indices[i]]` (sic).  `false` = a panic. -/
def batchCheck (ctx : Ctx) (s : Poly n) (pts : List Words) (indices : List Nat) (ys : List Words) : List (Nat × Nat × Nat) → Words → Bool
  | [], _ => true
  | (r, _, i) :: es, pt =>
    match ys[r]? with
    | none => false
    | some y =>
      let pt := decryptDecodeRlwe ctx s pt y
      match indices[i]? with
      | none => false
      | some j =>
        match pts[j]? with
        | none => false
        | some p => if p = pt then batchCheck ctx s pts indices ys es pt else false

/-- One iteration of `batch_query`, /repo/src/main.rs:136-157 and 160-173. -/
def batchIter (E : Env n) (ctx : Ctx) (rows cols : Nat) (H : NaiveHash) (pts : List Words) (st : RunState n) : Option (RunState n) :=
  let indices := [0, 1]
  match genReadQueryBatch ctx (poly n E.s) rows cols H indices st.2.1 with
  | none => none
  | some (qs, g) =>
    match st.1.processBatch E.fft qs H with
    | none => none
    | some (ys, S) =>
      match H.hashToMapping indices cols with
      | none => none
      | some mapping =>
        if batchCheck ctx (poly n E.s) pts indices ys (E.entries mapping) (List.replicate n 0) then some (S, g, st.2.2 + 1) else none

/-- `batch_query`, /repo/src/main.rs:117-178. -/
def batchQuery (E : Env n) (ctx : Option Ctx) (rows cols iterations : Nat) (dryrun : Bool) : Option Nat :=
  if iterations > 0 then
    let hCount := 3
    let itemCount := rows * cols / hCount
    match log2 itemCount with
    | none => none
    | some _ =>
      if dryrun then some 1
      else
        match NaiveHash.new E.shuffle hCount itemCount, ctx with
        | some H, some ctx =>
          match setupRandomOram ctx E.s rows cols H E.g with
          | none => none
          | some (S, pts, g) =>
            match iterM (fun _ => batchIter E ctx rows cols H pts) (List.range iterations) (S, g, 0) with
            | none => none
            | some st => some st.2.2
        | _, _ => none
  else none

/-- The body of the loop of `main`, /repo/src/main.rs:232-261. -/
def runParams {F : Type} (E : (n : Nat) → Env n) (dryrun : Bool) (p : ServerParams F) : Option Nat :=
  match log2 p.tfhe.plaintextModulus with
  | none => none
  | some _ =>
    match p.oram with
    | .singleQuery itemCount iterations => singleQuery (E p.tfhe.polynomialSize) (Ctx.ofParams p.tfhe) itemCount iterations dryrun
    | .multiQuery itemCount queryCount iterations =>
      multiQuery (E p.tfhe.polynomialSize) (Ctx.ofParams p.tfhe) itemCount queryCount iterations dryrun
    | .batched rows cols iterations => batchQuery (E p.tfhe.polynomialSize) (Ctx.ofParams p.tfhe) rows cols iterations dryrun

/-- The loop of `main`, /repo/src/main.rs:232-262. -/
def runAll {F : Type} (dryrun : Bool) : List (((n : Nat) → Env n) × ServerParams F) → Option Nat
  | [] => some 0
  | x :: xs =>
    match runParams x.1 dryrun x.2 with
    | none => none
    | some k =>
      match runAll dryrun xs with
      | none => none
      | some m => some (k + m)

end Flat
end Panacea
