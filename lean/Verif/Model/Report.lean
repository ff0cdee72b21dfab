import Verif.Model.Main

/-!
# What the benchmark binary prints, /repo/src/main.rs

Standard output as a list of characters, together with whether the process completes (`true`) or panics after printing it (`false`).
The texts of `f64` values (standard deviation, durations, noise) are parameters: `Display for f64`, the clock and `compute_noise_encoded`
are not modelled here.  The control flow and the server calls are those of `Model/Main`.
-/

namespace Panacea
variable {n : Nat}

/-- Text printed and completion  (/repo/src/main.rs:12-263 (`print!`)). -/
abbrev Printed := List Char × Bool

/-- `{}` of a `usize` or `u64`  (/repo/src/main.rs:12-263). -/
def fmtNat (k : Nat) : List Char := (toString k).toList

/-- `{}` of a `bool`  (/repo/src/main.rs:12-263). -/
def fmtBool (b : Bool) : List Char := (if b then "true" else "false").toList

/-- The measured values of one run, as texts: durations in seconds, and the noise in every iteration  (/repo/src/main.rs:12-178). -/
structure Report where
  setup : List Char
  server : List Char
  response : List Char
  noise : Nat → List Char

/-- `println!("### mode={}, iter={}, noise={}", iter, noise)`, /repo/src/main.rs:50, 109, 174 (with the literal mode). -/
def noteLine (mode k : Nat) (noise : List Char) : List Char :=
  "### mode=".toList ++ fmtNat mode ++ ", iter=".toList ++ fmtNat k ++ ", noise=".toList ++ noise ++ "\n".toList

/-- The remaining iterations of a mode with the line each prints, /repo/src/main.rs:42-51, 95-110, 160-175. -/
def notes {σ : Type} (mode : Nat) (R : Report) (f : Nat → σ → Option σ) : List Nat → σ → Printed
  | [], _ => ([], true)
  | k :: ks, st =>
    match f k st with
    | none => ([], false)
    | some st =>
      let r := notes mode R f ks st
      (noteLine mode k (R.noise k) ++ r.1, r.2)

/-- `println!("{setup_duration},{server_duration},{response_duration},{noise}")`, /repo/src/main.rs:39, 92, 158. -/
def resultText (R : Report) : List Char :=
  R.setup ++ ",".toList ++ R.server ++ ",".toList ++ R.response ++ ",".toList ++ R.noise 0 ++ "\n".toList

/-- The first iteration, its result, and the remaining iterations  (/repo/src/main.rs:42, 95, 159). -/
def iterations {σ : Type} (mode : Nat) (R : Report) (f : Nat → σ → Option σ) (its : Nat) (st : σ) : Printed :=
  match f 0 st with
  | none => ([], false)
  | some st =>
    let r := notes mode R f (List.range' 1 (its - 1)) st
    (resultText R ++ r.1, r.2)

/-- Everything after the prefix of a line: the dry run, or set-up and iterations  (/repo/src/main.rs:12-178). -/
def afterPrefix (pre : List Char) (dryrun : Bool) (rest : Printed) : Printed :=
  if dryrun then (pre ++ "-,-,-,-\n".toList, true) else (pre ++ rest.1, rest.2)

/-- `single_query`, /repo/src/main.rs:12-54. -/
def singleText (E : Env n) (R : Report) (ctx : Option Ctx) (itemCount its : Nat) (dryrun : Bool) : Printed :=
  if its > 0 then
    match log2 itemCount with
    | none => ([], false)
    | some l =>
      afterPrefix ("0,".toList ++ fmtNat itemCount ++ ",-,-,-,2^".toList ++ fmtNat l ++ ",".toList) dryrun
        (match NaiveHash.new E.shuffle 1 itemCount, ctx with
        | some H, some ctx =>
          match setupRandomOram ctx E.s 1 itemCount H E.g with
          | none => ([], false)
          | some (S, pts, g) => iterations 0 R (singleIter E ctx itemCount H pts) its (S, g, 0)
        | _, _ => ([], false))
  else ([], false)

/-- `multi_query`, /repo/src/main.rs:56-115. -/
def multiText (E : Env n) (R : Report) (ctx : Option Ctx) (itemCount queryCount its : Nat) (dryrun : Bool) : Printed :=
  if its > 0 then
    match log2 itemCount with
    | none => ([], false)
    | some l =>
      afterPrefix ("1,".toList ++ fmtNat itemCount ++ ",".toList ++ fmtNat queryCount ++ ",-,-,2^".toList ++ fmtNat l ++ ",".toList) dryrun
        (match NaiveHash.new E.shuffle 1 itemCount, ctx with
        | some H, some ctx =>
          match setupRandomOram ctx E.s 1 itemCount H E.g with
          | none => ([], false)
          | some (S, pts, g) =>
            if itemCount = pts.length then iterations 1 R (multiIter E ctx itemCount queryCount H pts) its (S, g, 0) else ([], false)
        | _, _ => ([], false))
  else ([], false)

/-- `batch_query`, /repo/src/main.rs:117-178. -/
noncomputable def batchText (E : Env n) (R : Report) (ctx : Option Ctx) (rows cols its : Nat) (dryrun : Bool) : Printed :=
  if its > 0 then
    let hCount := 3
    let itemCount := rows * cols / hCount
    match log2 itemCount with
    | none => ([], false)
    | some l =>
      afterPrefix ("2,".toList ++ fmtNat itemCount ++ ",-,".toList ++ fmtNat rows ++ ",".toList ++ fmtNat cols ++ ",2^".toList ++ fmtNat l
          ++ ",".toList) dryrun
        (match NaiveHash.new E.shuffle hCount itemCount, ctx with
        | some H, some ctx =>
          match setupRandomOram ctx E.s rows cols H E.g with
          | none => ([], false)
          | some (S, pts, g) => iterations 2 R (fun _ => batchIter E ctx rows cols H pts) its (S, g, 0)
        | _, _ => ([], false))
  else ([], false)

/-- The body of the loop of `main`, /repo/src/main.rs:232-261; `fmtF` is `Display for f64`. -/
noncomputable def paramsText {F : Type} (fmtF : F → List Char) (E : (n : Nat) → Env n) (R : Report) (dryrun : Bool) (p : ServerParams F) : Printed :=
  match log2 p.tfhe.plaintextModulus with
  | none => ([], false)
  | some l =>
    let pre := fmtF p.tfhe.standardDeviation ++ ",".toList ++ fmtNat p.tfhe.polynomialSize ++ ",".toList ++ fmtNat p.tfhe.baseLog ++ ",".toList
      ++ fmtNat p.tfhe.levelCount ++ ",".toList ++ fmtNat p.tfhe.keySwitchBaseLog ++ ",".toList ++ fmtNat p.tfhe.keySwitchLevelCount
      ++ ",".toList ++ fmtNat p.tfhe.negsBaseLog ++ ",".toList ++ fmtNat p.tfhe.negsLevelCount ++ ",2^".toList ++ fmtNat l ++ ",".toList
      ++ fmtBool p.tfhe.secureSeed ++ ",".toList
    let ctx := Ctx.ofParams p.tfhe
    let r := match p.oram with
      | .singleQuery itemCount its => singleText (E p.tfhe.polynomialSize) R ctx itemCount its dryrun
      | .multiQuery itemCount queryCount its => multiText (E p.tfhe.polynomialSize) R ctx itemCount queryCount its dryrun
      | .batched rows cols its => batchText (E p.tfhe.polynomialSize) R ctx rows cols its dryrun
    (pre ++ r.1, r.2)

/-- One run of the loop: environment, measured values, parameters  (/repo/src/main.rs:232-263). -/
abbrev RunOf (F : Type) := ((n : Nat) → Env n) × Report × ServerParams F

/-- The loop of `main`, /repo/src/main.rs:232-262. -/
noncomputable def loopText {F : Type} (fmtF : F → List Char) (dryrun : Bool) : List (RunOf F) → Printed
  | [] => ([], true)
  | x :: xs =>
    let r := paramsText fmtF x.1 x.2.1 dryrun x.2.2
    if r.2 then
      let rs := loopText fmtF dryrun xs
      (r.1 ++ rs.1, rs.2)
    else (r.1, false)

/-- The header, /repo/src/main.rs:229-231. -/
def headerText : List Char :=
  "standard_deviation,polynomial_size,base_log,level_count,key_switch_base_log,key_switch_level_count,negs_base_log,negs_level_count,plaintext_modulus,secure_seed,mode,item_count,query_count,rows,cols,n,setup_duration,server_duration,response_duration,final_noise".toList
    ++ "\n".toList

/-- `main` after the parameter selection, /repo/src/main.rs:229-262. -/
noncomputable def mainText {F : Type} (fmtF : F → List Char) (dryrun : Bool) (xs : List (RunOf F)) : Printed :=
  let r := loopText fmtF dryrun xs
  (headerText ++ r.1, r.2)

end Panacea
