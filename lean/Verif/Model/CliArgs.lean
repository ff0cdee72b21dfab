import Verif.Model.JsonText
import Verif.Model.Csv
import Verif.Model.Report

/-!
# The command line, /repo/src/cli.rs

`Cli::parse()` of clap 4.4 on the derived command: no positional arguments, no subcommands, every field a long option named after the field
with dashes.  Every outcome in which clap ends the process itself (an error, `--help`, `--version`, `-h`, `-V`) is `none`: nothing of `main`
runs.  Arguments are texts; arguments that are not Unicode are not modelled.  `f64::from_str` (`mkF`) and clap's test whether an argument
looks like a negative number (`negNum`) are parameters.
-/

namespace Panacea

/-- An argument of the process  (/repo/src/main.rs:187). -/
abbrev Arg := List Char

/-- `struct Cli`, /repo/src/cli.rs:7-85: the path of the parameter file, the fields used for parameter selection, and the two flags. -/
structure CliArgs (F : Type) where
  params : Arg
  sel : Cli F
  verbose : Bool
  dryrun : Bool
deriving DecidableEq, Repr

/-- The kinds of options that the types of the fields give, /repo/src/cli.rs:13-84: `String`; `usize` and `u64`; `f64` with
`allow_negative_numbers`; `bool` (a flag that takes no value). -/
inductive OptKind
  | text
  | number
  | float
  | flag
deriving DecidableEq, Repr

/-- The options, /repo/src/cli.rs:13-84. -/
def cliOptions : List (String × OptKind) :=
  [("params", .text), ("mode", .number), ("item-count", .number), ("query-count", .number), ("rows", .number), ("cols", .number),
    ("standard-deviation", .float), ("polynomial-size", .number), ("base-log", .number), ("level-count", .number),
    ("key-switch-base-log", .number), ("key-switch-level-count", .number), ("negs-base-log", .number), ("negs-level-count", .number),
    ("plaintext-modulus", .number), ("secure-seed", .flag), ("verbose", .flag), ("dryrun", .flag)]

/-- The kind of the option with a given name, if there is one  (/repo/src/cli.rs:13-84). -/
def cliKind (name : List Char) : Option OptKind := (cliOptions.find? fun o => o.1.toList = name).map Prod.snd

/-- The part of a long argument before and after the first `=`  (/repo/src/main.rs:187, `clap_lex`). -/
def splitEq : List Char → List Char × Option (List Char)
  | [] => ([], none)
  | c :: cs =>
    if c = '=' then ([], some cs)
    else
      let r := splitEq cs
      (c :: r.1, r.2)

/-- May an argument be the value of a preceding option?  Not if it starts with a dash, unless it is the single dash, or looks like a negative
number and the option allows these  (/repo/src/cli.rs:50, /repo/src/main.rs:187). -/
def isValue (negNum : Arg → Bool) (k : OptKind) : Arg → Bool
  | '-' :: c :: cs => k = .float && negNum ('-' :: c :: cs)
  | _ => true

/-- The loop of clap's parser over the arguments, with the option whose value is awaited; the result lists the options given with their
values, in order  (/repo/src/main.rs:187). -/
def scanArgs (negNum : Arg → Bool) : Option (List Char × OptKind) → List Arg → Option (List (List Char × Arg))
  | none, [] => some []
  | some _, [] => none
  | some p, v :: rest =>
    if isValue negNum p.2 v then (scanArgs negNum none rest).map ((p.1, v) :: ·) else none
  | none, a :: rest =>
    match a with
    | '-' :: '-' :: body =>
      if body = [] then (if rest = [] then some [] else none)
      else
        match cliKind (splitEq body).1, (splitEq body).2 with
        | none, _ => none
        | some .flag, none => (scanArgs negNum none rest).map (((splitEq body).1, "true".toList) :: ·)
        | some .flag, some _ => none
        | some _, some v => (scanArgs negNum none rest).map (((splitEq body).1, v) :: ·)
        | some k, none => scanArgs negNum (some ((splitEq body).1, k)) rest
    | _ => none

/-- The value given for an option  (/repo/src/cli.rs:13-84). -/
def given (l : List (List Char × Arg)) (name : String) : Option Arg := (l.find? fun x => x.1 = name.toList).map Prod.snd

/-- A `usize` or `u64` option with its default  (/repo/src/cli.rs:15-75). -/
def numberOpt (l : List (List Char × Arg)) (name : String) (dflt : Nat) : Option Nat :=
  match given l name with
  | none => some dflt
  | some v => parseUsize v

/-- An `f64` option with its default  (/repo/src/cli.rs:50-51). -/
def floatOpt {F : Type} (mkF : Arg → Option F) (l : List (List Char × Arg)) (name : String) (dflt : F) : Option F :=
  match given l name with
  | none => some dflt
  | some v => mkF v

/-- A flag: `true` if given, its default otherwise  (/repo/src/cli.rs:77-84). -/
def flagOpt (l : List (List Char × Arg)) (name : String) (dflt : Bool) : Bool := (given l name).isSome || dflt

/-- The fields of `Cli` from the options given, /repo/src/cli.rs:7-85.  Giving an option twice is an error. -/
def readArgs {F : Type} (mkF : Arg → Option F) (m55 : F) (l : List (List Char × Arg)) : Option (CliArgs F) :=
  let d := TFHEParameters.default' m55
  if (l.map Prod.fst).Nodup then do
    let mode ← numberOpt l "mode" 2
    let itemCount ← numberOpt l "item-count" 4096
    let queryCount ← numberOpt l "query-count" 1
    let rows ← numberOpt l "rows" 96
    let cols ← numberOpt l "cols" 64
    let sd ← floatOpt mkF l "standard-deviation" d.standardDeviation
    let ps ← numberOpt l "polynomial-size" d.polynomialSize
    let bl ← numberOpt l "base-log" d.baseLog
    let lc ← numberOpt l "level-count" d.levelCount
    let kbl ← numberOpt l "key-switch-base-log" d.keySwitchBaseLog
    let klc ← numberOpt l "key-switch-level-count" d.keySwitchLevelCount
    let nbl ← numberOpt l "negs-base-log" d.negsBaseLog
    let nlc ← numberOpt l "negs-level-count" d.negsLevelCount
    let pm ← numberOpt l "plaintext-modulus" d.plaintextModulus
    some ⟨(given l "params").getD [], ⟨mode, itemCount, queryCount, rows, cols,
      ⟨sd, ps, bl, lc, kbl, klc, nbl, nlc, pm, flagOpt l "secure-seed" d.secureSeed⟩⟩, flagOpt l "verbose" false, flagOpt l "dryrun" false⟩
  else none

/-- `Cli::parse()`, /repo/src/main.rs:187, on the arguments after the program name. -/
def parseArgs {F : Type} (negNum : Arg → Bool) (mkF : Arg → Option F) (m55 : F) (args : List Arg) : Option (CliArgs F) :=
  (scanArgs negNum none args).bind (readArgs mkF m55)

/-- `main` up to the loop, /repo/src/main.rs:187-228: whether it is a dry run, and the parameter sets.  `fs` is the file system: the text of the
file at a path, `none` if it cannot be opened. -/
def mainParams {F : Type} (negNum : Arg → Bool) (mkF : Arg → Option F) (mk : List Char → Option F) (ofInt : Int → F) (m55 : F)
    (fs : List Char → Option (List Char)) (args : List Arg) : Option (Bool × List (ServerParams F)) :=
  (parseArgs negNum mkF m55 args).map fun c => (c.dryrun, textParams mk ofInt m55 c.sel (fs c.params))

/-- `main`, /repo/src/main.rs:180-263: what it prints and whether it completes; `none` if clap ends the process before `main` does anything.
`env` and `rep` are the environment and the measured values of the `i`-th parameter set. -/
noncomputable def mainArgs {F : Type} (negNum : Arg → Bool) (mkF : Arg → Option F) (mk : List Char → Option F) (ofInt : Int → F) (m55 : F)
    (fmtF : F → List Char) (fs : List Char → Option (List Char)) (env : Nat → (n : Nat) → Env n) (rep : Nat → Report) (args : List Arg) :
    Option Printed :=
  (mainParams negNum mkF mk ofInt m55 fs args).map fun r =>
    mainText fmtF r.1 (r.2.mapIdx fun i p => (env i, rep i, p))

end Panacea
