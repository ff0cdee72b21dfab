import Verif.Model.CliArgs
import Verif.Spec.Csv

/-!
# What a command line says

A command line is a sequence of settings, each spelt `--name=value`, `--name value` or (flags) `--name`, perhaps closed by `--`.
-/

namespace Panacea.Spec

/-- Names of the options with a value, and of the flags (README and `--help`). -/
def valued : List String :=
  ["params", "mode", "item-count", "query-count", "rows", "cols", "standard-deviation", "polynomial-size", "base-log", "level-count",
    "key-switch-base-log", "key-switch-level-count", "negs-base-log", "negs-level-count", "plaintext-modulus"]

/-- The flags. -/
def flags : List String := ["secure-seed", "verbose", "dryrun"]

/-- A value that may be written as an argument of its own: it does not start with a dash, or is just a dash, or is a negative number for the
standard deviation. -/
def Separate (negNum : Arg → Bool) (name : String) (v : Arg) : Prop :=
  v.head? ≠ some '-' ∨ v = ['-'] ∨ (name = "standard-deviation" ∧ negNum v = true)

/-- A setting (an option with its value, or a flag) and the ways to spell it. -/
inductive Spelt (negNum : Arg → Bool) : String × Option Arg → List Arg → Prop
  | flag {name : String} (h : name ∈ flags) : Spelt negNum (name, none) ["--".toList ++ name.toList]
  | joined {name : String} (h : name ∈ valued) (v : Arg) : Spelt negNum (name, some v) ["--".toList ++ name.toList ++ '=' :: v]
  | apart {name : String} (h : name ∈ valued) {v : Arg} (hv : Separate negNum name v) :
      Spelt negNum (name, some v) ["--".toList ++ name.toList, v]

/-- The arguments spell the settings, in this order. -/
inductive CommandLine (negNum : Arg → Bool) : List (String × Option Arg) → List Arg → Prop
  | nil : CommandLine negNum [] []
  | stop : CommandLine negNum [] ["--".toList]
  | cons {s : String × Option Arg} {ss : List (String × Option Arg)} {as rest : List Arg} (h : Spelt negNum s as) (hs : CommandLine negNum ss rest) :
      CommandLine negNum (s :: ss) (as ++ rest)

/-- The numeric options: the field each sets, and its default. -/
def numbers (F : Type) : List (String × (CliArgs F → Nat) × Nat) :=
  [("mode", fun c => c.sel.mode, 2), ("item-count", fun c => c.sel.itemCount, 4096), ("query-count", fun c => c.sel.queryCount, 1),
    ("rows", fun c => c.sel.rows, 96), ("cols", fun c => c.sel.cols, 64), ("polynomial-size", fun c => c.sel.tfhe.polynomialSize, 2048),
    ("base-log", fun c => c.sel.tfhe.baseLog, 5), ("level-count", fun c => c.sel.tfhe.levelCount, 9),
    ("key-switch-base-log", fun c => c.sel.tfhe.keySwitchBaseLog, 5), ("key-switch-level-count", fun c => c.sel.tfhe.keySwitchLevelCount, 11),
    ("negs-base-log", fun c => c.sel.tfhe.negsBaseLog, 5), ("negs-level-count", fun c => c.sel.tfhe.negsLevelCount, 11),
    ("plaintext-modulus", fun c => c.sel.tfhe.plaintextModulus, 256)]

/-- An option has the value it is given, or its default if it is not given. -/
def Takes {α : Type} (ss : List (String × Option Arg)) (name : String) (reads : Arg → α → Prop) (dflt x : α) : Prop :=
  (∃ v, (name, some v) ∈ ss ∧ reads v x) ∨ ((∀ o, (name, o) ∉ ss) ∧ x = dflt)

/-- What settings say: numbers are decimal numerals below `2^64`, the standard deviation is a float, `--verbose` and `--dryrun` are on exactly if
given -- and `secure_seed` is on in any case. -/
structure Says {F : Type} (mkF : Arg → Option F) (m55 : F) (ss : List (String × Option Arg)) (c : CliArgs F) : Prop where
  once : (ss.map Prod.fst).Nodup
  params : Takes ss "params" (fun v x => v = x) [] c.params
  numbers : ∀ o ∈ numbers F, Takes ss o.1 Numeral o.2.2 (o.2.1 c)
  deviation : Takes ss "standard-deviation" (fun v x => mkF v = some x) m55 c.sel.tfhe.standardDeviation
  verbose : c.verbose = true ↔ ("verbose", none) ∈ ss
  dryrun : c.dryrun = true ↔ ("dryrun", none) ∈ ss
  seed : c.sel.tfhe.secureSeed = true

end Panacea.Spec
