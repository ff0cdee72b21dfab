/-! # /repo/src/params.rs, /repo/src/cli.rs and the parameter selection of /repo/src/main.rs -/

namespace Panacea

/-- `TFHEParameters`, /repo/src/params.rs:4-15.  `F` stands for `f64`. -/
structure TFHEParameters (F : Type) where
  standardDeviation : F
  polynomialSize : Nat
  baseLog : Nat
  levelCount : Nat
  keySwitchBaseLog : Nat
  keySwitchLevelCount : Nat
  negsBaseLog : Nat
  negsLevelCount : Nat
  plaintextModulus : Nat
  secureSeed : Bool
deriving DecidableEq, Repr

/-- `TFHEParameters::default`, /repo/src/params.rs:17-32; `m55` is the literal `-55.0`. -/
def TFHEParameters.default' {F : Type} (m55 : F) : TFHEParameters F where
  standardDeviation := m55
  polynomialSize := 2048
  baseLog := 5
  levelCount := 9
  keySwitchBaseLog := 5
  keySwitchLevelCount := 11
  negsBaseLog := 5
  negsLevelCount := 11
  plaintextModulus := 2 ^ 8
  secureSeed := true

/-- `ORAMParameters`, /repo/src/params.rs:35-50. -/
inductive ORAMParameters
  | singleQuery (itemCount iterations : Nat)
  | multiQuery (itemCount queryCount iterations : Nat)
  | batched (rows cols iterations : Nat)
deriving DecidableEq, Repr

/-- `ORAMParameters::default`, /repo/src/params.rs:52-60. -/
def ORAMParameters.default' : ORAMParameters := .batched 384 16 1

/-- `ServerParams`, /repo/src/params.rs:79-82. -/
structure ServerParams (F : Type) where
  oram : ORAMParameters
  tfhe : TFHEParameters F
deriving DecidableEq, Repr

/-- `InputParamsList`, /repo/src/params.rs:64-66. -/
abbrev InputParamsList (F : Type) := List (List ORAMParameters × List (TFHEParameters F))

/-- `InputParamsList::default`, /repo/src/params.rs:68-77. -/
def InputParamsList.default' {F : Type} (m55 : F) : InputParamsList F :=
  [([ORAMParameters.default'], [TFHEParameters.default' m55])]

/-- `ServerParams::from_input_params_list`, /repo/src/params.rs:94-107: three nested loops pushing to `out`. -/
def fromInputParamsList {F : Type} (input : InputParamsList F) : List (ServerParams F) :=
  input.foldl (fun out x =>
    x.1.foldl (fun out xOram =>
      x.2.foldl (fun out xTfhe => out ++ [⟨xOram, xTfhe⟩]) out) out) []

/-- `Cli`, /repo/src/cli.rs:7-85 (fields used for parameter selection; the path itself is replaced by the outcome of
opening it). -/
structure Cli (F : Type) where
  mode : Nat
  itemCount : Nat
  queryCount : Nat
  rows : Nat
  cols : Nat
  tfhe : TFHEParameters F
deriving DecidableEq, Repr

/-- Outcome of `File::open(&cli.params)` and of `serde_json::from_reader`  (/repo/src/main.rs:194-197). -/
inductive FileOutcome (F : Type)
  | cannotOpen
  | opened (parsed : Option (InputParamsList F))

/-- Parameter selection in `main`, /repo/src/main.rs:194-228. -/
def selectParams {F : Type} (m55 : F) (cli : Cli F) : FileOutcome F → List (ServerParams F)
  | .opened parsed => fromInputParamsList (parsed.getD (InputParamsList.default' m55))
  | .cannotOpen =>
    [{ oram := match cli.mode with
        | 0 => .singleQuery cli.itemCount 1
        | 1 => .multiQuery cli.itemCount cli.queryCount 1
        | _ => .batched cli.rows cli.cols 1
       tfhe := cli.tfhe }]

end Panacea
