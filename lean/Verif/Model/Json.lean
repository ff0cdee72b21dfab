import Verif.Model.Params
import Verif.Model.Tree

/-!
# JSON input and output: the `#[derive(Deserialize, Serialize)]` types of /repo/src/params.rs and /repo/src/decision_tree.rs

The derived code and `serde_json` (1.0.108, default features) are not in the sandbox; this is their documented behaviour:

* a struct is read from an object: known members in any order, a repeated known member is an error, unknown members are skipped, a missing
  member is an error unless its type is `Option` (then `None`); or from an array with exactly the fields in order;
* an enum is "externally tagged": an object with exactly one member, named after the variant; a unit variant also as a string;
* integers: only integer literals in range (no `3.0`); `f64`: any number; tuples and `Vec`s: arrays;
* `null` is `None`;
* at most 127 arrays/objects may be nested (recursion limit 128), skipped members excepted.

A document is a syntax tree `Json`; its text syntax (white space, escapes, literals) is in `Model/JsonText`.  `none` = `Err`.
-/

namespace Panacea

/-- JSON values; `F` stands for `f64`  (/repo/src/params.rs:3, 34, 62 and /repo/src/decision_tree.rs:34, 42, 204 (`Deserialize`, `Serialize`)). -/
inductive Json (F : Type)
  | null
  | bool (b : Bool)
  | int (z : Int)
  | float (x : F)
  | str (s : String)
  | arr (l : List (Json F))
  | obj (l : List (String × Json F))

namespace Json
variable {F : Type}

/-- `usize` and `u64`  (/repo/src/params.rs:4-15, 35-50; /repo/src/decision_tree.rs:205-214). -/
def deU64 : Json F → Option Nat
  | .int z => if 0 ≤ z ∧ z.toNat < 2 ^ 64 then some z.toNat else none
  | _ => none

/-- `bool`  (/repo/src/params.rs:14). -/
def deBool : Json F → Option Bool
  | .bool b => some b
  | _ => none

/-- `f64`; `ofInt` is the conversion of integer literals  (/repo/src/params.rs:5). -/
def deF64 (ofInt : Int → F) : Json F → Option F
  | .float x => some x
  | .int z => some (ofInt z)
  | _ => none

/-- A mandatory member of a struct  (/repo/src/params.rs:3-15, /repo/src/decision_tree.rs:204-214). -/
def field {α : Type} (k : String) (de : Json F → Option α) (l : List (String × Json F)) : Option α :=
  match l.filter (fun kv => kv.1 = k) with
  | [kv] => de kv.2
  | _ => none

/-- A member of type `Option`: `none'` if it is absent  (/repo/src/decision_tree.rs:212-213). -/
def fieldOpt {α : Type} (k : String) (none' : α) (de : Json F → Option α) (l : List (String × Json F)) : Option α :=
  match l.filter (fun kv => kv.1 = k) with
  | [] => some none'
  | [kv] => de kv.2
  | _ => none

/-- `Vec<T>` (the caller has accounted for one level of nesting)  (/repo/src/params.rs:65). -/
def deVec {α : Type} (de : Json F → Option α) : Json F → Option (List α)
  | .arr l => l.mapM de
  | _ => none

/-- Entering an array or object with `r` levels left  (/repo/src/main.rs:196 (recursion limit of `serde_json`)). -/
def nested {α : Type} (r : Nat) (de : Nat → Option α) : Option α :=
  match r with
  | 0 => none
  | r + 1 => de r

/-- `TFHEParameters`, /repo/src/params.rs:3-15. -/
def deTfhe (ofInt : Int → F) (r : Nat) (j : Json F) : Option (TFHEParameters F) :=
  nested r fun _ =>
    match j with
    | .obj l => do
      let sd ← field "standard_deviation" (deF64 ofInt) l
      let ps ← field "polynomial_size" deU64 l
      let bl ← field "base_log" deU64 l
      let lc ← field "level_count" deU64 l
      let kb ← field "key_switch_base_log" deU64 l
      let kl ← field "key_switch_level_count" deU64 l
      let nb ← field "negs_base_log" deU64 l
      let nl ← field "negs_level_count" deU64 l
      let pm ← field "plaintext_modulus" deU64 l
      let ss ← field "secure_seed" deBool l
      pure ⟨sd, ps, bl, lc, kb, kl, nb, nl, pm, ss⟩
    | .arr [a, b, c, d, e, f, g, h, i, k] => do
      pure ⟨← deF64 ofInt a, ← deU64 b, ← deU64 c, ← deU64 d, ← deU64 e, ← deU64 f, ← deU64 g, ← deU64 h, ← deU64 i, ← deBool k⟩
    | _ => none

/-- The body of a struct variant with two numbers  (/repo/src/params.rs:36-39). -/
def deBody2 (r : Nat) (k1 k2 : String) (j : Json F) : Option (Nat × Nat) :=
  nested r fun _ =>
    match j with
    | .obj l => do pure (← field k1 deU64 l, ← field k2 deU64 l)
    | .arr [a, b] => do pure (← deU64 a, ← deU64 b)
    | _ => none

/-- The body of a struct variant with three numbers  (/repo/src/params.rs:40-49). -/
def deBody3 (r : Nat) (k1 k2 k3 : String) (j : Json F) : Option (Nat × Nat × Nat) :=
  nested r fun _ =>
    match j with
    | .obj l => do pure (← field k1 deU64 l, ← field k2 deU64 l, ← field k3 deU64 l)
    | .arr [a, b, c] => do pure (← deU64 a, ← deU64 b, ← deU64 c)
    | _ => none

/-- `ORAMParameters`, /repo/src/params.rs:34-50. -/
def deOram (r : Nat) (j : Json F) : Option ORAMParameters :=
  nested r fun r =>
    match j with
    | .obj [(tag, body)] =>
      if tag = "SingleQuery" then (deBody2 r "item_count" "iterations" body).map fun p => .singleQuery p.1 p.2
      else if tag = "MultiQuery" then
        (deBody3 r "item_count" "query_count" "iterations" body).map fun p => .multiQuery p.1 p.2.1 p.2.2
      else if tag = "Batched" then (deBody3 r "rows" "cols" "iterations" body).map fun p => .batched p.1 p.2.1 p.2.2
      else none
    | _ => none

/-- One element `(Vec<ORAMParameters>, Vec<TFHEParameters>)` of the list, /repo/src/params.rs:65. -/
def dePair (ofInt : Int → F) (r : Nat) (j : Json F) : Option (List ORAMParameters × List (TFHEParameters F)) :=
  nested r fun r =>
    match j with
    | .arr [a, b] => do
      let os ← nested r fun r => deVec (deOram r) a
      let ts ← nested r fun r => deVec (deTfhe ofInt r) b
      pure (os, ts)
    | _ => none

/-- `InputParamsList` (`#[serde(transparent)]`), /repo/src/params.rs:62-66, with `r` levels of nesting allowed. -/
def deParams (ofInt : Int → F) (r : Nat) (j : Json F) : Option (InputParamsList F) := nested r fun r => deVec (dePair ofInt r) j

/-- The nesting `serde_json` allows  (/repo/src/main.rs:196). -/
def limit : Nat := 127

/-- Serialisation of `TFHEParameters`, /repo/src/params.rs:3. -/
def serTfhe (p : TFHEParameters F) : Json F :=
  .obj [("standard_deviation", .float p.standardDeviation), ("polynomial_size", .int p.polynomialSize), ("base_log", .int p.baseLog),
    ("level_count", .int p.levelCount), ("key_switch_base_log", .int p.keySwitchBaseLog),
    ("key_switch_level_count", .int p.keySwitchLevelCount), ("negs_base_log", .int p.negsBaseLog),
    ("negs_level_count", .int p.negsLevelCount), ("plaintext_modulus", .int p.plaintextModulus), ("secure_seed", .bool p.secureSeed)]

/-- Serialisation of `ORAMParameters`, /repo/src/params.rs:34. -/
def serOram : ORAMParameters → Json F
  | .singleQuery i k => .obj [("SingleQuery", .obj [("item_count", .int i), ("iterations", .int k)])]
  | .multiQuery i q k => .obj [("MultiQuery", .obj [("item_count", .int i), ("query_count", .int q), ("iterations", .int k)])]
  | .batched r c k => .obj [("Batched", .obj [("rows", .int r), ("cols", .int c), ("iterations", .int k)])]

/-- Serialisation of `InputParamsList`, /repo/src/params.rs:62-66. -/
def serParams (l : InputParamsList F) : Json F := .arr (l.map fun p => .arr [.arr (p.1.map serOram), .arr (p.2.map serTfhe)])

/-- `Op` (`rename_all = "lowercase"`), /repo/src/decision_tree.rs:34-40: a string, or an object with the value `null`. -/
def deOp (r : Nat) : Json F → Option Op
  | .str s => if s = "leq" then some .leq else if s = "gt" then some .gt else none
  | .obj [(k, .null)] => nested r fun _ => if k = "leq" then some .leq else if k = "gt" then some .gt else none
  | _ => none

/-- `Option<Node>`  (/repo/src/decision_tree.rs:212-213). -/
def deOpt (de : Json F → Option Tree) : Json F → Option Tree
  | .null => some .missing
  | j => de j

/-- `Internal`, /repo/src/decision_tree.rs:204-214, read with `r` levels left inside it; `child` reads a `Node`. -/
def deInternal (r : Nat) (child : Json F → Option Tree) : Json F → Option Tree
  | .obj l => do
    let th ← field "threshold" deU64 l
    let fe ← field "feature" deU64 l
    let ix ← field "index" deU64 l
    let op ← field "op" (deOp r) l
    let left ← fieldOpt "left" .missing (deOpt child) l
    let right ← fieldOpt "right" .missing (deOpt child) l
    pure (.internal ⟨th, fe, ix, op⟩ left right)
  | .arr [a, b, c, d, e, f] => do
    let th ← deU64 a
    let fe ← deU64 b
    let ix ← deU64 c
    let op ← deOp r d
    let left ← deOpt child e
    let right ← deOpt child f
    pure (.internal ⟨th, fe, ix, op⟩ left right)
  | _ => none

/-- `Node` (`rename_all = "lowercase"`), /repo/src/decision_tree.rs:42-49, with `r` levels of nesting left: the enum object, inside it (for
`internal`) the struct, inside it the children. -/
def deNode : Nat → Json F → Option Tree
  | 0, _ => none
  | 1, j =>
    match j with
    | .obj [(k, v)] => if k = "leaf" then (deU64 v).map .leaf else none
    | _ => none
  | r + 2, j =>
    match j with
    | .obj [(k, v)] => if k = "leaf" then (deU64 v).map .leaf else if k = "internal" then deInternal r (deNode r) v else none
    | _ => none

/-- Serialisation of `Op`  (/repo/src/decision_tree.rs:34-40). -/
def serOp : Op → Json F
  | .leq => .str "leq"
  | .gt => .str "gt"

/-- Serialisation of `Option<Node>` and `Node`, /repo/src/decision_tree.rs:42-49, 204-214. -/
def serNode : Tree → Json F
  | .missing => .null
  | .leaf x => .obj [("leaf", .int x)]
  | .internal d l r => .obj [("internal", .obj [("threshold", .int d.threshold), ("feature", .int d.feature), ("index", .int d.index),
      ("op", serOp d.op), ("left", serNode l), ("right", serNode r)])]

end Json

/-- `File::open(&cli.params)` and the reading of the file in `main`, /repo/src/main.rs:194-197: the file cannot be opened, or it has been
read; `none` if its text is not JSON.  `m55` is the literal `-55.0`. -/
def jsonParams {F : Type} (ofInt : Int → F) (m55 : F) (cli : Cli F) : Option (Option (Json F)) → List (ServerParams F)
  | none => selectParams m55 cli .cannotOpen
  | some doc => selectParams m55 cli (.opened (doc.bind (Json.deParams ofInt Json.limit)))

end Panacea
