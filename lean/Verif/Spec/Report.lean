import Verif.Model.Report

/-! # What the report of the benchmark binary should contain -/

namespace Panacea.Spec

/-- Decimal text of a number. -/
def dec (k : Nat) : String := toString k

/-- The columns of a result line: name and value.  `l` and `m` are the exponents printed for the plaintext modulus and the number of
items. -/
def columns {F : Type} (std : String) (p : TFHEParameters F) (o : ORAMParameters) (l m : Nat) (times : List String) : List (String × String) :=
  [("standard_deviation", std), ("polynomial_size", dec p.polynomialSize), ("base_log", dec p.baseLog), ("level_count", dec p.levelCount),
   ("key_switch_base_log", dec p.keySwitchBaseLog), ("key_switch_level_count", dec p.keySwitchLevelCount),
   ("negs_base_log", dec p.negsBaseLog), ("negs_level_count", dec p.negsLevelCount), ("plaintext_modulus", "2^" ++ dec l),
   ("secure_seed", if p.secureSeed then "true" else "false")] ++
  (match o with
   | .singleQuery items _ => [("mode", "0"), ("item_count", dec items), ("query_count", "-"), ("rows", "-"), ("cols", "-")]
   | .multiQuery items queries _ => [("mode", "1"), ("item_count", dec items), ("query_count", dec queries), ("rows", "-"), ("cols", "-")]
   | .batched rows cols _ => [("mode", "2"), ("item_count", dec (rows * cols / 3)), ("query_count", "-"), ("rows", dec rows), ("cols", dec cols)]) ++
  [("n", "2^" ++ dec m)] ++
  List.zip ["setup_duration", "server_duration", "response_duration", "final_noise"] times

/-- Lines of a text. -/
def lines (t : List Char) : List String := (t.splitOn '\n').map String.ofList

/-- Comma separated fields of a line. -/
def fields (l : String) : List String := (l.toList.splitOn ',').map String.ofList

end Panacea.Spec
