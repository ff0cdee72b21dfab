import Verif.Model.ParMap
import Verif.Spec.Report

/-! # What the two parameter listings should contain -/

namespace Panacea.Spec

/-- A pair of numbers in parentheses. -/
def pair (a b : Nat) : String := "(" ++ dec a ++ "," ++ dec b ++ ")"

/-- The entries shared by both listings. -/
def paramEntries {F : Type} (std : String) (p : TFHEParameters F) : List (String × String) :=
  [("q", "64"), ("poly_size", dec p.polynomialSize), ("log_std", std), ("default_decomp", pair p.baseLog p.levelCount),
   ("ks_decomp", pair p.keySwitchBaseLog p.keySwitchLevelCount), ("negs_decomp", pair p.negsBaseLog p.negsLevelCount)]

/-- The entries of a printed simulation result. -/
def simulationEntries {F : Type} (inputs : Nat) (setup server std : String) (p : TFHEParameters F) : List (String × String) :=
  [("input_count", dec inputs), ("setup_duration", setup), ("server_duration", server)] ++ paramEntries std p

/-- The entries of a printed context with plaintext modulus `t`. -/
def contextEntries {F : Type} (std : String) (p : TFHEParameters F) (t : Nat) : List (String × String) :=
  paramEntries std p ++ [("pt_modulus", "(" ++ dec t ++ ")")]

/-- `key=value` entries separated by a comma and a space. -/
def listing (es : List (String × String)) : String := ", ".intercalate (es.map fun e => e.1 ++ "=" ++ e.2)

end Panacea.Spec
