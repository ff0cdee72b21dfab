import Verif.Model.Json
import Verif.Spec.Tree

/-! # Specification of JSON parameter files and trees -/

namespace Panacea.Spec
variable {F : Type}

/-- All numbers of the parameter set are 64-bit numbers (which they are, in Rust). -/
def TfheFits (p : TFHEParameters F) : Prop :=
  p.polynomialSize < 2 ^ 64 ∧ p.baseLog < 2 ^ 64 ∧ p.levelCount < 2 ^ 64 ∧ p.keySwitchBaseLog < 2 ^ 64 ∧ p.keySwitchLevelCount < 2 ^ 64 ∧
    p.negsBaseLog < 2 ^ 64 ∧ p.negsLevelCount < 2 ^ 64 ∧ p.plaintextModulus < 2 ^ 64

/-- All numbers of the mode are 64-bit numbers. -/
def OramFits : ORAMParameters → Prop
  | .singleQuery i k => i < 2 ^ 64 ∧ k < 2 ^ 64
  | .multiQuery i q k => i < 2 ^ 64 ∧ q < 2 ^ 64 ∧ k < 2 ^ 64
  | .batched r c k => r < 2 ^ 64 ∧ c < 2 ^ 64 ∧ k < 2 ^ 64

/-- All numbers in the tree are 64-bit numbers. -/
def TreeFits (t : Tree) : Prop :=
  (∀ d, HasNode d t → d.threshold < 2 ^ 64 ∧ d.feature < 2 ^ 64 ∧ d.index < 2 ^ 64) ∧ ∀ x, HasLeaf x t → x < 2 ^ 64

/-- Exactly one member of the object is called `k`, and its value is `v`. -/
def Member (l : List (String × Json F)) (k : String) (v : Json F) : Prop :=
  ∃ l₁ l₂, l = l₁ ++ (k, v) :: l₂ ∧ ∀ w, (k, w) ∉ l₁ ∧ (k, w) ∉ l₂

/-- The member names of a `TFHEParameters` object. -/
def tfheKeys : List String :=
  ["standard_deviation", "polynomial_size", "base_log", "level_count", "key_switch_base_log", "key_switch_level_count", "negs_base_log",
    "negs_level_count", "plaintext_modulus", "secure_seed"]

/-- The member names of an `Internal` object. -/
def internalKeys : List String := ["threshold", "feature", "index", "op", "left", "right"]

/-- The run that the program performs when it has nothing else: batched, 384 x 16, default TFHE parameters. -/
def fallback (m55 : F) : ServerParams F := ⟨.batched 384 16 1, ⟨m55, 2048, 5, 9, 5, 11, 5, 11, 256, true⟩⟩

end Panacea.Spec
