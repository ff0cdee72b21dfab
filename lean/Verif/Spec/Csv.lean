import Mathlib.Data.List.Basic
import Mathlib.Data.List.Forall2

/-!
# CSV files, as written (RFC 4180)

What text stands for what table, given by how one writes it: no reader is involved.
-/

namespace Panacea.Spec

/-- A field put in quotes, the quotes in it doubled. -/
def quoted (f : List Char) : List Char := '"' :: f.flatMap (fun c => if c = '"' then ['"', '"'] else [c]) ++ ['"']

/-- `t` is a way to write the field `f`: in quotes, or as it is if it has no comma and no line break and does not begin with a quote. -/
def FieldText (f t : List Char) : Prop :=
  t = quoted f ∨ (t = f ∧ (∀ c ∈ f, c ≠ ',' ∧ c ≠ '\n' ∧ c ≠ '\r') ∧ f.head? ≠ some '"')

/-- `t` is a way to write the record `r`: its fields, separated by commas; not an empty line. -/
def RecordText (r : List (List Char)) (t : List Char) : Prop :=
  r ≠ [] ∧ t ≠ [] ∧ ∃ ts, List.Forall₂ FieldText r ts ∧ t = [','].intercalate ts

/-- `t` is a way to write the records: one line each, ended by LF, CR or both; empty lines may be put in, the last line break may be missing. -/
inductive CsvText : List (List (List Char)) → List Char → Prop
  | nil : CsvText [] []
  | blank {rs t c} : c = '\n' ∨ c = '\r' → CsvText rs t → CsvText rs (c :: t)
  | last {r u} : RecordText r u → CsvText [r] u
  | cons {r u c rs t} : RecordText r u → c = '\n' ∨ c = '\r' → CsvText rs t → CsvText (r :: rs) (u ++ c :: t)

/-- The number written by decimal digits, most significant first. -/
def decimal (ds : List Char) : Nat := ds.foldl (fun a c => a * 10 + (c.toNat - '0'.toNat)) 0

/-- `f` is a numeral for `v`: decimal digits, at least one, perhaps after a plus sign, below `2^64`. -/
def Numeral (f : List Char) (v : Nat) : Prop :=
  ∃ ds, (f = ds ∨ f = '+' :: ds) ∧ ds ≠ [] ∧ (∀ c ∈ ds, c.isDigit = true) ∧ decimal ds = v ∧ v < 2 ^ 64

end Panacea.Spec
