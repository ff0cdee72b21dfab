import Verif.Model.Oram

/-!
# `utils::parse_csv`, /repo/src/utils.rs:74-86

The file is a list of characters (a file that is not valid UTF-8 in a data record makes `res.unwrap()` panic and is not modelled; a missing
file panics).  `csv::Reader::from_reader` of the `csv` crate 1.3.0 (not part of the repository) with its default settings is modelled from
its documentation and source: delimiter `,`, quote `"`, doubled quotes, no escape character, records end at CR, LF or CRLF, empty lines are
skipped, a leading byte order mark is dropped, the first record is taken as a header and never returned, all records must have as many
fields as the first.
-/

namespace Panacea

/-- The states of the reader of the `csv` crate (the states it passes through without reading a character are merged; a CR and the LF that
may follow it are a record end and an empty line)  (used by /repo/benches/bench.rs `csv::Reader`; library code). -/
inductive CsvState
  | startRecord
  | startField
  | inField
  | inQuoted
  | quoteInQuoted

/-- A record terminator  (library code, behind `csv::Reader` in /repo/benches/bench.rs). -/
def isEol (c : Char) : Bool := c = '\n' || c = '\r'

/-- The reader of the `csv` crate used by /repo/src/utils.rs:78-79: state, current field, fields of the current record, remaining input. -/
def csvGo : CsvState → List Char → List (List Char) → List Char → List (List (List Char))
  | .startRecord, _, _, [] => []
  | .startField, f, r, [] => [r ++ [f]]
  | .inField, f, r, [] => [r ++ [f]]
  | .inQuoted, f, r, [] => [r ++ [f]]
  | .quoteInQuoted, f, r, [] => [r ++ [f]]
  | .startRecord, _, _, c :: cs =>
    if isEol c then csvGo .startRecord [] [] cs
    else if c = '"' then csvGo .inQuoted [] [] cs
    else if c = ',' then csvGo .startField [] [[]] cs
    else csvGo .inField [c] [] cs
  | .startField, f, r, c :: cs =>
    if c = '"' then csvGo .inQuoted f r cs
    else if c = ',' then csvGo .startField [] (r ++ [f]) cs
    else if isEol c then (r ++ [f]) :: csvGo .startRecord [] [] cs
    else csvGo .inField (f ++ [c]) r cs
  | .inField, f, r, c :: cs =>
    if c = ',' then csvGo .startField [] (r ++ [f]) cs
    else if isEol c then (r ++ [f]) :: csvGo .startRecord [] [] cs
    else csvGo .inField (f ++ [c]) r cs
  | .inQuoted, f, r, c :: cs =>
    if c = '"' then csvGo .quoteInQuoted f r cs
    else csvGo .inQuoted (f ++ [c]) r cs
  | .quoteInQuoted, f, r, c :: cs =>
    if c = '"' then csvGo .inQuoted (f ++ [c]) r cs
    else if c = ',' then csvGo .startField [] (r ++ [f]) cs
    else if isEol c then (r ++ [f]) :: csvGo .startRecord [] [] cs
    else csvGo .inField (f ++ [c]) r cs

/-- All records of a text, the header included  (library code, behind `csv::Reader` in /repo/benches/bench.rs). -/
def csvRecords (text : List Char) : List (List (List Char)) :=
  csvGo .startRecord [] [] (match text with
    | '\uFEFF' :: t => t
    | t => t)

/-- The loop of `usize::from_str` over the digits, with its overflow checks (called by `s.parse()`, /repo/src/utils.rs:81). -/
def parseDigits : Nat → List Char → Option Nat
  | acc, [] => some acc
  | acc, c :: cs =>
    if c.isDigit then
      if acc * 10 < 2 ^ 64 ∧ acc * 10 + (c.toNat - '0'.toNat) < 2 ^ 64 then parseDigits (acc * 10 + (c.toNat - '0'.toNat)) cs else none
    else none

/-- `usize::from_str` (called by `s.parse()`, /repo/src/utils.rs:81): an optional `+`, then at least one digit.  `none` = `Err`. -/
def parseUsize : List Char → Option Nat
  | [] => none
  | ['+'] => none
  | ['-'] => none
  | '+' :: c :: cs => parseDigits 0 (c :: cs)
  | c :: cs => parseDigits 0 (c :: cs)

/-- One iteration of the loop of `parse_csv`, /repo/src/utils.rs:79-83: the first `unwrap` panics on a record whose number of fields differs
from the header's, the second on a field that is not a number. -/
def parseRecord (fields : Nat) (record : List (List Char)) : Option (List Nat) :=
  if record.length = fields then mapOption parseUsize record else none

/-- `utils::parse_csv`, /repo/src/utils.rs:74-86, on the content of the file (`none` = there is no file).  Result `none` = panic. -/
def parseCsv (file : Option (List Char)) : Option (List (List Nat)) :=
  match file with
  | none => none
  | some text =>
    match csvRecords text with
    | [] => some []
    | header :: records => mapOption (parseRecord header.length) records

end Panacea
