import Verif.Model.Json

/-!
# The text of JSON documents: `serde_json::from_reader` (/repo/src/main.rs:196) and `serde_json::to_string` (/repo/src/decision_tree.rs:746)

`serde_json` 1.0.108 is not in the sandbox; this is its documented behaviour (RFC 8259, no extensions): white space, literals, numbers
(an integer literal is an integer if it fits `u64`, or `i64` when negative; otherwise, and for `-0`, it is a float), strings with escapes,
arrays and objects without trailing commas, nothing but white space after the value.

Simplifications: the text is a list of characters (a file that is not UTF-8 is an error, as in the library); the value of a float literal is a
parameter `mk` of the model (`none` = out of range); the document is read completely before it is interpreted (`Model/Json`), while the library
interleaves the two (either way any error gives `Err`); members that are skipped are checked like the others (the library does not look at the
range of skipped numbers nor at lone surrogates in skipped strings).
-/

namespace Panacea
namespace JsonText
variable {F : Type}

/-- White space  (/repo/src/main.rs:196, `serde_json` reader). -/
def isWs (c : Char) : Bool := c = ' ' || c = '\n' || c = '\t' || c = '\r'

/-- `parse_whitespace`  (/repo/src/main.rs:196, `serde_json` reader). -/
def skipWs : List Char → List Char
  | [] => []
  | c :: cs => if isWs c then skipWs cs else c :: cs

/-- A decimal digit  (/repo/src/main.rs:196, `serde_json` reader). -/
def isDig (c : Char) : Bool := 48 ≤ c.toNat && c.toNat ≤ 57

/-- The leading digits, and the rest  (/repo/src/main.rs:196, `serde_json` reader). -/
def spanDigits : List Char → List Char × List Char
  | [] => ([], [])
  | c :: cs => if isDig c then (c :: (spanDigits cs).1, (spanDigits cs).2) else ([], c :: cs)

/-- The value of a string of digits  (/repo/src/main.rs:196, `serde_json` reader). -/
def digitsValue (ds : List Char) : Nat := ds.foldl (fun a c => 10 * a + (c.toNat - 48)) 0

/-- The sign  (/repo/src/main.rs:196, `serde_json` reader). -/
def readSign : List Char → List Char × List Char
  | [] => ([], [])
  | c :: cs => if c = '-' then (['-'], cs) else ([], c :: cs)

/-- The integer part: `0`, or digits that do not begin with `0`  (/repo/src/main.rs:196, `serde_json` reader). -/
def readInt (cs : List Char) : Option (List Char × List Char) :=
  match cs with
  | [] => none
  | c :: r =>
    if c = '0' then
      match (spanDigits r).1 with
      | [] => some (['0'], r)
      | _ => none
    else if isDig c then some (spanDigits cs) else none

/-- The fraction, if there is one  (/repo/src/main.rs:196, `serde_json` reader). -/
def readFrac (cs : List Char) : Option (List Char × List Char) :=
  match cs with
  | [] => some ([], [])
  | c :: r =>
    if c = '.' then
      match (spanDigits r).1 with
      | [] => none
      | ds => some ('.' :: ds, (spanDigits r).2)
    else some ([], cs)

/-- The sign of an exponent  (/repo/src/main.rs:196, `serde_json` reader). -/
def readExpSign : List Char → List Char × List Char
  | [] => ([], [])
  | c :: cs => if c = '-' ∨ c = '+' then ([c], cs) else ([], c :: cs)

/-- The exponent, if there is one  (/repo/src/main.rs:196, `serde_json` reader). -/
def readExp (cs : List Char) : Option (List Char × List Char) :=
  match cs with
  | [] => some ([], [])
  | c :: r =>
    if c = 'e' ∨ c = 'E' then
      match (spanDigits (readExpSign r).2).1 with
      | [] => none
      | ds => some (c :: (readExpSign r).1 ++ ds, (spanDigits (readExpSign r).2).2)
    else some ([], cs)

/-- The value of a number literal with sign `neg`, integer part `ds` and the rest `fe` (fraction and exponent)  (/repo/src/main.rs:196, `serde_json` reader). -/
def numValue (mk : List Char → Option F) (sign ds fe : List Char) : Option (Json F) :=
  if fe = [] ∧ sign = [] ∧ digitsValue ds < 2 ^ 64 then some (.int (digitsValue ds))
  else if fe = [] ∧ sign ≠ [] ∧ 0 < digitsValue ds ∧ digitsValue ds ≤ 2 ^ 63 then some (.int (-(digitsValue ds : Int)))
  else (mk (sign ++ ds ++ fe)).map .float

/-- A number  (/repo/src/main.rs:196, `serde_json` reader). -/
def readNumber (mk : List Char → Option F) (cs : List Char) : Option (Json F × List Char) :=
  match readInt (readSign cs).2 with
  | none => none
  | some (ds, r1) =>
    match readFrac r1 with
    | none => none
    | some (fr, r2) =>
      match readExp r2 with
      | none => none
      | some (ex, r3) =>
        match numValue mk (readSign cs).1 ds (fr ++ ex) with
        | none => none
        | some j => some (j, r3)

/-- The value of a hexadecimal digit  (/repo/src/main.rs:196, `serde_json` reader). -/
def hexVal (c : Char) : Option Nat :=
  if 48 ≤ c.toNat ∧ c.toNat ≤ 57 then some (c.toNat - 48)
  else if 97 ≤ c.toNat ∧ c.toNat ≤ 102 then some (c.toNat - 87)
  else if 65 ≤ c.toNat ∧ c.toNat ≤ 70 then some (c.toNat - 55)
  else none

/-- Four hexadecimal digits  (/repo/src/main.rs:196, `serde_json` reader). -/
def hex4 (cs : List Char) : Option (Nat × List Char) :=
  match cs with
  | a :: b :: c :: d :: r =>
    match hexVal a, hexVal b, hexVal c, hexVal d with
    | some a, some b, some c, some d => some (((a * 16 + b) * 16 + c) * 16 + d, r)
    | _, _, _, _ => none
  | _ => none

/-- The one-letter escapes  (/repo/src/main.rs:196, `serde_json` reader). -/
def simpleEscape (c : Char) : Option Char :=
  if c = '"' then some '"' else if c = '\\' then some '\\' else if c = '/' then some '/' else if c = 'b' then some '\x08'
  else if c = 'f' then some '\x0c' else if c = 'n' then some '\n' else if c = 'r' then some '\r' else if c = 't' then some '\t' else none

/-- The second half of a surrogate pair whose first half is `v`  (/repo/src/main.rs:196, `serde_json` reader). -/
def lowSurrogate (v : Nat) (cs : List Char) : Option (Char × List Char) :=
  match cs with
  | c1 :: c2 :: r =>
    if c1 = '\\' ∧ c2 = 'u' then
      match hex4 r with
      | none => none
      | some (w, r2) =>
        if 0xDC00 ≤ w ∧ w ≤ 0xDFFF then some (Char.ofNat (0x10000 + (v - 0xD800) * 0x400 + (w - 0xDC00)), r2) else none
    else none
  | _ => none

/-- The character after a backslash, and the rest  (/repo/src/main.rs:196, `serde_json` reader). -/
def readEscape (cs : List Char) : Option (Char × List Char) :=
  match cs with
  | [] => none
  | c :: r =>
    if c = 'u' then
      match hex4 r with
      | none => none
      | some (v, r1) =>
        if 0xD800 ≤ v ∧ v ≤ 0xDBFF then lowSurrogate v r1
        else if 0xDC00 ≤ v ∧ v ≤ 0xDFFF then none
        else some (Char.ofNat v, r1)
    else
      match simpleEscape c with
      | none => none
      | some x => some (x, r)

/-- The rest of a string after the opening quote (`fuel` = characters left, an upper bound)  (/repo/src/main.rs:196, `serde_json` reader). -/
def readStr : Nat → List Char → Option (List Char × List Char)
  | 0, _ => none
  | _ + 1, [] => none
  | k + 1, c :: r =>
    if c = '"' then some ([], r)
    else if c = '\\' then
      match readEscape r with
      | none => none
      | some (x, r1) =>
        match readStr k r1 with
        | none => none
        | some (s, r2) => some (x :: s, r2)
    else if c.toNat < 0x20 then none
    else
      match readStr k r with
      | none => none
      | some (s, r2) => some (c :: s, r2)

/-- The rest of a literal  (/repo/src/main.rs:196, `serde_json` reader). -/
def eat : List Char → List Char → Option (List Char)
  | [], cs => some cs
  | _ :: _, [] => none
  | e :: es, c :: cs => if c = e then eat es cs else none

/-- The elements of a non-empty array up to `]`; `pv` reads a value  (/repo/src/main.rs:196, `serde_json` reader). -/
def readElems (pv : List Char → Option (Json F × List Char)) : Nat → List Char → Option (List (Json F) × List Char)
  | 0, _ => none
  | k + 1, cs =>
    match pv cs with
    | none => none
    | some (j, r) =>
      match skipWs r with
      | [] => none
      | c :: r1 =>
        if c = ']' then some ([j], r1)
        else if c = ',' then
          match readElems pv k r1 with
          | none => none
          | some (l, r2) => some (j :: l, r2)
        else none

/-- A member name with its colon  (/repo/src/main.rs:196, `serde_json` reader). -/
def readKey (cs : List Char) : Option (List Char × List Char) :=
  match skipWs cs with
  | [] => none
  | c :: r =>
    if c = '"' then
      match readStr (r.length + 1) r with
      | none => none
      | some (s, r1) =>
        match skipWs r1 with
        | [] => none
        | c1 :: r2 => if c1 = ':' then some (s, r2) else none
    else none

/-- The members of a non-empty object up to `}`  (/repo/src/main.rs:196, `serde_json` reader). -/
def readMembers (pv : List Char → Option (Json F × List Char)) : Nat → List Char → Option (List (String × Json F) × List Char)
  | 0, _ => none
  | k + 1, cs =>
    match readKey cs with
    | none => none
    | some (s, r0) =>
      match pv r0 with
      | none => none
      | some (j, r) =>
        match skipWs r with
        | [] => none
        | c :: r1 =>
          if c = '}' then some ([(String.ofList s, j)], r1)
          else if c = ',' then
            match readMembers pv k r1 with
            | none => none
            | some (l, r2) => some ((String.ofList s, j) :: l, r2)
          else none

/-- The rest of an array after `[`  (/repo/src/main.rs:196, `serde_json` reader). -/
def readArr (pv : List Char → Option (Json F × List Char)) (r : List Char) : Option (List (Json F) × List Char) :=
  match skipWs r with
  | [] => none
  | c :: r1 => if c = ']' then some ([], r1) else readElems pv (r.length + 1) r

/-- The rest of an object after `{`  (/repo/src/main.rs:196, `serde_json` reader). -/
def readObj (pv : List Char → Option (Json F × List Char)) (r : List Char) : Option (List (String × Json F) × List Char) :=
  match skipWs r with
  | [] => none
  | c :: r1 => if c = '}' then some ([], r1) else readMembers pv (r.length + 1) r

/-- A value after white space (`fuel` bounds the nesting; the text length always suffices)  (/repo/src/main.rs:196, `serde_json` reader). -/
def readValue (mk : List Char → Option F) : Nat → List Char → Option (Json F × List Char)
  | 0, _ => none
  | k + 1, cs =>
    match skipWs cs with
    | [] => none
    | c :: r =>
      if c = 'n' then (eat ['u', 'l', 'l'] r).map fun r => (.null, r)
      else if c = 't' then (eat ['r', 'u', 'e'] r).map fun r => (.bool true, r)
      else if c = 'f' then (eat ['a', 'l', 's', 'e'] r).map fun r => (.bool false, r)
      else if c = '"' then (readStr (r.length + 1) r).map fun x => (.str (String.ofList x.1), x.2)
      else if c = '[' then (readArr (readValue mk k) r).map fun x => (.arr x.1, x.2)
      else if c = '{' then (readObj (readValue mk k) r).map fun x => (.obj x.1, x.2)
      else readNumber mk (c :: r)

/-- `from_reader` into a syntax tree: one value, then white space until the end  (/repo/src/main.rs:196, `serde_json` reader). -/
def parse (mk : List Char → Option F) (cs : List Char) : Option (Json F) :=
  match readValue mk (cs.length + 1) cs with
  | none => none
  | some (j, r) => if skipWs r = [] then some j else none

/-! ## Writing -/

/-- Hexadecimal digit of an escape  (/repo/src/decision_tree.rs:746, `serde_json` writer). -/
def hexChar (v : Nat) : Char := if v < 10 then Char.ofNat (48 + v) else Char.ofNat (87 + v)

/-- `format_escaped_str_contents`: quotes, backslashes and control characters are escaped  (/repo/src/decision_tree.rs:746, `serde_json` writer). -/
def writeChar (c : Char) : List Char :=
  if c = '"' then ['\\', '"'] else if c = '\\' then ['\\', '\\'] else if c = '\x08' then ['\\', 'b'] else if c = '\x0c' then ['\\', 'f']
  else if c = '\n' then ['\\', 'n'] else if c = '\r' then ['\\', 'r'] else if c = '\t' then ['\\', 't']
  else if c.toNat < 0x20 then ['\\', 'u', '0', '0', hexChar (c.toNat / 16), hexChar (c.toNat % 16)]
  else [c]

/-- A string  (/repo/src/decision_tree.rs:746, `serde_json` writer). -/
def writeStr (s : String) : List Char := '"' :: s.toList.flatMap writeChar ++ ['"']

/-- Decimal digits  (/repo/src/decision_tree.rs:746, `serde_json` writer). -/
def writeNat (n : Nat) : List Char := Nat.toDigits 10 n

/-- An integer  (/repo/src/decision_tree.rs:746, `serde_json` writer). -/
def writeInt (z : Int) : List Char := if z < 0 then '-' :: writeNat z.natAbs else writeNat z.natAbs

/-- The separator before all elements but the first  (/repo/src/decision_tree.rs:746, `serde_json` writer). -/
def sep : Bool → List Char
  | true => []
  | false => [',']

mutual
/-- `to_string` (compact); `showF` writes a finite float  (/repo/src/decision_tree.rs:746, `serde_json` writer). -/
def write (showF : F → List Char) : Json F → List Char
  | .null => ['n', 'u', 'l', 'l']
  | .bool true => ['t', 'r', 'u', 'e']
  | .bool false => ['f', 'a', 'l', 's', 'e']
  | .int z => writeInt z
  | .float x => showF x
  | .str s => writeStr s
  | .arr l => '[' :: writeElems showF true l ++ [']']
  | .obj l => '{' :: writeMembers showF true l ++ ['}']
/-- The elements of an array  (/repo/src/decision_tree.rs:746, `serde_json` writer). -/
def writeElems (showF : F → List Char) (first : Bool) : List (Json F) → List Char
  | [] => []
  | j :: l => sep first ++ write showF j ++ writeElems showF false l
/-- The members of an object  (/repo/src/decision_tree.rs:746, `serde_json` writer). -/
def writeMembers (showF : F → List Char) (first : Bool) : List (String × Json F) → List Char
  | [] => []
  | (k, j) :: l => sep first ++ writeStr k ++ [':'] ++ write showF j ++ writeMembers showF false l
end

end JsonText

/-- `main` with the text of the parameter file (`none` = it cannot be opened), /repo/src/main.rs:194-197. -/
def textParams {F : Type} (mk : List Char → Option F) (ofInt : Int → F) (m55 : F) (cli : Cli F) (file : Option (List Char)) : List (ServerParams F) :=
  jsonParams ofInt m55 cli (file.map (JsonText.parse mk))

/-- `serde_json::to_string(&node)`, /repo/src/decision_tree.rs:746. -/
def treeText {F : Type} (showF : F → List Char) (t : Tree) : List Char := JsonText.write showF (Json.serNode t)

end Panacea
