import Verif.Model.JsonText
import Verif.Spec.Json

/-! # The JSON grammar (RFC 8259) -/

namespace Panacea
namespace Spec
variable {F : Type}

/-- White space. -/
def Ws (w : List Char) : Prop := ∀ c ∈ w, c ∈ [' ', '\n', '\t', '\r']

/-- The decimal digits. -/
def decDigits : List Char := ['0', '1', '2', '3', '4', '5', '6', '7', '8', '9']

/-- The number written by a string of digits. -/
def decValue : List Char → Nat
  | [] => 0
  | c :: cs => decDigits.idxOf c * 10 ^ cs.length + decValue cs

/-- A non-empty string of digits. -/
def Digits (ds : List Char) : Prop := ds ≠ [] ∧ ∀ c ∈ ds, c ∈ decDigits

/-- A number literal: sign, integer part without leading zeros, fraction, exponent. -/
structure NumberText (sign int frac exp : List Char) : Prop where
  sign : sign = [] ∨ sign = ['-']
  int : Digits int ∧ (int.head? = some '0' → int = ['0'])
  frac : frac = [] ∨ ∃ ds, Digits ds ∧ frac = '.' :: ds
  exp : exp = [] ∨ ∃ e s ds, (e = 'e' ∨ e = 'E') ∧ (s = [] ∨ s = ['+'] ∨ s = ['-']) ∧ Digits ds ∧ exp = e :: s ++ ds

/-- The literal means the value `j`: an integer if it has neither fraction nor exponent and fits 64 bits (`-0` is not one), else a float. -/
inductive NumberMeans (mk : List Char → Option F) (sign int frac exp : List Char) : Json F → Prop
  | pos : sign = [] → frac = [] → exp = [] → decValue int < 2 ^ 64 → NumberMeans mk sign int frac exp (.int (decValue int))
  | neg : sign = ['-'] → frac = [] → exp = [] → 0 < decValue int → decValue int ≤ 2 ^ 63 →
      NumberMeans mk sign int frac exp (.int (-(decValue int : Int)))
  | float {x : F} : (frac = [] → exp = [] → sign = [] → 2 ^ 64 ≤ decValue int) →
      (frac = [] → exp = [] → sign = ['-'] → decValue int = 0 ∨ 2 ^ 63 < decValue int) → mk (sign ++ int ++ frac ++ exp) = some x →
      NumberMeans mk sign int frac exp (.float x)

/-- The hexadecimal digit `c` has value `v`. -/
def Hex (c : Char) (v : Nat) : Prop :=
  ['0', '1', '2', '3', '4', '5', '6', '7', '8', '9', 'a', 'b', 'c', 'd', 'e', 'f'][v]? = some c ∨
  ['0', '1', '2', '3', '4', '5', '6', '7', '8', '9', 'A', 'B', 'C', 'D', 'E', 'F'][v]? = some c

/-- Four hexadecimal digits with value `v`. -/
def Hex4 (cs : List Char) (v : Nat) : Prop :=
  ∃ a b c d va vb vc vd, cs = [a, b, c, d] ∧ Hex a va ∧ Hex b vb ∧ Hex c vc ∧ Hex d vd ∧ v = va * 4096 + vb * 256 + vc * 16 + vd

/-- The one-letter escapes. -/
def escapes : List (Char × Char) :=
  [('"', '"'), ('\\', '\\'), ('/', '/'), ('b', '\x08'), ('f', '\x0c'), ('n', '\n'), ('r', '\r'), ('t', '\t')]

/-- `text` denotes the character `c` inside a string. -/
inductive CharText : List Char → Char → Prop
  | plain {c : Char} : 0x20 ≤ c.toNat → c ≠ '"' → c ≠ '\\' → CharText [c] c
  | escape {e c : Char} : (e, c) ∈ escapes → CharText ['\\', e] c
  | unicode {h : List Char} {v : Nat} : Hex4 h v → v < 0xD800 ∨ 0xDFFF < v → CharText ('\\' :: 'u' :: h) (Char.ofNat v)
  | pair {h h' : List Char} {v w : Nat} : Hex4 h v → Hex4 h' w → 0xD800 ≤ v → v ≤ 0xDBFF → 0xDC00 ≤ w → w ≤ 0xDFFF →
      CharText ('\\' :: 'u' :: h ++ '\\' :: 'u' :: h') (Char.ofNat (0x10000 + (v - 0xD800) * 0x400 + (w - 0xDC00)))

/-- `text` denotes the characters `s` inside a string. -/
inductive CharsText : List Char → List Char → Prop
  | nil : CharsText [] []
  | cons {e t s : List Char} {c : Char} : CharText e c → CharsText t s → CharsText (e ++ t) (c :: s)

/-- A string literal. -/
def StrText (text : List Char) (s : String) : Prop := ∃ body, text = '"' :: body ++ ['"'] ∧ CharsText body s.toList

mutual
/-- `text` is a JSON text, without surrounding white space, of the value. -/
def ValueText (mk : List Char → Option F) : Json F → List Char → Prop
  | .null, t => t = ['n', 'u', 'l', 'l']
  | .bool b, t => t = if b then ['t', 'r', 'u', 'e'] else ['f', 'a', 'l', 's', 'e']
  | .int z, t => ∃ sign int frac exp, t = sign ++ int ++ frac ++ exp ∧ NumberText sign int frac exp ∧
      NumberMeans mk sign int frac exp (.int z)
  | .float x, t => ∃ sign int frac exp, t = sign ++ int ++ frac ++ exp ∧ NumberText sign int frac exp ∧
      NumberMeans mk sign int frac exp (.float x)
  | .str s, t => StrText t s
  | .arr l, t => ∃ body, t = '[' :: body ++ [']'] ∧ ((l = [] ∧ Ws body) ∨ (l ≠ [] ∧ ElemsText mk l body))
  | .obj l, t => ∃ body, t = '{' :: body ++ ['}'] ∧ ((l = [] ∧ Ws body) ∨ (l ≠ [] ∧ MembersText mk l body))
/-- Elements separated by commas, each surrounded by white space; after the last one nothing. -/
def ElemsText (mk : List Char → Option F) : List (Json F) → List Char → Prop
  | [], t => t = []
  | j :: l, t => ∃ w1 v w2 r, t = w1 ++ v ++ w2 ++ r ∧ Ws w1 ∧ ValueText mk j v ∧ Ws w2 ∧
      ((l = [] ∧ r = []) ∨ (l ≠ [] ∧ ∃ r', r = ',' :: r' ∧ ElemsText mk l r'))
/-- Members separated by commas. -/
def MembersText (mk : List Char → Option F) : List (String × Json F) → List Char → Prop
  | [], t => t = []
  | (k, j) :: l, t => ∃ w1 kt w2 w3 v w4 r, t = w1 ++ kt ++ w2 ++ [':'] ++ w3 ++ v ++ w4 ++ r ∧ Ws w1 ∧ StrText kt k ∧ Ws w2 ∧ Ws w3 ∧
      ValueText mk j v ∧ Ws w4 ∧ ((l = [] ∧ r = []) ∨ (l ≠ [] ∧ ∃ r', r = ',' :: r' ∧ MembersText mk l r'))
end

/-- A JSON document: a value surrounded by white space. -/
def DocText (mk : List Char → Option F) (j : Json F) (t : List Char) : Prop :=
  ∃ w1 v w2, t = w1 ++ v ++ w2 ∧ Ws w1 ∧ ValueText mk j v ∧ Ws w2

/-- The float `x` is written as a number literal with a fraction or an exponent that is read back as `x`. -/
def FloatWritten (mk : List Char → Option F) (showF : F → List Char) (x : F) : Prop :=
  ∃ sign int frac exp, showF x = sign ++ int ++ frac ++ exp ∧ NumberText sign int frac exp ∧ (frac ≠ [] ∨ exp ≠ []) ∧ mk (showF x) = some x

mutual
/-- All integers of the document fit `i64` or `u64`, all floats can be written. -/
def Writable (mk : List Char → Option F) (showF : F → List Char) : Json F → Prop
  | .int z => -2 ^ 63 ≤ z ∧ z < 2 ^ 64
  | .float x => FloatWritten mk showF x
  | .arr l => WritableAll mk showF l
  | .obj l => WritableMembers mk showF l
  | _ => True
/-- The same for all elements of an array. -/
def WritableAll (mk : List Char → Option F) (showF : F → List Char) : List (Json F) → Prop
  | [] => True
  | j :: l => Writable mk showF j ∧ WritableAll mk showF l
/-- The same for all members of an object. -/
def WritableMembers (mk : List Char → Option F) (showF : F → List Char) : List (String × Json F) → Prop
  | [] => True
  | (_, j) :: l => Writable mk showF j ∧ WritableMembers mk showF l
end

end Spec
end Panacea
