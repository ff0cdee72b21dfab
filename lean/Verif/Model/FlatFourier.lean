import Verif.Model.Fourier

/-!
# `izip!` and the loops over Fourier-domain vectors: /repo/src/macros.rs, /repo/src/rlwe.rs:818-825, 1107-1109, 1152-1154, 1159-1179

A Fourier-domain polynomial is a vector of complex numbers of some length (a list); the loops zip such vectors with `izip!`, which
checks the lengths in builds with debug assertions only.
-/

namespace Panacea
namespace Flat

/-- `zip_checked`, /repo/src/macros.rs:8-19 with `assert_same_len`, 1-6, on slices (exact size hints); `debug` selects a build with
debug assertions, `none` is a panic. -/
def zipChecked {α β : Type} (debug : Bool) (a : List α) (b : List β) : Option (List (α × β)) :=
  if debug && a.length != b.length then none else some (a.zip b)

/-- `izip!(a, b, c)`, /repo/src/macros.rs:24-51: left-nested `zip_checked`, flattened.  (Used at /repo/src/rlwe.rs:1164.) -/
def izip3 {α β γ : Type} (debug : Bool) (a : List α) (b : List β) (c : List γ) : Option (List (α × β × γ)) :=
  match zipChecked debug a b with
  | none => none
  | some ab =>
    match zipChecked debug ab c with
    | none => none
    | some abc => some (abc.map fun p => (p.1.1, p.1.2, p.2))

/-- `izip!` with five arguments (used at /repo/src/rlwe.rs:1176). -/
def izip5 {α : Type} (debug : Bool) (a b c d e : List α) : Option (List (α × α × α × α × α)) :=
  match zipChecked debug a b with
  | none => none
  | some ab =>
    match zipChecked debug ab c with
    | none => none
    | some abc =>
      match zipChecked debug abc d with
      | none => none
      | some abcd =>
        match zipChecked debug abcd e with
        | none => none
        | some r => some (r.map fun p => (p.1.1.1.1, p.1.1.1.2, p.1.1.2, p.1.2, p.2))

/-- Write the elements a loop has computed for the first elements of a vector (`&mut *out.data` was zipped): the rest keeps its value  (/repo/src/rlwe.rs:1159-1179). -/
def writeBack {α : Type} (out new : List α) : List α := new ++ out.drop new.length

variable {n : Nat}

/-- `for (c, b) in izip!(&mut *after.body.data, &*second_fourier.data) { *c = *b; }`, /repo/src/rlwe.rs:823-825. -/
def copyLoop (debug : Bool) (out src : List ℂ) : Option (List ℂ) :=
  (zipChecked debug out src).map fun z => writeBack out (z.map fun p => p.2)

/-- `for (f0, f1) in izip!(&mut *fp1.data, &*fp2.data) { *f0 *= *f1; }`, /repo/src/rlwe.rs:1107-1109, 1152-1154. -/
def mulLoop (F : FloatFft n) (debug : Bool) (fp1 fp2 : List ℂ) : Option (List ℂ) :=
  (zipChecked debug fp1 fp2).map fun z => writeBack fp1 (z.map fun p => F.mul p.1 p.2)

/-- `pre_fourier_update_with_multiply_accumulate`, /repo/src/rlwe.rs:1159-1167. -/
def multiplyAccumulate (F : FloatFft n) (debug : Bool) (out fp1 fp2 : List ℂ) : Option (List ℂ) :=
  (izip3 debug out fp1 fp2).map fun z => writeBack out (z.map fun p => F.add p.1 (F.mul p.2.1 p.2.2))

/-- `pre_fourier_update_with_two_multiply_accumulate`, /repo/src/rlwe.rs:1169-1179. -/
def twoMultiplyAccumulate (F : FloatFft n) (debug : Bool) (out fp1 fp2 fp3 fp4 : List ℂ) : Option (List ℂ) :=
  (izip5 debug out fp1 fp2 fp3 fp4).map fun z =>
    writeBack out (z.map fun p => F.add p.1 (F.add (F.mul p.2.1 p.2.2.1) (F.mul p.2.2.2.1 p.2.2.2.2)))

end Flat
end Panacea
