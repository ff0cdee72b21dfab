import Verif.Model.Oram

/-!
# Specification for C64: what the server sees is fresh RLWE samples plus the plaintext

An RLWE sample is a pair `(a, a*s + e)`; under the RLWE assumption a list of samples with distinct, never reused `a` and `e` is
indistinguishable from random pairs.  `Hid` says that the ciphertexts a function outputs are such samples -- the `i`-th one drawn from
position `ps[i]` of the random streams, no position used twice -- plus a list `shift` (containing the plaintexts) that does not depend on
the mask stream, the noise stream or (if `ι` ranges over all keys) the key.
-/

namespace Panacea.Spec
variable {n : Nat}

/-- The RLWE sample drawn at position `p`. -/
def sample (s : Poly n) (masks noises : Nat → Poly n) (p : Nat) : RLWE n := ⟨masks p, masks p * s + noises p⟩

/-- `f k` (for the key `key k`), started at position `pos`, never panics, ends at position `pos'`, and the ciphertexts of its output
are the samples at the positions `ps`, plus `shift`. `ps`, `shift`, `pos'` are the same for all masks, noises and keys. -/
structure Hid {ι α : Type} (key : ι → Poly n) (f : ι → Gen n → Option (α × Gen n)) (view : α → List (RLWE n)) (plains : Nat → Poly n)
    (pos : Nat) (shift : List (RLWE n)) (ps : List Nat) (pos' : Nat) : Prop where
  le : pos ≤ pos'
  fresh : ps.Pairwise (· < ·)
  range : ∀ p ∈ ps, pos ≤ p ∧ p < pos'
  len : ps.length = shift.length
  run : ∀ k masks noises, ∃ a, f k ⟨masks, noises, plains, pos⟩ = some (a, ⟨masks, noises, plains, pos'⟩) ∧
    view a = List.zipWith (· + ·) (ps.map (sample (key k) masks noises)) shift

/-- All ciphertexts of an RGSW ciphertext. -/
def viewRgsw (C : RGSW n) : List (RLWE n) := C.rows.flatMap fun r => [r.1, r.2]

/-- All ciphertexts of a query. -/
def viewQuery (q : ClientQuery n) : List (RLWE n) := q.a.flatMap viewRgsw ++ (viewRgsw q.op ++ [q.data])

/-- The plaintext part of an RGSW encryption of `m`: `m * 2^(64 - bl*l)` in the mask and in the body, for every level `l`. -/
def gadgetShift (bl lv : Nat) (m : Poly n) : List (RLWE n) :=
  (List.range' 1 lv).flatMap fun l => [⟨m.mulConst ((1 : Scalar) <<< (64 - bl * l)), 0⟩, ⟨0, m.mulConst ((1 : Scalar) <<< (64 - bl * l))⟩]

/-- The plaintext part of a query for column `i` of `2^D`: the complemented index bits (most significant first), the flag, the encoded
data. -/
def queryShift (ctx : Ctx) (D i : Nat) (write : Bool) (data : Poly n) : List (RLWE n) :=
  ((List.range D).reverse.flatMap fun k => gadgetShift ctx.baseLog ctx.levelCount (Poly.const n (if i.testBit k then 0 else 1))) ++
    (gadgetShift ctx.baseLog ctx.levelCount (Poly.const n (if write then 1 else 0)) ++ [⟨0, data⟩])

end Panacea.Spec
