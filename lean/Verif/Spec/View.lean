import Verif.Spec.Fresh
import Verif.Spec.Poly
import Verif.Spec.Oram
import Verif.Model.EncEval

/-!
# Specification for C75: everything the server ever receives

`Hidden`: as `Spec.Hid` of C64, but the list `shift` may depend on the key (evaluation keys encrypt functions of the key).
-/

namespace Panacea.Spec
variable {n : Nat}

/-- `f k` (for the key `key k`), started at position `pos`, never panics, ends at position `pos'`, and the ciphertexts of its output are
the RLWE samples at the positions `ps` of the random streams, no position used twice, plus `shift k`.  `ps`, `shift` and `pos'` are the same
for all mask and noise streams; `ps` and `pos'` are the same for all keys. -/
structure Hidden {ι α : Type} (key : ι → Poly n) (f : ι → Gen n → Option (α × Gen n)) (view : α → List (RLWE n)) (plains : Nat → Poly n)
    (pos : Nat) (shift : ι → List (RLWE n)) (ps : List Nat) (pos' : Nat) : Prop where
  le : pos ≤ pos'
  fresh : ps.Pairwise (· < ·)
  range : ∀ p ∈ ps, pos ≤ p ∧ p < pos'
  len : ∀ k, ps.length = (shift k).length
  run : ∀ k masks noises, ∃ a, f k ⟨masks, noises, plains, pos⟩ = some (a, ⟨masks, noises, plains, pos'⟩) ∧
    view a = List.zipWith (· + ·) (ps.map (sample (key k) masks noises)) (shift k)

/-- The `j`-th ciphertext, or zero. -/
def pick (cts : List (RLWE n)) : Option Nat → RLWE n
  | none => 0
  | some j => cts.getD j 0

/-- Cells filled with ciphertexts of the list `cts` (or zero) according to a layout. -/
def place (layout : List (List (Option Nat))) (cts : List (RLWE n)) : List (List (RLWE n)) :=
  layout.map fun row => row.map (pick cts)

/-- The client's side of an ORAM session: set up a server with a random database, then make the queries of all commands. -/
def oramClient (ctx : Ctx) (s : Poly n) (rows cols : Nat) (H : NaiveHash) (cmds : List (BatchCmd n)) (g : Gen n) :
    Option ((Server n × List (List (ClientQuery n))) × Gen n) :=
  match setupRandomOram ctx s rows cols H g with
  | none => none
  | some (S, _, g) =>
    match mapGenM (clientBatch ctx s rows cols H) cmds g with
    | none => none
    | some (qss, g) => some ((S, qss), g)

/-- The client's side of a decision-tree session: the evaluation keys, then all feature vectors. -/
def treeClient (ctx : Ctx) (s : Poly n) (vss : List (List Nat)) (g : Gen n) :
    Option ((RGSW n × KskMap n × List (List (List (RLWE n)))) × Gen n) :=
  match negGsw ctx s g with
  | none => none
  | some (negS, g) =>
    match genAllSubsKsk ctx s g with
    | none => none
    | some (ksks, g) =>
      match mapGenM (encryptFeatureVector ctx s) vss g with
      | none => none
      | some (cts, g) => some ((negS, ksks, cts), g)

/-- The ciphertexts of the substitution keys for `X -> X^k`, `k = 2^d + 1, 2^(d-1) + 1, ..., 3`. -/
def viewKsks (d : Nat) (ksks : KskMap n) : List (RLWE n) :=
  (List.range' 1 d).flatMap fun i => ((ksks (2 ^ d / 2 ^ (i - 1) + 1)).map KeyswitchKey.ksks).getD []

/-- The messages of the substitution keys: `s(X^k) * 2^(64 - bl*l)`. -/
def kskShift (ctx : Ctx) (d : Nat) (s : Poly (2 ^ d)) : List (RLWE (2 ^ d)) :=
  (List.range' 1 d).flatMap fun i => (List.range' 1 ctx.ksLevelCount).map fun l =>
    ⟨0, (evalAt s (X _ ^ (2 ^ d / 2 ^ (i - 1) + 1))).mulConst ((1 : Scalar) <<< (64 - ctx.ksBaseLog * l))⟩

/-- The messages of the RGSW encryption of the negated key. -/
def negShift (ctx : Ctx) (s : Poly n) : List (RLWE n) := gadgetShift ctx.baseLog ctx.negsLevelCount (-s)

end Panacea.Spec
