import Verif.Spec.View
import Mathlib.MeasureTheory.Measure.Real

/-!
# Specification for C90: what breaking the privacy of a session would take

The assumption about the cryptosystem (`Hard`) is the decisional RLWE assumption with key-dependent messages: nobody who is limited to the
tests of a class can tell samples `(a, a*s + e)`, to some of which known functions of the key have been added, from random pairs, except with advantage `ε`.
It is a hypothesis of the theorems, never an axiom: the theorems are the reduction.
-/

namespace Panacea.Spec
variable {n : Nat}

/-- The probability that a list of `L` independent uniformly random pairs passes the test. -/
noncomputable def idealChance (n L : Nat) (D : List (RLWE n) → Prop) : ℝ :=
  (Nat.card {x : Fin L → RLWE n // D (List.ofFn x)} : ℝ) / Nat.card (Fin L → RLWE n)

/-- The challenge: the samples at the positions `ps` of the random streams for the key `s`, with the messages `kdm` added to the first ones. -/
def challenge (s : Poly n) (masks noises : Nat → Poly n) (kdm : List (RLWE n)) (ps : List Nat) : List (RLWE n) :=
  List.zipWith (· + ·) (ps.map (sample s masks noises)) (kdm ++ List.replicate (ps.length - kdm.length) 0)

/-- RLWE with the key-dependent messages `kdm` is hard: every test of the class has an advantage of at most `ε`, whichever of the first `N`
positions of the streams are used, none of them twice. -/
def Hard {Ω : Type} [MeasurableSpace Ω] (μ : MeasureTheory.Measure Ω) (key : Ω → Poly n) (masks noises : Ω → Nat → Poly n)
    (kdm : Poly n → List (RLWE n)) (N : Nat) (tests : Set (List (RLWE n) → Prop)) (ε : ℝ) : Prop :=
  ∀ D ∈ tests, ∀ ps : List Nat, ps.Pairwise (· < ·) → (∀ p ∈ ps, p < N) → (kdm 0).length ≤ ps.length →
    |μ.real {ω | D (challenge (key ω) (masks ω) (noises ω) (kdm (key ω)) ps)} - idealChance n ps.length D| ≤ ε

/-- The tests against RLWE include what the reduction makes of the server's guesses `adv`: add known messages to the input, copy and reorder it, then
guess.  (`adv` may be a smaller class, for instance of cheaper tests.) -/
def Reduces (adv tests : Set (List (RLWE n) → Prop)) : Prop :=
  ∀ A ∈ adv, ∀ (shift : List (RLWE n)) (wires : List (Option Nat)),
    (fun x => A (wires.map (pick (List.zipWith (· + ·) x shift)))) ∈ tests

/-- What a client asks for: a READ or WRITE batch, or a single READ or WRITE. -/
inductive ClientOp (n : Nat)
  | batch (c : BatchCmd n)
  | readOne (i : Nat)
  | writeOne (i : Nat) (alpha : Poly n)

/-- The queries the client sends for it. -/
def ClientOp.queries (ctx : Ctx) (s : Poly n) (rows cols : Nat) (H : NaiveHash) : ClientOp n → Gen n → Option (List (ClientQuery n) × Gen n)
  | .batch c, g => clientBatch ctx s rows cols H c g
  | .readOne i, g => (genReadQueryOne ctx s rows cols H i g).map fun r => ([r.1], r.2)
  | .writeOne i alpha, g => (genWriteQueryOne ctx s rows cols H i alpha g).map fun r => ([r.1], r.2)

/-- The number of queries sent for it: all the server may learn. -/
def ClientOp.size (rows : Nat) : ClientOp n → Nat
  | .batch _ => rows
  | .readOne _ => 1
  | .writeOne _ _ => 1

/-- The client's side of an ORAM session: set up a server with a random database, then make the queries of all operations. -/
def opsClient (ctx : Ctx) (s : Poly n) (rows cols : Nat) (H : NaiveHash) (ops : List (ClientOp n)) (g : Gen n) :
    Option ((Server n × List (List (ClientQuery n))) × Gen n) :=
  match setupRandomOram ctx s rows cols H g with
  | none => none
  | some (S, _, g) =>
    match mapGenM (ClientOp.queries ctx s rows cols H) ops g with
    | none => none
    | some (qss, g) => some ((S, qss), g)

/-- All ciphertexts the server of an ORAM session gets, in the order in which they are sent: the encryption of the negated key, the database row by
row, the queries of all operations. -/
def oramWire (r : Server n × List (List (ClientQuery n))) : List (RLWE n) :=
  viewRgsw r.1.negS ++ (r.1.data.flatten ++ r.2.flatMap fun qs => qs.flatMap viewQuery)

/-- All ciphertexts the server of a decision-tree session gets: the encryption of the negated key, the substitution keys, the feature vectors. -/
def treeWire (d : Nat) (r : RGSW (2 ^ d) × KskMap (2 ^ d) × List (List (List (RLWE (2 ^ d))))) : List (RLWE (2 ^ d)) :=
  viewRgsw r.1 ++ (viewKsks d r.2.1 ++ r.2.2.flatMap fun cts => cts.flatMap id)

/-- The server's guess `A` about a session, for one choice `ω` of the key and of all randomness; `false` if the client panics. -/
def Guess {α Ω : Type} (A : List (RLWE n) → Prop) (wire : α → List (RLWE n)) (run : Ω → Option (α × Gen n)) (ω : Ω) : Prop :=
  ∃ r g, run ω = some (r, g) ∧ A (wire r)

end Panacea.Spec
