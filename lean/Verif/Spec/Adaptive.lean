import Verif.Spec.Secure

/-!
# Specification for C91: a server that chooses the accesses

The game of C90 with an adaptive adversary: after each operation the server, knowing all ciphertexts sent so far, chooses what the client does next.
-/

namespace Panacea.Spec
variable {n : Nat}

/-- The server's choice of the next operation, from everything it has received so far. -/
abbrev Strategy (n : Nat) : Type := List (RLWE n) → ClientOp n

/-- `K` operations chosen by the server; `v` = everything received so far. -/
def rounds (ctx : Ctx) (s : Poly n) (rows cols : Nat) (H : NaiveHash) (strat : Strategy n) : Nat → List (RLWE n) → Gen n →
    Option (List (RLWE n) × Gen n)
  | 0, v, g => some (v, g)
  | k + 1, v, g =>
    match (strat v).queries ctx s rows cols H g with
    | none => none
    | some (qs, g) => rounds ctx s rows cols H strat k (v ++ qs.flatMap viewQuery) g

/-- The game: set up a server with a random database, then `K` operations chosen by the server.  The result is all the server has received. -/
def game (ctx : Ctx) (s : Poly n) (rows cols : Nat) (H : NaiveHash) (strat : Strategy n) (K : Nat) (g : Gen n) : Option (List (RLWE n) × Gen n) :=
  match setupRandomOram ctx s rows cols H g with
  | none => none
  | some (S, _, g) => rounds ctx s rows cols H strat K (oramWire (S, [])) g

/-- The client makes the queries of `op` with the plaintext stream `plains` whatever the (binary) key and the other streams are, using at most `C`
positions of the streams. -/
def Accepted (ctx : Ctx) (rows cols : Nat) (H : NaiveHash) (plains : Nat → Poly n) (C : Nat) (op : ClientOp n) : Prop :=
  ∀ s masks noises pos, Binary s → ∃ qs g, op.queries ctx s rows cols H ⟨masks, noises, plains, pos⟩ = some (qs, g) ∧ g.pos ≤ pos + C

/-- The operation is one the client accepts: existing items, encodable data (plaintext modulus `t`). -/
def ClientOp.Ok (N : Nat) (t : Scalar) : ClientOp n → Prop
  | .batch (.read is) => ∀ i ∈ is, i < N
  | .batch (.write is a) => (∀ i ∈ is, i < N) ∧ Encodable t a
  | .readOne i => i < N
  | .writeOne i a => i < N ∧ Encodable t a

/-- What the reduction needs to know about an operation when the streams are at some position: which positions it uses, with which messages, and the next
position. -/
abbrev Plan (n : Nat) : Type := ClientOp n → Nat → List (Nat × RLWE n) × Nat

/-- The reduction plays the game with given pairs `x` in place of samples. -/
def replay (plan : Plan n) (strat : Strategy n) (x : Nat → RLWE n) : Nat → List (RLWE n) → Nat → List (RLWE n)
  | 0, v, _ => v
  | k + 1, v, pos => replay plan strat x k (v ++ (plan (strat v) pos).1.map fun p => x p.1 + p.2) (plan (strat v) pos).2

/-- The test against RLWE made from the server's guess `A` and strategy: wire the first `L0` pairs, with messages, into keys and database, use the other
pairs for the samples from position `pos0` on, and guess as `A` does. -/
def adaptiveTest (shift : List (RLWE n)) (wires : List (Option Nat)) (plan : Plan n) (L0 pos0 K : Nat) (strat : Strategy n) (A : List (RLWE n) → Prop)
    (x : List (RLWE n)) : Prop :=
  A (replay plan strat (fun p => x.getD (L0 + (p - pos0)) 0) K (wires.map (pick (List.zipWith (· + ·) (x.take L0) shift))) pos0)

end Panacea.Spec
