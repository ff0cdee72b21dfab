import Verif.Model.Oram

/-!
# Circuits: what a data-oblivious server computation is

A circuit is a term over the server's inputs (database cells, query ciphertexts, the key-switching ciphertext) built from constants and the
homomorphic operations only.  It has no comparison, no branch and no indexing by a ciphertext: a computation given by a circuit that was
fixed before the inputs are known performs the same operations, on the same cells, for all inputs.
-/

namespace Panacea
variable {n : Nat}

mutual
/-- Circuits computing an RLWE ciphertext. -/
inductive RCirc
  /-- database cell `(r, c)` -/
  | cell (r c : Nat)
  /-- data ciphertext of query `k` -/
  | data (k : Nat)
  /-- the all-zero ciphertext -/
  | zero
  /-- trivial ciphertext of a public constant -/
  | const (w : Scalar)
  | add (a b : RCirc)
  | sub (a b : RCirc)
  /-- external product, accumulated into `out` -/
  | ext (C : GCirc) (out d : RCirc)
/-- Circuits computing an RGSW ciphertext. -/
inductive GCirc
  /-- address ciphertext `b` of query `k` -/
  | addr (k b : Nat)
  /-- operation ciphertext of query `k` -/
  | op (k : Nat)
  /-- the key-switching ciphertext -/
  | negS
  /-- an RGSW ciphertext without levels -/
  | empty (baseLog : Nat)
  /-- append one level -/
  | level (C : GCirc) (r0 r1 : RCirc)
  | add (C D : GCirc)
end

/-- The inputs of the server. -/
structure Inputs (n : Nat) where
  cell : Nat → Nat → RLWE n
  data : Nat → RLWE n
  addr : Nat → Nat → RGSW n
  op : Nat → RGSW n
  negS : RGSW n

mutual
/-- The value of a circuit. -/
def RCirc.eval (fft : Fft n) (I : Inputs n) : RCirc → RLWE n
  | .cell r c => I.cell r c
  | .data k => I.data k
  | .zero => 0
  | .const w => ⟨0, Poly.set 0 0 w⟩
  | .add a b => a.eval fft I + b.eval fft I
  | .sub a b => a.eval fft I - b.eval fft I
  | .ext C out d => externalProduct fft (C.eval fft I) (out.eval fft I) (d.eval fft I)
/-- The value of a circuit. -/
def GCirc.eval (fft : Fft n) (I : Inputs n) : GCirc → RGSW n
  | .addr k b => I.addr k b
  | .op k => I.op k
  | .negS => I.negS
  | .empty bl => ⟨bl, []⟩
  | .level C r0 r1 => ⟨(C.eval fft I).baseLog, (C.eval fft I).rows ++ [(r0.eval fft I, r1.eval fft I)]⟩
  | .add C D => RGSW.updateWithAdd (C.eval fft I) (D.eval fft I)
end

/-- The inputs given by a server and the queries it was sent. -/
def inputsOf (S : Server n) (qs : List (ClientQuery n)) : Inputs n where
  cell r c := (cellAt S.data (r, c)).getD 0
  data k := (qs[k]?.map ClientQuery.data).getD 0
  addr k b := (qs[k]?.bind fun q => q.a[b]?).getD ⟨0, []⟩
  op k := (qs[k]?.map ClientQuery.op).getD ⟨0, []⟩
  negS := S.negS

/-- The public shape: parameters, number of columns per row, number of queries and of address ciphertexts in each query. -/
structure HasShape (ctx : Ctx) (lens : List Nat) (addrs : List Nat) (S : Server n) (qs : List (ClientQuery n)) : Prop where
  ctx : S.ctx = ctx
  data : S.data.map List.length = lens
  queries : qs.map (fun q => q.a.length) = addrs

/-- What the server outputs and stores, as circuits: responses and new database. `none` = panic. -/
abbrev Outcome := Option (List (RCirc) × List (List (RCirc)))

/-- The value of an outcome. -/
def Outcome.eval (fft : Fft n) (I : Inputs n) (o : Outcome) : Option (List (RLWE n) × List (List (RLWE n))) :=
  o.map fun x => (x.1.map fun t => t.eval fft I, x.2.map fun row => row.map fun t => t.eval fft I)

end Panacea
