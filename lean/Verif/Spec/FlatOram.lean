import Verif.Spec.Flat
import Verif.Spec.Session
import Verif.Model.FlatOram

/-! # Queries and servers in memory -/

namespace Panacea
variable {n : Nat}

/-- `Q` holds the query `q`. -/
structure StoresQuery (Q : Flat.ClientQuery) (q : ClientQuery n) : Prop where
  a : StoresAll StoresRgsw Q.a q.a
  op : StoresRgsw Q.op q.op
  data : StoresRlwe Q.data q.data

/-- `T` holds the server `S`. -/
structure StoresServer (T : Flat.Server) (S : Server n) : Prop where
  data : StoresAll (StoresAll StoresRlwe) T.data S.data
  negS : StoresRgsw T.negS S.negS
  ctx : T.ctx = S.ctx

/-- `reduce` is a possible behaviour of a parallel reduction whose combining function may panic. -/
def IsReductionM {α : Type} (op : α → α → Option α) (id : α) (reduce : List α → Option α) : Prop :=
  ∀ xs, Flat.ParReduceM op id xs (reduce xs)

/-- The behaviours of the parallel reductions on word vectors during one server call. -/
structure FlatReducer where
  one : List Flat.Words → Option Flat.Words
  vec : List (List Flat.Words) → Option (List Flat.Words)
  gsw : List (List Flat.Ggsw) → Option (List Flat.Ggsw)

/-- `R` is a possible behaviour of rayon's reductions for `cols` columns, with the loops of the code as combining functions. -/
structure FlatReducer.Valid (n : Nat) (ctx : Ctx) (cols : Nat) (R : FlatReducer) : Prop where
  one : IsReductionM (fun a b => some (Flat.updateWithAdd n a b)) (Flat.allocate n) R.one
  vec : IsReductionM (Flat.addVec n) (List.replicate cols (Flat.allocate n)) R.vec
  gsw : IsReductionM Flat.addGswVec (List.replicate cols (Flat.ggswAllocate n ctx.baseLog ctx.levelCount)) R.gsw

namespace Flat

/-- The query for a command; the plaintext to be written is given by its words. -/
def clientQuery (ctx : Ctx) (s : Poly n) (rows cols : Nat) (H : NaiveHash) (c : Cmd n) (g : Gen n) : Option (ClientQuery × Gen n) :=
  match c with
  | .read i => genReadQueryOne ctx s rows cols H i g
  | .write i a => genWriteQueryOne ctx s rows cols H i (out a) g

/-- The queries for a batch command. -/
def clientBatch (ctx : Ctx) (s : Poly n) (rows cols : Nat) (H : NaiveHash) (c : BatchCmd n) (g : Gen n) : Option (List ClientQuery × Gen n) :=
  match c with
  | .read is => genReadQueryBatch ctx s rows cols H is g
  | .write is a => genWriteQueryBatch ctx s rows cols H is (out a) g

/-- Decrypt and decode a response into a fresh buffer. -/
def reveal (ctx : Ctx) (s : Poly n) (y : Words) : Words := decryptDecodeRlwe ctx s (List.replicate n 0) y

/-- A user session on a one-row server in memory (`Panacea.runSession` on word vectors). -/
def runSession (fft : Fft n) (ctx : Ctx) (s : Poly n) (cols : Nat) (H : NaiveHash) :
    List (FlatReducer × Call n) → Server → Gen n → Option (List (List Words) × Server × Gen n)
  | [], S, g => some ([], S, g)
  | (R, .one c) :: sts, S, g =>
    match clientQuery ctx s 1 cols H c g with
    | none => none
    | some (q, g) =>
      match S.processOne R.one fft q with
      | none => none
      | some (y, S) =>
        match runSession fft ctx s cols H sts S g with
        | none => none
        | some (ys, S, g) => some ([reveal ctx s y] :: ys, S, g)
  | (R, .multi cs) :: sts, S, g =>
    match collect (clientQuery ctx s 1 cols H) cs g with
    | none => none
    | some (qs, g) =>
      match S.processMulti R.vec R.gsw fft qs with
      | none => none
      | some (y, S) =>
        match runSession fft ctx s cols H sts S g with
        | none => none
        | some (ys, S, g) => some (y.map (reveal ctx s) :: ys, S, g)

/-- A sequence of batch accesses in memory (`Panacea.runBatches` on word vectors). -/
def runBatches (fft : Fft n) (ctx : Ctx) (s : Poly n) (rows cols : Nat) (H : NaiveHash) :
    List (BatchCmd n) → Server → Gen n → Option (List (List Words) × Server × Gen n)
  | [], S, g => some ([], S, g)
  | c :: cs, S, g =>
    match clientBatch ctx s rows cols H c g with
    | none => none
    | some (qs, g) =>
      match S.processBatch fft qs H with
      | none => none
      | some (ys, S) =>
        match runBatches fft ctx s rows cols H cs S g with
        | none => none
        | some (yss, S, g) => some (ys.map (reveal ctx s) :: yss, S, g)

end Flat
end Panacea
