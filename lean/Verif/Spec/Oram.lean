import Verif.Spec.Demux
import Verif.Spec.Keyswitch
import Verif.Model.Oram

/-! # Specification vocabulary for the ORAM: what queries, keys and databases mean, and noise bounds -/

namespace Panacea
variable {n : Nat}

/-- `q` is a well-formed query for column `i` of `2^D` columns: a WRITE of the message `m` if `w`, a READ (with dummy data `m`)
otherwise; all ciphertext noises at most `B`. -/
structure IsQuery (ctx : Ctx) (s : Poly n) (q : ClientQuery n) (D i : Nat) (w : Bool) (m : Poly n) (B : Nat) : Prop where
  addr : EncIndex s q.a D i ctx.baseLog ctx.levelCount B
  op : EncBit s q.op w ctx.baseLog ctx.levelCount B
  data : Enc s q.data m B

/-- Usable server parameters and `neg_s` ciphertext. -/
structure ServerKeys (ctx : Ctx) (s : Poly n) (negS : RGSW n) (B : Nat) : Prop where
  bl : 1 ≤ ctx.baseLog
  lv : 1 ≤ ctx.levelCount
  lt : ctx.baseLog * ctx.levelCount < 64
  negWF : negS.WF
  negBl : negS.baseLog = ctx.negsBaseLog
  negLv : negS.levelCount = ctx.negsLevelCount
  neg : EncG s negS (-s) B

/-- `row` encrypts the array `v`, every cell with noise at most `e`. -/
def EncRow (s : Poly n) (row : List (RLWE n)) (v : Nat → Poly n) (e : Nat) : Prop :=
  ∀ j c, row[j]? = some c → Enc s c (v j) e

/-- Noise of one external product by a fresh encrypted bit. -/
def deltaOp (ctx : Ctx) (n B phi : Nat) : Nat := extNoise n ctx.baseLog ctx.levelCount B phi 1

/-- Row noise of a column selector computed from `D` address bits. -/
def selNoise (ctx : Ctx) (n B phi D : Nat) : Nat :=
  expandNoise n ctx.negsBaseLog ctx.negsLevelCount B phi (D * deltaOp ctx n B phi)

/-- Noise of one external product by a column selector. -/
def deltaSel (ctx : Ctx) (n B phi D : Nat) : Nat := extNoise n ctx.baseLog ctx.levelCount (selNoise ctx n B phi D) phi 1

/-- `reduce` is a possible behaviour of rayon's `reduce(|| id, op)`. -/
def IsReduction {α : Type} (op : α → α → α) (id : α) (reduce : List α → α) : Prop := ∀ xs, ParReduce op id xs (reduce xs)

end Panacea

namespace Panacea
variable {n : Nat}

/-- A plaintext polynomial the codec for modulus `t` accepts. -/
def Spec.Encodable (t : Scalar) (p : Poly n) : Prop := ∀ k, (p k).toNat < t.toNat

/-- User-level commands. -/
inductive Cmd (n : Nat)
  | read (i : Nat)
  | write (i : Nat) (alpha : Poly n)

/-- The item a command addresses. -/
def Cmd.index : Cmd n → Nat
  | .read i => i
  | .write i _ => i

/-- A command is valid: existing item, encodable data. -/
def Cmd.Valid (N : Nat) (t : Scalar) : Cmd n → Prop
  | .read i => i < N
  | .write i a => i < N ∧ Spec.Encodable t a

/-- Plain array semantics: the content after a command. -/
def Spec.apply (v : Nat → Poly n) : Cmd n → (Nat → Poly n)
  | .read _ => v
  | .write i a => Function.update v i a

/-- Plain array semantics of a history: every command returns the content of its item before the command. -/
def Spec.run (v : Nat → Poly n) : List (Cmd n) → List (Poly n)
  | [] => []
  | c :: cs => v c.index :: Spec.run (Spec.apply v c) cs

/-- The query the client generates for a command (`gen_read_query_one` / `gen_write_query_one`). -/
def clientQuery (ctx : Ctx) (s : Poly n) (rows cols : Nat) (H : NaiveHash) (c : Cmd n) (g : Gen n) : Option (ClientQuery n × Gen n) :=
  match c with
  | .read i => genReadQueryOne ctx s rows cols H i g
  | .write i a => genWriteQueryOne ctx s rows cols H i a g

/-- A user program as in the tests (/repo/src/oram.rs:702-731): for every command generate the query, let the server process it,
decrypt and decode the response. `reduces` are the behaviours of the parallel reduction, one per call. -/
def runHistory (fft : Fft n) (ctx : Ctx) (s : Poly n) (rows cols : Nat) (H : NaiveHash) :
    List ((List (RLWE n) → RLWE n) × Cmd n) → Server n → Gen n → Option (List (Poly n) × Server n × Gen n)
  | [], S, g => some ([], S, g)
  | c :: cs, S, g =>
    match clientQuery ctx s rows cols H c.2 g with
    | none => none
    | some (q, g) =>
      match S.processOne c.1 fft q with
      | none => none
      | some (y, S) =>
        match runHistory fft ctx s rows cols H cs S g with
        | none => none
        | some (ys, S, g) => some (decryptDecodeRlwe ctx s y :: ys, S, g)

end Panacea

/-! ## Several queries at once -/

namespace Panacea
variable {n : Nat}

/-- What a query asks for: column `i`; a WRITE of `m` if `w`, a READ otherwise. -/
structure QuerySpec (n : Nat) where
  i : Nat
  w : Bool
  m : Poly n

/-- Plain semantics of one query on an array of messages. -/
def QuerySpec.effect (v : Nat → Poly n) (sp : QuerySpec n) : Nat → Poly n := if sp.w then Function.update v sp.i sp.m else v

/-- How many of the queries address column `j`. -/
def Spec.hits (specs : List (QuerySpec n)) (j : Nat) : Nat := specs.countP fun sp => sp.i = j

/-- Sum over the queries for column `j` of the value each of them wants to store there. -/
def Spec.targets (specs : List (QuerySpec n)) (v : Nat → Poly n) (j : Nat) : Poly n :=
  ((specs.filter fun sp => sp.i = j).map fun sp => if sp.w then sp.m else v j).sum

/-- Noise of a cell hit by `k` of `N` queries of `process_multi`. -/
def multiNoise (ctx : Ctx) (n B phi D N e k : Nat) : Nat :=
  (if k = 0 then e else (k - 1) * e + k * (k * (max e B + deltaOp ctx n B phi) + N * deltaSel ctx n B phi D))
    + extNoise n ctx.baseLog ctx.levelCount (N * selNoise ctx n B phi D) phi k

end Panacea

/-! ## Batched queries: one query per row -/

namespace Panacea
variable {n : Nat}

/-- Every cell of the database encrypts `U`, with noise at most `e`. -/
def EncDb (s : Poly n) (db : List (List (RLWE n))) (U : Nat × Nat → Poly n) (e : Nat) : Prop :=
  ∀ p c, cellAt db p = some c → Enc s c (U p) e

/-- The data written to cell `p` by the batch of queries `specs` (one per row), if any. -/
def Spec.writes (specs : List (QuerySpec n)) (p : Nat × Nat) : Option (Poly n) :=
  match specs[p.1]? with
  | some sp => if sp.i = p.2 ∧ sp.w then some sp.m else none
  | none => none

/-- The content of item `i` after the batch: the data written to (the first written) one of its `hc` copies, else the old content. -/
def Spec.batch (specs : List (QuerySpec n)) (hc : Nat) (T : Nat → Nat → Nat × Nat) (M : Nat → Poly n) (i : Nat) : Poly n :=
  ((List.range hc).findSome? fun h => Spec.writes specs (T h i)).getD (M i)

/-- Noise of every cell after one batch. -/
def batchNoise (ctx : Ctx) (n B phi D hc e : Nat) : Nat :=
  max e B + (2 * hc - 1) * (deltaOp ctx n B phi + deltaSel ctx n B phi D)

end Panacea

/-! ## Batched histories -/

namespace Panacea
variable {n : Nat}

/-- User-level batch commands: read several items, or write the same data to several items. -/
inductive BatchCmd (n : Nat)
  | read (is : List Nat)
  | write (is : List Nat) (alpha : Poly n)

/-- The requested items. -/
def BatchCmd.indices : BatchCmd n → List Nat
  | .read is => is
  | .write is _ => is

/-- A batch command is valid: existing, pairwise distinct items; encodable data. -/
def BatchCmd.Valid (N : Nat) (t : Scalar) : BatchCmd n → Prop
  | .read is => is.Nodup ∧ ∀ i ∈ is, i < N
  | .write is a => (is.Nodup ∧ ∀ i ∈ is, i < N) ∧ Spec.Encodable t a

/-- Item `i` of the request `is` is served: the client's mapping assigns it a row (C11, C12 say when). -/
def Served (H : NaiveHash) (cols : Nat) (is : List Nat) (i : Nat) : Prop :=
  ∃ m r c, H.hashToMapping is cols = some m ∧ m r = some (c, i)

open Classical in
/-- Plain array semantics of a batch command: served items get the new data. -/
noncomputable def Spec.applyBatch (H : NaiveHash) (cols : Nat) (v : Nat → Poly n) : BatchCmd n → (Nat → Poly n)
  | .read _ => v
  | .write is a => fun i => if Served H cols is i then a else v i

/-- The decoded responses of a history of batch commands agree with the plain array semantics: response `r` of a command is the current
content of the item its mapping assigns to row `r`. -/
def Spec.batchOk (H : NaiveHash) (cols : Nat) : (Nat → Poly n) → List (BatchCmd n) → List (List (Poly n)) → Prop
  | _, [], [] => True
  | v, c :: cs, y :: ys =>
    (∀ m r col i, H.hashToMapping c.indices cols = some m → m r = some (col, i) → y[r]? = some (v i)) ∧
    Spec.batchOk H cols (Spec.applyBatch H cols v c) cs ys
  | _, _, _ => False

/-- The client's queries for a batch command. -/
def clientBatch (ctx : Ctx) (s : Poly n) (rows cols : Nat) (H : NaiveHash) (c : BatchCmd n) (g : Gen n) :
    Option (List (ClientQuery n) × Gen n) :=
  match c with
  | .read is => genReadQueryBatch ctx s rows cols H is g
  | .write is a => genWriteQueryBatch ctx s rows cols H is a g

/-- A user program as in the batch tests (/repo/src/oram.rs:836-899): generate the batch query, let the server process it, decrypt and decode
all responses. -/
def runBatches (fft : Fft n) (ctx : Ctx) (s : Poly n) (rows cols : Nat) (H : NaiveHash) :
    List (BatchCmd n) → Server n → Gen n → Option (List (List (Poly n)) × Server n × Gen n)
  | [], S, g => some ([], S, g)
  | c :: cs, S, g =>
    match clientBatch ctx s rows cols H c g with
    | none => none
    | some (qs, g) =>
      match S.processBatch fft qs H with
      | none => none
      | some (ys, S) =>
        match runBatches fft ctx s rows cols H cs S g with
        | none => none
        | some (yss, S, g) => some (ys.map (decryptDecodeRlwe ctx s) :: yss, S, g)

end Panacea
