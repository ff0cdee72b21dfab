import Verif.Model.EncEval
import Verif.Model.NaiveHash
import Verif.Model.Utils

/-!
# ORAM client and server, /repo/src/oram.rs

`none` = panic.  The database is a list of rows of ciphertexts (`Vec<Arc<RwLock<Vec<RLWECiphertext>>>>`); this file gives the
sequential meaning of the server functions.  Locks and thread interleavings are in `Model/Sched.lean`.
Rayon's `reduce` may split and bracket its input in any way: see `ParReduce`.
-/

namespace Panacea
variable {n : Nat}

/-- `enum OP`, /repo/src/oram.rs:38-41. -/
inductive Access | read | write
deriving DecidableEq, Repr

/-- `struct ClientQuery`, /repo/src/oram.rs:44-48. -/
structure ClientQuery (n : Nat) where
  a : List (RGSW n)
  op : RGSW n
  data : RLWE n

/-! ## Rayon's reduce -/

/-- The possible results of rayon's `par_iter.reduce(identity, op)`: a sequential piece is folded from the left starting with
`identity()`; pieces are combined by `op` in order, with any bracketing.  (Used at /repo/src/oram.rs:294, 493, 503.) -/
inductive ParReduce {α : Type} (op : α → α → α) (id : α) : List α → α → Prop
  | fold (xs : List α) : ParReduce op id xs (xs.foldl op id)
  | split {xs ys : List α} {a b : α} : ParReduce op id xs a → ParReduce op id ys b → ParReduce op id (xs ++ ys) (op a b)

/-- The behaviours of the parallel reductions during one server call: sum of responses, of update vectors, of selector vectors  (/repo/src/oram.rs:294-301, 488-520). -/
structure Reducer (n : Nat) where
  one : List (RLWE n) → RLWE n
  vec : List (List (RLWE n)) → List (RLWE n)
  gsw : List (List (RGSW n)) → List (RGSW n)

/-! ## Client -/

/-- `gen_enc_op`, /repo/src/oram.rs:143-153. -/
def genEncOp (ctx : Ctx) (s : Poly n) (op : Access) (g : Gen n) : RGSW n × Gen n :=
  let pt : Scalar := match op with
    | .read => 0
    | .write => 1
  encryptConstantRgsw s ctx.baseLog ctx.levelCount pt g

/-- `Context::gen_binary_pt`, /repo/src/context.rs:161-167: each coefficient is 0 or 1; taken from the plaintext stream modulo 2. -/
def genBinaryPt (g : Gen n) : Poly n × Gen n := (⟨fun k => (g.plains g.pos) k % 2⟩, g.next)

/-- `make_read_query`, /repo/src/oram.rs:161-171: the dummy data is a fresh random binary plaintext. -/
def makeReadQuery (ctx : Ctx) (s : Poly n) (cols i : Nat) (g : Gen n) : Option (ClientQuery n × Gen n) :=
  match bitDecomposedRgsw ctx s i cols g with
  | none => none
  | some (a, g) =>
    let dummy := genBinaryPt g
    let op := genEncOp ctx s .read dummy.2
    match encodeEncryptRlwe ctx s dummy.1 op.2 with
    | none => none
    | some (d, g) => some (⟨a, op.1, d⟩, g)

/-- `make_write_query`, /repo/src/oram.rs:193-201. -/
def makeWriteQuery (ctx : Ctx) (s : Poly n) (cols i : Nat) (alpha : Poly n) (g : Gen n) : Option (ClientQuery n × Gen n) :=
  match bitDecomposedRgsw ctx s i cols g with
  | none => none
  | some (a, g) =>
    let op := genEncOp ctx s .write g
    match encodeEncryptRlwe ctx s alpha op.2 with
    | none => none
    | some (d, g) => some (⟨a, op.1, d⟩, g)

/-- The closure of `gen_read_query_batch` for row `r`, /repo/src/oram.rs:186-189. -/
def readQueryRow (ctx : Ctx) (s : Poly n) (cols : Nat) (mapping : NaiveHash.Mapping) (r : Nat) (g : Gen n) :
    Option (ClientQuery n × Gen n) :=
  match mapping r with
  | some c => makeReadQuery ctx s cols c.1 g
  | none => makeReadQuery ctx s cols 0 g

/-- `gen_read_query_batch`, /repo/src/oram.rs:179-191. -/
def genReadQueryBatch (ctx : Ctx) (s : Poly n) (rows cols : Nat) (H : NaiveHash) (indices : List Nat) (g : Gen n) :
    Option (List (ClientQuery n) × Gen n) :=
  match H.hashToMapping indices cols with
  | none => none
  | some mapping => mapGenM (readQueryRow ctx s cols mapping) (List.range rows) g

/-- The closure of `gen_write_query_batch` for row `r`, /repo/src/oram.rs:223-226. -/
def writeQueryRow (ctx : Ctx) (s : Poly n) (cols : Nat) (alpha : Poly n) (mapping : NaiveHash.Mapping) (r : Nat) (g : Gen n) :
    Option (ClientQuery n × Gen n) :=
  match mapping r with
  | some c => makeWriteQuery ctx s cols c.1 alpha g
  | none => makeReadQuery ctx s cols 0 g

/-- `gen_write_query_batch`, /repo/src/oram.rs:214-228 (one `alpha` for all indices). -/
def genWriteQueryBatch (ctx : Ctx) (s : Poly n) (rows cols : Nat) (H : NaiveHash) (indices : List Nat) (alpha : Poly n)
    (g : Gen n) : Option (List (ClientQuery n) × Gen n) :=
  match H.hashToMapping indices cols with
  | none => none
  | some mapping => mapGenM (writeQueryRow ctx s cols alpha mapping) (List.range rows) g

/-- `.remove(0)`: panics on an empty vector  (/repo/src/oram.rs:174-178, 204-212). -/
def removeFirst {α : Type} (r : Option (List α × Gen n)) : Option (α × Gen n) :=
  match r with
  | some (q :: _, g) => some (q, g)
  | _ => none

/-- `gen_read_query_one`, /repo/src/oram.rs:174-176: the query for *row 0* of the batch query for `[i]`. -/
def genReadQueryOne (ctx : Ctx) (s : Poly n) (rows cols : Nat) (H : NaiveHash) (i : Nat) (g : Gen n) : Option (ClientQuery n × Gen n) :=
  removeFirst (genReadQueryBatch ctx s rows cols H [i] g)

/-- `gen_write_query_one`, /repo/src/oram.rs:204-211. -/
def genWriteQueryOne (ctx : Ctx) (s : Poly n) (rows cols : Nat) (H : NaiveHash) (i : Nat) (alpha : Poly n) (g : Gen n) :
    Option (ClientQuery n × Gen n) :=
  removeFirst (genWriteQueryBatch ctx s rows cols H [i] alpha g)

/-! ## Server -/

/-- `rw`, /repo/src/oram.rs:231-241: cmux of the stored cell `b` (flag 0) and the query data `a` (flag 1). -/
def rw (fft : Fft n) (op : RGSW n) (a b : RLWE n) : RLWE n := cmux fft op 0 b a

/-- The closure `f` of `process_one_mt` / the level loop of `process_one_st`, /repo/src/oram.rs:251-260, 352-360: demultiplex the
trivial encryption of the gadget element of `level`. `none` = underflow of the shift amount, shift by 64 (checked build), panic in
`demux_with` or the length assertion. -/
def demuxLevel (fft : Fft n) (ctx : Ctx) (a : List (RGSW n)) (level : Nat) : Option (List (RLWE n)) :=
  if ctx.baseLog * level = 0 ∨ 64 < ctx.baseLog * level then none
  else match demuxWith fft ⟨0, Poly.set 0 0 (gadget ctx.baseLog level)⟩ a with
  | none => none
  | some tmp => if tmp.length = 2 ^ a.length then some tmp else none

/-- The selector ciphertexts' inputs: demultiplex every level and transpose, with the column assertion,
/repo/src/oram.rs:262-268, 350-364. -/
def decomposedSelectors (fft : Fft n) (ctx : Ctx) (q : ClientQuery n) (cols : Nat) : Option (List (List (RLWE n))) :=
  match mapOption (demuxLevel fft ctx q.a) (List.range' 1 ctx.levelCount) with
  | none => none
  | some demuxRes =>
    match transpose demuxRes with
    | none => none
    | some decomposedL => if decomposedL.length = cols then some decomposedL else none

/-- The closure `g` of `process_one_mt`, /repo/src/oram.rs:270-288, for the inputs of column `j` and the stored cell. -/
def partialResponse (fft : Fft n) (ctx : Ctx) (negS : RGSW n) (x : List (RLWE n) × RLWE n) : Option (RLWE n × RGSW n) :=
  match decomposedRlweToRgsw fft ctx x.1 negS with
  | none => none
  | some l => some (externalProduct fft l 0 x.2, l)

/-- `process_one_mt`, /repo/src/oram.rs:244-302, for a given outcome `reduce` of the parallel reduction. -/
def processOneMt (reduce : List (RLWE n) → RLWE n) (fft : Fft n) (ctx : Ctx) (q : ClientQuery n) (data : List (RLWE n)) (negS : RGSW n) :
    Option (RLWE n × List (RGSW n)) :=
  match decomposedSelectors fft ctx q data.length with
  | none => none
  | some decomposedL =>
    match mapOption (partialResponse fft ctx negS) (decomposedL.zip data) with
    | none => none
    | some rs => some (reduce (rs.map Prod.fst), rs.map Prod.snd)

/-- The column loop of `process_one_st`, /repo/src/oram.rs:366-384: `y` is accumulated by the external products. -/
def responseLoop (fft : Fft n) (ctx : Ctx) (negS : RGSW n) : List (List (RLWE n) × RLWE n) → RLWE n → List (RGSW n) →
    Option (RLWE n × List (RGSW n))
  | [], y, ls => some (y, ls)
  | x :: xs, y, ls =>
    match decomposedRlweToRgsw fft ctx x.1 negS with
    | none => none
    | some l => responseLoop fft ctx negS xs (externalProduct fft l y x.2) (ls ++ [l])

/-- `process_one_st`, /repo/src/oram.rs:343-385. -/
def processOneSt (fft : Fft n) (ctx : Ctx) (q : ClientQuery n) (data : List (RLWE n)) (negS : RGSW n) :
    Option (RLWE n × List (RGSW n)) :=
  match decomposedSelectors fft ctx q data.length with
  | none => none
  | some decomposedL => responseLoop fft ctx negS (decomposedL.zip data) 0 []

/-- One cell of `update_db_mt`/`update_db_st`, /repo/src/oram.rs:314-330, 398-413: `tmp = rw(op, data, cell)`, then
`cmux(l; cell, tmp)`.  The cell is read twice (`cell1` by `rw`, `cell2` by the cmux), under separate lock guards. -/
def updateCell (fft : Fft n) (q : ClientQuery n) (l : RGSW n) (cell1 cell2 : RLWE n) : RLWE n :=
  let tmp := rw fft q.op q.data cell1
  cmux fft l 0 cell2 tmp

/-- `update_db_mt`, `update_db_st`, /repo/src/oram.rs:305-337, 387-415: every column `j` with its selector.
(`update_db_mt` zips the columns with `ls`; `update_db_st` indexes `ls[j]`; `ls` has one entry per column.) -/
def updateDb (fft : Fft n) (q : ClientQuery n) (data : List (RLWE n)) (ls : List (RGSW n)) : List (RLWE n) :=
  List.zipWith (fun cell l => updateCell fft q l cell cell) data ls

/-- `struct Server`, /repo/src/oram.rs:417-421. -/
structure Server (n : Nat) where
  data : List (List (RLWE n))
  negS : RGSW n
  ctx : Ctx

/-- `Server::process_one`, /repo/src/oram.rs:449-456: row 0 only. `none` also for `self.data[0]` on no rows. -/
def Server.processOne (reduce : List (RLWE n) → RLWE n) (fft : Fft n) (S : Server n) (q : ClientQuery n) : Option (RLWE n × Server n) :=
  match S.data with
  | [] => none
  | row :: rest =>
    match processOneMt reduce fft S.ctx q row S.negS with
    | none => none
    | some (y, ls) => some (y, { S with data := updateDb fft q row ls :: rest })

/-- `xs[i].update_with_add(&ys[i])` for all `i`, /repo/src/oram.rs:495-500, 514-519 (equal lengths by construction). -/
def addVec (xs ys : List (RLWE n)) : List (RLWE n) := List.zipWith (· + ·) xs ys
/-- Same for RGSW ciphertexts  (/repo/src/oram.rs:503-510). -/
def addGswVec (xs ys : List (RGSW n)) : List (RGSW n) := List.zipWith RGSW.updateWithAdd xs ys

/-- The closure computing `tmps`, /repo/src/oram.rs:472-491: `l[j] ⊡ rw(op, data, cell j)` for every column. -/
def multiTmps (fft : Fft n) (data : List (RLWE n)) (q : ClientQuery n) (ls : List (RGSW n)) : List (RLWE n) :=
  List.zipWith (fun l cell => externalProduct fft l 0 (rw fft q.op q.data cell)) ls data

/-- `Server::process_multi`, /repo/src/oram.rs:459-539, for given outcomes of the two parallel reductions.  Row 0 only. -/
def Server.processMulti (reduceV : List (List (RLWE n)) → List (RLWE n)) (reduceG : List (List (RGSW n)) → List (RGSW n))
    (fft : Fft n) (S : Server n) (qs : List (ClientQuery n)) : Option (List (RLWE n) × Server n) :=
  match S.data with
  | [] => none
  | row :: rest =>
    match mapOption (fun q => processOneSt fft S.ctx q row S.negS) qs with
    | none => none
    | some rs =>
      let sumedTmps := reduceV (List.zipWith (multiTmps fft row) qs (rs.map Prod.snd))
      let sumedLs := reduceG (rs.map Prod.snd)
      let row' := List.zipWith (fun cell (x : RGSW n × RLWE n) => cmux fft x.1 0 cell x.2) row (sumedLs.zip sumedTmps)
      some (rs.map Prod.fst, { S with data := row' :: rest })

/-- Cell `(r, c)` of the database; `none` = index out of bounds  (/repo/src/oram.rs:283, 317, 644). -/
def cellAt (data : List (List (RLWE n))) (p : Nat × Nat) : Option (RLWE n) :=
  match data[p.1]? with
  | none => none
  | some row => row[p.2]?

/-- Overwrite cell `(r, c)`  (/repo/src/oram.rs:330, 413, 535, 578). -/
def setCell (data : List (List (RLWE n))) (p : Nat × Nat) (v : RLWE n) : List (List (RLWE n)) :=
  data.modify p.1 fun row => row.set p.2 v

/-- `ls[r][c] ⊡ (rw_flags[r] ⊡ v)`, /repo/src/oram.rs:640-652, 665-677. `none` = index out of bounds. -/
def flagProduct (fft : Fft n) (ls : List (List (RGSW n))) (flags : List (RGSW n)) (p : Nat × Nat) (v : RLWE n) : Option (RLWE n) :=
  match flags[p.1]?, cellSel ls p with
  | some fl, some l => some (externalProduct fft l 0 (externalProduct fft fl 0 v))
  | _, _ => none
where
  /-- `ls[r][c]`. -/
  cellSel (ls : List (List (RGSW n))) (p : Nat × Nat) : Option (RGSW n) :=
    match ls[p.1]? with
    | none => none
    | some row => row[p.2]?

/-- `correct_consistency`, /repo/src/oram.rs:626-687, on the values read: `vFirst` is the cell at `positions[0]` (the same value every
time it is read) and `vs` the cells at `positions[1..]`. `none` = index out of bounds. -/
def correctValue (fft : Fft n) (ls : List (List (RGSW n))) (flags : List (RGSW n)) (positions : List (Nat × Nat))
    (vFirst : RLWE n) (vs : List (RLWE n)) : Option (RLWE n) :=
  match mapOption (fun p => flagProduct fft ls flags p vFirst) positions with
  | none => none
  | some [] => none
  | some (v1 :: v1s) =>
    let firstTerm := (v1 :: v1s).foldl (fun acc v => acc - v) vFirst
    match mapOption (fun (x : (Nat × Nat) × RLWE n) => flagProduct fft ls flags x.1 x.2) ((positions.drop 1).zip vs) with
    | none => none
    | some terms => some (terms.foldl (fun acc v => acc + v) v1 + firstTerm)

/-- `correct_consistency`, /repo/src/oram.rs:626-687, with the reads from the database. -/
def correctConsistency (fft : Fft n) (data : List (List (RLWE n))) (ls : List (List (RGSW n))) (flags : List (RGSW n))
    (positions : List (Nat × Nat)) : Option (RLWE n) :=
  match mapOption (cellAt data) positions with
  | none => none
  | some [] => none
  | some (vFirst :: vs) => correctValue fft ls flags positions vFirst vs

/-- The positions of item `i`, /repo/src/oram.rs:572-574. -/
def itemPositions (H : NaiveHash) (cols i : Nat) : Option (List (Nat × Nat)) :=
  mapOption (fun h => H.hashToTuple h i cols) (List.range H.hCount)

/-- One iteration of the consistency loop, /repo/src/oram.rs:571-580. -/
def correctItem (fft : Fft n) (H : NaiveHash) (cols : Nat) (ls : List (List (RGSW n))) (flags : List (RGSW n))
    (data : List (List (RLWE n))) (i : Nat) : Option (List (List (RLWE n))) :=
  match itemPositions H cols i with
  | none => none
  | some positions =>
    match correctConsistency fft data ls flags positions with
    | none => none
    | some v => some (positions.foldl (fun d p => setCell d p v) data)

/-- The consistency loop over all items, sequentially  (/repo/src/oram.rs:571-580). -/
def correctAll (fft : Fft n) (H : NaiveHash) (cols : Nat) (ls : List (List (RGSW n))) (flags : List (RGSW n)) :
    List Nat → List (List (RLWE n)) → Option (List (List (RLWE n)))
  | [], data => some data
  | i :: is, data =>
    match correctItem fft H cols ls flags data i with
    | none => none
    | some data' => correctAll fft H cols ls flags is data'

/-- `Server::cols`, /repo/src/oram.rs:444-446. -/
def Server.cols (S : Server n) : Option Nat := S.data.head?.map List.length

/-- The closure of the first phase of `process_batch`, /repo/src/oram.rs:551-557. -/
def batchRow (fft : Fft n) (S : Server n) (x : ClientQuery n × List (RLWE n)) : Option (RLWE n × List (RGSW n)) :=
  processOneSt fft S.ctx x.1 x.2 S.negS

/-- `Server::process_batch`, /repo/src/oram.rs:542-582.  `none` = the length assertion, a panic in a row, `cols()` of an empty database,
division by `h_count = 0`, or an index out of bounds. -/
def Server.processBatch (fft : Fft n) (S : Server n) (qs : List (ClientQuery n)) (H : NaiveHash) : Option (List (RLWE n) × Server n) :=
  if qs.length = S.data.length then
    match mapOption (batchRow fft S) (qs.zip S.data) with
    | none => none
    | some rs =>
      let ls := rs.map Prod.snd
      let data1 := List.zipWith (fun (x : ClientQuery n × List (RLWE n)) l => updateDb fft x.1 x.2 l) (qs.zip S.data) ls
      let flags := qs.map ClientQuery.op
      match S.cols with
      | none => none
      | some cols =>
        if H.hCount = 0 then none
        else
          match correctAll fft H cols ls flags (List.range (S.data.length * cols / H.hCount)) data1 with
          | none => none
          | some data2 => some (rs.map Prod.fst, { S with data := data2 })
  else none

/-- `Server::new`, /repo/src/oram.rs:425-438 (the context is rebuilt from the same parameters). -/
def Server.new (data : List (List (RLWE n))) (negS : RGSW n) (ctx : Ctx) : Server n := ⟨data, negS, ctx⟩

/-- `Server::decrypt_db`, /repo/src/oram.rs:587-603. -/
def Server.decryptDb (S : Server n) (s : Poly n) : Option (List (List Nat)) :=
  mapOption (fun row => mapOption (fun v =>
    ptToLossyU64 ((List.finRange n).map fun k => (decryptDecodeRlwe S.ctx s v) k)) row) S.data

/-! ## Dummy database -/

/-- `UNIQUE_LIMIT`, /repo/src/oram.rs:98. -/
def uniqueLimit : Nat := 128

/-- `Context::gen_pt`, /repo/src/context.rs:171-179: each coefficient below the plaintext modulus; taken from the plaintext stream
modulo the plaintext modulus. -/
def genPt (ctx : Ctx) (g : Gen n) : Poly n × Gen n := (⟨fun k => (g.plains g.pos) k % ctx.codec.ptModulus⟩, g.next)

/-- First loop of `gen_dummy_database`, /repo/src/oram.rs:105-116. -/
def dummyUnique (ctx : Ctx) (s : Poly n) (rows cols : Nat) (H : NaiveHash) : List Nat → List (List (RLWE n)) → Gen n →
    Option (List (Poly n) × List (List (RLWE n)) × Gen n)
  | [], db, g => some ([], db, g)
  | i :: is, db, g =>
    let pt := genPt ctx g
    match H.hashToTuple 0 i cols with
    | none => none
    | some p =>
      if p.1 < rows ∧ p.2 < cols then
        match encodeEncryptRlwe ctx s pt.1 pt.2 with
        | none => none
        | some (ct, g) =>
          match dummyUnique ctx s rows cols H is (setCell db p ct) g with
          | none => none
          | some (pts, db, g) => some (pt.1 :: pts, db, g)
      else none

/-- Second loop of `gen_dummy_database`, /repo/src/oram.rs:117-127: items beyond the unique ones copy item `i % 128`. -/
def dummyRest (cols : Nat) (H : NaiveHash) (pts : List (Poly n)) : List Nat → List (List (RLWE n)) →
    Option (List (Poly n) × List (List (RLWE n)))
  | [], db => some ([], db)
  | i :: is, db =>
    match pts[i % uniqueLimit]?, H.hashToTuple 0 (i % uniqueLimit) cols, H.hashToTuple 0 i cols with
    | some item, some orig, some p =>
      match cellAt db orig with
      | none => none
      | some ct =>
        match cellAt db p with
        | none => none
        | some _ =>
          match dummyRest cols H pts is (setCell db p ct) with
          | none => none
          | some (rest, db) => some (item :: rest, db)
    | _, _, _ => none

/-- One assignment of the third loop, /repo/src/oram.rs:133-136. -/
def dummyCopy (rows cols : Nat) (H : NaiveHash) (i : Nat) : List Nat → List (List (RLWE n)) → Option (List (List (RLWE n)))
  | [], db => some db
  | h :: hs, db =>
    match H.hashToTuple 0 i cols, H.hashToTuple h i cols with
    | some first, some p =>
      if p.1 < rows ∧ p.2 < cols then
        match cellAt db first with
        | none => none
        | some ct => dummyCopy rows cols H i hs (setCell db p ct)
      else none
    | _, _ => none

/-- Third loop of `gen_dummy_database`, /repo/src/oram.rs:130-138. -/
def dummyCopies (rows cols : Nat) (H : NaiveHash) : List Nat → List (List (RLWE n)) → Option (List (List (RLWE n)))
  | [], db => some db
  | i :: is, db =>
    match dummyCopy rows cols H i (List.range' 1 (H.hCount - 1)) db with
    | none => none
    | some db => dummyCopies rows cols H is db

/-- `gen_dummy_database`, /repo/src/oram.rs:87-141; `none` also for division by `h_count = 0`. -/
def genDummyDatabase (ctx : Ctx) (s : Poly n) (rows cols : Nat) (H : NaiveHash) (g : Gen n) :
    Option (List (Poly n) × List (List (RLWE n)) × Gen n) :=
  if H.hCount = 0 then none
  else
    let itemCount := rows * cols / H.hCount
    let db : List (List (RLWE n)) := List.replicate rows (List.replicate cols 0)
    let uniqueCount := if itemCount < uniqueLimit then itemCount else uniqueLimit
    match dummyUnique ctx s rows cols H (List.range uniqueCount) db g with
    | none => none
    | some (pts, db, g) =>
      match dummyRest cols H pts (List.range' uniqueCount (itemCount - uniqueCount)) db with
      | none => none
      | some (rest, db) =>
        match dummyCopies rows cols H (List.range itemCount) db with
        | none => none
        | some db => some (pts ++ rest, db, g)

/-- `setup_random_oram`, /repo/src/oram.rs:607-622 (key `s` given). `none` = the size assertion or a panic below. -/
def setupRandomOram (ctx : Ctx) (s : Poly n) (rows cols : Nat) (H : NaiveHash) (g : Gen n) :
    Option (Server n × List (Poly n) × Gen n) :=
  if rows * cols = H.inputDomain * H.hCount then
    match negGsw ctx s g with
    | none => none
    | some (negS, g) =>
      match genDummyDatabase ctx s rows cols H g with
      | none => none
      | some (pts, db, g) => some (Server.new db negS ctx, pts, g)
  else none

end Panacea
