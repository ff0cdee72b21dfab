import Verif.Model.FlatTree
import Verif.Model.Oram

/-!
# ORAM client and server on word vectors, /repo/src/oram.rs

`Model/Oram` gives these functions on structured ciphertexts, with rows of cells zipped together.  Here they are written the way the code
runs: on the word vectors of `Model/Flat`, with index loops (`data[j]`, `ls[j]`, `xs[i]`, `positions[0]`: an index out of bounds is a panic,
`none`), preallocated result vectors that are overwritten, cells written in place, and reductions whose combining function may panic.
Parallel iterations are given in index order here (the order does not matter: `Model/Sched`, `Model/ParMap`).
-/

namespace Panacea
namespace Flat
variable {n : Nat}

/-- `struct ClientQuery`, /repo/src/oram.rs:44-48. -/
structure ClientQuery where
  a : List Ggsw
  op : Ggsw
  data : Words

/-- `struct Server`, /repo/src/oram.rs:417-421. -/
structure Server where
  data : List (List Words)
  negS : Ggsw
  ctx : Ctx

/-- The possible results of rayon's `reduce` when the combining function may panic (`none`): pieces are folded from the left, starting with the
identity, and combined in order with any bracketing.  (Used at /repo/src/oram.rs:294, 493, 503.) -/
inductive ParReduceM {α : Type} (op : α → α → Option α) (id : α) : List α → Option α → Prop
  | fold (xs : List α) : ParReduceM op id xs (xs.foldlM op id)
  | split {xs ys : List α} {a b : Option α} : ParReduceM op id xs a → ParReduceM op id ys b →
      ParReduceM op id (xs ++ ys) (a.bind fun x => b.bind fun y => op x y)

/-! ## Server -/

/-- `rw`, /repo/src/oram.rs:231-241. -/
def rw (fft : Fft n) (op : Ggsw) (a b : Words) : Words := cmux fft op (allocate n) b a

/-- The closure `f` of `process_one_mt` and the body of the level loop of `process_one_st`, /repo/src/oram.rs:251-260, 352-360. -/
def demuxLevel (fft : Fft n) (ctx : Ctx) (a : List Ggsw) (level : Nat) : Option (List Words) :=
  match gadgetWord ctx.baseLog level with
  | none => none
  | some w =>
    let c := modBody n (fun b => b.set 0 w) (allocate n)
    match demuxWith fft c a with
    | none => none
    | some tmp => if tmp.length = 2 ^ a.length then some tmp else none

/-- The closure `g` of `process_one_mt`, /repo/src/oram.rs:270-288. -/
def mtColumn (fft : Fft n) (ctx : Ctx) (negS : Ggsw) (decomposedL : List (List Words)) (data : List Words) (j : Nat) : Option (Words × Ggsw) :=
  match decomposedL[j]? with
  | none => none
  | some d =>
    match decomposedRlweToRgsw fft ctx d negS with
    | none => none
    | some l =>
      match data[j]? with
      | none => none
      | some cell => some (externalProduct fft l (allocate n) cell, l)

/-- `process_one_mt`, /repo/src/oram.rs:244-302, for a given outcome `reduce` of the parallel reduction. -/
def processOneMt (reduce : List Words → Option Words) (fft : Fft n) (ctx : Ctx) (q : ClientQuery) (data : List Words) (negS : Ggsw) :
    Option (Words × List Ggsw) :=
  match mapOption (demuxLevel fft ctx q.a) (List.range' 1 ctx.levelCount) with
  | none => none
  | some demuxRes =>
    match transpose demuxRes with
    | none => none
    | some decomposedL =>
      if decomposedL.length = data.length then
        match mapOption (mtColumn fft ctx negS decomposedL data) (List.range data.length) with
        | none => none
        | some rs =>
          match reduce (rs.map Prod.fst) with
          | none => none
          | some y => some (y, rs.map Prod.snd)
      else none

/-- One iteration of the level loop of `process_one_st`, /repo/src/oram.rs:352-360: the result is pushed. -/
def stLevel (fft : Fft n) (ctx : Ctx) (a : List Ggsw) (level : Nat) (demuxRes : List (List Words)) : Option (List (List Words)) :=
  match demuxLevel fft ctx a level with
  | none => none
  | some tmp => some (demuxRes ++ [tmp])

/-- One iteration of the column loop of `process_one_st`, /repo/src/oram.rs:369-383: `ls[j]` is assigned and read back, `y` is accumulated. -/
def stColumn (fft : Fft n) (ctx : Ctx) (negS : Ggsw) (decomposedL : List (List Words)) (data : List Words) (j : Nat) (st : Words × List Ggsw) :
    Option (Words × List Ggsw) :=
  match decomposedL[j]? with
  | none => none
  | some d =>
    match decomposedRlweToRgsw fft ctx d negS with
    | none => none
    | some l =>
      if j < st.2.length then
        let ls := st.2.set j l
        match ls[j]? with
        | none => none
        | some l =>
          match data[j]? with
          | none => none
          | some cell => some (externalProduct fft l st.1 cell, ls)
      else none

/-- `process_one_st`, /repo/src/oram.rs:343-385: `ls` is a vector of `cols` allocated ciphertexts. -/
def processOneSt (fft : Fft n) (ctx : Ctx) (q : ClientQuery) (data : List Words) (negS : Ggsw) : Option (Words × List Ggsw) :=
  match loop (stLevel fft ctx q.a) (List.range' 1 ctx.levelCount) [] with
  | none => none
  | some demuxRes =>
    let cols := data.length
    match transpose demuxRes with
    | none => none
    | some decomposedL =>
      if decomposedL.length = cols then
        let ls := List.replicate cols (ggswAllocate n ctx.baseLog ctx.levelCount)
        loop (stColumn fft ctx negS decomposedL data) (List.range cols) (allocate n, ls)
      else none

/-- The body of the loops of `update_db_mt` and `update_db_st`, /repo/src/oram.rs:312-331, 396-414, with selector `l`: `data[j]` is read twice
and filled in place. -/
def updateColumn (fft : Fft n) (q : ClientQuery) (l : Ggsw) (j : Nat) (data : List Words) : Option (List Words) :=
  match data[j]? with
  | none => none
  | some cell =>
    let tmp := rw fft q.op q.data cell
    let newData := cmux fft l (allocate n) cell tmp
    some (data.set j (fillWithCopy cell newData))

/-- `update_db_mt`, /repo/src/oram.rs:305-337: the columns are zipped with the selectors. -/
def updateDbMt (fft : Fft n) (q : ClientQuery) (data : List Words) (ls : List Ggsw) : Option (List Words) :=
  loop (fun (x : Nat × Ggsw) data => updateColumn fft q x.2 x.1 data) ((List.range data.length).zip ls) data

/-- `update_db_st`, /repo/src/oram.rs:387-415: the selectors are indexed. -/
def updateDbSt (fft : Fft n) (q : ClientQuery) (data : List Words) (ls : List Ggsw) : Option (List Words) :=
  loop (fun j data =>
    match ls[j]? with
    | none => none
    | some l => updateColumn fft q l j data) (List.range data.length) data

/-- `Server::process_one`, /repo/src/oram.rs:449-456. -/
def Server.processOne (reduce : List Words → Option Words) (fft : Fft n) (S : Server) (q : ClientQuery) : Option (Words × Server) :=
  match S.data[0]? with
  | none => none
  | some row =>
    match processOneMt reduce fft S.ctx q row S.negS with
    | none => none
    | some (y, ls) =>
      match updateDbMt fft q row ls with
      | none => none
      | some row' => some (y, { S with data := S.data.set 0 row' })

/-- `for i in 0..xs.len() { xs[i].update_with_add(&ys[i]) }`, /repo/src/oram.rs:495-500. -/
def addVec (n : Nat) (xs ys : List Words) : Option (List Words) :=
  loop (fun i xs =>
    match xs[i]? with
    | none => none
    | some x =>
      match ys[i]? with
      | none => none
      | some y => some (xs.set i (updateWithAdd n x y))) (List.range xs.length) xs

/-- The same loop for RGSW ciphertexts, /repo/src/oram.rs:514-519. -/
def addGswVec (xs ys : List Ggsw) : Option (List Ggsw) :=
  loop (fun i xs =>
    match xs[i]? with
    | none => none
    | some x =>
      match ys[i]? with
      | none => none
      | some y => some (xs.set i (ggswUpdateWithAdd x y))) (List.range xs.length) xs

/-- The closure computing one element of `tmps`, /repo/src/oram.rs:472-491: `out[j]` is the output buffer of the external product. -/
def multiTmps (fft : Fft n) (cols : Nat) (data : List Words) (x : ClientQuery × List Ggsw) : Option (List Words) :=
  loop (fun j (out : List Words) =>
    match data[j]? with
    | none => none
    | some cell =>
      let tmp := rw fft x.1.op x.1.data cell
      match x.2[j]? with
      | none => none
      | some l =>
        match out[j]? with
        | none => none
        | some o => some (out.set j (externalProduct fft l o tmp))) (List.range cols) (List.replicate cols (allocate n))

/-- One iteration of the last loop of `process_multi`, /repo/src/oram.rs:526-536. -/
def multiColumn (fft : Fft n) (sumedLs : List Ggsw) (sumedTmps : List Words) (j : Nat) (data : List Words) : Option (List Words) :=
  match sumedLs[j]? with
  | none => none
  | some l =>
    match data[j]? with
    | none => none
    | some cell =>
      match sumedTmps[j]? with
      | none => none
      | some t =>
        let newData := cmux fft l (allocate n) cell t
        some (data.set j (fillWithCopy cell newData))

/-- `Server::process_multi`, /repo/src/oram.rs:459-539, for given outcomes of the two parallel reductions. -/
def Server.processMulti (reduceV : List (List Words) → Option (List Words)) (reduceG : List (List Ggsw) → Option (List Ggsw)) (fft : Fft n)
    (S : Server) (qs : List ClientQuery) : Option (List Words × Server) :=
  match S.data[0]? with
  | none => none
  | some row =>
    let cols := row.length
    match mapOption (fun q => processOneSt fft S.ctx q row S.negS) qs with
    | none => none
    | some rs =>
      let ys := rs.map Prod.fst
      let ls := rs.map Prod.snd
      match mapOption (multiTmps fft cols row) (qs.zip ls) with
      | none => none
      | some tmps =>
        match reduceV tmps with
        | none => none
        | some sumedTmps =>
          match reduceG ls with
          | none => none
          | some sumedLs =>
            match loop (multiColumn fft sumedLs sumedTmps) (List.range cols) row with
            | none => none
            | some row' => some (ys, { S with data := S.data.set 0 row' })

/-- `x[r][c]`; `none` = index out of bounds  (/repo/src/oram.rs:87-140, 542-585). -/
def at2 {α : Type} (x : List (List α)) (r c : Nat) : Option α :=
  match x[r]? with
  | none => none
  | some row => row[c]?

/-- `x[r][c] = v`; `none` = index out of bounds  (/repo/src/oram.rs:87-140, 542-585). -/
def put2 {α : Type} (x : List (List α)) (r c : Nat) (v : α) : Option (List (List α)) :=
  match x[r]? with
  | none => none
  | some row => if c < row.length then some (x.set r (row.set c v)) else none

/-- The body of the closures of `correct_consistency`, /repo/src/oram.rs:640-652, 665-677: `(r, c)` selects flag and selector, `(r', c')` the
cell. -/
def flagProduct (fft : Fft n) (data : List (List Words)) (ls : List (List Ggsw)) (flags : List Ggsw) (r c r' c' : Nat) : Option Words :=
  match flags[r]? with
  | none => none
  | some flag =>
    match at2 data r' c' with
    | none => none
    | some cell =>
      let tmp := externalProduct fft flag (allocate n) cell
      match at2 ls r c with
      | none => none
      | some l => some (externalProduct fft l (allocate n) tmp)

/-- One step of the second sum of `correct_consistency`, /repo/src/oram.rs:662-682. -/
def secondStep (fft : Fft n) (data : List (List Words)) (ls : List (List Ggsw)) (flags : List Ggsw) (p : Nat × Nat) (acc : Words) : Option Words :=
  match flagProduct fft data ls flags p.1 p.2 p.1 p.2 with
  | none => none
  | some term => some (updateWithAdd n acc term)

/-- `correct_consistency`, /repo/src/oram.rs:626-687. -/
def correctConsistency (fft : Fft n) (positions : List (Nat × Nat)) (data : List (List Words)) (ls : List (List Ggsw)) (flags : List Ggsw) :
    Option Words :=
  match positions[0]? with
  | none => none
  | some (firstR, firstC) =>
    match mapOption (fun (p : Nat × Nat) => flagProduct fft data ls flags p.1 p.2 firstR firstC) positions with
    | none => none
    | some v1s =>
      match at2 data firstR firstC with
      | none => none
      | some first =>
        let firstTerm := v1s.foldl (updateWithSub n) first
        match v1s[0]? with
        | none => none
        | some v =>
          match loop (secondStep fft data ls flags) (positions.drop 1) v with
          | none => none
          | some secondTerm => some (updateWithAdd n secondTerm firstTerm)

/-- `Server::cols`, /repo/src/oram.rs:444-446. -/
def colsOf (data : List (List Words)) : Option Nat :=
  match data[0]? with
  | none => none
  | some row => some row.length

/-- One iteration of the consistency loop of `process_batch`, /repo/src/oram.rs:571-580; `self.cols()` is evaluated for every hash. -/
def correctItem (fft : Fft n) (H : NaiveHash) (ls : List (List Ggsw)) (flags : List Ggsw) (i : Nat) (data : List (List Words)) :
    Option (List (List Words)) :=
  match mapOption (fun h =>
      match colsOf data with
      | none => none
      | some cols => H.hashToTuple h i cols) (List.range H.hCount) with
  | none => none
  | some positions =>
    match correctConsistency fft positions data ls flags with
    | none => none
    | some newData => loop (fun (p : Nat × Nat) data => put2 data p.1 p.2 newData) positions data

/-- The first phase of `process_batch` for one query and its row number, /repo/src/oram.rs:554-556. -/
def batchRow (fft : Fft n) (S : Server) (x : ClientQuery × Nat) : Option (Words × List Ggsw) :=
  match S.data[x.2]? with
  | none => none
  | some row => processOneSt fft S.ctx x.1 row S.negS

/-- The update of one row in `process_batch`, /repo/src/oram.rs:561-566. -/
def batchUpdate (fft : Fft n) (x : (List Ggsw × ClientQuery) × Nat) (data : List (List Words)) : Option (List (List Words)) :=
  match data[x.2]? with
  | none => none
  | some row =>
    match updateDbSt fft x.1.2 row x.1.1 with
    | none => none
    | some row' => some (data.set x.2 row')

/-- `Server::process_batch`, /repo/src/oram.rs:542-582. -/
def Server.processBatch (fft : Fft n) (S : Server) (qs : List ClientQuery) (H : NaiveHash) : Option (List Words × Server) :=
  if qs.length = S.data.length then
    match mapOption (batchRow fft S) (qs.zip (List.range S.data.length)) with
    | none => none
    | some rs =>
      let ys := rs.map Prod.fst
      let ls := rs.map Prod.snd
      match loop (batchUpdate fft) ((ls.zip qs).zip (List.range S.data.length)) S.data with
      | none => none
      | some data1 =>
        let flags := qs.map ClientQuery.op
        match colsOf data1 with
        | none => none
        | some cols =>
          if H.hCount = 0 then none
          else
            match loop (correctItem fft H ls flags) (List.range (data1.length * cols / H.hCount)) data1 with
            | none => none
            | some data2 => some (ys, { S with data := data2 })
  else none

/-- `Server::decrypt_db`, /repo/src/oram.rs:587-603: a fresh zero buffer for every cell. -/
def Server.decryptDb (S : Server) (s : Poly n) : Option (List (List Nat)) :=
  mapOption (fun row => mapOption (fun v => ptToLossyU64 (decryptDecodeRlwe S.ctx s (List.replicate n 0) v)) row) S.data

/-! ## Client -/

/-- `encode_encrypt_rlwe` into `ct`, /repo/src/rlwe.rs:337-352: a copy of the plaintext is encoded word by word, then encrypted. -/
def encodeEncryptRlwe (ctx : Ctx) (s : Poly n) (ct pt : Words) (g : Gen n) : Option (Words × Gen n) :=
  match mapOption ctx.codec.encode pt with
  | none => none
  | some enc =>
    let r := encryptRlwe s enc g
    some (fillWithCopy ct r.1, r.2)

/-- `gen_enc_op`, /repo/src/oram.rs:143-153. -/
def genEncOp (ctx : Ctx) (s : Poly n) (op : Access) (g : Gen n) : Ggsw × Gen n :=
  let enc := ggswAllocate n ctx.baseLog ctx.levelCount
  encryptConstantRgsw s enc (match op with | .read => 0 | .write => 1) g

/-- `enc_data_rlwe`, /repo/src/oram.rs:155-159. -/
def encDataRlwe (ctx : Ctx) (s : Poly n) (alpha : Words) (g : Gen n) : Option (Words × Gen n) := encodeEncryptRlwe ctx s (allocate n) alpha g

/-- `Context::gen_binary_pt`, /repo/src/context.rs:161-167 (the generator is that of the other model). -/
def genBinaryPt (g : Gen n) : Words × Gen n :=
  let r := Panacea.genBinaryPt g
  (out r.1, r.2)

/-- `Context::gen_pt`, /repo/src/context.rs:171-179. -/
def genPt (ctx : Ctx) (g : Gen n) : Words × Gen n :=
  let r := Panacea.genPt ctx g
  (out r.1, r.2)

/-- `make_read_query`, /repo/src/oram.rs:161-171. -/
def makeReadQuery (ctx : Ctx) (s : Poly n) (cols i : Nat) (g : Gen n) : Option (ClientQuery × Gen n) :=
  match bitDecomposedRgsw ctx s i cols g with
  | none => none
  | some (a, g) =>
    let dummy := genBinaryPt g
    let op := genEncOp ctx s .read dummy.2
    match encDataRlwe ctx s dummy.1 op.2 with
    | none => none
    | some (d, g) => some (⟨a, op.1, d⟩, g)

/-- `make_write_query`, /repo/src/oram.rs:193-201. -/
def makeWriteQuery (ctx : Ctx) (s : Poly n) (cols i : Nat) (alpha : Words) (g : Gen n) : Option (ClientQuery × Gen n) :=
  match bitDecomposedRgsw ctx s i cols g with
  | none => none
  | some (a, g) =>
    let op := genEncOp ctx s .write g
    match encDataRlwe ctx s alpha op.2 with
    | none => none
    | some (d, g) => some (⟨a, op.1, d⟩, g)

/-- `gen_read_query_batch`, /repo/src/oram.rs:179-191. -/
def genReadQueryBatch (ctx : Ctx) (s : Poly n) (rows cols : Nat) (H : NaiveHash) (indices : List Nat) (g : Gen n) :
    Option (List ClientQuery × Gen n) :=
  match H.hashToMapping indices cols with
  | none => none
  | some mapping =>
    collect (fun r g =>
      match mapping r with
      | some c => makeReadQuery ctx s cols c.1 g
      | none => makeReadQuery ctx s cols 0 g) (List.range rows) g

/-- `gen_write_query_batch`, /repo/src/oram.rs:214-228. -/
def genWriteQueryBatch (ctx : Ctx) (s : Poly n) (rows cols : Nat) (H : NaiveHash) (indices : List Nat) (alpha : Words) (g : Gen n) :
    Option (List ClientQuery × Gen n) :=
  match H.hashToMapping indices cols with
  | none => none
  | some mapping =>
    collect (fun r g =>
      match mapping r with
      | some c => makeWriteQuery ctx s cols c.1 alpha g
      | none => makeReadQuery ctx s cols 0 g) (List.range rows) g

/-- `.remove(0)`, /repo/src/oram.rs:176, 211: panics on an empty vector. -/
def removeFirst (r : Option (List ClientQuery × Gen n)) : Option (ClientQuery × Gen n) :=
  match r with
  | none => none
  | some (qs, g) =>
    match qs[0]? with
    | none => none
    | some q => some (q, g)

/-- `gen_read_query_one`, /repo/src/oram.rs:174-176. -/
def genReadQueryOne (ctx : Ctx) (s : Poly n) (rows cols : Nat) (H : NaiveHash) (i : Nat) (g : Gen n) : Option (ClientQuery × Gen n) :=
  removeFirst (genReadQueryBatch ctx s rows cols H [i] g)

/-- `gen_write_query_one`, /repo/src/oram.rs:204-211. -/
def genWriteQueryOne (ctx : Ctx) (s : Poly n) (rows cols : Nat) (H : NaiveHash) (i : Nat) (alpha : Words) (g : Gen n) :
    Option (ClientQuery × Gen n) :=
  removeFirst (genWriteQueryBatch ctx s rows cols H [i] alpha g)

/-- The closure of the first loop of `gen_dummy_database`, /repo/src/oram.rs:106-115: the cell is encrypted in place. -/
def dummyUniqueStep (ctx : Ctx) (s : Poly n) (rows cols : Nat) (H : NaiveHash) (i : Nat) (st : List (List Words) × Gen n) :
    Option (Words × List (List Words) × Gen n) :=
  let pt := genPt ctx st.2
  match H.hashToTuple 0 i cols with
  | none => none
  | some (r, c) =>
    if r < rows ∧ c < cols then
      match at2 st.1 r c with
      | none => none
      | some cell =>
        match encodeEncryptRlwe ctx s cell pt.1 pt.2 with
        | none => none
        | some (ct, g) =>
          match put2 st.1 r c ct with
          | none => none
          | some db => some (pt.1, db, g)
    else none

/-- The closure of the second loop, /repo/src/oram.rs:118-125. -/
def dummyRestStep (cols : Nat) (H : NaiveHash) (pts : List Words) (i : Nat) (db : List (List Words)) : Option (Words × List (List Words)) :=
  match pts[i % uniqueLimit]? with
  | none => none
  | some item =>
    match H.hashToTuple 0 (i % uniqueLimit) cols with
    | none => none
    | some (origR, origC) =>
      match H.hashToTuple 0 i cols with
      | none => none
      | some (r, c) =>
        match at2 db origR origC with
        | none => none
        | some ct =>
          match put2 db r c ct with
          | none => none
          | some db => some (item, db)

/-- The body of the third pair of loops, /repo/src/oram.rs:132-137. -/
def dummyCopyStep (rows cols : Nat) (H : NaiveHash) (i h : Nat) (db : List (List Words)) : Option (List (List Words)) :=
  match H.hashToTuple 0 i cols with
  | none => none
  | some (firstR, firstC) =>
    match H.hashToTuple h i cols with
    | none => none
    | some (r, c) =>
      if r < rows ∧ c < cols then
        match at2 db firstR firstC with
        | none => none
        | some ct => put2 db r c ct
      else none

/-- `gen_dummy_database`, /repo/src/oram.rs:87-141. -/
def genDummyDatabase (ctx : Ctx) (s : Poly n) (rows cols : Nat) (H : NaiveHash) (g : Gen n) :
    Option (List Words × List (List Words) × Gen n) :=
  if H.hCount = 0 then none
  else
    let itemCount := rows * cols / H.hCount
    let db := List.replicate rows (List.replicate cols (allocate n))
    let uniqueCount := if itemCount < uniqueLimit then itemCount else uniqueLimit
    match collect (dummyUniqueStep ctx s rows cols H) (List.range uniqueCount) (db, g) with
    | none => none
    | some (pts, db, g) =>
      match collect (dummyRestStep cols H pts) (List.range' uniqueCount (itemCount - uniqueCount)) db with
      | none => none
      | some (rest, db) =>
        match loop (fun i db => loop (dummyCopyStep rows cols H i) (List.range' 1 (H.hCount - 1)) db) (List.range itemCount) db with
        | none => none
        | some db => some (pts ++ rest, db, g)

/-- `setup_random_oram`, /repo/src/oram.rs:607-622 (key `s` given by its words). -/
def setupRandomOram (ctx : Ctx) (s : Words) (rows cols : Nat) (H : NaiveHash) (g : Gen n) : Option (Server × List Words × Gen n) :=
  if rows * cols = H.inputDomain * H.hCount then
    match negGsw ctx s g with
    | none => none
    | some (negS, g) =>
      match genDummyDatabase ctx (poly n s) rows cols H g with
      | none => none
      | some (pts, db, g) => some (⟨db, negS, ctx⟩, pts, g)
  else none

end Flat
end Panacea
