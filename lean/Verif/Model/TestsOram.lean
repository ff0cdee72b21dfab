import Verif.Model.Tests

/-!
# The crate's own tests of the ORAM, /repo/src/oram.rs:689-946

As in `Model/Tests`: `some ()` = the test passes, `none` = it panics.  `red k` is the behaviour of rayon's reductions during the `k`-th server
call, `shuffle` that of the random generator of `NaiveHash::new`, and `order m` the order in which iterating over the hash map `m` visits its
keys.  Timing and printing are not modelled.
-/

namespace Panacea
variable {n : Nat}

/-- Everything a test of the ORAM depends on: the parameters (`Context`), the rounding of the Fourier transform, the generators, the shuffle, the
scheduling of the parallel reductions and the order of the iterations over hash maps  (/repo/src/oram.rs:690-947 (`mod test`)). -/
structure OramTest (n : Nat) where
  ctx : Ctx
  fft : Fft n
  sg : SecretGen
  g : Gen n
  shuffle : List Nat → List Nat
  red : Nat → Reducer n
  order : NaiveHash.Mapping → List Nat

/-- The client's key (`setup_random_oram` calls `Client::new`, /repo/src/oram.rs:59-75, 615). -/
def OramTest.sk (E : OramTest n) : Poly n := (genRlweSk n E.sg).1

/-- `test_oram`, /repo/src/oram.rs:695-732. -/
def testOram (E : OramTest n) : Option Unit := do
  let H ← NaiveHash.new E.shuffle 1 16
  let st ← setupRandomOram E.ctx E.sk 1 16 H E.g
  assertT (16 = st.2.1.length)
  -- read
  let q ← genReadQueryOne E.ctx E.sk 1 16 H 1 st.2.2
  let y ← st.1.processOne (E.red 0).one E.fft q.1
  let pt := decryptDecodeRlwe E.ctx E.sk y.1
  let expected ← st.2.1[1]?
  assertT (expected = pt)
  let _ ← computeNoiseEncodedMax E.ctx.codec E.sk y.1 pt
  -- write
  let newData := genBinaryPt q.2
  let w ← genWriteQueryOne E.ctx E.sk 1 16 H 1 newData.1 newData.2
  let yw ← y.2.processOne (E.red 1).one E.fft w.1
  let q2 ← genReadQueryOne E.ctx E.sk 1 16 H 1 w.2
  let y2 ← yw.2.processOne (E.red 2).one E.fft q2.1
  assertT (newData.1 = decryptDecodeRlwe E.ctx E.sk y2.1)

/-- One iteration of `test_oram_more`, /repo/src/oram.rs:744-760. -/
def testOramMoreIter (E : OramTest n) (H : NaiveHash) (pts : List (Poly n)) (i : Nat) (st : Server n × Gen n) : Option (Server n × Gen n) := do
  let q ← genReadQueryOne E.ctx E.sk 1 2048 H 1 st.2
  let y ← st.1.processOne (E.red i).one E.fft q.1
  let pt := decryptDecodeRlwe E.ctx E.sk y.1
  let expected ← pts[1]?
  assertT (expected = pt)
  let _ ← computeNoiseEncodedMax E.ctx.codec E.sk y.1 pt
  pure (y.2, q.2)

/-- `test_oram_more` (ignored by default), /repo/src/oram.rs:736-761. -/
def testOramMore (E : OramTest n) : Option Unit := do
  let H ← NaiveHash.new E.shuffle 1 2048
  let st ← setupRandomOram E.ctx E.sk 1 2048 H E.g
  assertT (2048 = st.2.1.length)
  let _ ← forT (testOramMoreIter E H st.2.1) (List.range 20) (st.1, st.2.2)
  pure ()

/-- `test_oram_multi`, /repo/src/oram.rs:764-829. -/
def testOramMulti (E : OramTest n) : Option Unit := do
  let H ← NaiveHash.new E.shuffle 1 16
  let st ← setupRandomOram E.ctx E.sk 1 16 H E.g
  assertT (16 = st.2.1.length)
  -- read
  let q1 ← genReadQueryOne E.ctx E.sk 1 16 H 1 st.2.2
  let q2 ← genReadQueryOne E.ctx E.sk 1 16 H 2 q1.2
  let ys ← st.1.processMulti (E.red 0).vec (E.red 0).gsw E.fft [q1.1, q2.1]
  let y0 ← ys.1[0]?
  let pt := decryptDecodeRlwe E.ctx E.sk y0
  let expected ← st.2.1[1]?
  assertT (expected = pt)
  let _ ← computeNoiseEncodedMax E.ctx.codec E.sk y0 pt
  let y1 ← ys.1[1]?
  let expected ← st.2.1[2]?
  assertT (expected = decryptDecodeRlwe E.ctx E.sk y1)
  -- write
  let newData := genBinaryPt q2.2
  let w1 ← genWriteQueryOne E.ctx E.sk 1 16 H 1 newData.1 newData.2
  let w2 ← genWriteQueryOne E.ctx E.sk 1 16 H 2 newData.1 w1.2
  let yw ← ys.2.processMulti (E.red 1).vec (E.red 1).gsw E.fft [w1.1, w2.1]
  let q1 ← genReadQueryOne E.ctx E.sk 1 16 H 1 w2.2
  let q2 ← genReadQueryOne E.ctx E.sk 1 16 H 2 q1.2
  let ys ← yw.2.processMulti (E.red 2).vec (E.red 2).gsw E.fft [q1.1, q2.1]
  let y0 ← ys.1[0]?
  let pt := decryptDecodeRlwe E.ctx E.sk y0
  assertT (newData.1 = pt)
  let _ ← computeNoiseEncodedMax E.ctx.codec E.sk y0 pt
  let y1 ← ys.1[1]?
  assertT (newData.1 = decryptDecodeRlwe E.ctx E.sk y1)

/-- The body of `for (r, (_, i)) in mapping` of the reading batch tests, /repo/src/oram.rs:852-864, 928-941, for the key `r`: response `r` must be
`pts[indices[i]]` -- the code indexes the list of *requested* items by the item -- and the noise is computed once (`checked`). -/
def batchReadCheck (E : OramTest n) (m : NaiveHash.Mapping) (pts : List (Poly n)) (indices : List Nat) (ys : List (RLWE n)) (r : Nat)
    (checked : Bool) : Option Bool := do
  let e ← m r
  let y ← ys[r]?
  let pt := decryptDecodeRlwe E.ctx E.sk y
  let j ← indices[e.2]?
  let expected ← pts[j]?
  assertT (expected = pt)
  match checked with
  | true => pure true
  | false =>
    let _ ← computeNoiseEncodedMax E.ctx.codec E.sk y pt
    pure true

/-- One reading block of the batch tests, /repo/src/oram.rs:843-865, 918-941: request `indices`, process, check every mapped response. -/
def batchReadBlock (E : OramTest n) (rows cols : Nat) (H : NaiveHash) (pts : List (Poly n)) (indices : List Nat) (S : Server n) (g : Gen n) :
    Option (Server n × Gen n) := do
  let m ← H.hashToMapping indices cols
  let q ← genReadQueryBatch E.ctx E.sk rows cols H indices g
  let ys ← S.processBatch E.fft q.1 H
  let _ ← forT (batchReadCheck E m pts indices ys.1) (E.order m) false
  pure (ys.2, q.2)

/-- The body of `for (r, _) in mapping`, /repo/src/oram.rs:878-881. -/
def batchWriteCheck (E : OramTest n) (newData : Poly n) (ys : List (RLWE n)) (r : Nat) : Option Unit := do
  let y ← ys[r]?
  assertT (newData = decryptDecodeRlwe E.ctx E.sk y)

/-- The body of the loop over the copies, /repo/src/oram.rs:886-893: copy `h` of item `i` must hold the new data. -/
def batchCopyCheck (E : OramTest n) (cols : Nat) (H : NaiveHash) (newData : Poly n) (S : Server n) (i h : Nat) : Option Unit := do
  let p ← H.hashToTuple h i cols
  let c ← cellAt S.data p
  assertT (newData = decryptDecodeRlwe E.ctx E.sk c)

/-- The writing block of `test_oram_batch`, /repo/src/oram.rs:867-896. -/
def batchWriteBlock (E : OramTest n) (rows cols : Nat) (H : NaiveHash) (indices : List Nat) (S : Server n) (g : Gen n) : Option Unit := do
  let m ← H.hashToMapping indices cols
  let newData := genBinaryPt g
  let w ← genWriteQueryBatch E.ctx E.sk rows cols H indices newData.1 newData.2
  let yw ← S.processBatch E.fft w.1 H
  let q ← genReadQueryBatch E.ctx E.sk rows cols H indices w.2
  let ys ← yw.2.processBatch E.fft q.1 H
  forT (fun r _ => batchWriteCheck E newData.1 ys.1 r) (E.order m) ()
  forT (fun i _ => forT (fun h _ => batchCopyCheck E cols H newData.1 ys.2 i h) (List.range 4) ()) indices ()

/-- `test_oram_batch`, /repo/src/oram.rs:832-898 (`h_count = 4`, 16 items, 8 rows of `4 * 16 / 8 = 8` columns). -/
def testOramBatch (E : OramTest n) : Option Unit := do
  let H ← NaiveHash.new E.shuffle 4 16
  let st ← setupRandomOram E.ctx E.sk 8 8 H E.g
  assertT (16 = st.2.1.length)
  let r ← batchReadBlock E 8 8 H st.2.1 [0, 1] st.1 st.2.2
  batchWriteBlock E 8 8 H [1, 2] r.1 r.2

/-- `test_oram_batch_more` (ignored by default), /repo/src/oram.rs:902-944 (`h_count = 3`, 3 rows of 1024 columns, `3 * 1024 / 3` items). -/
def testOramBatchMore (E : OramTest n) : Option Unit := do
  let H ← NaiveHash.new E.shuffle 3 1024
  let st ← setupRandomOram E.ctx E.sk 3 1024 H E.g
  assertT (1024 = st.2.1.length)
  let _ ← forT (fun _ (x : Server n × Gen n) => batchReadBlock E 3 1024 H st.2.1 [0, 1] x.1 x.2) (List.range 20) (st.1, st.2.2)
  pure ()

end Panacea
