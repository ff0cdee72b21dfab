import Verif.Model.Oram

/-!
# The work of the server: the homomorphic operations a call performs

The server code once more, as programs that count the expensive operations they execute: external products, applications of a
substitution key (a key switch), and Fourier polynomial products outside of these.  The programs follow the loops of the code; the other
models only give the values.  `C80_*` proves that these programs compute exactly the values of the other models.
-/

namespace Panacea
namespace Cost

variable {n : Nat}

/-- Numbers of operations executed: external products (/repo/src/rgsw.rs:64-116), substitutions (/repo/src/rlwe.rs:693-709, 917-933),
polynomial products `fourier_update_with_mul` (/repo/src/rlwe.rs:1077-1116). -/
structure Work where
  ext : Nat
  subs : Nat
  mul : Nat
deriving DecidableEq, Repr

/-- Support: counts add up. -/
instance : Add Work := ⟨fun a b => ⟨a.ext + b.ext, a.subs + b.subs, a.mul + b.mul⟩⟩

/-- A program run: its result (`none` = panic) and the operations it executed  (support for the counted versions of /repo/src/decision_tree.rs:496-545 and /repo/src/oram.rs:231-664). -/
structure Costed (α : Type) where
  val : Option α
  work : Work

/-- Sequencing: the second program only runs if the first has not panicked  (support: sequencing of Rust statements and panics). -/
def Costed.bind {α β : Type} (x : Costed α) (f : α → Costed β) : Costed β :=
  match x.val with
  | none => ⟨none, x.work⟩
  | some a => ⟨(f a).val, x.work + (f a).work⟩

/-- Support: sequencing of counted programs. -/
instance : Monad Costed where
  pure a := ⟨some a, ⟨0, 0, 0⟩⟩
  bind := Costed.bind

/-- A panic  (support: a Rust panic). -/
def panic {α : Type} : Costed α := ⟨none, ⟨0, 0, 0⟩⟩

/-- Code without any of the counted operations  (support, e.g. /repo/src/oram.rs:266 `transpose`). -/
def free {α : Type} (o : Option α) : Costed α := ⟨o, ⟨0, 0, 0⟩⟩

/-- One external product, /repo/src/rgsw.rs:64-116. -/
def extProduct (fft : Fft n) (C : RGSW n) (out d : RLWE n) : Costed (RLWE n) := ⟨some (externalProduct fft C out d), ⟨1, 0, 0⟩⟩

/-- One `fourier_update_with_mul`, /repo/src/rlwe.rs:1077-1116. -/
def polyMul (fft : Fft n) (p1 p2 : Poly n) : Costed (Poly n) := ⟨some (fourierUpdateWithMul fft p1 p2), ⟨0, 0, 1⟩⟩

/-- One `subs`, /repo/src/rlwe.rs:693-709. -/
def subsKey (fft : Fft n) (K : KeyswitchKey n) (buf c : RLWE n) : Costed (RLWE n) := ⟨K.subs fft buf c, ⟨0, 1, 0⟩⟩

/-- One Fourier `subs`, /repo/src/rlwe.rs:917-933. -/
def fourierSubsKey (K : KeyswitchKey n) (buf : FRLWE n) (c : RLWE n) : Costed (FRLWE n) := ⟨K.fourierSubs buf c, ⟨0, 1, 0⟩⟩

/-- `iter().map(f).collect()`  (/repo/src/oram.rs:263, 292, 466). -/
def mapC {α β : Type} (f : α → Costed β) : List α → Costed (List β)
  | [] => pure []
  | a :: as => do
    let b ← f a
    let bs ← mapC f as
    pure (b :: bs)

/-- `cmux_with_buf`, /repo/src/rgsw.rs:123-143. -/
def cmux (fft : Fft n) (C : RGSW n) (ct0 ct1 : RLWE n) : Costed (RLWE n) := extProduct fft C ct0 (ct1 - ct0)

/-- `less_eq_than`, /repo/src/rlwe.rs:244-258: a product for the body and one for the mask. -/
def lessEqThan (fft : Fft n) (c : RLWE n) (d : Nat) : Costed (RLWE n) :=
  if d < n then do
    let b ← polyMul fft c.body (RLWE.leqPoly n d)
    let a ← polyMul fft c.mask (RLWE.leqPoly n d)
    pure ⟨a, b⟩
  else panic

/-- `demux_rec`, /repo/src/decision_tree.rs:521-544. -/
def demuxRec (fft : Fft n) : List (RGSW n) → RLWE n → Costed (List (RLWE n))
  | [], _ => panic
  | c :: rest, b => do
    let left ← extProduct fft c 0 b
    match rest with
    | [] => pure [left, b - left]
    | r :: rs => do
      let lo ← demuxRec fft (r :: rs) left
      let ro ← demuxRec fft (r :: rs) (b - left)
      pure (lo ++ ro)

/-- `decomposed_rlwe_to_rgsw`, /repo/src/rlwe.rs:1059-1075: an external product for every even row. -/
def decomposedRlweToRgsw (fft : Fft n) (ctx : Ctx) (cs : List (RLWE n)) (negS : RGSW n) : Costed (RGSW n) :=
  if ctx.levelCount ≤ cs.length then do
    let rows ← mapC (fun c => do let r ← extProduct fft negS 0 c; pure (r, c)) (cs.take ctx.levelCount)
    pure ⟨ctx.baseLog, rows⟩
  else panic

/-- Loop of `trace1`, /repo/src/rlwe.rs:183-189. -/
def trace1Loop (fft : Fft n) (ksks : KskMap n) : List Nat → RLWE n → RLWE n → Costed (RLWE n)
  | [], _, out => pure out
  | i :: is, buf, out => do
    let ksk ← free (ksks (traceExp n i))
    if ksk.subsK = traceExp n i then do
      let buf' ← subsKey fft ksk buf out
      trace1Loop fft ksks is buf' (out + buf')
    else panic

/-- `trace1`, /repo/src/rlwe.rs:179-191. -/
def trace1 (fft : Fft n) (ksks : KskMap n) (c : RLWE n) : Costed (RLWE n) := do
  let ln ← free (log2 n)
  trace1Loop fft ksks (List.range' 1 ln) 0 c

/-- Loop of `trace1_fourier`, /repo/src/rlwe.rs:217-237. -/
def trace1FourierLoop (fft : Fft n) (ksks : KskMap n) : List Nat → FRLWE n → RLWE n → Costed (RLWE n)
  | [], _, out => pure out
  | i :: is, buf, out => do
    let ksk ← free (ksks (traceExp n i))
    if ksk.subsK = traceExp n i then do
      let buf' ← fourierSubsKey ksk buf out
      trace1FourierLoop fft ksks is buf' ⟨out.mask + fft.backward buf'.mask, out.body + fft.backward buf'.body⟩
    else panic

/-- `trace1_fourier`, /repo/src/rlwe.rs:195-238. -/
def trace1Fourier (fft : Fft n) (ksks : KskMap n) (c : RLWE n) : Costed (RLWE n) := do
  let ln ← free (log2 n)
  trace1FourierLoop fft ksks (List.range' 1 ln) ⟨[], []⟩ c

/-- `expand`, /repo/src/rlwe.rs:989-1007: traces *all* ciphertexts first. -/
def expand (fft : Fft n) (ctx : Ctx) (cs : List (RLWE n)) (ksks : KskMap n) (negS : RGSW n) : Costed (RGSW n) :=
  if cs = [] then panic
  else do
    let csp ← mapC (trace1 fft ksks) cs
    decomposedRlweToRgsw fft ctx csp negS

/-- One iteration of the loop of `expand_fourier`, /repo/src/rlwe.rs:1021-1028. -/
def expandFourierRow (fft : Fft n) (ksks : KskMap n) (negS : RGSW n) (c : RLWE n) : Costed (RLWE n × RLWE n) := do
  let cp ← trace1Fourier fft ksks c
  let r ← extProduct fft negS 0 cp
  pure (r, cp)

/-- `expand_fourier`, /repo/src/rlwe.rs:1011-1030. -/
def expandFourier (fft : Fft n) (ctx : Ctx) (cs : List (RLWE n)) (ksks : KskMap n) (negS : RGSW n) : Costed (RGSW n) :=
  if cs = [] then panic
  else if ctx.levelCount ≤ cs.length then do
    let rows ← mapC (expandFourierRow fft ksks negS) (cs.take ctx.levelCount)
    pure ⟨ctx.baseLog, rows⟩
  else panic

/-! ## Decision trees -/

/-- The closure of `compare_expand` for one ciphertext, /repo/src/decision_tree.rs:340-348. -/
def compareCt (fft : Fft n) (d : NodeData) (c : RLWE n) : Costed (RLWE n) :=
  match d.op with
  | .leq => lessEqThan fft c d.threshold
  | .gt => panic

/-- The closure of `compare_expand` for one node, /repo/src/decision_tree.rs:337-351. -/
def compareExpandOne (fft : Fft n) (ctx : Ctx) (clientCts : List (List (RLWE n))) (ksks : KskMap n) (negS : RGSW n)
    (d : NodeData) : Costed (RGSW n) := do
  let cts ← free clientCts[d.feature]?
  let cts' ← mapC (compareCt fft d) cts
  expandFourier fft ctx cts' ksks negS

/-- `eval_enc_node`, /repo/src/decision_tree.rs:460-491. -/
def evalEncNode (fft : Fft n) : EncTree (RGSW n) → List (RLWE n) → RLWE n → Costed (List (RLWE n))
  | .leaf x, out, b => pure (addLabel x b out)
  | .internal ct l r, out, b => do
    let left ← extProduct fft ct 0 b
    let out ← evalEncNode fft l out left
    evalEncNode fft r out (b - left)

/-- `EncNode::eval`, /repo/src/decision_tree.rs:377-386. -/
def encEval (fft : Fft n) (ctx : Ctx) (ceilLog2 : Nat → Nat) (root : EncTree (RGSW n)) : Costed (List (RLWE n)) := do
  let c ← free (trivialOne ctx)
  evalEncNode fft root (List.replicate (ceilLog2 (root.maxLeaf + 1)) 0) c

/-- The server closure of `simulate`, /repo/src/decision_tree.rs:659-668. -/
def simulateServer (fft : Fft n) (ctx : Ctx) (ceilLog2 : Nat → Nat) (model : Tree) (ksks : KskMap n) (negS : RGSW n)
    (cts : List (List (RLWE n))) : Costed (List (RLWE n)) := do
  let rgsws ← mapC (compareExpandOne fft ctx cts ksks negS) model.flatten
  let root ← free (EncTree.new model rgsws)
  encEval fft ctx ceilLog2 root.1

/-! ## ORAM -/

/-- One level of the selectors, /repo/src/oram.rs:251-260, 352-360. -/
def demuxLevel (fft : Fft n) (ctx : Ctx) (a : List (RGSW n)) (level : Nat) : Costed (List (RLWE n)) :=
  if ctx.baseLog * level = 0 ∨ 64 < ctx.baseLog * level then panic
  else do
    let tmp ← demuxRec fft a ⟨0, Poly.set 0 0 (gadget ctx.baseLog level)⟩
    if tmp.length = 2 ^ a.length then pure tmp else panic

/-- Demultiplex every level and transpose, /repo/src/oram.rs:262-268, 350-364. -/
def decomposedSelectors (fft : Fft n) (ctx : Ctx) (q : ClientQuery n) (cols : Nat) : Costed (List (List (RLWE n))) := do
  let demuxRes ← mapC (demuxLevel fft ctx q.a) (List.range' 1 ctx.levelCount)
  let decomposedL ← free (transpose demuxRes)
  if decomposedL.length = cols then pure decomposedL else panic

/-- The closure `g` of `process_one_mt`, /repo/src/oram.rs:270-288. -/
def partialResponse (fft : Fft n) (ctx : Ctx) (negS : RGSW n) (x : List (RLWE n) × RLWE n) : Costed (RLWE n × RGSW n) := do
  let l ← decomposedRlweToRgsw fft ctx x.1 negS
  let y ← extProduct fft l 0 x.2
  pure (y, l)

/-- `process_one_mt`, /repo/src/oram.rs:244-302 (the work of all threads together). -/
def processOneMt (reduce : List (RLWE n) → RLWE n) (fft : Fft n) (ctx : Ctx) (q : ClientQuery n) (data : List (RLWE n)) (negS : RGSW n) :
    Costed (RLWE n × List (RGSW n)) := do
  let decomposedL ← decomposedSelectors fft ctx q data.length
  let rs ← mapC (partialResponse fft ctx negS) (decomposedL.zip data)
  pure (reduce (rs.map Prod.fst), rs.map Prod.snd)

/-- The column loop of `process_one_st`, /repo/src/oram.rs:366-384. -/
def responseLoop (fft : Fft n) (ctx : Ctx) (negS : RGSW n) : List (List (RLWE n) × RLWE n) → RLWE n → List (RGSW n) →
    Costed (RLWE n × List (RGSW n))
  | [], y, ls => pure (y, ls)
  | x :: xs, y, ls => do
    let l ← decomposedRlweToRgsw fft ctx x.1 negS
    let y' ← extProduct fft l y x.2
    responseLoop fft ctx negS xs y' (ls ++ [l])

/-- `process_one_st`, /repo/src/oram.rs:343-385. -/
def processOneSt (fft : Fft n) (ctx : Ctx) (q : ClientQuery n) (data : List (RLWE n)) (negS : RGSW n) :
    Costed (RLWE n × List (RGSW n)) := do
  let decomposedL ← decomposedSelectors fft ctx q data.length
  responseLoop fft ctx negS (decomposedL.zip data) 0 []

/-- One cell of `update_db_mt`/`update_db_st`, /repo/src/oram.rs:314-330, 398-413. -/
def updateCell (fft : Fft n) (q : ClientQuery n) (l : RGSW n) (cell : RLWE n) : Costed (RLWE n) := do
  let tmp ← cmux fft q.op cell q.data
  cmux fft l cell tmp

/-- `update_db_mt`, `update_db_st`, /repo/src/oram.rs:305-337, 387-415. -/
def updateDb (fft : Fft n) (q : ClientQuery n) (data : List (RLWE n)) (ls : List (RGSW n)) : Costed (List (RLWE n)) :=
  mapC (fun x => updateCell fft q x.2 x.1) (data.zip ls)

/-- `Server::process_one`, /repo/src/oram.rs:449-456. -/
def processOne (reduce : List (RLWE n) → RLWE n) (fft : Fft n) (S : Server n) (q : ClientQuery n) : Costed (RLWE n × Server n) :=
  match S.data with
  | [] => panic
  | row :: rest => do
    let r ← processOneMt reduce fft S.ctx q row S.negS
    let row' ← updateDb fft q row r.2
    pure (r.1, ⟨row' :: rest, S.negS, S.ctx⟩)

/-- The closure computing `tmps`, /repo/src/oram.rs:472-491. -/
def multiTmps (fft : Fft n) (data : List (RLWE n)) (q : ClientQuery n) (ls : List (RGSW n)) : Costed (List (RLWE n)) :=
  mapC (fun x => do let tmp ← cmux fft q.op x.2 q.data; extProduct fft x.1 0 tmp) (ls.zip data)

/-- `Server::process_multi`, /repo/src/oram.rs:459-539. -/
def processMulti (reduceV : List (List (RLWE n)) → List (RLWE n)) (reduceG : List (List (RGSW n)) → List (RGSW n))
    (fft : Fft n) (S : Server n) (qs : List (ClientQuery n)) : Costed (List (RLWE n) × Server n) :=
  match S.data with
  | [] => panic
  | row :: rest => do
    let rs ← mapC (fun q => processOneSt fft S.ctx q row S.negS) qs
    let tmps ← mapC (fun x => multiTmps fft row x.1 x.2) (qs.zip (rs.map Prod.snd))
    let row' ← mapC (fun x => cmux fft x.2.1 x.1 x.2.2) (row.zip ((reduceG (rs.map Prod.snd)).zip (reduceV tmps)))
    pure (rs.map Prod.fst, ⟨row' :: rest, S.negS, S.ctx⟩)

/-- `ls[r][c] ⊡ (rw_flags[r] ⊡ v)`, /repo/src/oram.rs:640-652, 665-677. -/
def flagProduct (fft : Fft n) (ls : List (List (RGSW n))) (flags : List (RGSW n)) (p : Nat × Nat) (v : RLWE n) : Costed (RLWE n) := do
  let fl ← free flags[p.1]?
  let l ← free (flagProduct.cellSel ls p)
  let t ← extProduct fft fl 0 v
  extProduct fft l 0 t

/-- `correct_consistency`, /repo/src/oram.rs:626-687: every position twice, except that the first cell is not multiplied again. -/
def correctConsistency (fft : Fft n) (data : List (List (RLWE n))) (ls : List (List (RGSW n))) (flags : List (RGSW n))
    (positions : List (Nat × Nat)) : Costed (RLWE n) := do
  let cells ← free (mapOption (cellAt data) positions)
  match cells with
  | [] => panic
  | vFirst :: vs => do
    let firsts ← mapC (fun p => flagProduct fft ls flags p vFirst) positions
    match firsts with
    | [] => panic
    | v1 :: v1s => do
      let terms ← mapC (fun x => flagProduct fft ls flags x.1 x.2) ((positions.drop 1).zip vs)
      pure (terms.foldl (fun acc v => acc + v) v1 + (v1 :: v1s).foldl (fun acc v => acc - v) vFirst)

/-- The consistency loop, /repo/src/oram.rs:570-581. -/
def correctAll (fft : Fft n) (H : NaiveHash) (cols : Nat) (ls : List (List (RGSW n))) (flags : List (RGSW n)) :
    List Nat → List (List (RLWE n)) → Costed (List (List (RLWE n)))
  | [], data => pure data
  | i :: is, data => do
    let positions ← free (itemPositions H cols i)
    let v ← correctConsistency fft data ls flags positions
    correctAll fft H cols ls flags is (positions.foldl (fun d p => setCell d p v) data)

/-- `Server::process_batch`, /repo/src/oram.rs:542-582. -/
def processBatch (fft : Fft n) (S : Server n) (qs : List (ClientQuery n)) (H : NaiveHash) : Costed (List (RLWE n) × Server n) :=
  if qs.length = S.data.length then do
    let rs ← mapC (fun x => processOneSt fft S.ctx x.1 x.2 S.negS) (qs.zip S.data)
    let data1 ← mapC (fun x => updateDb fft x.1.1 x.1.2 x.2) ((qs.zip S.data).zip (rs.map Prod.snd))
    let cols ← free S.cols
    if H.hCount = 0 then panic
    else do
      let data2 ← correctAll fft H cols (rs.map Prod.snd) (qs.map ClientQuery.op) (List.range (S.data.length * cols / H.hCount)) data1
      pure (rs.map Prod.fst, ⟨data2, S.negS, S.ctx⟩)
  else panic

end Cost
end Panacea
