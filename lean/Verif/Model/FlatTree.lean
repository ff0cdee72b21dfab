import Verif.Model.Flat
import Verif.Model.EncEval

/-!
# Decision tree evaluation on word vectors, /repo/src/decision_tree.rs:328-717

`Model/EncEval` gives these functions on structured ciphertexts.  Here they are written the way the code runs: on the word vectors of
`Model/Flat`, with index loops over preallocated vectors, reused buffers, a lazy iterator of choice bits, encrypted nodes whose children are
optional, and the recursion of the demultiplexer over a level number.  `none` = panic; indexing out of bounds is a panic.
-/

namespace Panacea
namespace Flat
variable {n : Nat}

/-- A `for` loop over a sequence with the variables of the surrounding function as state; `none` = panic  (support for the loops of /repo/src/decision_tree.rs). -/
def loop {α σ : Type} (f : α → σ → Option σ) : List α → σ → Option σ
  | [], s => some s
  | a :: as, s =>
    match f a s with
    | none => none
    | some s1 => loop f as s1

/-- A loop (or `map(..).collect()`) that pushes one element in every iteration  (support for the loops of /repo/src/decision_tree.rs). -/
def collect {α β σ : Type} (f : α → σ → Option (β × σ)) : List α → σ → Option (List β × σ)
  | [], s => some ([], s)
  | a :: as, s =>
    match f a s with
    | none => none
    | some (b, s1) =>
      match collect f as s1 with
      | none => none
      | some (bs, s2) => some (b :: bs, s2)

/-! ## Demultiplexer -/

/-- `demux_rec`, /repo/src/decision_tree.rs:521-544, with the level number; `bits[level]?` is the assertion `level < bits.len()`. -/
def demuxRec (fft : Fft n) (bits : List Ggsw) (level : Nat) (b : Words) : Option (List Words) :=
  if h : level < bits.length then
    let left := externalProduct fft bits[level] (allocate n) b
    let right := updateWithSub n b left
    if level + 1 = bits.length then some [left, right]
    else
      match demuxRec fft bits (level + 1) left with
      | none => none
      | some leftOutput =>
        match demuxRec fft bits (level + 1) right with
        | none => none
        | some rightOutput => some (leftOutput ++ rightOutput)
  else none
termination_by bits.length - level

/-- `demux_with`, /repo/src/decision_tree.rs:496-503. -/
def demuxWith (fft : Fft n) (b : Words) (bits : List Ggsw) : Option (List Words) := demuxRec fft bits 0 b

/-- The first word of the body is set to 1 and then encoded in place, /repo/src/decision_tree.rs:380-383, 513-516.  `first_mut()` of an
empty body (`n = 0`) is not considered. -/
def trivialOne (n : Nat) (ctx : Ctx) : Option Words :=
  let c := modBody n (fun b => b.set 0 1) (allocate n)
  match ctx.codec.encode ((getBody n c).getD 0 0) with
  | none => none
  | some v => some (modBody n (fun b => b.set 0 v) c)

/-- `demux`, /repo/src/decision_tree.rs:507-519. -/
def demux (fft : Fft n) (ctx : Ctx) (bits : List Ggsw) : Option (List Words) :=
  match trivialOne n ctx with
  | none => none
  | some c => demuxWith fft c bits

/-! ## Encrypted trees -/

/-- `Option<EncNode>`, /repo/src/decision_tree.rs:355-358, 415-419; `missing` is `None`. -/
inductive EncNode
  | missing
  | leaf (label : Nat)
  | internal (ct : Ggsw) (left right : EncNode)

/-- `rgsw_cts.next()` of the lazy iterator returned by `compare_expand`, /repo/src/decision_tree.rs:337-351: the closure `pull` runs when the
element is asked for.  `none` = panic in the closure; `some (none, _)` = the iterator is exhausted. -/
def nextCt {δ : Type} (pull : δ → Option Ggsw) : List δ → Option (Option Ggsw × List δ)
  | [] => some (none, [])
  | d :: ds =>
    match pull d with
    | none => none
    | some C => some (some C, ds)

/-- The `match` on one child in `new_enc_node`, /repo/src/decision_tree.rs:426-440, 441-457, where `cur` is the current value of the child of
`enc_node`: an absent clear child leaves it as it is; for an internal clear child a ciphertext is taken from the iterator, a fresh node with two
`Leaf(0)` children is made and `new_enc_node` (inlined here) is applied to it. -/
def newChild {δ : Type} (pull : δ → Option Ggsw) : Tree → EncNode → List δ → Option (EncNode × List δ)
  | .leaf x, _, it => some (.leaf x, it)
  | .internal _ l r, _, it =>
    match nextCt pull it with
    | none => none
    | some (none, _) => none
    | some (some ct, it) =>
      match newChild pull l (.leaf 0) it with
      | none => none
      | some (left, it) =>
        match newChild pull r (.leaf 0) it with
        | none => none
        | some (right, it) => some (.internal ct left right, it)
  | .missing, cur, it => some (cur, it)

/-- `new_enc_node`, /repo/src/decision_tree.rs:421-458, on a node with ciphertext `ct` and current children `el`, `er`, for the clear node with
children `l`, `r`. -/
def newEncNode {δ : Type} (pull : δ → Option Ggsw) (ct : Ggsw) (el er : EncNode) (l r : Tree) (it : List δ) : Option (EncNode × List δ) :=
  match newChild pull l el it with
  | none => none
  | some (left, it) =>
    match newChild pull r er it with
    | none => none
    | some (right, it) => some (.internal ct left right, it)

/-- `EncNode::new`, /repo/src/decision_tree.rs:362-374: first a ciphertext, then the panic for a leaf. -/
def EncNode.new {δ : Type} (pull : δ → Option Ggsw) (root : Tree) (it : List δ) : Option (EncNode × List δ) :=
  match nextCt pull it with
  | none => none
  | some (none, _) => none
  | some (some ct, it') =>
    match root with
    | .internal _ l r => newEncNode pull ct (.leaf 0) (.leaf 0) l r it'
    | _ => none

/-- `max_leaf`, /repo/src/decision_tree.rs:389-411; `none` for a missing node. -/
def EncNode.maxLeaf : EncNode → Option Nat
  | .missing => none
  | .leaf x => some x
  | .internal _ left right =>
    match left.maxLeaf, right.maxLeaf with
    | some l, some r => some (max l r)
    | none, some r => some r
    | some l, none => some l
    | none, none => some 0

/-- The leaf case of `eval_enc_node`, /repo/src/decision_tree.rs:468-474: the 64 bits of the label, zipped with the outputs (outputs beyond
the 64th are not touched). -/
def addLabel (n : Nat) (x : Nat) (b : Words) (out : List Words) : List Words :=
  List.zipWith (fun bit ct => if bit then updateWithAdd n ct b else ct) ((List.range 64).map x.testBit) out ++ out.drop 64

/-- `eval_enc_node`, /repo/src/decision_tree.rs:460-491. -/
def evalEncNode (fft : Fft n) : EncNode → List Words → Words → List Words
  | .missing, out, _ => out
  | .leaf x, out, b => addLabel n x b out
  | .internal ct left_child right_child, out, b =>
    let left := externalProduct fft ct (allocate n) b
    let right := updateWithSub n b left
    let out := evalEncNode fft left_child out left
    evalEncNode fft right_child out right

/-- `EncNode::eval`, /repo/src/decision_tree.rs:377-386 (`ceilLog2` as in `Model/EncEval`). -/
def EncNode.eval (fft : Fft n) (ctx : Ctx) (ceilLog2 : Nat → Nat) (root : EncNode) : Option (List Words) :=
  match root.maxLeaf with
  | none => none
  | some m =>
    let out := List.replicate (ceilLog2 (m + 1)) (allocate n)
    match trivialOne n ctx with
    | none => none
    | some c => some (evalEncNode fft root out c)

/-- The closure over the ciphertexts of one feature, /repo/src/decision_tree.rs:340-348. -/
def compareCt (fft : Fft n) (d : NodeData) (c : Words) : Option Words :=
  let ct := fillWithCopy (allocate n) c
  match d.op with
  | .leq => lessEqThan fft ct d.threshold
  | .gt => none

/-- The closure of `compare_expand` for one flat node, /repo/src/decision_tree.rs:337-351. -/
def compareExpandOne (fft : Fft n) (ctx : Ctx) (clientCts : List (List Words)) (ksks : KskMap n) (negS : Ggsw) (d : NodeData) : Option Ggsw :=
  match clientCts[d.feature]? with
  | none => none
  | some cts =>
    match mapOption (compareCt fft d) cts with
    | none => none
    | some cts' => expandFourier fft ctx cts' ksks negS

/-- The server closure `server_f` of `simulate`, /repo/src/decision_tree.rs:659-668, with the lazy iterator. -/
def simulateServer (fft : Fft n) (ctx : Ctx) (ceilLog2 : Nat → Nat) (model : Tree) (ksks : KskMap n) (negS : Ggsw)
    (cts : List (List Words)) : Option (List Words) :=
  match EncNode.new (compareExpandOne fft ctx cts ksks negS) model model.flatten with
  | none => none
  | some (root, _) => root.eval fft ctx ceilLog2

/-! ## Client -/

/-- `encrypt_constant_rgsw` into the ciphertext `C` (a library call), /repo/src/rlwe.rs:431-442. -/
def encryptConstantRgsw (s : Poly n) (C : Ggsw) (pt : Scalar) (g : Gen n) : Ggsw × Gen n :=
  let r := Panacea.encryptConstantRgsw s C.baseLog C.levelCount pt g
  (outRgsw r.1, r.2)

/-- One iteration `encrypt_constant_rgsw(&mut a[k], if i_bits[k] {0} else {1})`, /repo/src/decision_tree.rs:713-715: both vectors are indexed. -/
def fillStep (s : Poly n) (iBits : List Bool) (k : Nat) (st : List Ggsw × Gen n) : Option (List Ggsw × Gen n) :=
  match st.1[k]? with
  | none => none
  | some C =>
    match iBits[k]? with
    | none => none
    | some b =>
      let r := encryptConstantRgsw s C (if b then 0 else 1) st.2
      some (st.1.set k r.1, r.2)

/-- `bit_decomposed_rgsw`, /repo/src/decision_tree.rs:698-717: bits in a vector that is reversed, ciphertexts preallocated, index loop. -/
def bitDecomposedRgsw (ctx : Ctx) (s : Poly n) (i m : Nat) (g : Gen n) : Option (List Ggsw × Gen n) :=
  match log2 m with
  | none => none
  | some logm =>
    let iBits := (((List.range 64).map i.testBit).take logm).reverse
    let a := List.replicate iBits.length (ggswAllocate n ctx.baseLog ctx.levelCount)
    loop (fillStep s iBits) (List.range a.length) (a, g)

/-- One level of `encrypt_feature_vector`, /repo/src/decision_tree.rs:557-568: the buffer `pt` is shared by all levels and features. -/
def encryptFeatureLevel (ctx : Ctx) (s : Poly n) (logn v level : Nat) (st : Words × Gen n) : Option (Words × Words × Gen n) :=
  if v < n then
    if ctx.baseLog * level ≤ 64 then
      if logn ≤ 64 - ctx.baseLog * level then
        let shift := 64 - ctx.baseLog * level - logn
        let pt := clear st.1
        if shift < 64 then
          let pt := pt.set v ((1 : Scalar) <<< shift)
          let r := encryptRlwe s pt st.2
          some (r.1, pt, r.2)
        else none
      else none
    else none
  else none

/-- `encrypt_feature_vector`, /repo/src/decision_tree.rs:547-572. -/
def encryptFeatureVector (ctx : Ctx) (s : Poly n) (vs : List Nat) (g : Gen n) : Option (List (List Words) × Gen n) :=
  match log2 n with
  | none => none
  | some logn =>
    match collect (fun v => collect (encryptFeatureLevel ctx s logn v) (List.range' 1 ctx.levelCount)) vs (List.replicate n 0, g) with
    | none => none
    | some (out, st) => some (out, st.2)

/-- `decrypt_decode_rlwe` into a buffer, /repo/src/rlwe.rs:406-414 (the library call overwrites the buffer). -/
def decryptDecodeRlwe (ctx : Ctx) (s : Poly n) (pt ct : Words) : Words :=
  fillWithCopy pt (out (Panacea.decryptDecodeRlwe ctx s (rlwe n ct)))

/-- The loop of `decrypt_and_recompose`, /repo/src/decision_tree.rs:627-634: state is the bit vector and the buffer `pt`. -/
def decryptStep (ctx : Ctx) (s : Poly n) (ct : Words) (st : List Bool × Words) : Option (List Bool × Words) :=
  let pt := decryptDecodeRlwe ctx s st.2 ct
  match pt[0]? with
  | none => none
  | some x => if x = 0 then some (st.1 ++ [false], pt) else if x = 1 then some (st.1 ++ [true], pt) else none

/-- `decrypt_and_recompose`, /repo/src/decision_tree.rs:624-636. -/
def decryptAndRecompose (ctx : Ctx) (s : Poly n) (cts : List Words) : Option Nat :=
  match loop (decryptStep ctx s) cts ([], List.replicate n 0) with
  | none => none
  | some (bv, _) => if bv.length = 0 ∨ 64 < bv.length then none else some (bitsValue bv)

/-- One iteration of the checking loop, /repo/src/decision_tree.rs:679-684. -/
def simulateCheck (ctx : Ctx) (s : Poly n) (model : Tree) (r : List Words × List Nat) (predictions : List Nat) : Option (List Nat) :=
  match decryptAndRecompose ctx s r.1 with
  | none => none
  | some actual =>
    match model.eval r.2 with
    | none => none
    | some expected => if expected = actual then some (predictions ++ [expected]) else none

/-- `simulate`, /repo/src/decision_tree.rs:643-694 (as in `Model/EncEval`; the evaluation keys are those of that model in Fourier form). -/
def simulate (fft : Fft n) (ctx : Ctx) (ceilLog2 : Nat → Nat) (s : Poly n) (model : Tree) (features : List (List Nat)) (g : Gen n) :
    Option (List Nat) :=
  match negGsw ctx (out s) g with
  | none => none
  | some (negS, g) =>
    match genAllSubsKsk ctx s g with
    | none => none
    | some (ksks, g) =>
      match collect (encryptFeatureVector ctx s) features g with
      | none => none
      | some (clientCts, _) =>
        match mapOption (simulateServer fft ctx ceilLog2 model ksks negS) clientCts with
        | none => none
        | some outputs => loop (simulateCheck ctx s model) (outputs.zip features) []

end Flat
end Panacea
