import Verif.Model.Keyswitch
import Verif.Model.Tree

/-!
# Homomorphic evaluation of decision trees and demultiplexing, /repo/src/decision_tree.rs:328-572, 624-717

`none` = panic.
-/

namespace Panacea
variable {n : Nat}

/-- The closure of `compare_expand` for one ciphertext, /repo/src/decision_tree.rs:340-348: copy, then `less_eq_than`;
`todo!()` on GT. -/
def compareCt (fft : Fft n) (d : NodeData) (c : RLWE n) : Option (RLWE n) :=
  match d.op with
  | .leq => c.lessEqThan fft d.threshold
  | .gt => none

/-- The closure of `compare_expand` for one flat node, /repo/src/decision_tree.rs:337-351. -/
def compareExpandOne (fft : Fft n) (ctx : Ctx) (clientCts : List (List (RLWE n))) (ksks : KskMap n) (negS : RGSW n)
    (d : NodeData) : Option (RGSW n) :=
  match clientCts[d.feature]? with
  | none => none
  | some cts =>
    match mapOption (compareCt fft d) cts with
    | none => none
    | some cts' => expandFourier fft ctx cts' ksks negS

/-- `compare_expand`, /repo/src/decision_tree.rs:330-352.  The Rust iterator is lazy; here the whole list is produced (the consumer
`EncNode::new` pulls exactly all of it when the nodes are those of its tree). -/
def compareExpand (fft : Fft n) (ctx : Ctx) (flatNodes : List NodeData) (clientCts : List (List (RLWE n))) (ksks : KskMap n)
    (negS : RGSW n) : Option (List (RGSW n)) :=
  mapOption (compareExpandOne fft ctx clientCts ksks negS) flatNodes

/-- The trivial ciphertext of `eval` and `demux`, /repo/src/decision_tree.rs:380-383, 513-516: mask 0, first body word `encode(1)`. -/
def trivialOne (ctx : Ctx) : Option (RLWE n) :=
  match ctx.codec.encode 1 with
  | none => none
  | some v => some ⟨0, Poly.set 0 0 v⟩

/-- The leaf case of `eval_enc_node`, /repo/src/decision_tree.rs:468-474: add `b` to `out[i]` for every set bit `i` of the label
(labels are `usize`, so bits from 64 on are 0; `Nat.testBit` is used for them too). -/
def addLabel (x : Nat) (b : RLWE n) (out : List (RLWE n)) : List (RLWE n) :=
  out.mapIdx fun i ct => if x.testBit i then ct + b else ct

/-- `eval_enc_node`, /repo/src/decision_tree.rs:460-491. -/
def evalEncNode (fft : Fft n) : EncTree (RGSW n) → List (RLWE n) → RLWE n → List (RLWE n)
  | .leaf x, out, b => addLabel x b out
  | .internal ct l r, out, b =>
    let left := externalProduct fft ct 0 b
    let right := b - left
    let out := evalEncNode fft l out left
    evalEncNode fft r out right

/-- `EncNode::eval`, /repo/src/decision_tree.rs:377-386.  `ceilLog2` is the floating point computation
`(x as f64).log2().ceil() as usize`; theorems that depend on it use `F64Ops.ceilLog2` (`Model/Float`). -/
def encEval (fft : Fft n) (ctx : Ctx) (ceilLog2 : Nat → Nat) (root : EncTree (RGSW n)) : Option (List (RLWE n)) :=
  let maxLeafBits := ceilLog2 (root.maxLeaf + 1)
  let out : List (RLWE n) := List.replicate maxLeafBits 0
  match trivialOne ctx with
  | none => none
  | some c => some (evalEncNode fft root out c)

/-! ## Demultiplexer -/

/-- `demux_rec`, /repo/src/decision_tree.rs:521-544; the level is represented by the list of remaining bits.
`none` = `assert!(level < bits.len())`. -/
def demuxRec (fft : Fft n) : List (RGSW n) → RLWE n → Option (List (RLWE n))
  | [], _ => none
  | c :: rest, b =>
    let left := externalProduct fft c 0 b
    let right := b - left
    match rest with
    | [] => some [left, right]
    | _ :: _ =>
      match demuxRec fft rest left, demuxRec fft rest right with
      | some lo, some ro => some (lo ++ ro)
      | _, _ => none

/-- `demux_with`, /repo/src/decision_tree.rs:496-503. -/
def demuxWith (fft : Fft n) (b : RLWE n) (bits : List (RGSW n)) : Option (List (RLWE n)) := demuxRec fft bits b

/-- `demux`, /repo/src/decision_tree.rs:507-519. -/
def demux (fft : Fft n) (ctx : Ctx) (bits : List (RGSW n)) : Option (List (RLWE n)) :=
  match trivialOne ctx with
  | none => none
  | some c => demuxWith fft c bits

/-- The plaintext bits of `bit_decomposed_rgsw`, /repo/src/decision_tree.rs:704-706: the low `logn` bits, most significant first. -/
def indexBits (i logn : Nat) : List Bool := ((List.range logn).map fun k => i.testBit k).reverse

/-- `bit_decomposed_rgsw`, /repo/src/decision_tree.rs:698-717: bit 1 is encrypted as 0 and bit 0 as 1.
`none` = `log2(0)` underflow. -/
def bitDecomposedRgsw (ctx : Ctx) (s : Poly n) (i m : Nat) (g : Gen n) : Option (List (RGSW n) × Gen n) :=
  match log2 m with
  | none => none
  | some logm =>
    some (mapGen (fun (b : Bool) g => encryptConstantRgsw s ctx.baseLog ctx.levelCount (if b then 0 else 1) g) (indexBits i logm) g)

/-! ## Client side -/

/-- One level of `encrypt_feature_vector`, /repo/src/decision_tree.rs:557-568. `none` = assertion, subtraction underflow, or shift by
64 or more (checked build). -/
def encryptFeatureLevel (ctx : Ctx) (s : Poly n) (logn v level : Nat) (g : Gen n) : Option (RLWE n × Gen n) :=
  if v < n ∧ ctx.baseLog * level + logn ≤ 64 ∧ 64 - ctx.baseLog * level - logn < 64 then
    some (encryptRlwe s (Poly.set 0 v ((1 : Scalar) <<< (64 - ctx.baseLog * level - logn))) g)
  else none

/-- `encrypt_feature_vector`, /repo/src/decision_tree.rs:547-572. -/
def encryptFeatureVector (ctx : Ctx) (s : Poly n) (vs : List Nat) (g : Gen n) : Option (List (List (RLWE n)) × Gen n) :=
  match log2 n with
  | none => none
  | some logn => mapGenM (fun v g => mapGenM (encryptFeatureLevel ctx s logn v) (List.range' 1 ctx.levelCount) g) vs g

/-- The loop of `decrypt_and_recompose`, /repo/src/decision_tree.rs:627-634: bits, least significant first; `none` = "expected binary
plaintext". -/
def decryptBits (ctx : Ctx) (s : Poly n) : List (RLWE n) → Option (List Bool)
  | [] => some []
  | ct :: cts =>
    let x := (decryptDecodeRlwe ctx s ct).get 0
    if x = 0 then (decryptBits ctx s cts).map (false :: ·)
    else if x = 1 then (decryptBits ctx s cts).map (true :: ·)
    else none

/-- Value of a bit list, least significant first  (/repo/src/decision_tree.rs:624-641). -/
def bitsValue : List Bool → Nat
  | [] => 0
  | b :: bs => (if b then 1 else 0) + 2 * bitsValue bs

/-- `decrypt_and_recompose`, /repo/src/decision_tree.rs:624-636.  `bitvec`'s `load::<u64>` panics on an empty and on a longer than
64-bit slice. -/
def decryptAndRecompose (ctx : Ctx) (s : Poly n) (cts : List (RLWE n)) : Option Nat :=
  match decryptBits ctx s cts with
  | none => none
  | some bs => if bs.length = 0 ∨ 64 < bs.length then none else some (bitsValue bs)

/-- The server closure `server_f` of `simulate`, /repo/src/decision_tree.rs:659-668. -/
def simulateServer (fft : Fft n) (ctx : Ctx) (ceilLog2 : Nat → Nat) (model : Tree) (ksks : KskMap n) (negS : RGSW n)
    (cts : List (List (RLWE n))) : Option (List (RLWE n)) :=
  match compareExpand fft ctx model.flatten cts ksks negS with
  | none => none
  | some rgsws =>
    match EncTree.new model rgsws with
    | none => none
    | some (root, _) => encEval fft ctx ceilLog2 root

/-- One iteration of the checking loop of `simulate`, /repo/src/decision_tree.rs:679-684: decrypt, evaluate in the clear, `assert_eq!`. -/
def simulateCheck (ctx : Ctx) (s : Poly n) (model : Tree) (r : List (RLWE n) × List Nat) : Option Nat :=
  match decryptAndRecompose ctx s r.1, model.eval r.2 with
  | some actual, some expected => if expected = actual then some expected else none
  | _, _ => none

/-- `simulate`, /repo/src/decision_tree.rs:643-694 (predictions only; key `s` given; timing dropped; the `parallel` flag only changes who
executes the independent closures). -/
def simulate (fft : Fft n) (ctx : Ctx) (ceilLog2 : Nat → Nat) (s : Poly n) (model : Tree) (features : List (List Nat)) (g : Gen n) :
    Option (List Nat) :=
  match negGsw ctx s g with
  | none => none
  | some (negS, g) =>
    match genAllSubsKsk ctx s g with
    | none => none
    | some (ksks, g) =>
      match mapGenM (encryptFeatureVector ctx s) features g with
      | none => none
      | some (clientCts, _) =>
        match mapOption (simulateServer fft ctx ceilLog2 model ksks negS) clientCts with
        | none => none
        | some outputs => mapOption (simulateCheck ctx s model) (outputs.zip features)

end Panacea
