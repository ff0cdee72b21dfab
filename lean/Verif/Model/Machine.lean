import Verif.Model.Poly
import Verif.Model.Codec
import Verif.Model.NaiveHash
import Verif.Model.Tree

/-!
# Machine arithmetic of the two build profiles

Everywhere else `usize` is `Nat` and an overflow is a panic.  Here the same functions are written on 64-bit words with the operators
of the two ways to build the crate (/repo/Cargo.toml:11-19): `checked` (the dev and test profiles) panics on overflow, underflow
and oversized shifts; `release` (what a user runs) wraps around, and takes shift amounts modulo 64.  `none` = panic.
-/

namespace Panacea

/-- The overflow behaviour of a build profile  (support: Cargo profiles). -/
inductive Build | checked | release
deriving DecidableEq, Repr

/-- `usize` on a 64-bit target  (support: all index arithmetic, e.g. /repo/src/oram.rs:244-300). -/
abbrev Usize := BitVec 64

namespace Build

/-- `x + y`  (support: Rust `usize` addition). -/
def add (b : Build) (x y : Usize) : Option Usize :=
  match b with
  | .checked => if x.toNat + y.toNat < 2 ^ 64 then some (x + y) else none
  | .release => some (x + y)

/-- `x - y`  (support: Rust `usize` subtraction). -/
def sub (b : Build) (x y : Usize) : Option Usize :=
  match b with
  | .checked => if y.toNat ≤ x.toNat then some (x - y) else none
  | .release => some (x - y)

/-- `x * y`  (support: Rust `usize` multiplication). -/
def mul (b : Build) (x y : Usize) : Option Usize :=
  match b with
  | .checked => if x.toNat * y.toNat < 2 ^ 64 then some (x * y) else none
  | .release => some (x * y)

/-- `x << k`  (support: Rust `usize` shift). -/
def shl (b : Build) (x k : Usize) : Option Usize :=
  match b with
  | .checked => if k.toNat < 64 then some (x <<< k.toNat) else none
  | .release => some (x <<< (k.toNat % 64))

/-- `x / y` and `x % y` panic on a zero divisor in every build  (support: Rust `usize` division, e.g. /repo/src/naive_hash.rs:63-70). -/
def divRem (x y : Usize) : Option (Usize × Usize) := if y = 0 then none else some (x / y, x % y)

end Build

/-- `utils::log2`, /repo/src/utils.rs:20-23, `size_of::<usize>() * 8 - leading_zeros - 1`. -/
def log2W (b : Build) (input : Usize) : Option Usize := do
  let x ← b.sub 64 input.clz
  b.sub x 1

/-- `Codec::new`, /repo/src/codec.rs:14-25. -/
def codecNewW (b : Build) (t : Scalar) : Option (Usize × Scalar) := do
  if !isPow2 t.toNat then none
  let logt ← log2W b t
  let k ← b.sub 64 logt
  let delta ← b.shl 1 k
  pure (logt, delta)

/-- `Codec::encode`, /repo/src/codec.rs:39-44, of a codec with the given `base_log` and `delta`; `pt_modulus` is lines 35-37. -/
def codecEncodeW (b : Build) (c : Usize × Scalar) (x : Scalar) : Option Scalar := do
  let m ← b.shl 1 c.1
  if m ≤ x then none
  b.mul x c.2

/-- One iteration of `eval_x_k_in_memory`, /repo/src/utils.rs:46-56; `n` is the polynomial size. -/
def evalXkStepW {n : Nat} (b : Build) (p : Poly n) (k : Usize) (out : Poly n) (i : Nat) : Option (Poly n) := do
  let ik ← b.mul (BitVec.ofNat 64 i) k
  let j ← Build.divRem ik (BitVec.ofNat 64 n)
  let sign : Scalar := if j.1 % 2 == 0 then 1 else 0xFFFFFFFFFFFFFFFF#64
  pure (out.set j.2.toNat (sign * p.get i))

/-- `eval_x_k_in_memory`, /repo/src/utils.rs:36-57. -/
def evalXkInMemoryW {n : Nat} (b : Build) (out p : Poly n) (k : Usize) : Option (Poly n) :=
  if k % 2 = 1 then
    if isPow2 n then
      (List.range' 1 (n - 1)).foldlM (evalXkStepW b p k) (out.set 0 (p.get 0))
    else none
  else none

/-- `struct NaiveHash`, /repo/src/naive_hash.rs:7-11, on words. -/
structure NaiveHashW where
  tables : List Usize
  hCount : Usize
  inputDomain : Usize

/-- `NaiveHash::new`, /repo/src/naive_hash.rs:14-24; the range `0..p` collects the words below `p`. -/
def NaiveHashW.new (b : Build) (shuffle : List Nat → List Nat) (hCount inputDomain : Usize) : Option NaiveHashW := do
  if ¬ 0 < hCount then none
  let p ← b.mul hCount inputDomain
  pure ⟨(shuffle (List.range p.toNat)).map (BitVec.ofNat 64), hCount, inputDomain⟩

/-- `NaiveHash::hash`, /repo/src/naive_hash.rs:34-36 (indexing is bounds checked in every build). -/
def NaiveHashW.hash (b : Build) (H : NaiveHashW) (h x : Usize) : Option Usize := do
  let i ← b.mul H.hCount x
  let i ← b.add i h
  H.tables[i.toNat]?

/-- `NaiveHash::hash_to_tuple`, /repo/src/naive_hash.rs:63-66. -/
def NaiveHashW.hashToTuple (b : Build) (H : NaiveHashW) (h x d : Usize) : Option (Usize × Usize) := do
  let tmp ← H.hash b h x
  Build.divRem tmp d

/-- `NaiveHash::output_domain`, /repo/src/naive_hash.rs:58-60. -/
def NaiveHashW.outputDomain (b : Build) (H : NaiveHashW) : Option Usize := b.mul H.inputDomain H.hCount

/-- `rows * cols / h_count`, /repo/src/oram.rs:92, 570 and /repo/src/main.rs:127. -/
def itemCountW (b : Build) (rows cols hCount : Usize) : Option Usize := do
  let p ← b.mul rows cols
  let r ← Build.divRem p hCount
  pure r.1

/-- The shift of a gadget level with the trace factor, `64 - base_log * level - logn`, /repo/src/decision_tree.rs:559 (feature vectors),
and the shifted one. -/
def featureFactorW (b : Build) (baseLog level logn : Usize) : Option Scalar := do
  let p ← b.mul baseLog level
  let s ← b.sub 64 p
  let s ← b.sub s logn
  b.shl 1 s

/-- The shift of a gadget level, `64 - base_log * level`, /repo/src/oram.rs:254-255, 354-355, /repo/src/rlwe.rs:455-457, 586-587, 1238,
/repo/src/rgsw.rs:217, 248. -/
def gadgetFactorW (b : Build) (baseLog level : Usize) : Option Scalar := do
  let p ← b.mul baseLog level
  let s ← b.sub 64 p
  b.shl 1 s

/-- `pt_to_lossy_u64`, /repo/src/utils.rs:88-95: the loop from position `i` on (`1 << i` is a `u64` shift). -/
def lossyLoopW (b : Build) : (i : Nat) → (out : Scalar) → List Scalar → Option Scalar
  | _, out, [] => some out
  | i, out, x :: xs => do
    if ¬ (x = 0 ∨ x = 1) then none
    let p ← b.shl 1 (BitVec.ofNat 64 i)
    let y ← b.mul x p
    let out ← b.add out y
    lossyLoopW b (i + 1) out xs

/-- `pt_to_lossy_u64`, /repo/src/utils.rs:88-95. -/
def ptToLossyU64W (b : Build) (pt : List Scalar) : Option Scalar := lossyLoopW b 0 0 (pt.take 64)

namespace Tree

/-- `eval_node`, /repo/src/decision_tree.rs:247-277, on words: the numbers stored in the tree are read as words. -/
def evalNodeW (b : Build) (features : List Usize) : Tree → (out bit : Usize) → Option Usize
  | missing, out, _ => some out
  | leaf x, out, bit => do
    let y ← b.mul (BitVec.ofNat 64 x) bit
    b.add out y
  | internal d l r, out, bit =>
    match d.op with
    | .gt => none
    | .leq => do
      let v ← features[d.feature]?
      if v ≤ BitVec.ofNat 64 d.threshold then
        let out ← evalNodeW b features l out bit
        if r.isMissing then pure out
        else
          let nb ← b.sub 1 bit
          let bit' ← b.mul bit nb
          evalNodeW b features r out bit'
      else
        let out ← (if l.isMissing then pure out
          else do
            let nb ← b.sub 1 bit
            let bit' ← b.mul bit nb
            evalNodeW b features l out bit')
        evalNodeW b features r out bit

/-- `Node::eval`, /repo/src/decision_tree.rs:112-116. -/
def evalW (b : Build) (t : Tree) (features : List Usize) : Option Usize := evalNodeW b features t 0 1

/-- `count_leaf`, /repo/src/decision_tree.rs:119-132. -/
def countLeafW (b : Build) : Tree → Option Usize
  | missing => some 0
  | leaf _ => some 1
  | internal _ l r => do
    let x ← countLeafW b l
    let y ← countLeafW b r
    b.add x y

/-- `count_internal`, /repo/src/decision_tree.rs:135-153. -/
def countInternalW (b : Build) : Tree → Option Usize
  | internal _ l r => do
    let x ← countInternalW b l
    let s ← b.add 1 x
    let y ← countInternalW b r
    b.add s y
  | _ => some 0

/-- `count_depth`, /repo/src/decision_tree.rs:156-177. -/
def countDepthW (b : Build) : Tree → Option Usize
  | internal _ l r => do
    let x ← countDepthW b l
    let y ← countDepthW b r
    if x > y then b.add x 1 else b.add y 1
  | _ => some 0

/-- `fix_index` (free function), /repo/src/decision_tree.rs:216-226. -/
def fixIndexFromW (b : Build) : Tree → Usize → Option (Tree × Usize)
  | internal d l r, i => do
    let pl ← (if l.isInternal then do
        let j ← b.add i 1
        fixIndexFromW b l j
      else pure (l, i))
    let pr ← (if r.isInternal then do
        let j ← b.add pl.2 1
        fixIndexFromW b r j
      else pure (r, pl.2))
    pure (internal { d with index := i.toNat } pl.1 pr.1, pr.2)
  | t, i => some (t, i)

end Tree
end Panacea
