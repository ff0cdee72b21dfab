/-!
# Clear decision trees, /repo/src/decision_tree.rs:34-326, and the construction of encrypted trees, 354-458

Representation: `Option<Node>` and `Node` share one inductive type `Tree`; `Tree.missing` is `None`.
A Rust `Node` is a `Tree` that is not `missing` (children may be).  `usize` arithmetic on counters and labels is on `Nat`.
`none` = panic.
-/

namespace Panacea

/-- `enum Op`, /repo/src/decision_tree.rs:37-40. -/
inductive Op | leq | gt
deriving DecidableEq, Repr

/-- The non-recursive fields of `struct Internal`, /repo/src/decision_tree.rs:207-214. -/
structure NodeData where
  threshold : Nat
  feature : Nat
  index : Nat
  op : Op
deriving DecidableEq, Repr

/-- `Option<Node>`, /repo/src/decision_tree.rs:45-49 and 207-214. -/
inductive Tree
  | missing
  | leaf (label : Nat)
  | internal (d : NodeData) (left right : Tree)
deriving DecidableEq, Repr

namespace Tree

/-- `Some(Node::Internal(_))`  (/repo/src/decision_tree.rs:299-326). -/
def isInternal : Tree → Bool
  | internal .. => true
  | _ => false

/-- `None`  (/repo/src/decision_tree.rs:299-326). -/
def isMissing : Tree → Bool
  | missing => true
  | _ => false

/-- `fix_index` (free function), /repo/src/decision_tree.rs:216-226, on an internal node; returns the new node and the last
index used.  A leaf or missing child keeps the counter; an internal child is numbered from `i + 1`. -/
def fixIndexFrom : Tree → Nat → Tree × Nat
  | internal d l r, i =>
    let pl : Tree × Nat := if l.isInternal then fixIndexFrom l (i + 1) else (l, i)
    let pr : Tree × Nat := if r.isInternal then fixIndexFrom r (pl.2 + 1) else (r, pl.2)
    (internal { d with index := i } pl.1 pr.1, pr.2)
  | t, i => (t, i)

/-- `Node::fix_index`, /repo/src/decision_tree.rs:90-95; `none` = "this is a leaf". -/
def fixIndex : Tree → Option (Tree × Nat)
  | t@(internal ..) => some (t.fixIndexFrom 0)
  | _ => none

/-- `flatten_tree`/`Node::flatten`, /repo/src/decision_tree.rs:99-109, 228-245.  Each pushed `Internal` has its children
replaced by `Leaf(0)`, so only its data is kept here. -/
def flatten : Tree → List NodeData
  | internal d l r => d :: (flatten l ++ flatten r)
  | _ => []

/-- `eval_node`, /repo/src/decision_tree.rs:247-277: accumulates into `out`, visits *both* children;
`none` = panic (`todo!()` on GT, feature index out of bounds, or `1 - b` underflow). -/
def evalNode (features : List Nat) : Tree → (out b : Nat) → Option Nat
  | missing, out, _ => some out
  | leaf x, out, b => some (out + x * b)
  | internal d l r, out, b =>
    match d.op with
    | .gt => none
    | .leq =>
      match features[d.feature]? with
      | none => none
      | some v =>
        if v ≤ d.threshold then
          match evalNode features l out b with
          | none => none
          | some out' =>
            if r.isMissing then some out'
            else if b ≤ 1 then evalNode features r out' (b * (1 - b)) else none
        else
          match (if l.isMissing then some out
            else if b ≤ 1 then evalNode features l out (b * (1 - b)) else none) with
          | none => none
          | some out' => evalNode features r out' b

/-- `Node::eval`, /repo/src/decision_tree.rs:112-116. -/
def eval (t : Tree) (features : List Nat) : Option Nat := evalNode features t 0 1

/-- `count_leaf`, /repo/src/decision_tree.rs:119-132 (a missing child counts 0). -/
def countLeaf : Tree → Nat
  | missing => 0
  | leaf _ => 1
  | internal _ l r => countLeaf l + countLeaf r

/-- `count_internal`, /repo/src/decision_tree.rs:135-153 (a missing child is treated as `Leaf(0)`). -/
def countInternal : Tree → Nat
  | internal _ l r => 1 + countInternal l + countInternal r
  | _ => 0

/-- `count_depth`, /repo/src/decision_tree.rs:156-177. -/
def countDepth : Tree → Nat
  | internal _ l r => if countDepth l > countDepth r then countDepth l + 1 else countDepth r + 1
  | _ => 0

/-- `max_feature_index`, /repo/src/decision_tree.rs:180-201. -/
def maxFeatureIndex : Tree → Nat
  | internal d l r => max (max d.feature (maxFeatureIndex l)) (maxFeatureIndex r)
  | _ => 0

/-- `gen_full_tree`, /repo/src/decision_tree.rs:279-297; the `&mut bool` is threaded. -/
def genFullTree : Nat → Bool → Tree × Bool
  | 0, done => if done then (leaf 0, done) else (leaf 1, true)
  | d + 1, done =>
    let l := genFullTree d done
    let r := genFullTree d l.2
    (internal ⟨0, 0, 0, .leq⟩ l.1 r.1, r.2)

/-- `Node::new_with_depth`, /repo/src/decision_tree.rs:84-87 (`Default` is depth 1, lines 51-57). -/
def newWithDepth (d : Nat) : Tree := (genFullTree d false).1

/-- `trunc_tree`, /repo/src/decision_tree.rs:299-326. -/
def trunc : Tree → Tree
  | missing => missing
  | leaf x => if x = 0 then missing else leaf x
  | internal d l r =>
    match trunc l, trunc r with
    | missing, missing => missing
    | l', r' => internal d l' r'

end Tree

/-- `EncNode`/`EncInternal`, /repo/src/decision_tree.rs:355-358, 415-419, over an abstract ciphertext type.  Children of an
`EncInternal` built by the code are always `Some`, so they are not optional here. -/
inductive EncTree (C : Type)
  | leaf (label : Nat)
  | internal (ct : C) (left right : EncTree C)
deriving DecidableEq, Repr

namespace EncTree
variable {C : Type}

/-- `new_enc_node`, /repo/src/decision_tree.rs:421-458: builds the encrypted subtree for an optional child, consuming the
iterator (a list).  A missing child keeps the default `Leaf(0)`.  `none` = panic "missing RGSW ciphertext". -/
def build : Tree → List C → Option (EncTree C × List C)
  | .missing, cts => some (leaf 0, cts)
  | .leaf x, cts => some (leaf x, cts)
  | .internal _ l r, cts =>
    match cts with
    | [] => none
    | ct :: cts =>
      match build l cts with
      | none => none
      | some (l', cts) =>
        match build r cts with
        | none => none
        | some (r', cts) => some (internal ct l' r', cts)

/-- `EncNode::new`, /repo/src/decision_tree.rs:362-374: takes one ciphertext first, then panics on a leaf. Returns also the
rest of the iterator. -/
def new (root : Tree) (cts : List C) : Option (EncTree C × List C) :=
  match cts with
  | [] => none
  | _ :: _ =>
    match root with
    | .internal .. => build root cts
    | _ => none

/-- `EncNode::max_leaf`, /repo/src/decision_tree.rs:389-411. -/
def maxLeaf : EncTree C → Nat
  | leaf x => x
  | internal _ l r => max (maxLeaf l) (maxLeaf r)

end EncTree
end Panacea
