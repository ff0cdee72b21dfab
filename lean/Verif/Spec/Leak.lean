import Verif.Spec.Tree

/-!
# What the answers of the tree server can depend on

`CanReturn`: the labels a tree can return (0 for a missing child).  `collapse i`: the tree as far as bit `i` of its labels is concerned; subtrees that always
give the same bit are leaves, node numbers are erased.
-/

namespace Panacea.Spec

/-- Some walk from the root, ignoring the comparisons, ends with label `x`. -/
inductive CanReturn (x : Nat) : Tree → Prop
  | missing : x = 0 → CanReturn x .missing
  | leaf : CanReturn x (.leaf x)
  | left (d l r) : CanReturn x l → CanReturn x (.internal d l r)
  | right (d l r) : CanReturn x r → CanReturn x (.internal d l r)

/-- Bit `i` of the label is `b` wherever a walk ends. -/
def ConstBit (i : Nat) (b : Bool) (t : Tree) : Prop := ∀ x, CanReturn x t → x.testBit i = b

/-- The tree as far as bit `i` of its labels is concerned. -/
def collapse (i : Nat) : Tree → Tree
  | .missing => .leaf 0
  | .leaf x => .leaf (if x.testBit i then 2 ^ i else 0)
  | .internal d l r =>
    match collapse i l, collapse i r with
    | .leaf x, .leaf y => if x = y then .leaf x else .internal { d with index := 0 } (.leaf x) (.leaf y)
    | l', r' => .internal { d with index := 0 } l' r'

end Panacea.Spec
