import Verif.Model.Tree

/-! # Path semantics of decision trees (specification, independent of the evaluator) -/

namespace Panacea.Spec

/-- `d` is the data of some internal node of the tree. -/
inductive HasNode (d : NodeData) : Tree → Prop
  | here (l r) : HasNode d (.internal d l r)
  | left (d' l r) : HasNode d l → HasNode d (.internal d' l r)
  | right (d' l r) : HasNode d r → HasNode d (.internal d' l r)

/-- The tree contains a leaf labelled `x`. -/
inductive HasLeaf (x : Nat) : Tree → Prop
  | here : HasLeaf x (.leaf x)
  | left (d l r) : HasLeaf x l → HasLeaf x (.internal d l r)
  | right (d l r) : HasLeaf x r → HasLeaf x (.internal d l r)

/-- Walking from the root, left iff `feature ≤ threshold`, ends with label `y` (0 for a missing child). -/
inductive Path (features : List Nat) : Tree → Nat → Prop
  | missing : Path features .missing 0
  | leaf (x) : Path features (.leaf x) x
  | goLeft (d l r v y) : features[d.feature]? = some v → v ≤ d.threshold → Path features l y →
      Path features (.internal d l r) y
  | goRight (d l r v y) : features[d.feature]? = some v → d.threshold < v → Path features r y →
      Path features (.internal d l r) y

/-- No child is missing anywhere. -/
inductive Full : Tree → Prop
  | leaf (x) : Full (.leaf x)
  | internal (d l r) : Full l → Full r → Full (.internal d l r)

/-- Same shape, thresholds, features, operations and labels; indices may differ. -/
inductive SameButIndex : Tree → Tree → Prop
  | missing : SameButIndex .missing .missing
  | leaf (x) : SameButIndex (.leaf x) (.leaf x)
  | internal (d d' l l' r r') : d.threshold = d'.threshold → d.feature = d'.feature → d.op = d'.op →
      SameButIndex l l' → SameButIndex r r' → SameButIndex (.internal d l r) (.internal d' l' r')

/-- Labels of the leaves from left to right. -/
def leafLabels : Tree → List Nat
  | .missing => []
  | .leaf x => [x]
  | .internal _ l r => leafLabels l ++ leafLabels r

end Panacea.Spec
