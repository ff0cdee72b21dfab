import Verif.Model.FlatTree
import Verif.Spec.Flat
import Verif.Spec.Tree

/-! # Specification of encrypted trees with missing children -/

namespace Panacea.Flat

/-- The tree with every missing child replaced by a leaf with label 0. -/
def EncNode.fillMissing : EncNode → EncNode
  | .missing => .leaf 0
  | .leaf x => .leaf x
  | .internal ct l r => .internal ct l.fillMissing r.fillMissing

end Panacea.Flat
