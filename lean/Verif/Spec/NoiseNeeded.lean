import Verif.Spec.Secure
import Verif.Spec.Noise

/-! # The search over all keys as a test against RLWE -/

namespace Panacea.Spec
variable {n : Nat}

/-- The exhaustive test: is there a binary key under which all pairs from number `L` on have a noise of at most `B`? -/
def exhaustive (L B : Nat) (x : List (RLWE n)) : Prop := ∃ s : Poly n, Binary s ∧ ∀ c ∈ x.drop L, Small (decryptRlwe s c) B

end Panacea.Spec
