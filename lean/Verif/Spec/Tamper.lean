import Verif.Spec.Oram

/-! # A server that changes what it stores or answers, without any key -/

namespace Panacea
variable {n : Nat}

/-- Add a public plaintext (already encoded) to a ciphertext. -/
def addPublic (c : RLWE n) (p : Poly n) : RLWE n := ⟨c.mask, c.body + p⟩

/-- Replace the cell at column `c` of the (first) row. -/
def storeCell (S : Server n) (c : Nat) (x : RLWE n) : Server n :=
  { S with data := match S.data with
      | [] => []
      | row :: rest => row.set c x :: rest }

/-- Coefficientwise addition of plaintexts modulo `t`. -/
def Spec.addMod (t : Scalar) (a b : Poly n) : Poly n := ⟨fun k => BitVec.ofNat 64 (((a k).toNat + (b k).toNat) % t.toNat)⟩

end Panacea
