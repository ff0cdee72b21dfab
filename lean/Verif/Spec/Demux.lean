import Verif.Spec.Enc

/-! # Specification vocabulary for encrypted bits and indices -/

namespace Panacea
variable {n : Nat}

/-- `C` is a usable RGSW encryption (base log `bl`, `lv` levels) of the bit `b` with row errors at most `E`. -/
structure EncBit (s : Poly n) (C : RGSW n) (b : Bool) (bl lv E : Nat) : Prop where
  wf : C.WF
  baseLog : C.baseLog = bl
  levelCount : C.levelCount = lv
  enc : EncG s C (if b then 1 else 0) E

/-- The number whose binary digits, most significant first, are `bs`. -/
def Spec.msbValue : List Bool → Nat
  | [] => 0
  | b :: bs => (if b then 2 ^ bs.length else 0) + msbValue bs

/-- `bits` encrypt the index `i` for the demultiplexer: `D` usable RGSW ciphertexts, of which number `k` encrypts the *negation* of
binary digit number `k` (most significant first) of `i`; `i < 2^D`. -/
structure EncIndex (s : Poly n) (bits : List (RGSW n)) (D i bl lv E : Nat) : Prop where
  lt : i < 2 ^ D
  digits : ∃ ds : List Bool, ds.length = D ∧ Spec.msbValue ds = i ∧
    List.Forall₂ (fun d C => EncBit s C (!d) bl lv E) ds bits

end Panacea
