import Verif.Model.EncEval

/-!
# Circuits for the evaluation of decision trees

As `Spec/Circuit`, for the server of the private decision tree evaluation: terms over the client's ciphertexts and the evaluation keys,
built from public constants and homomorphic operations only.  No comparison, branch or index depends on a ciphertext.
-/

namespace Panacea
variable {n : Nat}

mutual
/-- Circuits computing an RLWE ciphertext. -/
inductive TCirc
  /-- ciphertext `l` of feature `f` sent by the client -/
  | input (f l : Nat)
  /-- the all-zero ciphertext -/
  | zero
  /-- trivial ciphertext of a public constant -/
  | const (w : Scalar)
  | add (a b : TCirc)
  | sub (a b : TCirc)
  /-- comparison of the encrypted feature with the public threshold `d` -/
  | leq (d : Nat) (a : TCirc)
  /-- substitution with the public evaluation key stored under `k` -/
  | subs (k : Nat) (a : TCirc)
  /-- external product, accumulated into `out` -/
  | ext (C : TGCirc) (out d : TCirc)
/-- Circuits computing an RGSW ciphertext. -/
inductive TGCirc
  /-- the encryption of the negated key -/
  | negS
  /-- an RGSW ciphertext without levels -/
  | empty (baseLog : Nat)
  /-- append one level -/
  | level (C : TGCirc) (r0 r1 : TCirc)
end

/-- What the server receives. -/
structure PdteInputs (n : Nat) where
  cts : List (List (RLWE n))
  ksks : KskMap n
  negS : RGSW n

mutual
/-- The value of a circuit. -/
def TCirc.eval (fft : Fft n) (I : PdteInputs n) : TCirc → RLWE n
  | .input f l => ((I.cts[f]?.bind fun c => c[l]?).getD 0)
  | .zero => 0
  | .const w => ⟨0, Poly.set 0 0 w⟩
  | .add a b => a.eval fft I + b.eval fft I
  | .sub a b => a.eval fft I - b.eval fft I
  | .leq d a => ((a.eval fft I).lessEqThan fft d).getD 0
  | .subs k a => (((I.ksks k).bind fun K => K.fourierSubs ⟨[], []⟩ (a.eval fft I)).map fun x =>
      (⟨fft.backward x.mask, fft.backward x.body⟩ : RLWE n)).getD 0
  | .ext C out d => externalProduct fft (C.eval fft I) (out.eval fft I) (d.eval fft I)
/-- The value of a circuit. -/
def TGCirc.eval (fft : Fft n) (I : PdteInputs n) : TGCirc → RGSW n
  | .negS => I.negS
  | .empty bl => ⟨bl, []⟩
  | .level C r0 r1 => ⟨(C.eval fft I).baseLog, (C.eval fft I).rows ++ [(r0.eval fft I, r1.eval fft I)]⟩
end

/-- The public shape of an evaluation key: substitution exponent, level count and number of rows. -/
abbrev KskShape := Nat → Option (Nat × Nat × Nat)

/-- The public shape of the server's inputs: number of ciphertexts per feature, shapes of the evaluation keys. -/
structure PdteShape (lens : List Nat) (shape : KskShape) (I : PdteInputs n) : Prop where
  cts : I.cts.map List.length = lens
  keys : ∀ k, (I.ksks k).map (fun K => (K.subsK, K.levelCount, K.ksks.length)) = shape k

end Panacea
