import Verif.Spec.Mixed

/-! # The array a user of all three kinds of calls has in mind, and where the server agrees with it -/

namespace Panacea
variable {n : Nat}

/-- The items a call writes through the single-query interface. -/
def MixedStep.singleWrites : MixedStep n → List Nat
  | .one c => (match c with | .read _ => [] | .write i _ => [i])
  | .multi cs => cs.filterMap fun c => match c with | .read _ => none | .write i _ => some i
  | .batch _ => []

/-- The single commands of a call. -/
def MixedStep.singles : MixedStep n → List (Cmd n)
  | .one c => [c]
  | .multi cs => cs
  | .batch _ => []

/-- The array after a call. -/
noncomputable def Spec.arrayAfter (H : NaiveHash) (cols : Nat) (v : Nat → Poly n) : MixedStep n → Nat → Poly n
  | .one c => Spec.apply v c
  | .multi cs => cs.foldl Spec.apply v
  | .batch c => Spec.applyBatch H cols v c

/-- The items written through the single-query interface since the last batch. -/
def Spec.dirtyAfter (D : List Nat) : MixedStep n → List Nat
  | .batch _ => []
  | st => st.singleWrites ++ D

/-- The answers agree with the array: those to single commands always; row `r` of the answer to a batch, if the mapping assigns item `i` to
it, shows the content of `i`, *unless* `i` was written by a single command since the last batch (`i ∈ D`) and row `r` is served from another
copy than the first. -/
def Spec.arrayOk (H : NaiveHash) (cols : Nat) : (Nat → Poly n) → List Nat → List (MixedStep n) → List (List (Poly n)) → Prop
  | _, _, [], [] => True
  | v, D, st :: sts, y :: ys =>
    (match st with
      | .one c => y = [v c.index]
      | .multi cs => y = cs.map fun c => v c.index
      | .batch c => ∀ m r col i, H.hashToMapping c.indices cols = some m → m r = some (col, i) →
          (i ∉ D ∨ H.hashToTuple 0 i cols = some (r, col)) → y[r]? = some (v i)) ∧
    Spec.arrayOk H cols (Spec.arrayAfter H cols v st) (Spec.dirtyAfter D st) sts ys
  | _, _, _, _ => False

end Panacea
