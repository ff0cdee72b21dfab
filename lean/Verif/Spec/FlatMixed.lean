import Verif.Spec.FlatOram
import Verif.Spec.Mixed

/-! # Mixed sessions in memory -/

namespace Panacea
namespace Flat
variable {n : Nat}

/-- A session of single, multi-query and batch calls in memory (`Panacea.runMixed` on word vectors). -/
def runMixed (fft : Fft n) (ctx : Ctx) (s : Poly n) (rows cols : Nat) (H : NaiveHash) :
    List (FlatReducer × MixedStep n) → Server → Gen n → Option (List (List Words) × Server × Gen n)
  | [], S, g => some ([], S, g)
  | (R, .one c) :: sts, S, g =>
    match clientQuery ctx s rows cols H c g with
    | none => none
    | some (q, g) =>
      match S.processOne R.one fft q with
      | none => none
      | some (y, S) =>
        match runMixed fft ctx s rows cols H sts S g with
        | none => none
        | some (ys, S, g) => some ([reveal ctx s y] :: ys, S, g)
  | (R, .multi cs) :: sts, S, g =>
    match collect (clientQuery ctx s rows cols H) cs g with
    | none => none
    | some (qs, g) =>
      match S.processMulti R.vec R.gsw fft qs with
      | none => none
      | some (y, S) =>
        match runMixed fft ctx s rows cols H sts S g with
        | none => none
        | some (ys, S, g) => some (y.map (reveal ctx s) :: ys, S, g)
  | (_, .batch c) :: sts, S, g =>
    match clientBatch ctx s rows cols H c g with
    | none => none
    | some (qs, g) =>
      match S.processBatch fft qs H with
      | none => none
      | some (y, S) =>
        match runMixed fft ctx s rows cols H sts S g with
        | none => none
        | some (ys, S, g) => some (y.map (reveal ctx s) :: ys, S, g)

end Flat
end Panacea
