import Verif.Model.Scalar

/-! # /repo/src/utils.rs (list functions; `eval_x_k` is in `Model/Poly.lean`) -/

namespace Panacea

/-- One round of `iters.iter_mut().map(|n| n.next().unwrap()).collect()`, /repo/src/utils.rs:65-68:
take the head of every iterator; `none` = `unwrap` on an exhausted iterator. Returns the heads and the advanced iterators. -/
def nextAll {α : Type} : List (List α) → Option (List α × List (List α))
  | [] => some ([], [])
  | [] :: _ => none
  | (x :: xs) :: rest =>
    match nextAll rest with
    | none => none
    | some (hs, ts) => some (x :: hs, xs :: ts)

/-- The `(0..len).map(...)` loop of `transpose`, /repo/src/utils.rs:63-70. -/
def transposeLoop {α : Type} : Nat → List (List α) → Option (List (List α))
  | 0, _ => some []
  | k + 1, iters =>
    match nextAll iters with
    | none => none
    | some (hs, ts) =>
      match transposeLoop k ts with
      | none => none
      | some rest => some (hs :: rest)

/-- `utils::transpose`, /repo/src/utils.rs:59-71.  `none` = panic. -/
def transpose {α : Type} (v : List (List α)) : Option (List (List α)) :=
  match v with
  | [] => none
  | r :: _ => transposeLoop r.length v

/-- Loop of `pt_to_lossy_u64`, /repo/src/utils.rs:90-93, with the checked `u64` addition. -/
def lossyLoop : (i : Nat) → (out : Nat) → List Scalar → Option Nat
  | _, out, [] => some out
  | i, out, x :: xs =>
    if x = 0 ∨ x = 1 then
      let o := out + x.toNat * 2 ^ i
      if o < 2 ^ 64 then lossyLoop (i + 1) o xs else none
    else none

/-- `utils::pt_to_lossy_u64`, /repo/src/utils.rs:88-95 (`none` = panic). -/
def ptToLossyU64 (pt : List Scalar) : Option Nat := lossyLoop 0 0 (pt.take 64)

end Panacea
