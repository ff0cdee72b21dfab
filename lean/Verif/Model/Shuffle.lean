import Verif.Model.NaiveHash

/-!
# The shuffle behind `NaiveHash::new`, /repo/src/naive_hash.rs:16-18

`tables.shuffle(&mut rng)` is `rand::seq::SliceRandom::shuffle` of rand 0.8.5 (Cargo.lock):
`for i in (1..self.len()).rev() { self.swap(i, gen_index(rng, i + 1)); }`.
-/

namespace Panacea

/-- `slice::swap`  (used by `shuffle`, /repo/src/naive_hash.rs:18); the indices drawn are always in range. -/
def swapAt (l : List Nat) (i j : Nat) : List Nat :=
  match l[i]?, l[j]? with
  | some a, some b => (l.set i b).set j a
  | _, _ => l

/-- The loop of `shuffle` for `i, i - 1, ..., 1`; `draw i` is the value of `gen_index(rng, i + 1)`, at most `i`
(/repo/src/naive_hash.rs:18). -/
def shuffleLoop (draw : Nat → Nat) : Nat → List Nat → List Nat
  | 0, l => l
  | i + 1, l => shuffleLoop draw i (swapAt l (i + 1) (draw (i + 1)))

/-- `tables.shuffle(&mut rng)`, /repo/src/naive_hash.rs:18. -/
def shuffleWith (draw : Nat → Nat) (l : List Nat) : List Nat := shuffleLoop draw (l.length - 1) l

end Panacea
