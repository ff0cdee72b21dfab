import Mathlib.Data.List.Perm.Basic

/-! # /repo/src/naive_hash.rs -/

namespace Panacea

/-- `struct NaiveHash`, /repo/src/naive_hash.rs:7-11. -/
structure NaiveHash where
  tables : List Nat
  hCount : Nat
  inputDomain : Nat
deriving DecidableEq, Repr

namespace NaiveHash

/-- `NaiveHash::new`, /repo/src/naive_hash.rs:14-24.  The RNG shuffle is an arbitrary function `shuffle`
(theorems assume only that it permutes its argument).  `usize` overflow of the product is not modelled. -/
def new (shuffle : List Nat → List Nat) (hCount inputDomain : Nat) : Option NaiveHash :=
  if hCount > 0 then some ⟨shuffle (List.range (hCount * inputDomain)), hCount, inputDomain⟩ else none

/-- `NaiveHash::hash`, /repo/src/naive_hash.rs:34-36; `none` = index out of bounds panic. -/
def hash (H : NaiveHash) (h x : Nat) : Option Nat := H.tables[H.hCount * x + h]?

/-- `NaiveHash::checked_hash`, /repo/src/naive_hash.rs:26-32: outer `none` = panic, inner `none` = returned `None`. -/
def checkedHash (H : NaiveHash) (h x : Nat) : Option (Option Nat) :=
  if h ≥ H.hCount ∨ x ≥ H.inputDomain then some none else (H.hash h x).map some

/-- `hash0`, /repo/src/naive_hash.rs:38-40. -/
def hash0 (H : NaiveHash) (x : Nat) := H.hash 0 x
/-- `hash1`, /repo/src/naive_hash.rs:42-44. -/
def hash1 (H : NaiveHash) (x : Nat) := H.hash 1 x
/-- `hash2`, /repo/src/naive_hash.rs:46-48. -/
def hash2 (H : NaiveHash) (x : Nat) := H.hash 2 x

/-- `output_domain`, /repo/src/naive_hash.rs:58-60. -/
def outputDomain (H : NaiveHash) : Nat := H.inputDomain * H.hCount

/-- `hash_to_tuple`, /repo/src/naive_hash.rs:63-66; `none` = panic (index out of bounds or division by zero). -/
def hashToTuple (H : NaiveHash) (h x d : Nat) : Option (Nat × Nat) :=
  match H.hash h x with
  | none => none
  | some tmp => if d = 0 then none else some (tmp / d, tmp % d)

/-- `HashMap<usize, (usize, usize)>` keyed by row, /repo/src/naive_hash.rs:74, as a partial function
(the code only uses `entry`, `get` and order-independent iteration). -/
abbrev Mapping := Nat → Option (Nat × Nat)

/-- `e.insert((c, i))` on a vacant entry `r`  (/repo/src/naive_hash.rs:72-89). -/
def Mapping.insert (m : Mapping) (r : Nat) (v : Nat × Nat) : Mapping := fun r' => if r' = r then some v else m r'

/-- The inner loop `for h in 0..self.h_count()`, /repo/src/naive_hash.rs:76-85, over the remaining values of `h`. -/
def mapOne (H : NaiveHash) (d i : Nat) : List Nat → Mapping → Option Mapping
  | [], out => some out
  | h :: hs, out =>
    match H.hashToTuple h i d with
    | none => none
    | some (r, c) =>
      match out r with
      | none => some (out.insert r (c, i))
      | some _ => if h ≥ H.hCount then none else mapOne H d i hs out

/-- The outer loop `for i in is`, /repo/src/naive_hash.rs:75-86. -/
def mapAll (H : NaiveHash) (d : Nat) : List Nat → Mapping → Option Mapping
  | [], out => some out
  | i :: is, out =>
    match H.mapOne d i (List.range H.hCount) out with
    | none => none
    | some out' => mapAll H d is out'

/-- `NaiveHash::hash_to_mapping`, /repo/src/naive_hash.rs:72-88; `none` = panic. -/
def hashToMapping (H : NaiveHash) (is : List Nat) (d : Nat) : Option Mapping := H.mapAll d is (fun _ => none)

end NaiveHash
end Panacea
