import Mathlib.Data.BitVec

/-!
# Scalars

`Scalar = u64` (`/repo/src/num_types.rs`), the discretised torus.  Wrapping arithmetic is `BitVec 64`
arithmetic.  `usize` values are modelled by `Nat`; where the code could overflow a `usize` the model
either says so or returns `none` (= panic in a checked build).
-/

namespace Panacea

/-- `pub type Scalar = u64`, /repo/src/num_types.rs:1-10. -/
abbrev Scalar := BitVec 64

/-- Model of `{u64,usize}::is_power_of_two` from the Rust standard library
(used at /repo/src/codec.rs:15, /repo/src/utils.rs:44, /repo/src/oram.rs). -/
def isPow2 (n : Nat) : Bool := n != 0 && 2 ^ Nat.log2 n == n

/-- `utils::log2`, /repo/src/utils.rs:20-23: `64 - leading_zeros - 1` in checked arithmetic
(`none` = "attempt to subtract with overflow").  `input` is a `usize`, i.e. meant for `input < 2^64`. -/
def log2 (input : Nat) : Option Nat :=
  let lz := (BitVec.ofNat 64 input).clz.toNat
  if 64 - lz < 1 then none else some (64 - lz - 1)

end Panacea
