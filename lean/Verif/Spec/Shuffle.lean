import Verif.Model.Shuffle
import Verif.Spec.Oram
import Mathlib.Data.Fintype.Pi
import Mathlib.Data.Fintype.Card
import Mathlib.Data.Rat.Defs

/-!
# Specification for C89: chances over the random generator

`gen_index(rng, i + 1)` is a uniformly random number among `0, ..., i`, independent of the others: all sequences of draws are equally likely.
-/

namespace Panacea.Spec

/-- The draws of a shuffle of `M` elements. -/
abbrev Rolls (M : Nat) := (i : Fin M) → Fin (i.val + 1)

/-- The draw for index `i`. -/
def Rolls.at {M : Nat} (d : Rolls M) (i : Nat) : Nat := if h : i < M then (d ⟨i, h⟩).val else 0

open Classical in
/-- The probability of an event over the draws of a shuffle of `M` elements: favourable draws over all draws. -/
noncomputable def chance {M : Nat} (P : Rolls M → Prop) : ℚ := ((Finset.univ.filter P).card : ℚ) / (Fintype.card (Rolls M) : ℚ)

/-- The hash function `NaiveHash::new(hc, N)` makes from the draws. -/
def drawnHash (hc N : Nat) (d : Rolls (hc * N)) : Option NaiveHash := NaiveHash.new (shuffleWith d.at) hc N

/-- A request for the items `is` of a database with `cols` columns is served completely: every item gets a row and a column. -/
def Complete (H : NaiveHash) (cols : Nat) (is : List Nat) : Prop :=
  ∃ m, H.hashToMapping is cols = some m ∧ ∀ i ∈ is, ∃ r c, m r = some (c, i)

/-- The hash function made from the draws does not serve the request completely. -/
def Drops (hc N cols : Nat) (is : List Nat) (d : Rolls (hc * N)) : Prop := ∀ H, drawnHash hc N d = some H → ¬ Complete H cols is

variable {n : Nat}

/-- What a batch does to a plain array: a write stores its data in every requested item. -/
def plainBatch (v : Nat → Poly n) : BatchCmd n → Nat → Poly n
  | .read _ => v
  | .write is a => fun i => if i ∈ is then a else v i

/-- Every batch answers every requested item, with the content a plain array has at that time; the client knows which response it is. -/
def AllAnswered (H : NaiveHash) (cols : Nat) : (Nat → Poly n) → List (BatchCmd n) → List (List (Poly n)) → Prop
  | _, [], [] => True
  | v, c :: cs, y :: ys =>
    (∀ i ∈ c.indices, ∃ m r col, H.hashToMapping c.indices cols = some m ∧ m r = some (col, i) ∧ y[r]? = some (v i)) ∧
    AllAnswered H cols (plainBatch v c) cs ys
  | _, _, _ => False

/-- The run succeeds and answers every requested item of every batch like a plain array. -/
def RunAnswersAll (fft : Fft n) (ctx : Ctx) (s : Poly n) (rows cols : Nat) (H : NaiveHash) (cmds : List (BatchCmd n)) (g : Gen n) : Prop :=
  ∃ S pts g1 yss S' g', setupRandomOram ctx s rows cols H g = some (S, pts, g1) ∧
    runBatches fft ctx s rows cols H cmds S g1 = some (yss, S', g') ∧ AllAnswered H cols (fun i => pts.getD i 0) cmds yss

end Panacea.Spec
