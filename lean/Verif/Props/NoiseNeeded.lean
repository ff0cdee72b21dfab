import Verif.Props.Secure
import Verif.Spec.NoiseNeeded
import Mathlib.Data.Int.Interval

/-!
# C92: the privacy is computational only, and it rests on the noise

The hypothesis `Hard` of C90, C91 restricts the tests.  These theorems say that it has to: a server without any limit on its computations tells the
rows of the client's ciphertexts from random pairs by trying all keys.  Only noise that covers the whole torus (`C90_uniform_noise`) would hide
the accesses from everybody, and from the client too.
-/

namespace Panacea
open Spec
variable {n : Nat}

theorem card_binary (n : Nat) : Nat.card {s : Poly n // Binary s} ≤ 2 ^ n := by
  have h : Function.Injective fun s : {s : Poly n // Binary s} => fun k : Fin n => decide (s.1 k = 1) := by
    intro s s' e
    refine Subtype.ext (Poly.ext (funext fun k => ?_))
    have hk : decide (s.1 k = 1) = decide (s'.1 k = 1) := congrFun e k
    rw [decide_eq_decide] at hk
    show s.1 k = s'.1 k
    rcases s.2 k with h1 | h1 <;> rcases s'.2 k with h2 | h2 <;> rw [h1, h2] at hk ⊢ <;> revert hk <;> decide
  refine le_trans (Nat.card_le_card_of_injective _ h) ?_
  rw [Nat.card_eq_fintype_card, Fintype.card_fun, Fintype.card_bool, Fintype.card_fin]

theorem card_small (n B : Nat) : Nat.card {e : Poly n // Small e B} ≤ (2 * B + 1) ^ n := by
  have h : Function.Injective fun e : {e : Poly n // Small e B} => fun k : Fin n => (⟨(e.1 k).toInt, by
      have := e.2 k
      rw [Finset.mem_Icc]
      omega⟩ : Finset.Icc (-(B : ℤ)) B) := by
    intro e e' h
    refine Subtype.ext (Poly.ext (funext fun k => ?_))
    have hk := congrArg Subtype.val (congrFun h k)
    exact BitVec.eq_of_toInt_eq hk
  refine le_trans (Nat.card_le_card_of_injective _ h) ?_
  rw [Nat.card_eq_fintype_card, Fintype.card_fun, Fintype.card_fin, Fintype.card_coe, Int.card_Icc]
  refine le_of_eq (congrArg (· ^ n) ?_)
  omega

theorem card_exhaustive (n M B : Nat) :
    Nat.card {y : Fin M → RLWE n // ∃ s : Poly n, Binary s ∧ ∀ i, Small (decryptRlwe s (y i)) B} ≤ 2 ^ n * ((2 ^ 64) ^ n * (2 * B + 1) ^ n) ^ M := by
  let φ : {s : Poly n // Binary s} × (Fin M → Poly n × {e : Poly n // Small e B}) →
      {y : Fin M → RLWE n // ∃ s : Poly n, Binary s ∧ ∀ i, Small (decryptRlwe s (y i)) B} := fun p =>
    ⟨fun i => ⟨(p.2 i).1, (p.2 i).1 * p.1.1 + (p.2 i).2.1⟩, p.1.1, p.1.2, fun i => by
      have : decryptRlwe p.1.1 ⟨(p.2 i).1, (p.2 i).1 * p.1.1 + (p.2 i).2.1⟩ = (p.2 i).2.1 := by
        unfold decryptRlwe
        ring
      rw [this]
      exact (p.2 i).2.2⟩
  have hφ : Function.Surjective φ := by
    rintro ⟨y, s, hs, hy⟩
    refine ⟨(⟨s, hs⟩, fun i => ((y i).mask, ⟨decryptRlwe s (y i), hy i⟩)), Subtype.ext (funext fun i => ?_)⟩
    show RLWE.mk (y i).mask ((y i).mask * s + decryptRlwe s (y i)) = y i
    refine RLWE.ext rfl ?_
    show (y i).mask * s + decryptRlwe s (y i) = (y i).body
    unfold decryptRlwe
    ring
  refine le_trans (Nat.card_le_card_of_surjective φ hφ) ?_
  rw [Nat.card_prod, Nat.card_fun, Nat.card_prod, poly_card, pow_mul, Nat.card_fin]
  exact Nat.mul_le_mul (card_binary n) (Nat.pow_le_pow_left (Nat.mul_le_mul_left _ (card_small n B)) _)

/-- Random pairs pass the exhaustive test rarely. -/
theorem exhaustive_ideal (n L M B : Nat) :
    idealChance n (L + M) (exhaustive (n := n) L B) ≤ 2 ^ n * ((2 * B + 1 : ℝ) / 2 ^ 64) ^ (n * M) := by
  -- the pairs from number `L` on, as a homomorphism
  let F : (Fin (L + M) → RLWE n) →+ (Fin M → RLWE n) := ⟨⟨fun x i => x (Fin.natAdd L i), rfl⟩, fun _ _ => rfl⟩
  have hF : Function.Surjective F := fun y => ⟨Fin.append (fun _ => 0) y, funext fun i =>
    show Fin.append (fun _ : Fin L => (0 : RLWE n)) y (Fin.natAdd L i) = y i from Fin.append_right _ _ i⟩
  have hD : ∀ x : Fin (L + M) → RLWE n, exhaustive L B (List.ofFn x) ↔ ∃ s : Poly n, Binary s ∧ ∀ i, Small (decryptRlwe s (F x i)) B := fun x => by
    unfold exhaustive
    refine exists_congr fun s => and_congr_right fun _ => ?_
    constructor
    · intro h i
      refine h _ ?_
      rw [List.mem_iff_getElem]
      exact ⟨i.1, by simp, by simp [F, Fin.natAdd]⟩
    · intro h c hc
      rw [List.mem_iff_getElem] at hc
      obtain ⟨i, hi, rfl⟩ := hc
      have hi' : i < M := by simpa using hi
      have := h ⟨i, hi'⟩
      simpa [F, Fin.natAdd] using this
  unfold idealChance
  rw [show Nat.card {x : Fin (L + M) → RLWE n // exhaustive L B (List.ofFn x)} =
    Nat.card {x : Fin (L + M) → RLWE n // ∃ s : Poly n, Binary s ∧ ∀ i, Small (decryptRlwe s (F x i)) B} from
    Nat.card_congr (Equiv.subtypeEquivRight hD)]
  rw [card_preimage F hF (fun y => ∃ s : Poly n, Binary s ∧ ∀ i, Small (decryptRlwe s (y i)) B), (C90_ideal n M).1]
  have h : (Nat.card {y : Fin M → RLWE n // ∃ s : Poly n, Binary s ∧ ∀ i, Small (decryptRlwe s (y i)) B} : ℝ) ≤
      2 ^ n * ((2 ^ 64) ^ n * (2 * B + 1) ^ n) ^ M := by
    exact_mod_cast card_exhaustive n M B
  refine le_trans (div_le_div_of_nonneg_right h (by positivity)) (le_of_eq ?_)
  push_cast
  rw [show 128 * n * M = 64 * (n * M) + 64 * (n * M) by ring, pow_add, pow_mul 2 64 (n * M), div_pow, pow_mul _ n M, pow_mul _ n M]
  rw [mul_pow]
  field_simp

/-- C92: however the key, the masks and the noises are distributed, as long as the noises are at most `B`: if the exhaustive search over all keys counts
as a test then the advantage `ε` of `Hard` is almost one already for `M` samples without key-dependent message. -/
theorem C92_unbounded {Ω : Type} [MeasurableSpace Ω] (μ : MeasureTheory.Measure Ω) [MeasureTheory.IsProbabilityMeasure μ] (key : Ω → Poly n)
    (masks noises : Ω → Nat → Poly n) (kdm : Poly n → List (RLWE n)) (N : Nat) (tests : Set (List (RLWE n) → Prop)) (ε : ℝ) (B M : Nat)
    (hkey : ∀ ω, Binary (key ω)) (hB : ∀ ω p, Small (noises ω p) B) (hk : ∀ s, (kdm s).length = (kdm 0).length) (hN : (kdm 0).length + M ≤ N)
    (ht : exhaustive (kdm 0).length B ∈ tests) (hard : Hard μ key masks noises kdm N tests ε) :
    1 - 2 ^ n * ((2 * B + 1 : ℝ) / 2 ^ 64) ^ (n * M) ≤ ε := by
  have h := hard _ ht (List.range ((kdm 0).length + M)) List.pairwise_lt_range (fun p hp => by
    have := List.mem_range.mp hp
    omega) (by rw [List.length_range]; omega)
  have hall : {ω | exhaustive (kdm 0).length B (challenge (key ω) (masks ω) (noises ω) (kdm (key ω)) (List.range ((kdm 0).length + M)))} = Set.univ := by
    refine Set.eq_univ_of_forall fun ω => ⟨key ω, hkey ω, fun c hc => ?_⟩
    rw [List.mem_iff_getElem] at hc
    obtain ⟨i, hi, rfl⟩ := hc
    unfold challenge at hi ⊢
    rw [List.getElem_drop, List.getElem_zipWith, List.getElem_append_right (by rw [hk]; omega)]
    simp only [List.getElem_map, List.getElem_range, List.getElem_replicate, add_zero]
    have : decryptRlwe (key ω) (sample (key ω) (masks ω) (noises ω) ((kdm 0).length + i)) = noises ω ((kdm 0).length + i) := by
      unfold decryptRlwe sample
      ring
    rw [this]
    exact hB ω _
  rw [hall, List.length_range, MeasureTheory.probReal_univ] at h
  have h2 := exhaustive_ideal n (kdm 0).length M B
  have h3 := (abs_le.mp h).2
  linarith

/-- C92: so the assumption of C90 and C91 is false for the class of all tests: the privacy of the accesses can only be computational. -/
theorem C92_not_all_tests {Ω : Type} [MeasurableSpace Ω] (μ : MeasureTheory.Measure Ω) [MeasureTheory.IsProbabilityMeasure μ] (key : Ω → Poly n)
    (masks noises : Ω → Nat → Poly n) (kdm : Poly n → List (RLWE n)) (N : Nat) (ε : ℝ) (hn : 0 < n) (hε : ε < 1 / 2)
    (hkey : ∀ ω, Binary (key ω)) (hB : ∀ ω p, Small (noises ω p) (2 ^ 61 - 1)) (hk : ∀ s, (kdm s).length = (kdm 0).length) (hN : (kdm 0).length < N) :
    ¬ Hard μ key masks noises kdm N Set.univ ε := by
  intro hard
  have h := C92_unbounded μ key masks noises kdm N Set.univ ε (2 ^ 61 - 1) 1 hkey hB hk hN trivial hard
  have h1 : (2 : ℝ) ^ n * ((2 * (2 ^ 61 - 1 : ℕ) + 1 : ℝ) / 2 ^ 64) ^ (n * 1) ≤ 1 / 2 := by
    rw [mul_one, ← mul_pow]
    have h2 : (2 : ℝ) * ((2 * (2 ^ 61 - 1 : ℕ) + 1 : ℝ) / 2 ^ 64) ≤ 1 / 2 := by norm_num
    refine le_trans (pow_le_of_le_one (by norm_num) (le_trans h2 (by norm_num)) hn.ne') h2
  linarith

/-- C92 for the sizes of the default parameters (`n = 2048`, noise of at most `2^15` steps: `src/params.rs`, C84): one row is enough for the search over
all keys to tell it from a random pair, except with probability at most `2^-94208`. -/
theorem C92_default {Ω : Type} [MeasurableSpace Ω] (μ : MeasureTheory.Measure Ω) [MeasureTheory.IsProbabilityMeasure μ] (key : Ω → Poly 2048)
    (masks noises : Ω → Nat → Poly 2048) (kdm : Poly 2048 → List (RLWE 2048)) (N : Nat) (tests : Set (List (RLWE 2048) → Prop)) (ε : ℝ)
    (hkey : ∀ ω, Binary (key ω)) (hB : ∀ ω p, Small (noises ω p) (2 ^ 15)) (hk : ∀ s, (kdm s).length = (kdm 0).length) (hN : (kdm 0).length < N)
    (ht : exhaustive (kdm 0).length (2 ^ 15) ∈ tests) (hard : Hard μ key masks noises kdm N tests ε) :
    1 - 1 / (2 : ℝ) ^ (46 * 2048) ≤ ε := by
  have h := C92_unbounded μ key masks noises kdm N tests ε (2 ^ 15) 1 hkey hB hk hN ht hard
  have h1 : (2 : ℝ) ^ 2048 * ((2 * (2 ^ 15 : ℕ) + 1 : ℝ) / 2 ^ 64) ^ (2048 * 1) ≤ 1 / (2 : ℝ) ^ (46 * 2048) := by
    rw [mul_one, ← mul_pow, pow_mul, ← one_div_pow]
    exact pow_le_pow_left₀ (by positivity) (by norm_num) 2048
  linarith

/-- The hypotheses are met by the key and the parameters of the examples, uniform masks and no noise. -/
theorem C92_witness : ¬ Hard (ProbabilityTheory.uniformOn (Set.univ : Set (Streams 4 100))) (fun _ => exKey) Streams.masks (fun _ _ => 0)
    (negShift exTreeCtx) 100 Set.univ (1 / 4) := by
  have : MeasureTheory.IsProbabilityMeasure (ProbabilityTheory.uniformOn (Set.univ : Set (Streams 4 100))) :=
    ProbabilityTheory.isProbabilityMeasure_uniformOn Set.finite_univ Set.univ_nonempty
  refine C92_not_all_tests _ _ _ _ _ _ _ (by decide) (by norm_num) (fun _ => exKey_binary) (fun _ _ k => ?_) (fun s => ?_) ?_
  · show ((0 : Scalar).toInt).natAbs ≤ _
    decide
  · simp [negShift, gadgetShift_length]
  · simp [negShift, gadgetShift_length]
    decide

end Panacea
