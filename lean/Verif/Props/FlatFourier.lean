import Verif.Model.FlatFourier

/-! # C79, continued: `izip!` and the loops over Fourier-domain vectors -/

namespace Panacea
namespace Flat
variable {n : Nat} {α β γ : Type}

theorem zipChecked_eq (debug : Bool) (a : List α) (b : List β) (h : a.length = b.length) : zipChecked debug a b = some (a.zip b) := by
  unfold zipChecked; rw [if_neg (by simp [h])]

/-- **C79** (`izip!`) With debug assertions the macro panics exactly when the lengths differ; without them it never panics and stops
after the shortest argument.  Element `i` of the result consists of elements `i` of the arguments. -/
theorem C79_izip (a : List α) (b : List β) (c : List γ) :
    ((izip3 true a b c).isSome = true ↔ a.length = b.length ∧ b.length = c.length) ∧ (izip3 false a b c).isSome = true ∧
    (∀ debug z, izip3 debug a b c = some z → z.length = min a.length (min b.length c.length) ∧
      ∀ (i : Nat) x y w, a[i]? = some x → b[i]? = some y → c[i]? = some w → z[i]? = some (x, y, w)) := by
  refine ⟨?_, ?_, ?_⟩
  · unfold izip3 zipChecked
    by_cases h1 : a.length = b.length
    · by_cases h2 : b.length = c.length
      · simp [h1, h2]
      · simp [h1, h2]
    · simp [h1]
  · simp [izip3, zipChecked]
  · intro debug z hz
    have hz' : z = ((a.zip b).zip c).map fun p => (p.1.1, p.1.2, p.2) := by
      unfold izip3 zipChecked at hz
      split at hz
      · simp at hz
      · next ab h =>
        split at h
        · simp at h
        · simp only [Option.some.injEq] at h; subst h
          split at hz
          · simp at hz
          · next abc h =>
            split at h
            · simp at h
            · simp only [Option.some.injEq] at h hz; subst h; exact hz.symm
    subst hz'
    refine ⟨by simp [Nat.min_assoc], fun i x y w hx hy hw => ?_⟩
    simp [List.getElem?_map, List.getElem?_zip_eq_some.2, List.zip, List.getElem?_zipWith, hx, hy, hw]

/-- **C79** (five arguments) -/
theorem C79_izip5 (a b c d e : List α) :
    ((izip5 true a b c d e).isSome = true ↔ a.length = b.length ∧ b.length = c.length ∧ c.length = d.length ∧ d.length = e.length) ∧
    (izip5 false a b c d e).isSome = true ∧
    (∀ debug z, izip5 debug a b c d e = some z → z.length = min a.length (min b.length (min c.length (min d.length e.length))) ∧
      ∀ (i : Nat) x y w u v, a[i]? = some x → b[i]? = some y → c[i]? = some w → d[i]? = some u → e[i]? = some v →
        z[i]? = some (x, y, w, u, v)) := by
  refine ⟨?_, ?_, ?_⟩
  · unfold izip5 zipChecked
    by_cases h1 : a.length = b.length
    · by_cases h2 : b.length = c.length
      · by_cases h3 : c.length = d.length
        · by_cases h4 : d.length = e.length
          · simp [h1, h2, h3, h4]
          · simp [h1, h2, h3, h4]
        · simp [h1, h2, h3]
      · simp [h1, h2]
    · simp [h1]
  · simp [izip5, zipChecked]
  · intro debug z hz
    have hz' : z = ((((a.zip b).zip c).zip d).zip e).map fun p => (p.1.1.1.1, p.1.1.1.2, p.1.1.2, p.1.2, p.2) := by
      unfold izip5 zipChecked at hz
      repeat' (split at hz)
      all_goals first
        | (simp at hz; done)
        | skip
      simp_all
    subst hz'
    refine ⟨by simp [Nat.min_assoc], fun i x y w u v hx hy hw hu hv => ?_⟩
    simp [List.getElem?_map, List.zip, List.getElem?_zipWith, hx, hy, hw, hu, hv]

theorem writeBack_full (out new : List α) (h : new.length = out.length) : writeBack out new = new := by
  unfold writeBack; rw [List.drop_of_length_le (by omega), List.append_nil]

/-- **C79** (loops over Fourier data) On vectors of `n/2` numbers none of the loops panics, in either build, and they compute the
element-wise functions of `Model/Fourier`. -/
theorem C79_fourier_loops (F : FloatFft n) (debug : Bool) (z f1 f2 f3 f4 : FVec n) :
    copyLoop debug (List.ofFn z) (List.ofFn f1) = some (List.ofFn f1) ∧
    mulLoop F debug (List.ofFn f1) (List.ofFn f2) = some (List.ofFn fun j => F.mul (f1 j) (f2 j)) ∧
    multiplyAccumulate F debug (List.ofFn z) (List.ofFn f1) (List.ofFn f2) = some (List.ofFn (F.multiplyAccumulate z f1 f2)) ∧
    twoMultiplyAccumulate F debug (List.ofFn z) (List.ofFn f1) (List.ofFn f2) (List.ofFn f3) (List.ofFn f4) =
      some (List.ofFn (F.twoMultiplyAccumulate z f1 f2 f3 f4)) := by
  refine ⟨?_, ?_, ?_, ?_⟩
  · unfold copyLoop
    rw [zipChecked_eq debug _ _ (by simp), Option.map_some, writeBack_full _ _ (by simp)]
    congr 1
    exact List.map_snd_zip (by simp)
  · unfold mulLoop
    rw [zipChecked_eq debug _ _ (by simp), Option.map_some, writeBack_full _ _ (by simp)]
    congr 1
    refine List.ext_getElem (by simp) fun i h1 h2 => ?_
    simp
  · unfold multiplyAccumulate izip3
    rw [zipChecked_eq debug _ _ (by simp)]
    simp only
    rw [zipChecked_eq debug _ _ (by simp)]
    simp only [Option.map_some]
    rw [writeBack_full _ _ (by simp)]
    congr 1
    refine List.ext_getElem (by simp) fun i h1 h2 => ?_
    simp [FloatFft.multiplyAccumulate]
  · unfold twoMultiplyAccumulate izip5
    rw [zipChecked_eq debug _ _ (by simp)]
    simp only
    rw [zipChecked_eq debug _ _ (by simp)]
    simp only
    rw [zipChecked_eq debug _ _ (by simp)]
    simp only
    rw [zipChecked_eq debug _ _ (by simp)]
    simp only [Option.map_some]
    rw [writeBack_full _ _ (by simp)]
    congr 1
    refine List.ext_getElem (by simp) fun i h1 h2 => ?_
    simp [FloatFft.twoMultiplyAccumulate]

/-- **C79** (a buffer of the wrong size) A release build does not notice an output vector that is too long: the copy changes its first
elements only and the old rest stays; a debug build panics. -/
theorem C79_wrong_size (out src : List ℂ) (h : src.length < out.length) :
    copyLoop true out src = none ∧ copyLoop false out src = some (src ++ out.drop src.length) := by
  unfold copyLoop zipChecked
  constructor
  · simp; omega
  · simp only [Bool.false_and, Bool.false_eq_true, if_false, Option.map_some]
    unfold writeBack
    rw [List.map_snd_zip (by omega)]

/-- The hypotheses of `C79_wrong_size` are met. -/
example : copyLoop false [1, 2, 3] [5] = some [5, 2, 3] := by simpa using (C79_wrong_size [1, 2, 3] [5] (by simp)).2

end Flat
end Panacea
