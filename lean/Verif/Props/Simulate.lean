import Verif.Props.EncEval
import Verif.Props.DecryptDb
import Verif.Props.Oblivious

/-!
# C60: what `simulate` returns is right whatever the noise; `decrypt_and_recompose` exactly
-/

namespace Panacea
variable {n : Nat}

/-- The constant coefficient a client reads off a ciphertext. -/
def Spec.constCoeff (ctx : Ctx) (s : Poly n) (ct : RLWE n) : Scalar := (decryptDecodeRlwe ctx s ct).get 0

theorem decryptBits_none {ctx : Ctx} {s : Poly n} : ∀ {cts : List (RLWE n)},
    decryptBits ctx s cts = none ↔ ∃ ct ∈ cts, Spec.constCoeff ctx s ct ≠ 0 ∧ Spec.constCoeff ctx s ct ≠ 1
  | [] => by simp [decryptBits]
  | ct :: cts => by
    rw [decryptBits]
    simp only [List.mem_cons, exists_eq_or_imp]
    rw [← decryptBits_none (cts := cts)]
    unfold Spec.constCoeff
    by_cases h0 : (decryptDecodeRlwe ctx s ct).get 0 = 0
    · rw [if_pos h0, Option.map_eq_none_iff]; simp [h0]
    · rw [if_neg h0]
      by_cases h1 : (decryptDecodeRlwe ctx s ct).get 0 = 1
      · rw [if_pos h1, Option.map_eq_none_iff]; simp [h1]
      · rw [if_neg h1]; exact iff_of_true rfl (Or.inl ⟨h0, h1⟩)

theorem decryptBits_some {ctx : Ctx} {s : Poly n} : ∀ {cts : List (RLWE n)} {bs : List Bool}, decryptBits ctx s cts = some bs →
    bs.length = cts.length ∧ bitsValue bs < 2 ^ cts.length ∧
    ∀ i, (bitsValue bs).testBit i = true ↔ ∃ ct, cts[i]? = some ct ∧ Spec.constCoeff ctx s ct = 1
  | [], bs, h => by cases h; simp [bitsValue]
  | ct :: cts, bs, h => by
    rw [decryptBits] at h
    have step : ∀ (b : Bool), (Spec.constCoeff ctx s ct = 1 ↔ b = true) → (decryptBits ctx s cts).map (b :: ·) = some bs →
        bs.length = (ct :: cts).length ∧ bitsValue bs < 2 ^ (ct :: cts).length ∧
        ∀ i, (bitsValue bs).testBit i = true ↔ ∃ c, (ct :: cts)[i]? = some c ∧ Spec.constCoeff ctx s c = 1 := by
      intro b hb hm
      rw [Option.map_eq_some_iff] at hm
      obtain ⟨bs0, h1, rfl⟩ := hm
      obtain ⟨l1, l2, l3⟩ := decryptBits_some h1
      have hv : bitsValue (b :: bs0) = b.toNat + 2 * bitsValue bs0 := by
        rw [bitsValue]; cases b <;> rfl
      refine ⟨by simp [l1], ?_, fun i => ?_⟩
      · rw [hv, List.length_cons, pow_succ]
        have : b.toNat ≤ 1 := Bool.toNat_le b
        omega
      · cases i with
        | zero =>
          rw [hv, Nat.testBit_zero]
          simp only [List.getElem?_cons_zero, Option.some.injEq, exists_eq_left', hb]
          cases b <;> simp
        | succ i =>
          rw [hv, Nat.testBit_succ, List.getElem?_cons_succ, ← l3 i]
          have : (b.toNat + 2 * bitsValue bs0) / 2 = bitsValue bs0 := by
            have : b.toNat ≤ 1 := Bool.toNat_le b
            omega
          rw [this]
    split at h
    · rename_i h0
      refine step false ?_ h
      unfold Spec.constCoeff
      rw [h0]; simp
    · split at h
      · rename_i h1
        refine step true ?_ h
        unfold Spec.constCoeff
        rw [h1]; simp
      · cases h

/-- C60 (`decrypt_and_recompose`): it panics iff there is no ciphertext, there are more than 64, or some ciphertext does not decrypt to a
constant coefficient 0 or 1; otherwise it returns the integer whose bit `i` is the constant coefficient of ciphertext `i`. -/
theorem C60_recompose (ctx : Ctx) (s : Poly n) (cts : List (RLWE n)) :
    (decryptAndRecompose ctx s cts = none ↔ cts = [] ∨ 64 < cts.length ∨
      ∃ ct ∈ cts, Spec.constCoeff ctx s ct ≠ 0 ∧ Spec.constCoeff ctx s ct ≠ 1) ∧
    ∀ y, decryptAndRecompose ctx s cts = some y → y < 2 ^ cts.length ∧
      ∀ i, y.testBit i = true ↔ ∃ ct, cts[i]? = some ct ∧ Spec.constCoeff ctx s ct = 1 := by
  unfold decryptAndRecompose
  rcases hb : decryptBits ctx s cts with _ | bs
  · refine ⟨?_, fun y h => by cases h⟩
    simp only [true_iff]
    exact Or.inr (Or.inr (decryptBits_none.mp hb))
  · obtain ⟨l1, l2, l3⟩ := decryptBits_some hb
    have hno : ¬ ∃ ct ∈ cts, Spec.constCoeff ctx s ct ≠ 0 ∧ Spec.constCoeff ctx s ct ≠ 1 := by
      rw [← decryptBits_none, hb]; simp
    simp only
    rw [l1]
    constructor
    · split
      · rename_i h
        simp only [true_iff]
        rcases h with h | h
        · exact Or.inl (List.length_eq_zero_iff.mp h)
        · exact Or.inr (Or.inl h)
      · rename_i h
        simp only [reduceCtorEq, false_iff]
        rintro (rfl | h' | h')
        · exact h (Or.inl rfl)
        · exact h (Or.inr h')
        · exact hno h'
    · intro y hy
      split at hy
      · cases hy
      · cases hy
        exact ⟨l2, l3⟩

theorem mapOption_zip_forall₂ {α β γ : Type} {f : α × β → Option γ} {Q : β → γ → Prop} (h : ∀ a b c, f (a, b) = some c → Q b c) :
    ∀ {as : List α} {bs : List β} {cs : List γ}, as.length = bs.length → mapOption f (as.zip bs) = some cs → List.Forall₂ Q bs cs
  | [], [], cs, _, h' => by cases h'; exact .nil
  | a :: as, [], _, hl, _ => by simp at hl
  | [], b :: bs, _, hl, _ => by simp at hl
  | a :: as, b :: bs, cs, hl, h' => by
    rw [List.zip_cons_cons, mapOption] at h'
    rcases hf : f (a, b) with _ | c
    · rw [hf] at h'; cases h'
    rw [hf] at h'
    rcases hr : mapOption f (as.zip bs) with _ | cs0
    · rw [hr] at h'; cases h'
    rw [hr] at h'
    cases h'
    exact .cons (h a b c hf) (mapOption_zip_forall₂ h (by simpa using hl) hr)

/-- C60 (soundness): whatever the parameters, key, randomness, noise and FFT error (no noise budget assumed), if `simulate` returns then
there is one prediction per feature vector, in order, and each is the clear evaluation of the tree: a wrong homomorphic result is always
caught. -/
theorem C60_simulate_sound {fft : Fft n} {ctx : Ctx} {ceilLog2 : Nat → Nat} {s : Poly n} {model : Tree} {features : List (List Nat)}
    {g : Gen n} {ys : List Nat} (h : simulate fft ctx ceilLog2 s model features g = some ys) :
    List.Forall₂ (fun f y => model.eval f = some y) features ys := by
  unfold simulate at h
  split at h
  · cases h
  split at h
  · cases h
  split at h
  · cases h
  rename_i hcts
  split at h
  · cases h
  rename_i hout
  have l1 := (mapGenM_forall (Q := fun _ => True) (fun _ _ _ _ => trivial) hcts).1
  have l2 := mapOption_length hout
  refine mapOption_zip_forall₂ (fun a b c hc => ?_) (by rw [l2]; exact l1) h
  unfold simulateCheck at hc
  split at hc
  · rename_i ha hb
    split at hc
    · cases hc; exact hb
    · cases hc
  · cases hc

/-- C60 (consequence): if the clear evaluation panics on some feature vector (a GT node, or an index beyond the vector, anywhere in the
tree), so does `simulate`. -/
theorem C60_simulate_panics {fft : Fft n} {ctx : Ctx} {ceilLog2 : Nat → Nat} {s : Poly n} {model : Tree} {features : List (List Nat)}
    {g : Gen n} {f : List Nat} (hf : f ∈ features) (hp : model.eval f = none) : simulate fft ctx ceilLog2 s model features g = none := by
  rcases h : simulate fft ctx ceilLog2 s model features g with _ | ys
  · rfl
  · have := C60_simulate_sound h
    obtain ⟨i, hi⟩ := List.mem_iff_getElem?.mp hf
    have hlt : i < features.length := (List.getElem?_eq_some_iff.mp hi).1
    have := (List.forall₂_iff_get.mp this).2 i hlt (by rw [← (List.forall₂_iff_get.mp this).1]; exact hlt)
    rw [List.getElem?_eq_getElem hlt] at hi
    cases hi
    simp only [List.get_eq_getElem] at this
    rw [hp] at this; cases this

/-- Recomposition of three ciphertexts holding 1, 0, 1 gives 5; a plaintext 2 panics. -/
example : decryptAndRecompose exTreeCtx exKey [⟨0, ⟨fun _ => 2 ^ 60⟩⟩, ⟨0, ⟨fun _ => 3⟩⟩, ⟨0, ⟨fun _ => 2 ^ 60⟩⟩] = some 5 ∧
    decryptAndRecompose exTreeCtx exKey [⟨0, ⟨fun _ => 2 ^ 61⟩⟩] = none := by decide +kernel

end Panacea
