import Mathlib.GroupTheory.Perm.Basic
import Mathlib.Data.Fintype.Perm
import Mathlib.Data.Nat.Factorial.Basic
import Mathlib.Algebra.BigOperators.Ring.Finset
import Mathlib.Combinatorics.Enumerative.DoubleCounting
import Mathlib.Tactic.Linarith
import Mathlib.Tactic.Ring

/-!
# Counting permutations that send given points into a set that depends on the other points
-/

namespace Panacea
open Equiv Finset

variable {M : Nat}

/-- The permutations that send every point of `xs` into the set `T` (which may depend on the permutation). -/
noncomputable def hitting (T : Perm (Fin M) → Finset (Fin M)) (xs : List (Fin M)) : Finset (Perm (Fin M)) := by
  classical exact univ.filter fun σ => ∀ x ∈ xs, σ x ∈ T σ

theorem mem_hitting {T : Perm (Fin M) → Finset (Fin M)} {xs : List (Fin M)} {σ : Perm (Fin M)} : σ ∈ hitting T xs ↔ ∀ x ∈ xs, σ x ∈ T σ := by
  classical
  unfold hitting
  simp

/-- One more point: each of the `m - k` free points is equally likely to be sent into `T`. -/
theorem hitting_cons {S : Finset (Fin M)} {T : Perm (Fin M) → Finset (Fin M)} (hT : ∀ σ x y, x ∉ S → y ∉ S → T (σ * swap x y) = T σ)
    {x : Fin M} {xs : List (Fin M)} (hnd : (x :: xs).Nodup) (hS : ∀ y ∈ x :: xs, y ∉ S) :
    (M - S.card - xs.length) * (hitting T (x :: xs)).card
      = ∑ σ ∈ hitting T xs, ((univ.filter fun y => y ∉ S ∧ σ y ∈ T σ).card - xs.length) := by
  classical
  let Y : Finset (Fin M) := univ.filter fun y => y ∉ S ∧ y ∉ xs
  have hxn := List.nodup_cons.mp hnd
  have hY : Y.card = M - S.card - xs.length := by
    have e : Y = (univ \ S) \ xs.toFinset := by
      ext y; simp [Y]
    rw [e, card_sdiff_of_subset, card_sdiff_of_subset (subset_univ _), card_univ, Fintype.card_fin, List.toFinset_card_of_nodup hxn.2]
    intro y hy
    simp only [List.mem_toFinset] at hy
    simp [hS y (by simp [hy])]
  have hone : ∀ y ∈ Y, ((hitting T xs).filter fun σ => σ y ∈ T σ).card = (hitting T (x :: xs)).card := by
    intro y hy
    simp only [Y, mem_filter, mem_univ, true_and] at hy
    refine card_equiv (Equiv.mulRight (swap x y)) fun σ => ?_
    have hx : x ∉ S := hS x (by simp)
    simp only [mem_filter, mem_hitting, Equiv.coe_mulRight, hT σ x y hx hy.1, List.mem_cons, forall_eq_or_imp, Perm.mul_apply, swap_apply_left]
    have : ∀ z ∈ xs, swap x y z = z := fun z hz => swap_apply_of_ne_of_ne (fun h => hxn.1 (h ▸ hz)) (fun h => hy.2 (h ▸ hz))
    constructor
    · rintro ⟨h1, h2⟩
      exact ⟨h2, fun z hz => by rw [this z hz]; exact h1 z hz⟩
    · rintro ⟨h1, h2⟩
      exact ⟨fun z hz => by rw [← this z hz]; exact h2 z hz, h1⟩
  have hdc := sum_card_bipartiteAbove_eq_sum_card_bipartiteBelow (s := hitting T xs) (t := Y) (fun σ y => σ y ∈ T σ)
  have hr : ∑ y ∈ Y, (bipartiteBelow (fun σ y => σ y ∈ T σ) (hitting T xs) y).card = Y.card * (hitting T (x :: xs)).card := by
    refine (sum_congr rfl fun y hy => (?_ : _ = (hitting T (x :: xs)).card)).trans (by rw [sum_const, smul_eq_mul])
    exact hone y hy
  rw [hr, hY] at hdc
  rw [← hdc]
  refine sum_congr rfl fun σ hσ => ?_
  rw [mem_hitting] at hσ
  have e : bipartiteAbove (fun σ y => σ y ∈ T σ) Y σ = (univ.filter fun y => y ∉ S ∧ σ y ∈ T σ) \ xs.toFinset := by
    ext y
    simp only [mem_bipartiteAbove, Y, mem_filter, mem_univ, true_and, mem_sdiff, List.mem_toFinset]
    tauto
  rw [e, card_sdiff_of_subset, List.toFinset_card_of_nodup hxn.2]
  intro y hy
  simp only [List.mem_toFinset] at hy
  simp only [mem_filter, mem_univ, true_and]
  exact ⟨hS y (by simp [hy]), hσ y hy⟩

/-- At most `c` free points go into `T`: at most that fraction of the permutations. -/
theorem hitting_le {S : Finset (Fin M)} {T : Perm (Fin M) → Finset (Fin M)} (hT : ∀ σ x y, x ∉ S → y ∉ S → T (σ * swap x y) = T σ)
    {c : Nat} (hc : ∀ σ, (univ.filter fun y => y ∉ S ∧ σ y ∈ T σ).card ≤ c) :
    ∀ {xs : List (Fin M)}, xs.Nodup → (∀ y ∈ xs, y ∉ S) →
      (M - S.card).descFactorial xs.length * (hitting T xs).card ≤ c.descFactorial xs.length * M.factorial
  | [], _, _ => by
    simp only [List.length_nil, Nat.descFactorial_zero, one_mul]
    refine (card_le_univ _).trans ?_
    rw [Fintype.card_perm, Fintype.card_fin]
  | x :: xs, hnd, hS => by
    have ih := hitting_le hT hc (List.nodup_cons.mp hnd).2 (fun y hy => hS y (by simp [hy]))
    have hstep := hitting_cons hT hnd hS
    have hb : (M - S.card - xs.length) * (hitting T (x :: xs)).card ≤ (c - xs.length) * (hitting T xs).card := by
      rw [hstep, mul_comm, ← smul_eq_mul, ← sum_const]
      exact sum_le_sum fun σ _ => Nat.sub_le_sub_right (hc σ) _
    simp only [List.length_cons, Nat.descFactorial_succ]
    calc (M - S.card - xs.length) * (M - S.card).descFactorial xs.length * (hitting T (x :: xs)).card
        = (M - S.card).descFactorial xs.length * ((M - S.card - xs.length) * (hitting T (x :: xs)).card) := by ring
      _ ≤ (M - S.card).descFactorial xs.length * ((c - xs.length) * (hitting T xs).card) := Nat.mul_le_mul_left _ hb
      _ = (c - xs.length) * ((M - S.card).descFactorial xs.length * (hitting T xs).card) := by ring
      _ ≤ (c - xs.length) * (c.descFactorial xs.length * M.factorial) := Nat.mul_le_mul_left _ ih
      _ = _ := by ring

/-- Exactly `c` free points go into `T`: exactly that fraction of the permutations. -/
theorem hitting_eq {S : Finset (Fin M)} {T : Perm (Fin M) → Finset (Fin M)} (hT : ∀ σ x y, x ∉ S → y ∉ S → T (σ * swap x y) = T σ)
    {c : Nat} (hc : ∀ σ, (univ.filter fun y => y ∉ S ∧ σ y ∈ T σ).card = c) :
    ∀ {xs : List (Fin M)}, xs.Nodup → (∀ y ∈ xs, y ∉ S) →
      (M - S.card).descFactorial xs.length * (hitting T xs).card = c.descFactorial xs.length * M.factorial
  | [], _, _ => by
    simp only [List.length_nil, Nat.descFactorial_zero, one_mul]
    have : hitting T ([] : List (Fin M)) = univ := by ext σ; simp [mem_hitting]
    rw [this, card_univ, Fintype.card_perm, Fintype.card_fin]
  | x :: xs, hnd, hS => by
    have ih := hitting_eq hT hc (List.nodup_cons.mp hnd).2 (fun y hy => hS y (by simp [hy]))
    have hstep := hitting_cons hT hnd hS
    have hb : (M - S.card - xs.length) * (hitting T (x :: xs)).card = (c - xs.length) * (hitting T xs).card := by
      rw [hstep, mul_comm, ← smul_eq_mul, ← sum_const]
      exact sum_congr rfl fun σ _ => by rw [hc σ]
    simp only [List.length_cons, Nat.descFactorial_succ]
    calc (M - S.card - xs.length) * (M - S.card).descFactorial xs.length * (hitting T (x :: xs)).card
        = (M - S.card).descFactorial xs.length * ((M - S.card - xs.length) * (hitting T (x :: xs)).card) := by ring
      _ = (c - xs.length) * ((M - S.card).descFactorial xs.length * (hitting T xs).card) := by rw [hb]; ring
      _ = _ := by rw [ih]; ring

end Panacea
