import Verif.Lemmas.Subst
import Verif.Lemmas.Digits
import Mathlib.Algebra.Order.BigOperators.Group.Finset
import Mathlib.Algebra.BigOperators.Fin

namespace Panacea
open Finset
variable {n : Nat}

theorem nrm_add (x y : Scalar) : nrm (x + y) ≤ nrm x + nrm y := by
  have e : x + y = BitVec.ofInt 64 (x.toInt + y.toInt) := by rw [BitVec.ofInt_add]; simp
  unfold nrm
  rw [e]
  refine le_trans (natAbs_ofInt_le _) ?_
  omega

theorem nrm_neg (x : Scalar) : nrm (-x) = nrm x := toInt_neg_natAbs x

theorem nrm_sub (x y : Scalar) : nrm (x - y) ≤ nrm x + nrm y := by
  rw [sub_eq_add_neg]
  exact le_trans (nrm_add _ _) (by rw [nrm_neg])

theorem nrm_mul (x y : Scalar) : nrm (x * y) ≤ nrm x * nrm y := by
  have e : x * y = BitVec.ofInt 64 (x.toInt * y.toInt) := by rw [ofInt_mul']; simp
  unfold nrm
  rw [e]
  refine le_trans (natAbs_ofInt_le _) ?_
  rw [Int.natAbs_mul]

theorem nrm_zero : nrm 0 = 0 := by decide
theorem nrm_one : nrm 1 = 1 := by decide

theorem nrm_sum {ι : Type*} (s : Finset ι) (f : ι → Scalar) : nrm (∑ i ∈ s, f i) ≤ ∑ i ∈ s, nrm (f i) := by
  classical
  induction s using Finset.induction_on with
  | empty => simp [nrm]
  | insert a s ha ih =>
    rw [Finset.sum_insert ha, Finset.sum_insert ha]
    exact le_trans (nrm_add _ _) (Nat.add_le_add_left ih _)

theorem Small.mono {p : Poly n} {A B : Nat} (h : Small p A) (hAB : A ≤ B) : Small p B := fun k => le_trans (h k) hAB

theorem Small.zero (B : Nat) : Small (0 : Poly n) B := fun k => by
  rw [Poly.zero_apply]; simp

theorem Small.add {p q : Poly n} {A B : Nat} (hp : Small p A) (hq : Small q B) : Small (p + q) (A + B) := fun k =>
  le_trans (nrm_add (p k) (q k)) (Nat.add_le_add (hp k) (hq k))

theorem Small.neg {p : Poly n} {A : Nat} (hp : Small p A) : Small (-p) A := fun k => by
  rw [Poly.neg_apply, toInt_neg_natAbs]; exact hp k

theorem Small.sub {p q : Poly n} {A B : Nat} (hp : Small p A) (hq : Small q B) : Small (p - q) (A + B) := by
  rw [sub_eq_add_neg]; exact hp.add hq.neg

theorem Small.sum {ι : Type*} (s : Finset ι) (f : ι → Poly n) (B : ι → Nat) (h : ∀ i ∈ s, Small (f i) (B i)) :
    Small (∑ i ∈ s, f i) (∑ i ∈ s, B i) := by
  classical
  induction s using Finset.induction_on with
  | empty => simpa using Small.zero 0
  | insert a s ha ih =>
    rw [Finset.sum_insert ha, Finset.sum_insert ha]
    exact (h a (by simp)).add (ih fun i hi => h i (by simp [hi]))

theorem get_small {q : Poly n} {B : Nat} (h : Small q B) (i : Nat) : nrm (q.get i) ≤ B := by
  unfold Poly.get
  split
  · exact h _
  · simp [nrm]

theorem Small.l1_mul {q : Poly n} {B : Nat} (p : Poly n) (hq : Small q B) : Small (p * q) (l1 p * B) := by
  intro k
  rw [Poly.mul_apply]
  refine le_trans (nrm_sum _ _) ?_
  unfold l1
  rw [Finset.sum_mul]
  refine Finset.sum_le_sum fun i _ => ?_
  refine le_trans (nrm_mul _ _) (Nat.mul_le_mul_left _ ?_)
  split
  · exact get_small hq _
  · rw [nrm_neg]; exact get_small hq _

theorem l1_le {p : Poly n} {A : Nat} (hp : Small p A) : l1 p ≤ n * A := by
  unfold l1
  refine le_trans (Finset.sum_le_sum fun i _ => hp i) ?_
  simp

theorem Small.mul {p q : Poly n} {A B : Nat} (hp : Small p A) (hq : Small q B) : Small (p * q) (n * A * B) :=
  (Small.l1_mul p hq).mono (Nat.mul_le_mul_right _ (l1_le hp))

theorem l1_const (c : Scalar) : l1 (Poly.const n c) ≤ nrm c := by
  unfold l1
  rcases Nat.eq_zero_or_pos n with h | h
  · subst h; simp
  · rw [Finset.sum_eq_single (⟨0, h⟩ : Fin n)]
    · simp [Poly.const_apply]
    · intro b _ hb
      rw [Poly.const_apply, if_neg (fun h => hb (Fin.ext h))]
      simp [nrm]
    · simp

theorem l1_one : l1 (1 : Poly n) ≤ 1 := by
  rw [← Poly.const_one]; exact l1_const 1

theorem l1_neg (p : Poly n) : l1 (-p) = l1 p := by
  unfold l1; refine Finset.sum_congr rfl fun i _ => ?_
  rw [Poly.neg_apply, nrm_neg]

theorem l1_add (p q : Poly n) : l1 (p + q) ≤ l1 p + l1 q := by
  unfold l1
  rw [← Finset.sum_add_distrib]
  exact Finset.sum_le_sum fun i _ => nrm_add _ _

theorem l1_mono (m : Nat) : l1 (Poly.mono n m) ≤ 1 := by
  unfold l1
  rcases Nat.eq_zero_or_pos n with h | h
  · subst h; simp
  · rw [Finset.sum_eq_single (⟨m % n, Nat.mod_lt _ h⟩ : Fin n)]
    · rw [Poly.mono_def, if_pos rfl]
      have := neg_one_pow_mul_natAbs (m / n) 1
      rw [mul_one] at this
      unfold nrm; rw [this]; decide
    · intro b _ hb
      rw [Poly.mono_def, if_neg (fun h => hb (Fin.ext h.symm))]
      simp [nrm]
    · simp

theorem Small.mono_mul {q : Poly n} {B : Nat} (m : Nat) (hq : Small q B) : Small (Poly.mono n m * q) B :=
  (Small.l1_mul _ hq).mono (by nlinarith [l1_mono (n := n) m])

/-- Digits of a polynomial are small. -/
theorem digitPoly_small' {bl lv : Nat} (h1 : 1 ≤ bl) (h2 : bl < 64) (f : Fin n → Scalar) (l : Nat) :
    Small (⟨fun k => digit bl lv (f k) l⟩ : Poly n) (2 ^ (bl - 1)) := fun _ => digit_small bl lv h1 h2 _ _

end Panacea
