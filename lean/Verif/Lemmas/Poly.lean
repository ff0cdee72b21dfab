import Verif.Model.Poly
import Mathlib.Algebra.BigOperators.Ring.Finset
import Mathlib.Algebra.BigOperators.GroupWithZero.Finset
import Mathlib.Tactic.Ring
import Mathlib.Tactic.Linarith

namespace Panacea
namespace Poly
open Finset
variable {n : Nat}

@[simp] theorem add_apply (p q : Poly n) (k) : (p + q) k = p k + q k := rfl
@[simp] theorem sub_apply (p q : Poly n) (k) : (p - q) k = p k - q k := rfl
@[simp] theorem neg_apply (p : Poly n) (k) : (-p) k = -p k := rfl
@[simp] theorem zero_apply (k) : (0 : Poly n) k = 0 := rfl

theorem mono_def (m : Nat) (k : Fin n) : mono n m k = if m % n = k.val then (-1) ^ (m / n) else 0 := rfl

theorem mul_def (p q : Poly n) (k : Fin n) :
    (p * q) k = ∑ i : Fin n, ∑ j : Fin n, p i * q j * mono n (i.val + j.val) k := rfl

theorem one_def : (1 : Poly n) = mono n 0 := rfl

theorem mono_add_n (m : Nat) : mono n (m + n) = - mono n m := by
  refine Poly.ext (funext fun k => ?_)
  have hn : 0 < n := k.pos
  rw [neg_apply, mono_def, mono_def, Nat.add_mod_right, Nat.add_div_right _ hn]
  split
  · rw [pow_succ]; ring
  · ring

theorem mono_add_mul (m q : Nat) (k : Fin n) : mono n (m + n * q) k = (-1) ^ q * mono n m k := by
  induction q with
  | zero => simp
  | succ q ih =>
    rw [Nat.mul_succ, ← Nat.add_assoc, mono_add_n, neg_apply, ih, pow_succ]; ring

theorem mono_lt (i k : Fin n) : mono n i.val k = if i = k then 1 else 0 := by
  rw [mono_def, Nat.mod_eq_of_lt i.isLt, Nat.div_eq_of_lt i.isLt, pow_zero]
  simp [Fin.ext_iff]

/-- Any function linear through monomials: summing the coefficients of `X^a` against a sequence `f`. -/
theorem sum_mono (hn : 0 < n) (a : Nat) (f : Nat → Scalar) :
    ∑ l : Fin n, mono n a l * f l.val = (-1) ^ (a / n) * f (a % n) := by
  rw [Finset.sum_eq_single (⟨a % n, Nat.mod_lt _ hn⟩ : Fin n)]
  · rw [mono_def]; simp
  · intro b _ hb
    rw [mono_def, if_neg]
    · ring
    · intro h; exact hb (Fin.ext h.symm)
  · simp

theorem sum_mono_shift (a m : Nat) (k : Fin n) :
    ∑ l : Fin n, mono n a l * mono n (l.val + m) k = mono n (a + m) k := by
  have hn : 0 < n := k.pos
  rw [sum_mono hn a (fun l => mono n (l + m) k)]
  rw [← mono_add_mul]
  have h : a % n + m + n * (a / n) = a + m := by
    have := Nat.mod_add_div a n
    omega
  rw [h]

theorem coeff_sum_mono (p : Poly n) (k : Fin n) : ∑ j : Fin n, p j * mono n j.val k = p k := by
  simp only [mono_lt, mul_ite, mul_one, mul_zero, Finset.sum_ite_eq', Finset.mem_univ, if_true]

instance instAddCommGroup : AddCommGroup (Poly n) where
  add_assoc p q r := by ext1; funext k; simp [add_assoc]
  zero_add p := by ext1; funext k; simp
  add_zero p := by ext1; funext k; simp
  add_comm p q := by ext1; funext k; simp [add_comm]
  neg_add_cancel p := by ext1; funext k; simp
  sub_eq_add_neg p q := by ext1; funext k; simp [sub_eq_add_neg]
  nsmul := nsmulRec
  zsmul := zsmulRec

protected theorem mul_comm (p q : Poly n) : p * q = q * p := by
  refine Poly.ext (funext fun k => ?_)
  rw [mul_def, mul_def, Finset.sum_comm]
  refine Finset.sum_congr rfl fun i _ => Finset.sum_congr rfl fun j _ => ?_
  rw [Nat.add_comm]; ring

protected theorem one_mul (p : Poly n) : 1 * p = p := by
  refine Poly.ext (funext fun k => ?_)
  have hn : 0 < n := k.pos
  rw [mul_def, one_def]
  have : ∀ i : Fin n, ∑ j : Fin n, mono n 0 i * p j * mono n (i.val + j.val) k
      = mono n 0 i * ∑ j : Fin n, p j * mono n (i.val + j.val) k := by
    intro i; rw [Finset.mul_sum]; exact Finset.sum_congr rfl fun j _ => by ring
  simp only [this]
  rw [sum_mono hn 0 (fun i => ∑ j : Fin n, p j * mono n (i + j.val) k)]
  simp [coeff_sum_mono]

protected theorem mul_add (p q r : Poly n) : p * (q + r) = p * q + p * r := by
  refine Poly.ext (funext fun k => ?_)
  rw [add_apply, mul_def, mul_def, mul_def, ← Finset.sum_add_distrib]
  refine Finset.sum_congr rfl fun i _ => ?_
  rw [← Finset.sum_add_distrib]
  refine Finset.sum_congr rfl fun j _ => ?_
  rw [add_apply]; ring

theorem mul_mul_apply (p q r : Poly n) (k : Fin n) :
    (p * q * r) k = ∑ i : Fin n, ∑ j : Fin n, ∑ m : Fin n,
      p i * q j * r m * mono n (i.val + j.val + m.val) k := by
  rw [mul_def]
  have h1 : ∀ l m : Fin n, (p * q) l * r m * mono n (l.val + m.val) k
      = ∑ i : Fin n, ∑ j : Fin n, p i * q j * r m * (mono n (i.val + j.val) l * mono n (l.val + m.val) k) := by
    intro l m
    rw [mul_def, Finset.sum_mul, Finset.sum_mul]
    refine Finset.sum_congr rfl fun i _ => ?_
    rw [Finset.sum_mul, Finset.sum_mul]
    refine Finset.sum_congr rfl fun j _ => ?_
    ring
  simp only [h1]
  rw [Finset.sum_comm]
  have h2 : ∀ m : Fin n, (∑ l : Fin n, ∑ i : Fin n, ∑ j : Fin n,
      p i * q j * r m * (mono n (i.val + j.val) l * mono n (l.val + m.val) k))
      = ∑ i : Fin n, ∑ j : Fin n, p i * q j * r m * mono n (i.val + j.val + m.val) k := by
    intro m
    rw [Finset.sum_comm]
    refine Finset.sum_congr rfl fun i _ => ?_
    rw [Finset.sum_comm]
    refine Finset.sum_congr rfl fun j _ => ?_
    rw [← Finset.mul_sum, sum_mono_shift]
  simp only [h2]
  rw [Finset.sum_comm]
  refine Finset.sum_congr rfl fun i _ => ?_
  rw [Finset.sum_comm]

protected theorem mul_assoc (p q r : Poly n) : p * q * r = p * (q * r) := by
  refine Poly.ext (funext fun k => ?_)
  rw [Poly.mul_comm p (q * r), mul_mul_apply, mul_mul_apply]
  rw [Finset.sum_comm]
  refine Finset.sum_congr rfl fun i _ => ?_
  rw [Finset.sum_comm]
  refine Finset.sum_congr rfl fun j _ => ?_
  refine Finset.sum_congr rfl fun m _ => ?_
  have h : m.val + i.val + j.val = i.val + j.val + m.val := by omega
  rw [h]; ring

instance : CommRing (Poly n) where
  __ := instAddCommGroup
  mul_assoc := Poly.mul_assoc
  one_mul := Poly.one_mul
  mul_one p := by rw [Poly.mul_comm, Poly.one_mul]
  mul_comm := Poly.mul_comm
  left_distrib := Poly.mul_add
  right_distrib p q r := by rw [Poly.mul_comm, Poly.mul_add, Poly.mul_comm r, Poly.mul_comm r]
  zero_mul p := by
    refine Poly.ext (funext fun k => ?_)
    rw [mul_def]; simp only [zero_apply, zero_mul, Finset.sum_const_zero]
  mul_zero p := by
    refine Poly.ext (funext fun k => ?_)
    rw [mul_def]; simp only [zero_apply, mul_zero, zero_mul, Finset.sum_const_zero]

/-- The coefficient formula of the negacyclic product: coefficient `k` collects `p_i q_(k-i)` for `i ≤ k` and
`-p_i q_(n+k-i)` for `i > k`. -/
theorem mul_apply (p q : Poly n) (k : Fin n) :
    (p * q) k = ∑ i : Fin n, p i * (if i ≤ k then q.get (k.val - i.val) else - q.get (n + k.val - i.val)) := by
  rw [mul_def]
  refine Finset.sum_congr rfl fun i _ => ?_
  have hj : ∀ j : Fin n, p i * q j * mono n (i.val + j.val) k = p i * (q j * mono n (i.val + j.val) k) := by
    intro j; ring
  simp only [hj]
  rw [← Finset.mul_sum]
  congr 1
  have hk := k.isLt
  have hi := i.isLt
  by_cases h : i ≤ k
  · rw [if_pos h]
    have h' : i.val ≤ k.val := h
    have hlt : k.val - i.val < n := by omega
    rw [Finset.sum_eq_single (⟨k.val - i.val, hlt⟩ : Fin n)]
    · have e : i.val + (k.val - i.val) = k.val := by omega
      simp only [e, get, hlt, dif_pos, mono_def, Nat.mod_eq_of_lt hk, if_true, Nat.div_eq_of_lt hk, pow_zero, mul_one]
    · intro b _ hb
      rw [mono_def, if_neg, mul_zero]
      intro hmod
      have hbn := b.isLt
      apply hb
      apply Fin.ext
      simp only
      by_cases hs : i.val + b.val < n
      · rw [Nat.mod_eq_of_lt hs] at hmod; omega
      · rw [Nat.mod_eq_sub_mod (by omega), Nat.mod_eq_of_lt (by omega)] at hmod; omega
    · simp
  · rw [if_neg h]
    have h' : k.val < i.val := not_le.mp h
    have hlt : n + k.val - i.val < n := by omega
    rw [Finset.sum_eq_single (⟨n + k.val - i.val, hlt⟩ : Fin n)]
    · have e : i.val + (n + k.val - i.val) = k.val + n := by omega
      simp only [e, get, hlt, dif_pos, mono_add_n, neg_apply]
      rw [mono_def, Nat.mod_eq_of_lt hk, if_pos rfl, Nat.div_eq_of_lt hk]
      ring
    · intro b _ hb
      rw [mono_def, if_neg, mul_zero]
      intro hmod
      have hbn := b.isLt
      apply hb
      apply Fin.ext
      simp only
      by_cases hs : i.val + b.val < n
      · rw [Nat.mod_eq_of_lt hs] at hmod; omega
      · rw [Nat.mod_eq_sub_mod (by omega), Nat.mod_eq_of_lt (by omega)] at hmod; omega
    · simp

theorem mono_mul_mono (a b : Nat) : mono n a * mono n b = mono n (a + b) := by
  refine Poly.ext (funext fun k => ?_)
  rw [mul_def]
  have hn : 0 < n := k.pos
  have h1 : ∀ i : Fin n, ∑ j : Fin n, mono n a i * mono n b j * mono n (i.val + j.val) k
      = mono n a i * mono n (i.val + b) k := by
    intro i
    have := sum_mono_shift b i.val k
    rw [Nat.add_comm i.val b, ← this, Finset.mul_sum]
    refine Finset.sum_congr rfl fun j _ => ?_
    rw [Nat.add_comm i.val j.val]; ring
  simp only [h1, sum_mono_shift]

theorem mono_n : mono n n = -1 := by
  have := mono_add_n (n := n) 0
  rw [Nat.zero_add] at this
  rw [this]; rfl

theorem const_apply (c : Scalar) (k : Fin n) : const n c k = if k.val = 0 then c else 0 := rfl
theorem mulConst_apply (p : Poly n) (c : Scalar) (k : Fin n) : mulConst p c k = p k * c := rfl
theorem set_apply (p : Poly n) (j : Nat) (v : Scalar) (k : Fin n) : set p j v k = if k.val = j then v else p k := rfl
theorem get_lt (p : Poly n) (i : Fin n) : p.get i.val = p i := by simp [get]

theorem one_apply (k : Fin n) : (1 : Poly n) k = if k.val = 0 then 1 else 0 := by
  have hn := k.pos
  rw [one_def, mono_def]
  simp only [Nat.zero_mod, Nat.zero_div, pow_zero, eq_comm]

theorem const_mul_apply (c : Scalar) (p : Poly n) (k : Fin n) : (const n c * p) k = c * p k := by
  have hn := k.pos
  rw [mul_apply, Finset.sum_eq_single (⟨0, hn⟩ : Fin n)]
  · rw [if_pos (by exact Fin.mk_le_of_le_val (Nat.zero_le _)), const_apply, if_pos rfl]
    simp [get]
  · intro b _ hb
    rw [const_apply, if_neg (fun h => hb (Fin.ext h)), zero_mul]
  · simp

theorem mulConst_eq (p : Poly n) (c : Scalar) : mulConst p c = const n c * p := by
  refine Poly.ext (funext fun k => ?_)
  rw [const_mul_apply, mulConst_apply, mul_comm]

theorem const_add (a b : Scalar) : const n (a + b) = const n a + const n b := by
  refine Poly.ext (funext fun k => ?_)
  simp only [const_apply, add_apply]; split <;> ring

theorem const_mul (a b : Scalar) : const n (a * b) = const n a * const n b := by
  refine Poly.ext (funext fun k => ?_)
  rw [const_mul_apply, const_apply, const_apply]; split <;> ring

theorem const_zero : const n 0 = 0 := by
  refine Poly.ext (funext fun k => ?_)
  simp [const_apply]

theorem const_one : const n 1 = 1 := by
  refine Poly.ext (funext fun k => ?_)
  rw [const_apply, one_apply]

theorem const_neg (a : Scalar) : const n (-a) = - const n a := by
  refine Poly.ext (funext fun k => ?_)
  simp only [const_apply, neg_apply]; split <;> ring

theorem const_sub (a b : Scalar) : const n (a - b) = const n a - const n b := by
  rw [sub_eq_add_neg, const_add, const_neg, ← sub_eq_add_neg]

theorem sum_apply {ι : Type*} (s : Finset ι) (f : ι → Poly n) (k : Fin n) :
    (∑ i ∈ s, f i) k = ∑ i ∈ s, f i k := by
  classical
  induction s using Finset.induction_on with
  | empty => simp
  | insert a s ha ih => rw [Finset.sum_insert ha, Finset.sum_insert ha, add_apply, ih]

theorem eq_sum_mono (p : Poly n) : p = ∑ i : Fin n, const n (p i) * mono n i.val := by
  refine Poly.ext (funext fun k => ?_)
  rw [sum_apply]
  simp only [const_mul_apply]
  exact (coeff_sum_mono p k).symm

end Poly
end Panacea
