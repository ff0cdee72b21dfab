import Verif.Lemmas.Encrypt

namespace Panacea
open Finset
variable {n : Nat}

theorem polyMonomialDiv_zero (p : Poly n) : RLWE.polyMonomialDiv p 0 = p := by
  refine Poly.ext (funext fun k => ?_)
  unfold RLWE.polyMonomialDiv
  simp only [Nat.add_zero, Nat.div_eq_of_lt k.isLt, Nat.mod_eq_of_lt k.isLt, pow_zero, one_mul, Poly.get_lt]

theorem polyMonomialDiv_succ (p : Poly n) (m : Nat) :
    RLWE.polyMonomialDiv p (m + 1) = RLWE.polyMonomialDiv (RLWE.polyMonomialDiv p m) 1 := by
  refine Poly.ext (funext fun k => ?_)
  have hn := k.pos
  unfold RLWE.polyMonomialDiv
  simp only
  have hk := Nat.mod_lt (k.val + 1) hn
  have hg := Poly.get_lt (⟨fun k => (-1) ^ ((k.val + m) / n) * p.get ((k.val + m) % n)⟩ : Poly n) ⟨(k.val + 1) % n, hk⟩
  simp only at hg
  rw [hg, ← mul_assoc, ← pow_add]
  have h := Nat.mod_add_div (k.val + 1) n
  have e : k.val + (m + 1) = ((k.val + 1) % n + m) + n * ((k.val + 1) / n) := by
    omega
  rw [e, Nat.add_mul_mod_self_left, Nat.add_mul_div_left _ _ hn, Nat.add_comm ((k.val + 1) / n)]

theorem mono_one_mul_div (p : Poly n) : Poly.mono n 1 * RLWE.polyMonomialDiv p 1 = p := by
  refine Poly.ext (funext fun k => ?_)
  have hn := k.pos
  by_cases h1 : n = 1
  · subst h1
    have hk : k = 0 := Subsingleton.elim _ _
    subst hk
    rw [show Poly.mono 1 1 = -1 by have := Poly.mono_n (n := 1); exact this]
    simp only [neg_mul, one_mul, Poly.neg_apply, RLWE.polyMonomialDiv, Fin.val_zero, Nat.zero_add, Nat.mod_self]
    have := Poly.get_lt p 0
    simp only [Fin.val_zero] at this
    rw [this, show (1 / 1 : Nat) = 1 from rfl, pow_one]; ring
  · have h2 : 1 < n := by omega
    rw [Poly.mul_apply, Finset.sum_eq_single (⟨1, h2⟩ : Fin n)]
    · rw [Poly.mono_lt ⟨1, h2⟩, if_pos rfl, one_mul]
      by_cases hk : k.val = 0
      · rw [if_neg (by rw [Fin.le_def]; simp only; omega)]
        have e : n + k.val - 1 = n - 1 := by omega
        simp only [e]
        have hg := Poly.get_lt (RLWE.polyMonomialDiv p 1) ⟨n - 1, by omega⟩
        simp only at hg
        rw [hg]
        unfold RLWE.polyMonomialDiv
        simp only [Nat.sub_add_cancel hn, Nat.div_self hn, Nat.mod_self, pow_one]
        have := Poly.get_lt p k
        rw [hk] at this
        rw [this]; ring
      · rw [if_pos (by rw [Fin.le_def]; simp only; omega)]
        have hlt : k.val - 1 < n := by omega
        have hg := Poly.get_lt (RLWE.polyMonomialDiv p 1) ⟨k.val - 1, hlt⟩
        simp only at hg
        rw [hg]
        unfold RLWE.polyMonomialDiv
        simp only [Nat.sub_add_cancel (Nat.one_le_iff_ne_zero.mpr hk), Nat.div_eq_of_lt k.isLt, Nat.mod_eq_of_lt k.isLt, pow_zero,
          one_mul, Poly.get_lt]
    · intro b _ hb
      rw [Poly.mono_lt ⟨1, h2⟩, if_neg (fun h => hb h.symm), zero_mul]
    · simp

theorem mono_mul_div (p : Poly n) (m : Nat) : Poly.mono n m * RLWE.polyMonomialDiv p m = p := by
  induction m generalizing p with
  | zero => rw [polyMonomialDiv_zero, ← Poly.one_def, one_mul]
  | succ m ih =>
    rw [polyMonomialDiv_succ, ← Poly.mono_mul_mono, mul_assoc, mono_one_mul_div, ih]

end Panacea
