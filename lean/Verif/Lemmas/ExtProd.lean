import Verif.Spec.Enc
import Verif.Lemmas.Small

namespace Panacea
open Finset
variable {n : Nat}

namespace RLWE
@[simp] theorem add_mask (c d : RLWE n) : (c + d).mask = c.mask + d.mask := rfl
@[simp] theorem add_body (c d : RLWE n) : (c + d).body = c.body + d.body := rfl
@[simp] theorem sub_mask (c d : RLWE n) : (c - d).mask = c.mask - d.mask := rfl
@[simp] theorem sub_body (c d : RLWE n) : (c - d).body = c.body - d.body := rfl
@[simp] theorem neg_mask (c : RLWE n) : (-c).mask = -c.mask := rfl
@[simp] theorem neg_body (c : RLWE n) : (-c).body = -c.body := rfl
@[simp] theorem zero_mask : (0 : RLWE n).mask = 0 := rfl
@[simp] theorem zero_body : (0 : RLWE n).body = 0 := rfl

instance instAddCommGroup : AddCommGroup (RLWE n) where
  add_assoc a b c := by ext1 <;> simp [add_assoc]
  zero_add a := by ext1 <;> simp
  add_zero a := by ext1 <;> simp
  add_comm a b := by ext1 <;> simp [add_comm]
  neg_add_cancel a := by ext1 <;> simp
  sub_eq_add_neg a b := by ext1 <;> simp [sub_eq_add_neg]
  nsmul := nsmulRec
  zsmul := zsmulRec
end RLWE

theorem decrypt_add (s : Poly n) (c d : RLWE n) : decryptRlwe s (c + d) = decryptRlwe s c + decryptRlwe s d := by
  simp only [decryptRlwe, RLWE.add_mask, RLWE.add_body]; ring
theorem decrypt_sub (s : Poly n) (c d : RLWE n) : decryptRlwe s (c - d) = decryptRlwe s c - decryptRlwe s d := by
  simp only [decryptRlwe, RLWE.sub_mask, RLWE.sub_body]; ring
theorem decrypt_neg (s : Poly n) (c : RLWE n) : decryptRlwe s (-c) = - decryptRlwe s c := by
  simp only [decryptRlwe, RLWE.neg_mask, RLWE.neg_body]; ring
theorem decrypt_zero (s : Poly n) : decryptRlwe s (0 : RLWE n) = 0 := by
  simp only [decryptRlwe, RLWE.zero_mask, RLWE.zero_body]; ring

theorem Enc.mono {s : Poly n} {c : RLWE n} {m : Poly n} {e e' : Nat} (h : Enc s c m e) (he : e ≤ e') : Enc s c m e' :=
  Small.mono h he

theorem Enc.add {s : Poly n} {c d : RLWE n} {m m' : Poly n} {e e' : Nat} (h : Enc s c m e) (h' : Enc s d m' e') :
    Enc s (c + d) (m + m') (e + e') := by
  unfold Enc at *
  rw [decrypt_add, show decryptRlwe s c + decryptRlwe s d - (m + m') = (decryptRlwe s c - m) + (decryptRlwe s d - m') by ring]
  exact h.add h'

theorem Enc.sub {s : Poly n} {c d : RLWE n} {m m' : Poly n} {e e' : Nat} (h : Enc s c m e) (h' : Enc s d m' e') :
    Enc s (c - d) (m - m') (e + e') := by
  unfold Enc at *
  rw [decrypt_sub, show decryptRlwe s c - decryptRlwe s d - (m - m') = (decryptRlwe s c - m) - (decryptRlwe s d - m') by ring]
  exact Small.sub h h'

theorem Enc.zero (s : Poly n) : Enc s 0 0 0 := by
  unfold Enc; rw [decrypt_zero, sub_zero]; exact Small.zero 0

theorem GadgetEnc.mono {s : Poly n} {C : RGSW n} {t0 t1 : Poly n} {E E' : Nat} (h : GadgetEnc s C t0 t1 E) (hE : E ≤ E') :
    GadgetEnc s C t0 t1 E' := fun i r hr => ⟨(h i r hr).1.mono hE, (h i r hr).2.mono hE⟩

theorem Binary.small {s : Poly n} (h : Binary s) : Small s 1 := fun k => by
  rcases h k with h | h <;> rw [h] <;> decide

theorem RGSW.WF.bl_lt {C : RGSW n} (h : C.WF) : C.baseLog < 64 :=
  lt_of_le_of_lt (Nat.le_mul_of_pos_right _ h.lv) h.lt

/-! ## Fourier sums -/

theorem FPoly.eval_nil : FPoly.eval ([] : FPoly n) = 0 := rfl
theorem FPoly.eval_cons (t : Poly n × Poly n) (ts : FPoly n) : FPoly.eval (t :: ts) = t.1 * t.2 + FPoly.eval ts := rfl
theorem FPoly.eval_append (ts us : FPoly n) : FPoly.eval (ts ++ us) = FPoly.eval ts + FPoly.eval us := by
  induction ts with
  | nil => rw [List.nil_append, eval_nil, zero_add]
  | cons t ts ih => rw [List.cons_append, eval_cons, eval_cons, ih]; ring

/-- Sum of digit times decrypted row. -/
def phaseSum (s : Poly n) : List (Poly n × RLWE n) → Poly n
  | [] => 0
  | t :: ts => t.1 * decryptRlwe s t.2 + phaseSum s ts

theorem phaseSum_append (s : Poly n) (ts us : List (Poly n × RLWE n)) :
    phaseSum s (ts ++ us) = phaseSum s ts + phaseSum s us := by
  induction ts with
  | nil => rw [List.nil_append, phaseSum, zero_add]
  | cons t ts ih => rw [List.cons_append, phaseSum, phaseSum, ih]; ring

theorem eval_phase (s : Poly n) (ts : List (Poly n × RLWE n)) :
    FPoly.eval (ts.map fun t => (t.1, t.2.body)) - FPoly.eval (ts.map fun t => (t.1, t.2.mask)) * s = phaseSum s ts := by
  induction ts with
  | nil => simp only [List.map_nil, FPoly.eval_nil, phaseSum]; ring
  | cons t ts ih =>
    simp only [List.map_cons, FPoly.eval_cons, phaseSum]
    rw [← ih]; unfold decryptRlwe; ring

theorem flatMap_phase (s : Poly n) (f : RLWE n × RLWE n → Nat → List (Poly n × RLWE n))
    (rows : List (RLWE n × RLWE n)) : ∀ k,
    phaseSum s ((rows.zipIdx k).flatMap fun ri => f ri.1 ri.2)
      = ∑ i ∈ range rows.length, phaseSum s (f (rows.getD i (0, 0)) (k + i)) := by
  induction rows with
  | nil => intro k; rfl
  | cons r rows ih =>
    intro k
    rw [List.zipIdx_cons, List.flatMap_cons, phaseSum_append, ih, List.length_cons, Finset.sum_range_succ', add_comm]
    congr 1
    refine Finset.sum_congr rfl fun i _ => ?_
    rw [List.getD_cons_succ, show k + 1 + i = k + (i + 1) by omega]

/-! ## Digits of polynomials -/

/-- Coefficient-wise rounding. -/
def roundPoly (bl lv : Nat) (p : Poly n) : Poly n := ⟨fun k => closestRepresentable bl lv (p k)⟩

theorem digitPoly_small {bl : Nat} (lv : Nat) (h1 : 1 ≤ bl) (h2 : bl < 64) (p : Poly n) (l : Nat) :
    Small (digitPoly bl lv p l) (2 ^ (bl - 1)) := fun _ => digit_small bl lv h1 h2 _ _

theorem digitPoly_sum {bl lv : Nat} (h1 : 1 ≤ bl) (h2 : bl * lv < 64) (h3 : 1 ≤ lv) (p : Poly n) :
    ∑ i ∈ range lv, digitPoly bl lv p (i + 1) * Poly.const n (gadget bl (i + 1)) = roundPoly bl lv p := by
  refine Poly.ext (funext fun k => ?_)
  rw [Poly.sum_apply]
  have := decompose_sum bl lv h1 h2 h3 (p k)
  unfold roundPoly
  simp only
  rw [← this]
  refine Finset.sum_congr rfl fun i _ => ?_
  rw [mul_comm, Poly.const_mul_apply, mul_comm]; rfl

theorem roundPoly_error {bl lv : Nat} (h : bl * lv < 64) (p : Poly n) :
    Small (roundPoly bl lv p - p) (2 ^ (63 - bl * lv)) := fun k => by
  rw [Poly.sub_apply]; exact closest_error bl lv h (p k)

/-! ## Size of sums of products -/

theorem supNorm_le {p : Poly n} {B : Nat} (h : Small p B) : supNorm p ≤ B := Finset.sup_le fun k _ => h k

theorem weight_append (u v : FPoly n) : FPoly.weight (u ++ v) = FPoly.weight u + FPoly.weight v := by
  unfold FPoly.weight; rw [List.map_append, List.sum_append]

theorem weight_le {B : Nat} : ∀ {ts : FPoly n}, (∀ t ∈ ts, Small t.1 B ∨ Small t.2 B) → FPoly.weight ts ≤ ts.length * B
  | [], _ => by simp [FPoly.weight]
  | t :: ts, h => by
    have ih := weight_le (ts := ts) fun u hu => h u (List.mem_cons_of_mem _ hu)
    unfold FPoly.weight at ih ⊢
    rw [List.map_cons, List.sum_cons, List.length_cons]
    have : min (supNorm t.1) (supNorm t.2) ≤ B := by
      rcases h t List.mem_cons_self with h | h
      · exact le_trans (min_le_left _ _) (supNorm_le h)
      · exact le_trans (min_le_right _ _) (supNorm_le h)
    linarith

theorem fft_pair_small {fft : Fft n} {phi : Nat} (hf : fft.Bounded phi) {s : Poly n} (hs : Small s 1) {u v : FPoly n} {w : Nat}
    (hul : u.length ≤ 128) (hvl : v.length ≤ 128) (hu : FPoly.weight u ≤ w) (hv : FPoly.weight v ≤ w) : Small (fft.err u - fft.err v * s) (fftNoise n phi w) := by
  have h1 := (hf u hul).mono (Nat.mul_le_mul_left phi hu)
  have h2 := ((hf v hvl).mono (Nat.mul_le_mul_left phi hv)).mul hs
  exact (h1.sub h2).mono (le_of_eq (by unfold fftNoise; ring))

theorem extTerms_spec {C : RGSW n} (hC : C.WF) (d : RLWE n) : (extTerms C d).length = 2 * C.levelCount ∧
    ∀ t ∈ extTerms C d, Small t.1 (2 ^ (C.baseLog - 1)) := by
  unfold extTerms
  refine ⟨?_, fun t ht => ?_⟩
  · rw [List.length_flatMap]
    simp [RGSW.levelCount, mul_comm]
  · rw [List.mem_flatMap] at ht
    obtain ⟨ri, _, h⟩ := ht
    simp only [List.mem_cons, List.not_mem_nil, or_false] at h
    have h2 : C.baseLog < 64 := lt_of_le_of_lt (Nat.le_mul_of_pos_right _ hC.lv) hC.lt
    rcases h with h | h <;> rw [h] <;> exact digitPoly_small _ hC.bl h2 _ _

/-! ## External product -/

/-- Core identity of the external product for a general gadget ciphertext. -/
theorem externalProduct_core {fft : Fft n} {phi : Nat} (hf : fft.Bounded phi) {s : Poly n} (hs : Small s 1)
    {C : RGSW n} (hC : C.WF) {t0 t1 : Poly n} {E : Nat} (hG : GadgetEnc s C t0 t1 E) (out d : RLWE n) :
    Small (decryptRlwe s (externalProduct fft C out d)
        - (decryptRlwe s out + t0 * roundPoly C.baseLog C.levelCount d.mask
            + t1 * roundPoly C.baseLog C.levelCount d.body))
      (2 * C.levelCount * (n * 2 ^ (C.baseLog - 1) * E) + fftNoise n phi (2 * C.levelCount * 2 ^ (C.baseLog - 1))) := by
  set bl := C.baseLog with hbl
  set lv := C.levelCount with hlv
  set ts := extTerms C d with hts
  have hdec : decryptRlwe s (externalProduct fft C out d)
      = decryptRlwe s out + phaseSum s ts
        + (fft.err (ts.map fun t => (t.1, t.2.body)) - fft.err (ts.map fun t => (t.1, t.2.mask)) * s) := by
    unfold externalProduct
    simp only [← hts]
    rw [← eval_phase]
    unfold decryptRlwe Fft.backward
    ring
  have hps : phaseSum s ts = ∑ i ∈ range lv,
      (digitPoly bl lv d.mask (i + 1) * decryptRlwe s (C.rows.getD i (0, 0)).1
        + digitPoly bl lv d.body (i + 1) * decryptRlwe s (C.rows.getD i (0, 0)).2) := by
    rw [hts]; unfold extTerms
    rw [flatMap_phase s (fun r l => [(digitPoly C.baseLog C.levelCount d.mask l, r.1),
      (digitPoly C.baseLog C.levelCount d.body l, r.2)]) C.rows 1]
    refine Finset.sum_congr rfl fun i _ => ?_
    simp only [phaseSum, add_zero, Nat.add_comm 1 i]
    rfl
  have hrow : ∀ i ∈ range lv,
      Small (decryptRlwe s (C.rows.getD i (0, 0)).1 - Poly.const n (gadget bl (i + 1)) * t0) E ∧
      Small (decryptRlwe s (C.rows.getD i (0, 0)).2 - Poly.const n (gadget bl (i + 1)) * t1) E := by
    intro i hi
    have hi' : i < C.rows.length := Finset.mem_range.mp hi
    have hget : C.rows[i]? = some (C.rows.getD i (0, 0)) := by
      rw [List.getD_eq_getElem?_getD, List.getElem?_eq_getElem hi', Option.getD_some]
    exact hG i _ hget
  have hsum : phaseSum s ts - (t0 * roundPoly bl lv d.mask + t1 * roundPoly bl lv d.body)
      = ∑ i ∈ range lv,
        (digitPoly bl lv d.mask (i + 1) * (decryptRlwe s (C.rows.getD i (0, 0)).1 - Poly.const n (gadget bl (i + 1)) * t0)
        + digitPoly bl lv d.body (i + 1) * (decryptRlwe s (C.rows.getD i (0, 0)).2 - Poly.const n (gadget bl (i + 1)) * t1)) := by
    rw [hps, ← digitPoly_sum hC.bl hC.lt hC.lv d.mask, ← digitPoly_sum hC.bl hC.lt hC.lv d.body, Finset.mul_sum,
      Finset.mul_sum, ← Finset.sum_add_distrib, ← Finset.sum_sub_distrib]
    refine Finset.sum_congr rfl fun i _ => ?_
    ring
  have hsmall : Small (phaseSum s ts - (t0 * roundPoly bl lv d.mask + t1 * roundPoly bl lv d.body))
      (2 * lv * (n * 2 ^ (bl - 1) * E)) := by
    rw [hsum]
    have := Small.sum (range lv) (fun i =>
        (digitPoly bl lv d.mask (i + 1) * (decryptRlwe s (C.rows.getD i (0, 0)).1 - Poly.const n (gadget bl (i + 1)) * t0)
        + digitPoly bl lv d.body (i + 1) * (decryptRlwe s (C.rows.getD i (0, 0)).2 - Poly.const n (gadget bl (i + 1)) * t1)))
      (fun _ => n * 2 ^ (bl - 1) * E + n * 2 ^ (bl - 1) * E) (fun i hi =>
        ((digitPoly_small lv hC.bl hC.bl_lt d.mask (i + 1)).mul (hrow i hi).1).add
        ((digitPoly_small lv hC.bl hC.bl_lt d.body (i + 1)).mul (hrow i hi).2))
    refine this.mono (le_of_eq ?_)
    rw [Finset.sum_const, Finset.card_range, smul_eq_mul]; ring
  have herr : Small (fft.err (ts.map fun t => (t.1, t.2.body)) - fft.err (ts.map fun t => (t.1, t.2.mask)) * s)
      (fftNoise n phi (2 * lv * 2 ^ (bl - 1))) := by
    obtain ⟨hl, hd⟩ := extTerms_spec hC d
    have hw : ∀ f : RLWE n → Poly n, FPoly.weight (ts.map fun t => (t.1, f t.2)) ≤ 2 * lv * 2 ^ (bl - 1) := fun f => by
      have := weight_le (B := 2 ^ (bl - 1)) (ts := ts.map fun t => (t.1, f t.2)) fun u hu => by
        obtain ⟨t, ht, rfl⟩ := List.mem_map.mp hu
        exact Or.inl (hd t ht)
      rwa [List.length_map, hts, hl] at this
    have hlv : 2 * C.levelCount ≤ 128 := by
      have := Nat.le_mul_of_pos_left C.levelCount hC.bl
      have := hC.lt
      omega
    exact fft_pair_small hf hs (by rw [List.length_map, hts, hl]; exact hlv) (by rw [List.length_map, hts, hl]; exact hlv) (hw _) (hw _)
  rw [hdec, show decryptRlwe s out + phaseSum s ts
        + (fft.err (ts.map fun t => (t.1, t.2.body)) - fft.err (ts.map fun t => (t.1, t.2.mask)) * s)
        - (decryptRlwe s out + t0 * roundPoly bl lv d.mask + t1 * roundPoly bl lv d.body)
      = (phaseSum s ts - (t0 * roundPoly bl lv d.mask + t1 * roundPoly bl lv d.body))
        + (fft.err (ts.map fun t => (t.1, t.2.body)) - fft.err (ts.map fun t => (t.1, t.2.mask)) * s) by ring]
  exact hsmall.add herr

theorem externalProduct_enc {fft : Fft n} {phi : Nat} (hf : fft.Bounded phi) {s : Poly n} (hs : Small s 1)
    {C : RGSW n} (hC : C.WF) {mu : Poly n} {E : Nat} (hG : EncG s C mu E) (out d : RLWE n) :
    Enc s (externalProduct fft C out d) (decryptRlwe s out + mu * decryptRlwe s d)
      (extNoise n C.baseLog C.levelCount E phi (l1 mu)) := by
  have h := externalProduct_core hf hs hC hG out d
  have ha := roundPoly_error hC.lt d.mask
  have hb := roundPoly_error hC.lt d.body
  set ra := roundPoly C.baseLog C.levelCount d.mask
  set rb := roundPoly C.baseLog C.levelCount d.body
  have hmu : Small (mu * ((rb - d.body) - (ra - d.mask) * s)) (l1 mu * ((1 + n) * 2 ^ (63 - C.baseLog * C.levelCount))) := by
    apply Small.l1_mul
    exact (hb.sub (ha.mul hs)).mono (le_of_eq (by ring))
  unfold Enc
  have e : decryptRlwe s (externalProduct fft C out d) - (decryptRlwe s out + mu * decryptRlwe s d)
      = mu * ((rb - d.body) - (ra - d.mask) * s)
        + (decryptRlwe s (externalProduct fft C out d) - (decryptRlwe s out + -(s * mu) * ra + mu * rb)) := by
    have : decryptRlwe s d = d.body - d.mask * s := rfl
    rw [this]; ring
  rw [e]
  exact hmu.add h

end Panacea
