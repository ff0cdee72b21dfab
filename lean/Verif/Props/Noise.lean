import Verif.Spec.Noise
import Verif.Lemmas.Float
import Verif.Props.Lwe
import Verif.Props.Context

/-! # C77: the noise reports as `f64` -/

namespace Panacea
open Spec
variable {n : Nat}

/-! ### Rounding is monotone at representable numbers -/

theorem FaithfulF64.le {t y z : ℝ} (h : FaithfulF64 t y) (hz : IsF64 z) (htz : t ≤ z) : y ≤ z := by
  by_contra hc
  exact (h.2 z hz).2 ⟨htz, not_le.mp hc⟩

theorem FaithfulF64.ge {t y z : ℝ} (h : FaithfulF64 t y) (hz : IsF64 z) (hzt : z ≤ t) : z ≤ y := by
  by_contra hc
  exact (h.2 z hz).1 ⟨not_le.mp hc, hzt⟩

theorem isF64_pow {k : Nat} (h : k ≤ 971) : IsF64 ((2 : ℝ) ^ k) :=
  ⟨1, k, by norm_num, by omega, by exact_mod_cast h, by simp⟩

theorem ofNat_pos {F : F64Ops} (hF : F.Ok) {z : Nat} (h : 1 ≤ z) : 1 ≤ F.ofNat z := by
  have := (hF.1 z).faithful.ge (z := (2 : ℝ) ^ 0) (isF64_pow (by norm_num)) (by rw [pow_zero]; exact_mod_cast h)
  simpa using this

theorem log2Of_le {F : F64Ops} (hF : F.Ok) {z : Int} {k : Nat} (hz : 0 ≤ z) (hk : k ≤ 63) (h : z ≤ 2 ^ k) : (F.log2Of z).Le k := by
  unfold F64Ops.log2Of
  split
  · trivial
  · rename_i h0
    have h1 : 1 ≤ z.toNat := by omega
    have hy := ofNat_pos hF h1
    have hle : F.ofNat z.toNat ≤ 2 ^ k := (hF.1 z.toNat).faithful.le (isF64_pow (by omega)) (by
      have : (z.toNat : Int) ≤ 2 ^ k := by omega
      exact_mod_cast this)
    refine (hF.2 _ (by linarith)).le (isF64_nat (by norm_num; omega)) ?_
    rw [← logb_pow_two k]
    exact Real.logb_le_logb_of_le (by norm_num) (by linarith) hle

theorem log2Of_ge {F : F64Ops} (hF : F.Ok) {z : Int} {k : Nat} (hk : k ≤ 63) (h : 2 ^ k ≤ z) : (F.log2Of z).Ge k := by
  have hp : (0 : Int) < 2 ^ k := by positivity
  unfold F64Ops.log2Of
  rw [if_neg (by omega)]
  have h1 : 1 ≤ z.toNat := by omega
  have hy := ofNat_pos hF h1
  have hle : 2 ^ k ≤ F.ofNat z.toNat := (hF.1 z.toNat).faithful.ge (isF64_pow (by omega)) (by
    have : (2 : Int) ^ k ≤ (z.toNat : Int) := by omega
    exact_mod_cast this)
  refine (hF.2 _ (by linarith)).ge (isF64_nat (by norm_num; omega)) ?_
  rw [← logb_pow_two k]
  exact Real.logb_le_logb_of_le (by norm_num) (by positivity) hle

theorem F64Val.lt_not_ge {v : F64Val} {x : ℝ} (h : v.Lt x) : ¬ v.Ge x := by
  cases v with
  | nan => exact h.elim
  | negInf => exact fun h' => h'
  | fin y => exact fun h' => absurd h' (not_le.mpr h)

theorem noiseMax_nonneg {s : Poly n} {c : RLWE n} {m : Poly n} {z : Int} (h : computeNoiseMax s c m = some z) : 0 ≤ z := by
  rcases (C32_is_max s c m z h).2 with ⟨_, h0⟩ | ⟨k, hk⟩
  · omega
  · rw [← hk]; exact abs_nonneg _

/-- C77 (thresholds): whatever the rounding of `f64`, for every power of two `2^k` the reported number compares with `k` as the largest
coefficient of `decrypt(ct) - m` compares with `2^k`; it is minus infinity exactly if the decryption is exact. -/
theorem C77_thresholds {F : F64Ops} (hF : F.Ok) {s : Poly n} {c : RLWE n} {m : Poly n} {v : F64Val} (h : computeNoise F s c m = some v)
    {k : Nat} (hk : k ≤ 63) :
    ((∀ i, |((decryptRlwe s c - m) i).toInt| ≤ 2 ^ k) → v.Le k) ∧
    ((∃ i, 2 ^ k ≤ |((decryptRlwe s c - m) i).toInt|) → v.Ge k) ∧
    (v.Lt k → ∀ i, |((decryptRlwe s c - m) i).toInt| < 2 ^ k) ∧
    (v = .negInf ↔ decryptRlwe s c = m) ∧ v ≠ .nan := by
  obtain ⟨z, hz, rfl⟩ := Option.map_eq_some_iff.mp h
  have h0 := noiseMax_nonneg hz
  obtain ⟨hall, hor⟩ := C32_is_max s c m z hz
  have hge : (∃ i, 2 ^ k ≤ |((decryptRlwe s c - m) i).toInt|) → (F.log2Of z).Ge k :=
    fun ⟨i, hi⟩ => log2Of_ge hF hk (le_trans hi (hall i))
  refine ⟨fun hle => ?_, hge, fun hlt i => ?_, ?_, ?_⟩
  · refine log2Of_le hF h0 hk ?_
    rcases hor with ⟨_, h1⟩ | ⟨i, hi⟩
    · rw [h1]; positivity
    · rw [← hi]; exact hle i
  · by_contra hc
    exact F64Val.lt_not_ge hlt (hge ⟨i, not_lt.mp hc⟩)
  · constructor
    · intro hv
      have hz0 : z = 0 := by
        by_contra hne
        unfold F64Ops.log2Of at hv
        rw [if_neg hne] at hv; cases hv
      refine sub_eq_zero.mp (Poly.ext (funext fun i => ?_))
      have := hall i
      rw [hz0] at this
      have h2 : ((decryptRlwe s c - m) i).toInt = 0 := abs_eq_zero.mp (le_antisymm this (abs_nonneg _))
      exact BitVec.toInt_inj.mp (by rw [h2]; rfl)
    · intro he
      have hz0 : z = 0 := by
        rcases hor with ⟨_, h1⟩ | ⟨i, hi⟩
        · exact h1
        · rw [he, sub_self] at hi
          rw [← hi]; rfl
      unfold F64Ops.log2Of
      rw [if_pos hz0]
  · unfold F64Ops.log2Of
    split <;> simp

/-- C77 (guarantee): if `compute_noise_encoded` reports less than `63 - log2 t` for a plaintext, then decryption and decoding return that
plaintext. -/
theorem C77_guarantee {F : F64Ops} (hF : F.Ok) {t : Scalar} {ctx : Ctx} (hc : Codec.new t = some ctx.codec) {s : Poly n} {c : RLWE n}
    {pt : Poly n} {l : Nat} (hl : t.toNat = 2 ^ l) {v : F64Val} (h : computeNoiseEncoded F ctx.codec s c pt = some v)
    (hv : v.Lt ((63 - l : Nat) : ℝ)) : decryptDecodeRlwe ctx s c = pt := by
  obtain ⟨wf, ht⟩ := Codec.new_wf hc
  have hl' : l = ctx.codec.baseLog := Nat.pow_right_injective (le_refl 2) (by simpa [ht] using hl.symm)
  have h1 := wf.one_le; have h2 := wf.le
  unfold computeNoiseEncoded at h
  rcases hp : ctx.codec.polyEncode pt with _ | enc
  · rw [hp] at h; cases h
  rw [hp] at h
  have hlt := (C77_thresholds hF h (k := 63 - l) (by omega)).2.2.1 hv
  obtain ⟨z, hz, rfl⟩ := Option.map_eq_some_iff.mp h
  have hzl : z < 2 ^ (63 - l) := by
    rcases (C32_is_max s c enc z hz).2 with ⟨_, h0⟩ | ⟨k, hk⟩
    · rw [h0]; positivity
    · rw [← hk]; exact hlt k
  refine C32_encoded_guarantee hc s c pt z (by unfold computeNoiseEncodedMax; rw [hp]; exact hz) ?_
  have h0 := noiseMax_nonneg hz
  have e64 : (2 : Nat) ^ 64 / 2 ^ l = 2 * 2 ^ (63 - l) := by
    rw [Nat.pow_div (by omega) (by norm_num), ← pow_succ']
    congr 1; omega
  rw [hl, e64]
  have : z.toNat < 2 ^ (63 - l) := by
    have : (z.toNat : Int) < 2 ^ (63 - l) := by omega
    exact_mod_cast this
  omega

/-- The encoding of a decoded word is within half a delta of it. -/
theorem decode_distance {t : Scalar} {c : Codec} (hc : Codec.new t = some c) (x w : Scalar) (hw : c.encode (c.decode x) = some w) :
    InWindow t.toNat (x - w).toInt := by
  refine (C01_decode_iff hc (c.decode x) w hw (x - w).toInt ?_ ?_).mp ?_
  · have := BitVec.le_toInt (x - w); simpa using this
  · have := BitVec.toInt_lt (x := x - w); simpa using this
  · rw [ofInt_toInt', add_sub_cancel]

/-- C77 (the benchmark's noise column): measured against the decoded value of the ciphertext itself, as the binary does, the report never
panics and never exceeds `63 - log2 t`, for any ciphertext whatsoever; so it is the comparison with the expected plaintext, not the
noise column, that reveals a failure. -/
theorem C77_decoded_report {F : F64Ops} (hF : F.Ok) {t : Scalar} {ctx : Ctx} (hc : Codec.new t = some ctx.codec) (s : Poly n) (c : RLWE n)
    {l : Nat} (hl : t.toNat = 2 ^ l) :
    ∃ v, computeNoiseEncoded F ctx.codec s c (decryptDecodeRlwe ctx s c) = some v ∧ v.Le ((63 - l : Nat) : ℝ) := by
  obtain ⟨wf, ht⟩ := Codec.new_wf hc
  have hl' : l = ctx.codec.baseLog := Nat.pow_right_injective (le_refl 2) (by simpa [ht] using hl.symm)
  have h1 := wf.one_le; have h2 := wf.le
  obtain ⟨enc, henc⟩ := polyEncode_total hc (p := decryptDecodeRlwe ctx s c) fun k => (C02_decode_lt hc _).1
  have hwin : ∀ k, InWindow t.toNat ((decryptRlwe s c - enc) k).toInt := fun k =>
    decode_distance hc (decryptRlwe s c k) (enc k) (polyEncode_some henc k)
  have hb : ∀ k, |((decryptRlwe s c - enc) k).toInt| ≤ 2 ^ (63 - l) := fun k => by
    have := hwin k
    rw [hl, inWindow_iff (by omega)] at this
    exact abs_le.mpr ⟨this.1, le_of_lt this.2⟩
  have hno : computeNoiseMax s c enc ≠ none := by
    intro hn
    obtain ⟨k, hk⟩ := (C32_panics_iff s c enc).mp hn
    have := hb k
    rw [hk] at this
    have h63 : (2 : Int) ^ (63 - l) ≤ 2 ^ 62 := by
      apply pow_le_pow_right₀ (by norm_num); omega
    norm_num at this h63
    omega
  obtain ⟨z, hz⟩ := Option.ne_none_iff_exists'.mp hno
  have hv : computeNoise F s c enc = some (F.log2Of z) := by unfold computeNoise; rw [hz]; rfl
  refine ⟨F.log2Of z, ?_, (C77_thresholds hF hv (by omega)).1 hb⟩
  unfold computeNoiseEncoded
  rw [henc]; exact hv

/-! ### RGSW ciphertexts -/

/-- Error of the body row of a level, as `compute_noise_rgsw1` measures it: against the context's gadget and the message 1. -/
def Spec.bodyRowError (ctx : Ctx) (s : Poly n) (C : RGSW n) (level : Nat) (row : RLWE n) (e : Poly n) : Prop :=
  C.getNthRow (level * 2 + 1) = some row ∧ decryptRlwe s row = Poly.const n (gadget ctx.baseLog (level + 1)) + e

theorem unit_mulConst (hn : 0 < n) (c : Scalar) : (Poly.set (0 : Poly n) 0 1).mulConst c = Poly.const n c := by
  refine Poly.ext (funext fun k => ?_)
  show (Poly.set (0 : Poly n) 0 1).coeff k * c = (Poly.const n c).coeff k
  unfold Poly.set Poly.const
  simp only
  by_cases h : k.val = 0
  · simp [h]
  · simp [h, show (0 : Poly n).coeff k = 0 from rfl]

theorem rgswRowNoise_some {F : F64Ops} {ctx : Ctx} {s : Poly n} {C : RGSW n} {level : Nat} {v : F64Val}
    (h : rgswRowNoise F ctx s C level = some v) : level < 64 ∧ ∃ row, C.getNthRow (level * 2 + 1) = some row ∧
      computeNoise F s row (Poly.const n (gadget ctx.baseLog (level + 1))) = some v := by
  unfold rgswRowNoise at h
  split at h
  · cases h
  rename_i h64
  unfold genUnitPt at h
  split at h
  · cases h
  rename_i pt hpt
  split at hpt
  · rename_i hn
    cases hpt
    split at h
    · cases h
    rename_i hb
    split at h
    · cases h
    rename_i row hrow
    refine ⟨?_, row, hrow, ?_⟩
    · rcases Nat.eq_zero_or_pos ctx.baseLog with h0 | h0
      · rw [h0, Nat.zero_mul] at hb; exact absurd rfl hb
      · have : level + 1 ≤ ctx.baseLog * (level + 1) := Nat.le_mul_of_pos_left _ h0
        omega
    · rw [unit_mulConst hn] at h
      exact h
  · cases hpt

theorem F64Arith.addVal_le {F : F64Arith} (hF : F.Ok) {u v : F64Val} {a b : Nat} (hab : a + b ≤ 2 ^ 53) (hu : u.Le a) (hv : v.Le b) :
    (F.addVal u v).Le ((a + b : Nat) : ℝ) := by
  rcases u with _ | _ | x
  · exact hu.elim
  · cases v with
    | nan => exact hv.elim
    | negInf => trivial
    | fin y => trivial
  · cases v with
    | nan => exact hv.elim
    | negInf => trivial
    | fin y =>
      refine (hF.2.1 x y).faithful.le (isF64_nat hab) ?_
      have h1 : x ≤ a := hu
      have h2 : y ≤ b := hv
      push_cast; linarith

theorem F64Arith.addVal_ge {F : F64Arith} (hF : F.Ok) {u v : F64Val} {a b : Nat} (hab : a + b ≤ 2 ^ 53) (hu : u.Ge a) (hv : v.Ge b) :
    (F.addVal u v).Ge ((a + b : Nat) : ℝ) := by
  rcases u with _ | _ | x
  · exact hu.elim
  · exact hu.elim
  · cases v with
    | nan => exact hv.elim
    | negInf => exact hv.elim
    | fin y =>
      refine (hF.2.1 x y).faithful.ge (isF64_nat hab) ?_
      have h1 : a ≤ x := hu
      have h2 : b ≤ y := hv
      push_cast; linarith

theorem rgswLoop_bounds {F : F64Arith} (hF : F.Ok) {ctx : Ctx} {s : Poly n} {C : RGSW n} {k : Nat} (hk : k ≤ 63) :
    ∀ {levels : List Nat} {j : Nat} {total v : F64Val}, j + levels.length ≤ 2 ^ 32 → rgswNoiseLoop F ctx s C levels total = some v →
      ((∀ l ∈ levels, ∀ w, rgswRowNoise F.toF64Ops ctx s C l = some w → w.Le k) → total.Le ((j * k : Nat) : ℝ) →
        v.Le (((j + levels.length) * k : Nat) : ℝ)) ∧
      ((∀ l ∈ levels, ∀ w, rgswRowNoise F.toF64Ops ctx s C l = some w → w.Ge k) → total.Ge ((j * k : Nat) : ℝ) →
        v.Ge (((j + levels.length) * k : Nat) : ℝ))
  | [], j, total, v, _, h => by
    cases h
    exact ⟨fun _ h => h, fun _ h => h⟩
  | l :: levels, j, total, v, hj, h => by
    rw [rgswNoiseLoop] at h
    split at h
    · cases h
    rename_i w hw
    rw [List.length_cons] at hj
    have e : j + (l :: levels).length = (j + 1) + levels.length := by rw [List.length_cons]; omega
    have hb : j * k + k ≤ 2 ^ 53 := by
      have : j * k ≤ 2 ^ 32 * 63 := Nat.mul_le_mul (by omega) hk
      omega
    obtain ⟨ih1, ih2⟩ := rgswLoop_bounds hF hk (levels := levels) (j := j + 1) (by omega) h
    rw [e]
    constructor
    · intro hall ht
      refine ih1 (fun l' hl' => hall l' (List.mem_cons_of_mem _ hl')) ?_
      have := F64Arith.addVal_le hF hb ht (hall l List.mem_cons_self w hw)
      rwa [show (j + 1) * k = j * k + k from Nat.succ_mul j k]
    · intro hall ht
      refine ih2 (fun l' hl' => hall l' (List.mem_cons_of_mem _ hl')) ?_
      have := F64Arith.addVal_ge hF hb ht (hall l List.mem_cons_self w hw)
      rwa [show (j + 1) * k = j * k + k from Nat.succ_mul j k]

theorem rgswLoop_all {F : F64Arith} {ctx : Ctx} {s : Poly n} {C : RGSW n} : ∀ {levels : List Nat} {total v : F64Val},
    rgswNoiseLoop F ctx s C levels total = some v → ∀ l ∈ levels, ∃ w, rgswRowNoise F.toF64Ops ctx s C l = some w
  | [], _, _, _ => by simp
  | l :: levels, total, v, h => by
    rw [rgswNoiseLoop] at h
    split at h
    · cases h
    rename_i w hw
    intro l' hl'
    rcases List.mem_cons.mp hl' with rfl | hl'
    · exact ⟨w, hw⟩
    · exact rgswLoop_all h l' hl'

theorem levelCount_le {F : F64Arith} {ctx : Ctx} {s : Poly n} {C : RGSW n} {total v : F64Val}
    (h : rgswNoiseLoop F ctx s C (List.range ctx.levelCount) total = some v) : ctx.levelCount ≤ 64 := by
  by_contra hc
  obtain ⟨w, hw⟩ := rgswLoop_all h 64 (by simp; omega)
  exact absurd (rgswRowNoise_some hw).1 (by omega)

/-- C77 (`compute_noise_rgsw1`): with at least one level, if every body row differs from the gadget (message 1) by at most `2^k` the report
is at most `k`; if every body row has a coefficient that differs by at least `2^k` the report is at least `k`. -/
theorem C77_rgsw1 {F : F64Arith} (hF : F.Ok) {ctx : Ctx} (hL : 0 < ctx.levelCount) {s : Poly n} {C : RGSW n} {v : F64Val}
    (h : computeNoiseRgsw1 F ctx s C = some v) {k : Nat} (hk : k ≤ 63) :
    ((∀ level < ctx.levelCount, ∀ row e, bodyRowError ctx s C level row e → ∀ i, |(e i).toInt| ≤ 2 ^ k) → v.Le k) ∧
    ((∀ level < ctx.levelCount, ∀ row e, bodyRowError ctx s C level row e → ∃ i, 2 ^ k ≤ |(e i).toInt|) → v.Ge k) := by
  obtain ⟨total, ht, rfl⟩ := Option.map_eq_some_iff.mp h
  have h64 := levelCount_le ht
  have hL' : F.ofNat ctx.levelCount = ctx.levelCount := (hF.1.1 ctx.levelCount).eq (isF64_nat (by omega))
  have hLpos : (0 : ℝ) < ctx.levelCount := by exact_mod_cast hL
  obtain ⟨b1, b2⟩ := rgswLoop_bounds hF hk (levels := List.range ctx.levelCount) (j := 0) (by rw [List.length_range]; omega) ht
  rw [List.length_range, zero_add] at b1 b2
  constructor
  · intro hall
    have := b1 (fun l hl w hw => ?_) (by simp [F64Val.Le])
    · unfold F64Arith.divVal
      cases total with
      | nan => exact this.elim
      | negInf => trivial
      | fin x =>
        simp only [if_neg hL.ne']
        refine (hF.2.2 x (F.ofNat ctx.levelCount) (by rw [hL']; exact hLpos.ne')).faithful.le (isF64_nat (by omega)) ?_
        rw [hL', div_le_iff₀ hLpos]
        have hx : x ≤ ((ctx.levelCount * k : Nat) : ℝ) := this
        push_cast at hx
        linarith
    · obtain ⟨_, row, hr, hn⟩ := rgswRowNoise_some hw
      refine (C77_thresholds hF.1 hn hk).1 ?_
      exact hall l (List.mem_range.mp hl) row _ ⟨hr, by rw [add_sub_cancel]⟩
  · intro hall
    have := b2 (fun l hl w hw => ?_) (by simp [F64Val.Ge])
    · unfold F64Arith.divVal
      cases total with
      | nan => exact this.elim
      | negInf => exact this.elim
      | fin x =>
        simp only [if_neg hL.ne']
        refine (hF.2.2 x (F.ofNat ctx.levelCount) (by rw [hL']; exact hLpos.ne')).faithful.ge (isF64_nat (by omega)) ?_
        rw [hL', le_div_iff₀ hLpos]
        have hx : ((ctx.levelCount * k : Nat) : ℝ) ≤ x := this
        push_cast at hx
        linarith
    · obtain ⟨_, row, hr, hn⟩ := rgswRowNoise_some hw
      refine (C77_thresholds hF.1 hn hk).2.1 ?_
      exact hall l (List.mem_range.mp hl) row _ ⟨hr, by rw [add_sub_cancel]⟩

/-- C77 (finding 3 in numbers): `compute_noise_ternary` reports at least 62 bits for every ternary encryption with a non-zero coefficient, however small the
noise is. -/
theorem C77_ternary_report {F : F64Ops} (hF : F.Ok) {s pt : Poly n} (hpt : ∀ k, pt k = 0 ∨ pt k = 1 ∨ pt k = -1) {k : Fin n} (hk : pt k ≠ 0) {g : Gen n}
    (hg : |(g.noises g.pos k).toInt| ≤ 2 ^ 58) {r : RLWE n × Gen n} (hr : ternaryEncryptRlwe s pt g = some r) {v : F64Val}
    (hv : computeNoiseTernary F s r.1 pt = some v) : v.Ge 62 := by
  have hdec : polyTernaryDecode pt = (0 : Poly n) := by
    refine Poly.ext (funext fun k => ?_)
    unfold polyTernaryDecode
    simp only
    rw [show Poly.coeff (0 : Poly n) k = (0 : Scalar) from rfl]
    rcases hpt k with h | h | h <;> rw [h] <;> decide +kernel
  unfold computeNoiseTernary at hv
  rw [hdec] at hv
  refine (C77_thresholds hF hv (k := 62) (by decide)).2.1 ⟨k, ?_⟩
  rw [sub_zero]
  unfold ternaryEncryptRlwe at hr
  rcases hp : polyTernaryEncode pt with _ | enc
  · rw [hp] at hr; cases hr
  · rw [hp] at hr
    cases hr
    have hek := polyTernaryEncode_some hp k
    rw [decrypt_encrypt, Poly.add_apply, BitVec.toInt_add]
    have h1 : ternaryEncode 1 = some encTHIRD := by decide
    have h2 : ternaryEncode (-1) = some (2 * encTHIRD) := by decide
    have habs := abs_le.mp hg
    rcases hpt k with h | h | h
    · exact absurd h hk
    · rw [h, h1] at hek
      rw [← Option.some.inj hek, show encTHIRD.toInt = 0x5555555555555400 by decide]
      rw [Int.bmod_eq_of_le (by omega) (by omega)]
      rw [abs_of_nonneg (by omega)]
      omega
    · rw [h, h2] at hek
      rw [← Option.some.inj hek, show (2 * encTHIRD).toInt = -0x5555555555555800 by decide]
      rw [Int.bmod_eq_of_le (by omega) (by omega)]
      rw [abs_of_nonpos (by omega)]
      omega

/-- C77 (`compute_noise_rgsw1`, no levels): the report is `NaN`. -/
theorem C77_rgsw1_no_levels (F : F64Arith) {ctx : Ctx} (hL : ctx.levelCount = 0) (s : Poly n) (C : RGSW n) :
    computeNoiseRgsw1 F ctx s C = some .nan := by
  unfold computeNoiseRgsw1
  rw [hL]
  rfl

theorem getNthRow_body {C : RGSW n} (level : Nat) : C.getNthRow (level * 2 + 1) = (C.rows[level]?).map (·.2) := by
  unfold RGSW.getNthRow
  rw [show (level * 2 + 1) / 2 = level by omega, show (level * 2 + 1) % 2 = 1 by omega]
  rcases C.rows[level]? with _ | r <;> rfl

theorem rgswLoop_congr {F : F64Arith} {ctx : Ctx} {s : Poly n} {C D : RGSW n}
    (h : ∀ l, rgswRowNoise F.toF64Ops ctx s C l = rgswRowNoise F.toF64Ops ctx s D l) : ∀ {levels : List Nat} {total : F64Val},
    rgswNoiseLoop F ctx s C levels total = rgswNoiseLoop F ctx s D levels total
  | [], _ => rfl
  | l :: levels, total => by
    rw [rgswNoiseLoop, rgswNoiseLoop, h l]
    split
    · rfl
    · exact rgswLoop_congr h

/-- C77 (`compute_noise_rgsw1` is blind to half of the ciphertext): the report depends on the body rows only; whatever the mask rows hold,
it is the same. -/
theorem C77_rgsw1_ignores_mask_rows (F : F64Arith) (ctx : Ctx) (s : Poly n) {C D : RGSW n} (h : C.rows.map (·.2) = D.rows.map (·.2)) :
    computeNoiseRgsw1 F ctx s C = computeNoiseRgsw1 F ctx s D := by
  unfold computeNoiseRgsw1
  rw [rgswLoop_congr fun l => ?_]
  unfold rgswRowNoise
  rw [getNthRow_body, getNthRow_body, ← List.getElem?_map, ← List.getElem?_map, h]

theorem rgswLoop_negInf {F : F64Arith} {ctx : Ctx} {s : Poly n} {C : RGSW n} : ∀ {levels : List Nat} {v total : F64Val},
    rgswNoiseLoop F ctx s C levels total = some v → total ≠ .nan →
    (total = .negInf ∨ ∃ l ∈ levels, rgswRowNoise F.toF64Ops ctx s C l = some .negInf) → v = .negInf
  | [], v, total, h, _, hor => by
    cases h
    rcases hor with h | ⟨l, hl, _⟩
    · exact h
    · cases hl
  | l :: levels, v, total, h, hn, hor => by
    rw [rgswNoiseLoop] at h
    split at h
    · cases h
    rename_i w hw
    obtain ⟨_, row, _, hr⟩ := rgswRowNoise_some hw
    have hwn : w ≠ .nan := by
      obtain ⟨z, _, rfl⟩ := Option.map_eq_some_iff.mp hr
      unfold F64Ops.log2Of
      split <;> simp
    refine rgswLoop_negInf h ?_ ?_
    · cases total <;> cases w <;> simp [F64Arith.addVal] at hn hwn ⊢
    · rcases hor with rfl | ⟨l', hl', hv⟩
      · left; cases w <;> simp [F64Arith.addVal] at hwn ⊢
      · rcases List.mem_cons.mp hl' with rfl | hl'
        · left
          rw [hv] at hw
          cases hw
          cases total <;> simp [F64Arith.addVal] at hn ⊢
        · exact Or.inr ⟨l', hl', hv⟩

/-- C77 (one exact row hides all others): if one body row is exact, the "average" is minus infinity whatever the other rows hold. -/
theorem C77_rgsw1_exact_row {F : F64Arith} {ctx : Ctx} {s : Poly n} {C : RGSW n} {v : F64Val} (h : computeNoiseRgsw1 F ctx s C = some v)
    {level : Nat} (hl : level < ctx.levelCount) {row : RLWE n} (hr : bodyRowError ctx s C level row 0) : v = .negInf := by
  obtain ⟨total, ht, rfl⟩ := Option.map_eq_some_iff.mp h
  obtain ⟨w, hw⟩ := rgswLoop_all ht level (List.mem_range.mpr hl)
  obtain ⟨_, row', hr', hn⟩ := rgswRowNoise_some hw
  rw [hr.1] at hr'
  cases hr'
  have he : decryptRlwe s row = Poly.const n (gadget ctx.baseLog (level + 1)) := by rw [hr.2, add_zero]
  have hz : w = .negInf := by
    obtain ⟨z, hz, rfl⟩ := Option.map_eq_some_iff.mp hn
    have : z = 0 := by
      rcases (C32_is_max _ _ _ z hz).2 with ⟨_, h0⟩ | ⟨i, hi⟩
      · exact h0
      · rw [he, sub_self] at hi; rw [← hi]; rfl
    unfold F64Ops.log2Of
    rw [if_pos this]
  rw [hz] at hw
  rw [rgswLoop_negInf ht (by simp) (Or.inr ⟨level, List.mem_range.mpr hl, hw⟩)]
  rfl

/-- C77 (encryptions of 1): for every RGSW encryption of 1 with the context's parameters and row errors at most `2^k`, `k < 63`,
`compute_noise_rgsw1` does not panic and reports at most `k`. -/
theorem C77_rgsw1_one {F : F64Arith} (hF : F.Ok) (hn : 0 < n) {ctx : Ctx} {s : Poly n} {C : RGSW n} (hw : C.WF) (hb : C.baseLog = ctx.baseLog)
    (hl : C.levelCount = ctx.levelCount) {k : Nat} (hk : k < 63) (h : EncG s C 1 (2 ^ k)) :
    ∃ v, computeNoiseRgsw1 F ctx s C = some v ∧ v.Le k := by
  have hrow : ∀ level < ctx.levelCount, ∃ row, C.getNthRow (level * 2 + 1) = some row ∧
      Small (decryptRlwe s row - Poly.const n (gadget ctx.baseLog (level + 1))) (2 ^ k) := by
    intro level hlt
    have hlt' : level < C.rows.length := by rw [← hl] at hlt; exact hlt
    have := (h level C.rows[level] (List.getElem?_eq_getElem hlt')).2
    unfold Enc at this
    rw [hb, mul_one] at this
    exact ⟨C.rows[level].2, by rw [getNthRow_body, List.getElem?_eq_getElem hlt']; rfl, this⟩
  have hbl := hw.bl; have hlv := hw.lv; have hlt := hw.lt
  rw [hb, hl] at hlt; rw [hb] at hbl; rw [hl] at hlv
  have hsome : ∀ level < ctx.levelCount, ∃ v, rgswRowNoise F.toF64Ops ctx s C level = some v := by
    intro level hlev
    obtain ⟨row, hr, hsm⟩ := hrow level hlev
    have hle : ctx.baseLog * (level + 1) ≤ ctx.baseLog * ctx.levelCount := Nat.mul_le_mul_left _ hlev
    have hpos : 0 < ctx.baseLog * (level + 1) := Nat.mul_pos hbl (Nat.succ_pos _)
    have hno : computeNoiseMax s row (Poly.const n (gadget ctx.baseLog (level + 1))) ≠ none := by
      intro hc
      obtain ⟨i, hi⟩ := (C32_panics_iff _ _ _).mp hc
      have := hsm i
      rw [hi] at this
      have h2 : (2 : Nat) ^ k < 2 ^ 63 := Nat.pow_lt_pow_right (by norm_num) hk
      norm_num at this h2
      omega
    obtain ⟨z, hz⟩ := Option.ne_none_iff_exists'.mp hno
    refine ⟨F.log2Of z, ?_⟩
    unfold rgswRowNoise genUnitPt
    rw [if_neg (by omega), if_pos hn]
    simp only
    rw [if_neg (by omega), hr]
    simp only
    rw [unit_mulConst hn]
    show computeNoise F.toF64Ops s row (Poly.const n (gadget ctx.baseLog (level + 1))) = _
    unfold computeNoise
    rw [hz]; rfl
  have hloop : ∀ (levels : List Nat) (total : F64Val), (∀ l ∈ levels, l < ctx.levelCount) → ∃ v, rgswNoiseLoop F ctx s C levels total = some v := by
    intro levels
    induction levels with
    | nil => intro total _; exact ⟨total, rfl⟩
    | cons l levels ih =>
      intro total hall
      obtain ⟨v, hv⟩ := hsome l (hall l List.mem_cons_self)
      rw [rgswNoiseLoop, hv]
      exact ih _ fun l' hl' => hall l' (List.mem_cons_of_mem _ hl')
  obtain ⟨total, ht⟩ := hloop (List.range ctx.levelCount) (.fin 0) fun l hl => List.mem_range.mp hl
  have hv : computeNoiseRgsw1 F ctx s C = some (F.divVal total ctx.levelCount) := by unfold computeNoiseRgsw1; rw [ht]; rfl
  refine ⟨_, hv, (C77_rgsw1 hF hlv hv (by omega)).1 fun level hlev row e he i => ?_⟩
  obtain ⟨row', hr', hsm⟩ := hrow level hlev
  rw [he.1] at hr'
  cases hr'
  have := hsm i
  rw [he.2, add_sub_cancel_left] at this
  rw [Int.abs_eq_natAbs]
  exact_mod_cast this

theorem gadget_nrm {bl l : Nat} (h1 : 1 ≤ bl * l) (h2 : bl * l ≤ 64) : nrm (gadget bl l) = 2 ^ (64 - bl * l) := by
  unfold gadget
  have : 64 - bl * l ≤ 63 := by omega
  generalize 64 - bl * l = j at this
  interval_cases j <;> decide

/-- C77 (encryptions of 0, the report is not about noise): an RGSW encryption of 0, however small its errors (at most `2^(63 - bl*lv)`), is
reported with at least `63 - bl*lv`, even if it is exact: the function measures the distance to encryptions of 1. -/
theorem C77_rgsw1_zero {F : F64Arith} (hF : F.Ok) (hn : 0 < n) {ctx : Ctx} {s : Poly n} {C : RGSW n} (hw : C.WF) (hb : C.baseLog = ctx.baseLog)
    (hl : C.levelCount = ctx.levelCount) (h : EncG s C 0 (2 ^ (63 - ctx.baseLog * ctx.levelCount))) {v : F64Val}
    (hv : computeNoiseRgsw1 F ctx s C = some v) : v.Ge ((63 - ctx.baseLog * ctx.levelCount : Nat) : ℝ) := by
  have hbl := hw.bl; have hlv := hw.lv; have hlt := hw.lt
  rw [hb, hl] at hlt; rw [hb] at hbl; rw [hl] at hlv
  refine (C77_rgsw1 hF hlv hv (by omega)).2 fun level hlev row e he => ⟨⟨0, hn⟩, ?_⟩
  have hlt' : level < C.rows.length := by rw [← hl] at hlev; exact hlev
  have hrow := (h level C.rows[level] (List.getElem?_eq_getElem hlt')).2
  have hr := he.1
  rw [getNthRow_body, List.getElem?_eq_getElem hlt'] at hr
  have hr' : C.rows[level].2 = row := by simpa using hr
  rw [hr'] at hrow
  unfold Enc at hrow
  rw [mul_zero, sub_zero] at hrow
  have hd := hrow ⟨0, hn⟩
  have hle : ctx.baseLog * (level + 1) ≤ ctx.baseLog * ctx.levelCount := Nat.mul_le_mul_left _ hlev
  have hpos : 0 < ctx.baseLog * (level + 1) := Nat.mul_pos hbl (Nat.succ_pos _)
  have hg := gadget_nrm (bl := ctx.baseLog) (l := level + 1) hpos (by omega)
  have he0 : e ⟨0, hn⟩ = decryptRlwe s row ⟨0, hn⟩ - gadget ctx.baseLog (level + 1) := by
    rw [he.2]
    show _ = (Poly.const n (gadget ctx.baseLog (level + 1)) + e) ⟨0, hn⟩ - _
    rw [Poly.add_apply, Poly.const_apply]
    simp
  have htri : nrm (gadget ctx.baseLog (level + 1)) ≤ nrm (decryptRlwe s row ⟨0, hn⟩) + nrm (e ⟨0, hn⟩) := by
    have : gadget ctx.baseLog (level + 1) = decryptRlwe s row ⟨0, hn⟩ - e ⟨0, hn⟩ := by rw [he0]; ring
    rw [this]
    exact le_trans (nrm_sub _ _) le_rfl
  have hpow : 2 ^ (64 - ctx.baseLog * ctx.levelCount) ≤ 2 ^ (64 - ctx.baseLog * (level + 1)) :=
    Nat.pow_le_pow_right (by norm_num) (by omega)
  have hdbl : 2 ^ (64 - ctx.baseLog * ctx.levelCount) = 2 * 2 ^ (63 - ctx.baseLog * ctx.levelCount) := by
    rw [← pow_succ']; congr 1; omega
  have hd' : nrm (decryptRlwe s row ⟨0, hn⟩) ≤ 2 ^ (63 - ctx.baseLog * ctx.levelCount) := hd
  have hfin : 2 ^ (63 - ctx.baseLog * ctx.levelCount) ≤ nrm (e ⟨0, hn⟩) := by omega
  rw [Int.abs_eq_natAbs]
  exact_mod_cast hfin

/-! ### Release builds -/

/-- C77 (release build): in a release build `compute_noise` cannot panic, and a coefficient that is wrong by exactly half the torus is
ignored; if all are, the report is that of an exact decryption.  Without such a coefficient it agrees with the checked build. -/
theorem C77_release (s : Poly n) (c : RLWE n) (m : Poly n) :
    (∀ z, computeNoiseMax s c m = some z → computeNoiseMaxRelease s c m = z) ∧
    ((∀ i, ((decryptRlwe s c - m) i).toInt = -2 ^ 63) → computeNoiseMaxRelease s c m = 0) := by
  have gen : ∀ (pt : Poly n) (ks : List (Fin n)) (a z : Int),
      ks.foldl (fun acc k =>
        match acc with
        | none => none
        | some maxE =>
          if (pt k).toInt = -2 ^ 63 then none
          else
            let z : Int := |(pt k).toInt|
            some (if maxE < z then z else maxE)) (some a) = some z →
      ks.foldl (fun maxE k =>
        let z : Int := if (pt k).toInt = -2 ^ 63 then -2 ^ 63 else |(pt k).toInt|
        if maxE < z then z else maxE) a = z := by
    intro pt ks
    have hnone : ∀ ks : List (Fin n), ks.foldl (fun acc k =>
        match acc with
        | none => none
        | some maxE =>
          if (pt k).toInt = -2 ^ 63 then none
          else
            let z : Int := |(pt k).toInt|
            some (if maxE < z then z else maxE)) (none : Option Int) = none := by
      intro ks
      induction ks with
      | nil => rfl
      | cons k ks ih => rw [List.foldl_cons]; exact ih
    induction ks with
    | nil => intro a z h; cases h; rfl
    | cons k ks ih =>
      intro a z h
      rw [List.foldl_cons] at h ⊢
      by_cases hk : (pt k).toInt = -2 ^ 63
      · simp only [if_pos hk] at h
        rw [hnone] at h; cases h
      · simp only [if_neg hk] at h ⊢
        exact ih _ _ h
  refine ⟨fun z h => gen _ _ 0 z h, fun h => ?_⟩
  unfold computeNoiseMaxRelease
  simp only
  have : ∀ ks : List (Fin n), ks.foldl (fun maxE k =>
      if maxE < (if ((decryptRlwe s c - m) k).toInt = -2 ^ 63 then -2 ^ 63 else |((decryptRlwe s c - m) k).toInt|) then
        (if ((decryptRlwe s c - m) k).toInt = -2 ^ 63 then -2 ^ 63 else |((decryptRlwe s c - m) k).toInt|) else maxE) (0 : Int) = 0 := by
    intro ks
    induction ks with
    | nil => rfl
    | cons k ks ih =>
      rw [List.foldl_cons, if_pos (h k), if_neg (by norm_num)]
      exact ih
  exact this _

/-! ### The hypotheses are met -/

/-- Correctly rounded operations. -/
noncomputable def exArith : F64Arith :=
  { exF64 with add := fun x y => (exists_nearest (x + y)).choose, div := fun x y => (exists_nearest (x / y)).choose }

theorem exArith_ok : exArith.Ok :=
  ⟨exF64_exact.ok, fun x y => (exists_nearest (x + y)).choose_spec, fun x y _ => (exists_nearest (x / y)).choose_spec⟩

/-- A fresh encryption with noise at most 3 is reported between 1 and 2. -/
example : ∃ v, computeNoise exF64 exKey (encryptRlwe exKey (Poly.const 4 77) exGen).1 (Poly.const 4 77) = some v ∧ v.Ge (1 : Nat) ∧ v.Le (2 : Nat) := by
  have h : computeNoiseMax exKey (encryptRlwe exKey (Poly.const 4 77) exGen).1 (Poly.const 4 77) = some 3 := by decide +kernel
  have hv : computeNoise exF64 exKey (encryptRlwe exKey (Poly.const 4 77) exGen).1 (Poly.const 4 77) = some (exF64.log2Of 3) := by
    unfold computeNoise; rw [h]; rfl
  obtain ⟨_, b⟩ := C32_is_max _ _ _ _ h
  refine ⟨_, hv, (C77_thresholds exF64_exact.ok hv (by norm_num)).2.1 ?_, (C77_thresholds exF64_exact.ok hv (by norm_num)).1 fun i => ?_⟩
  · rcases b with ⟨h0, _⟩ | ⟨i, hi⟩
    · cases h0
    · exact ⟨i, by rw [hi]; norm_num⟩
  · exact le_trans ((C32_is_max _ _ _ _ h).1 i) (by norm_num)

/-- RGSW encryptions of 1 and 0 with the tree example's context: the first is reported as at most 2, the second (as noisy) as at least 3. -/
theorem C77_rgsw1_witness :
    (∃ v, computeNoiseRgsw1 exArith exTreeCtx exKey (encryptConstantRgsw exKey 3 20 1 exGen).1 = some v ∧ v.Le (2 : Nat)) ∧
    ∀ v, computeNoiseRgsw1 exArith exTreeCtx exKey (encryptConstantRgsw exKey 3 20 0 exGen).1 = some v → v.Ge (3 : Nat) := by
  have hw : ∀ mu, (encryptConstantRgsw exKey 3 20 mu exGen).1.WF := fun mu =>
    encryptConstantRgsw_wf exKey mu exGen (by norm_num) (by norm_num) (by norm_num)
  have hl : ∀ mu, (encryptConstantRgsw exKey 3 20 mu exGen).1.levelCount = exTreeCtx.levelCount := fun mu =>
    encryptConstantRgsw_levelCount exKey 3 20 mu exGen
  have he : ∀ mu k, 3 ≤ 2 ^ k → EncG exKey (encryptConstantRgsw exKey 3 20 mu exGen).1 (Poly.const 4 mu) (2 ^ k) := fun mu k hk i r hr => by
    have := (encryptConstantRgsw_enc (s := exKey) 3 20 mu exGen_bounded).1 i r hr
    exact ⟨fun j => le_trans (this.1 j) hk, fun j => le_trans (this.2 j) hk⟩
  have h1 : Poly.const 4 (1 : Scalar) = 1 := by decide +kernel
  have h0 : Poly.const 4 (0 : Scalar) = 0 := by decide +kernel
  constructor
  · have := he 1 2 (by norm_num)
    rw [h1] at this
    exact C77_rgsw1_one exArith_ok (by norm_num) (hw 1) rfl (hl 1) (by norm_num) this
  · intro v hv
    have := he 0 3 (by norm_num)
    rw [h0] at this
    exact C77_rgsw1_zero exArith_ok (by norm_num) (hw 0) rfl (hl 0) this hv

/-- A release-mode report of an error of half the torus. -/
example : computeNoiseMaxRelease exKey (⟨0, ⟨fun _ => BitVec.ofNat 64 (2 ^ 63)⟩⟩ : RLWE 4) 0 = 0 ∧
    computeNoiseMax exKey (⟨0, ⟨fun _ => BitVec.ofNat 64 (2 ^ 63)⟩⟩ : RLWE 4) 0 = none := by decide +kernel

end Panacea
