import Verif.Spec.Prog
import Verif.Props.Bench

/-!
# C82: every program over the ciphertext API decrypts to its plaintext meaning
-/

namespace Panacea

/-- What the server holds: a bounded transform, usable substitution keys and an encryption of the negated key. -/
structure ProgEnv.OK {d : Nat} (v : ProgEnv (2 ^ d)) (s : Poly (2 ^ d)) (phi B : Nat) : Prop where
  fft : v.fft.Bounded phi
  key : Binary s
  ksk : TraceKeys s v.ctx.ksBaseLog v.ctx.ksLevelCount B v.ksks
  negG : EncG s v.negS (-s) B
  negBl : v.negS.baseLog = v.ctx.negsBaseLog
  negLv : v.negS.levelCount = v.ctx.negsLevelCount

section
variable {n : Nat}

theorem ProgHolds.setR {s : Poly n} {σ : Regs n} {P : Plain n} {A : Budget} (h : ProgHolds s σ P A) {o : Nat} {c : RLWE n} {m : Poly n} {e : Nat}
    (hc : Enc s c m e) : ProgHolds s (σ.setR o c) (P.setR o m) (A.setR o e) := by
  refine ⟨fun i => ?_, h.rgsw⟩
  unfold Regs.setR Plain.setR Budget.setR
  simp only
  by_cases hi : i = o
  · rw [if_pos hi, if_pos hi, if_pos hi]; exact hc
  · rw [if_neg hi, if_neg hi, if_neg hi]; exact h.rlwe i

/-- Assignment that leaves the bound alone. -/
theorem ProgHolds.setR' {s : Poly n} {σ : Regs n} {P : Plain n} {A : Budget} (h : ProgHolds s σ P A) {o : Nat} {c : RLWE n} {m : Poly n}
    (hc : Enc s c m (A.e o)) : ProgHolds s (σ.setR o c) (P.setR o m) A := by
  refine ⟨fun i => ?_, h.rgsw⟩
  unfold Regs.setR Plain.setR
  simp only
  by_cases hi : i = o
  · rw [if_pos hi, if_pos hi, hi]; exact hc
  · rw [if_neg hi, if_neg hi]; exact h.rlwe i

theorem ProgHolds.setG {s : Poly n} {σ : Regs n} {P : Plain n} {A : Budget} (h : ProgHolds s σ P A) {o : Nat} {C : RGSW n} {m : Poly n} {x : BudgetG}
    (hC : C.WF ∧ C.baseLog = x.bl ∧ C.levelCount = x.lv ∧ EncG s C m x.E ∧ Asserted m x.L x.bit) :
    ProgHolds s (σ.setG o C) (P.setG o m) (A.setG o x) := by
  refine ⟨h.rlwe, fun i y hy => ?_⟩
  unfold Regs.setG Plain.setG
  unfold Budget.setG at hy
  simp only at hy ⊢
  by_cases hi : i = o
  · rw [if_pos hi] at hy
    cases hy
    rw [if_pos hi, if_pos hi]; exact hC
  · rw [if_neg hi] at hy
    rw [if_neg hi, if_neg hi]; exact h.rgsw i y hy

theorem enc_addPlain {s : Poly n} {c : RLWE n} {m : Poly n} {e : Nat} (h : Enc s c m e) (p : Poly n) : Enc s ⟨c.mask, c.body + p⟩ (m + p) e := by
  unfold Enc decryptRlwe at *
  simp only
  rwa [show c.body + p - c.mask * s - (m + p) = c.body - c.mask * s - m by ring]

theorem enc_subPlain {s : Poly n} {c : RLWE n} {m : Poly n} {e : Nat} (h : Enc s c m e) (p : Poly n) : Enc s ⟨c.mask, c.body - p⟩ (m - p) e := by
  unfold Enc decryptRlwe at *
  simp only
  rwa [show c.body - p - c.mask * s - (m - p) = c.body - c.mask * s - m by ring]

theorem enc_not {s : Poly n} {c : RLWE n} {m : Poly n} {e : Nat} (h : Enc s c m e) : Enc s c.not (Poly.const n (2 ^ 63) - m) e := by
  unfold Enc at *
  rw [C22_decrypt, show ∀ a b c : Poly n, a - b - (a - c) = -(b - c) by intros; ring]
  exact Small.neg h

theorem mono_inverse (hn : 0 < n) (d : Nat) : Poly.mono n (2 * n * d - d) * Spec.X n ^ d = 1 := by
  have hx : Spec.X n ^ d = Poly.mono n d := by unfold Spec.X; rw [Poly.mono_pow, one_mul]
  rw [hx, Poly.mono_mul_mono, Nat.sub_add_cancel (Nat.le_mul_of_pos_left _ (by omega)), Poly.one_def]
  exact Poly.mono_modEq (Nat.modEq_zero_iff_dvd.mpr (Dvd.intro _ rfl))

theorem eqPoly_inverse {d : Nat} (hd : d < n) : RLWE.eqPoly n d * Spec.X n ^ d = 1 := by
  have hx : Spec.X n ^ d = Poly.mono n d := by unfold Spec.X; rw [Poly.mono_pow, one_mul]
  have he : RLWE.eqPoly n d = Poly.mono n (n - d + n) := by
    rw [Poly.mono_add_n]
    unfold RLWE.eqPoly
    by_cases h0 : d = 0
    · rw [if_pos h0, h0, Nat.sub_zero, Poly.mono_n, neg_neg]
      refine Poly.ext (funext fun k => ?_)
      rw [Poly.set_apply, Poly.one_apply, Poly.zero_apply]
    · rw [if_neg h0]
      refine Poly.ext (funext fun k => ?_)
      rw [Poly.set_apply, Poly.zero_apply, Poly.neg_apply, Poly.mono_def, Nat.mod_eq_of_lt (by omega), Nat.div_eq_of_lt (by omega), pow_zero]
      by_cases hk : k.val = n - d
      · rw [if_pos hk, if_pos hk.symm]; decide
      · rw [if_neg hk, if_neg (Ne.symm hk), neg_zero]
  rw [he, hx, Poly.mono_mul_mono, Poly.one_def]
  exact Poly.mono_modEq (Nat.modEq_zero_iff_dvd.mpr ⟨1, by omega⟩)

/-- Multiplication by a small public polynomial through the FFT. -/
theorem fourierMul_enc {fft : Fft n} {phi : Nat} (hf : fft.Bounded phi) {s : Poly n} (hs : Small s 1) {t : Poly n} (ht : Small t 1) {c : RLWE n} {p : Poly n}
    {e : Nat} (h : Enc s c p e) :
    Enc s ⟨fourierUpdateWithMul fft c.mask t, fourierUpdateWithMul fft c.body t⟩ (t * p) (l1 t * e + fftNoise n phi 1) := by
  unfold Enc at *
  rw [fourierMul_decrypt]
  have hone : ∀ p : Poly n, FPoly.weight [(p, t)] ≤ 1 := fun p => by
    have := weight_le (B := 1) (ts := [(p, t)]) fun u hu => by
      rw [List.mem_singleton.mp hu]; exact Or.inr ht
    simpa using this
  have h1 := (Small.l1_mul t h).add (fft_pair_small hf hs (by simp) (by simp) (hone c.body) (hone c.mask))
  have e1 : t * (decryptRlwe s c - p) + (fft.err [(c.body, t)] - fft.err [(c.mask, t)] * s)
      = (t * decryptRlwe s c + (fft.err [(c.body, t)] - fft.err [(c.mask, t)] * s)) - t * p := by ring
  rwa [e1] at h1

theorem eqTo_enc {fft : Fft n} {phi : Nat} (hf : fft.Bounded phi) {s : Poly n} (hs : Small s 1) {c : RLWE n} {q : Poly n} {d e : Nat} (hd : d < n)
    (h : Enc s c (Spec.X n ^ d * q) e) : ∃ c', c.eqTo fft d = some c' ∧ Enc s c' q (e + fftNoise n phi 1) := by
  unfold RLWE.eqTo
  rw [if_pos hd]
  refine ⟨_, rfl, ?_⟩
  have h1 := fourierMul_enc hf hs (eqPoly_small d) h
  rw [← mul_assoc, eqPoly_inverse hd, one_mul] at h1
  refine h1.mono (Nat.add_le_add_right ?_ _)
  calc l1 (RLWE.eqPoly n d) * e ≤ 1 * e := Nat.mul_le_mul_right _ (l1_eqPoly d)
    _ = e := one_mul e

theorem l1_zero_eq : l1 (0 : Poly n) = 0 := by
  unfold l1
  refine Finset.sum_eq_zero fun k _ => ?_
  rw [Poly.zero_apply]; exact nrm_zero

theorem cmux_enc {fft : Fft n} {phi : Nat} (hf : fft.Bounded phi) {s : Poly n} (hs : Binary s)
    {C : RGSW n} (hC : C.WF) {mu : Poly n} {E L : Nat} {bit : Bool} (hG : EncG s C mu E) (ha : Asserted mu L bit) (out : RLWE n) {ct0 ct1 : RLWE n}
    {m0 m1 : Poly n} {e0 e1 : Nat} (h0 : Enc s ct0 m0 e0) (h1 : Enc s ct1 m1 e1) :
    Enc s (cmux fft C out ct0 ct1) (m0 + mu * (m1 - m0))
      ((if bit then max e0 e1 else e0 + L * (e1 + e0)) + extNoise n C.baseLog C.levelCount E phi L) := by
  have hx : cmux fft C out ct0 ct1 = externalProduct fft C ct0 (ct1 - ct0) := rfl
  rw [hx]
  have hgen := C19_messages hf hs hC hG h0 (Enc.sub h1 h0)
  cases bit with
  | false =>
    simp only [Bool.false_eq_true, if_false]
    exact hgen.mono (Nat.add_le_add (Nat.add_le_add_left (Nat.mul_le_mul_right _ ha.1) _) (extNoise_mono ha.1))
  | true =>
    simp only [if_true]
    rcases ha.2 rfl with rfl | rfl
    · refine hgen.mono (Nat.add_le_add ?_ (extNoise_mono ha.1))
      rw [l1_zero_eq, zero_mul, add_zero]
      exact le_max_left _ _
    · have h := externalProduct_enc hf hs.small hC hG ct0 (ct1 - ct0)
      rw [decrypt_sub, show decryptRlwe s ct0 + 1 * (decryptRlwe s ct1 - decryptRlwe s ct0) = decryptRlwe s ct1 by ring] at h
      rw [show m0 + 1 * (m1 - m0) = m1 by ring]
      unfold Enc at *
      rw [show decryptRlwe s (externalProduct fft C ct0 (ct1 - ct0)) - m1 = (decryptRlwe s ct1 - m1) +
        (decryptRlwe s (externalProduct fft C ct0 (ct1 - ct0)) - decryptRlwe s ct1) by ring]
      exact (Small.add h1 h).mono (Nat.add_le_add (le_max_right _ _) (extNoise_mono ha.1))

theorem encG_add {s : Poly n} {C D : RGSW n} {mu nu : Poly n} {E F : Nat} (hb : C.baseLog = D.baseLog)
    (hC : EncG s C mu E) (hD : EncG s D nu F) : EncG s (RGSW.updateWithAdd C D) (mu + nu) (E + F) := by
  intro i r hr
  unfold RGSW.updateWithAdd at hr
  simp only [List.getElem?_zipWith] at hr
  split at hr
  · rename_i x y hx hy
    cases hr
    obtain ⟨a1, a2⟩ := hC i x hx
    obtain ⟨b1, b2⟩ := hD i y hy
    rw [← hb] at b1 b2
    have c1 := Enc.add a1 b1
    have c2 := Enc.add a2 b2
    rw [← mul_add] at c1 c2
    rw [show -(s * mu) + -(s * nu) = -(s * (mu + nu)) by ring] at c1
    exact ⟨c1, c2⟩
  · cases hr

theorem le_maxOf (A : Budget) : ∀ (as : List Nat) {a : Nat}, a ∈ as → A.e a ≤ A.maxOf as
  | b :: bs, a, h => by
    unfold Budget.maxOf
    rw [List.map_cons, List.foldr_cons]
    rcases List.mem_cons.mp h with rfl | h
    · exact le_max_left _ _
    · exact le_trans (le_maxOf A bs h) (le_max_right _ _)

end

theorem cast_two_pow (d : Nat) : ((2 ^ d : Nat) : Scalar) = (2 : Scalar) ^ d := by push_cast; rfl

section
variable {d : Nat}

theorem subs_enc {k : Nat} (hk : k % 2 = 1) {s : Poly (2 ^ d)} {c out : RLWE (2 ^ d)} {p : Poly (2 ^ d)} {e N : Nat}
    (hc : Enc s c p e) (ho : Enc s out ((decryptRlwe s c).subst k) N) : Enc s out (Spec.evalAt p (Spec.X _ ^ k)) (e + N) := by
  have h4 : Small ((decryptRlwe s c - p).subst k) e := Small.subst hk hc
  rw [← Poly.subst_eq_evalAt]
  unfold Enc at *
  have e1 : decryptRlwe s out - p.subst k = (decryptRlwe s c - p).subst k + (decryptRlwe s out - (decryptRlwe s c).subst k) := by
    rw [Poly.subst_sub]; ring
  rw [e1]; exact h4.add ho

/-- One call. -/
theorem step_sound {v : ProgEnv (2 ^ d)} {s : Poly (2 ^ d)} {phi B : Nat} (hp : ProgParams v.ctx d) (hv : v.OK s phi B) (i : Instr (2 ^ d))
    {σ : Regs (2 ^ d)} {P Q : Plain (2 ^ d)} {A A' : Budget} (h : ProgHolds s σ P A) (hm : i.Means v.ctx P Q)
    (hb : i.budget ⟨d, phi, B⟩ v.ctx A = some A') : ∃ σ', i.step v σ = some σ' ∧ ProgHolds s σ' Q A' := by
  have hN : v.negS.WF := ⟨by rw [hv.negBl]; exact hp.negBl, by rw [hv.negLv]; exact hp.negLv, by rw [hv.negBl, hv.negLv]; exact hp.negLt⟩
  have hn : 0 < 2 ^ d := by positivity
  have hkey : ∀ k, k ∈ (List.range' 1 d).map (traceExp (2 ^ d)) → ∃ K, v.ksks k = some K ∧ K.WF ∧ k % 2 = 1 ∧ K.subsK = k ∧
      K.baseLog = v.ctx.ksBaseLog ∧ K.levelCount = v.ctx.ksLevelCount ∧ IsKsk s K (s.subst k) B := by
    intro k hk
    obtain ⟨i, hi, rfl⟩ := List.mem_map.mp hk
    rw [List.mem_range'_1] at hi
    obtain ⟨K, hK, hKs⟩ := hv.ksk i (by omega) (by omega)
    exact ⟨K, hK, ⟨by rw [hKs.bl]; exact hp.ksBl, by rw [hKs.lv]; exact hp.ksLv, by rw [hKs.bl, hKs.lv]; exact hp.ksLt⟩,
      traceExp_odd (by omega) (by omega), hKs.subsK, hKs.bl, hKs.lv, hKs.ksk⟩
  have hexp : ∀ (as : List Nat) (mu : Scalar), (∀ (i a : Nat), as[i]? = some a → ((2 ^ d : Nat) : Scalar) * (P.r a).get 0 = mu * gadget v.ctx.baseLog (i + 1)) →
      ∀ (i : Nat) c, (as.map σ.r)[i]? = some c →
        ∃ w, 2 ^ d * w = mu * gadget v.ctx.baseLog (i + 1) ∧ nrm ((decryptRlwe s c).get 0 - w) ≤ A.maxOf as := by
    intro as mu hmu i c hc
    rw [List.getElem?_map, Option.map_eq_some_iff] at hc
    obtain ⟨a, ha, rfl⟩ := hc
    refine ⟨(P.r a).get 0, ?_, ?_⟩
    · rw [← cast_two_pow]; exact hmu i a ha
    · have := (h.rlwe a).mono (le_maxOf A as (List.mem_of_getElem? ha)) ⟨0, hn⟩
      rw [Poly.sub_apply, ← Poly.get_lt (decryptRlwe s (σ.r a)) ⟨0, hn⟩, ← Poly.get_lt (P.r a) ⟨0, hn⟩] at this
      exact this
  have hCwf : ∀ C : RGSW (2 ^ d), C.baseLog = v.ctx.baseLog → C.levelCount = v.ctx.levelCount → C.WF := fun C h1 h2 =>
    ⟨by rw [h1]; exact hp.bl, by rw [h2]; exact hp.lv, by rw [h1, h2]; exact hp.lt⟩
  cases i with
  | clear o =>
    cases hb; cases hm
    exact ⟨_, rfl, h.setR (Enc.zero s)⟩
  | copy o a =>
    cases hb; cases hm
    exact ⟨_, rfl, h.setR (h.rlwe a)⟩
  | add o a =>
    cases hb; cases hm
    exact ⟨_, rfl, h.setR (Enc.add (h.rlwe o) (h.rlwe a))⟩
  | sub o a =>
    cases hb; cases hm
    exact ⟨_, rfl, h.setR (Enc.sub (h.rlwe o) (h.rlwe a))⟩
  | addPlain o p =>
    cases hb; cases hm
    exact ⟨_, rfl, h.setR' (enc_addPlain (h.rlwe o) p)⟩
  | subPlain o p =>
    cases hb; cases hm
    exact ⟨_, rfl, h.setR' (enc_subPlain (h.rlwe o) p)⟩
  | monomialDiv o m =>
    cases hb
    obtain ⟨q, hq, rfl⟩ := hm
    refine ⟨_, rfl, h.setR' ((C18_monomial_div s (σ.r o) m).2 q _ ?_)⟩
    rw [hq]; exact h.rlwe o
  | not o a =>
    cases hb; cases hm
    exact ⟨_, rfl, h.setR (enc_not (h.rlwe a))⟩
  | notInPlace o =>
    cases hb; cases hm
    refine ⟨_, rfl, h.setR' ?_⟩
    rw [← C22_same]
    exact enc_not (h.rlwe o)
  | lessEqThan o x =>
    cases hm
    simp only [Instr.budget] at hb
    split at hb
    · rename_i hx
      cases hb
      obtain ⟨c', h1, h2⟩ := lessEqThan_enc hv.fft hv.key hx (h.rlwe o)
      refine ⟨σ.setR o c', ?_, h.setR h2⟩
      simp only [Instr.step]
      rw [h1]; rfl
    · cases hb
  | eqTo o x =>
    obtain ⟨q, hq, rfl⟩ := hm
    simp only [Instr.budget] at hb
    split at hb
    · rename_i hx
      cases hb
      have h0 := h.rlwe o
      rw [← hq] at h0
      obtain ⟨c', h1, h2⟩ := eqTo_enc hv.fft hv.key.small hx h0
      refine ⟨σ.setR o c', ?_, h.setR h2⟩
      simp only [Instr.step]
      rw [h1]; rfl
    · cases hb
  | externalProduct C o a =>
    cases hm
    simp only [Instr.budget] at hb
    rw [Option.map_eq_some_iff] at hb
    obtain ⟨x, hx, rfl⟩ := hb
    obtain ⟨w1, w2, w3, w4, w5⟩ := h.rgsw C x hx
    refine ⟨_, rfl, h.setR ?_⟩
    have := C19_messages hv.fft hv.key w1 w4 (h.rlwe o) (h.rlwe a)
    rw [w2, w3] at this
    exact this.mono (Nat.add_le_add (Nat.add_le_add_left (Nat.mul_le_mul_right _ w5.1) _) (extNoise_mono w5.1))
  | cmux C o a b =>
    cases hm
    simp only [Instr.budget] at hb
    rw [Option.map_eq_some_iff] at hb
    obtain ⟨x, hx, rfl⟩ := hb
    obtain ⟨w1, w2, w3, w4, w5⟩ := h.rgsw C x hx
    refine ⟨_, rfl, h.setR ?_⟩
    have := cmux_enc hv.fft hv.key w1 w4 w5 (σ.r o) (h.rlwe a) (h.rlwe b)
    rwa [w2, w3] at this
  | subs o a k =>
    cases hm
    simp only [Instr.budget] at hb
    split at hb
    · rename_i hk
      cases hb
      obtain ⟨K, k1, k2, k3, k4, k5, k6, k7⟩ := hkey k hk
      obtain ⟨c, c1, c2⟩ := subs_spec hv.fft hv.key.small k2 (by rw [k4]; exact k3) (by rw [k4]; exact k7) (σ.r o) (σ.r a)
      rw [k4, k5, k6] at c2
      refine ⟨σ.setR o c, ?_, h.setR (subs_enc k3 (h.rlwe a) c2)⟩
      simp only [Instr.step]
      rw [k1, Option.bind_some, c1]; rfl
    · cases hb
  | fourierSubs o a k =>
    cases hm
    simp only [Instr.budget] at hb
    split at hb
    · rename_i hk
      cases hb
      obtain ⟨K, k1, k2, k3, k4, k5, k6, k7⟩ := hkey k hk
      obtain ⟨c, c1, c2⟩ := fourierSubs_spec hv.fft hv.key.small k2 (by rw [k4]; exact k3) (by rw [k4]; exact k7) ⟨[], []⟩ (σ.r a)
      rw [k4, k5, k6] at c2
      refine ⟨σ.setR o (c.backwardAsTorus v.fft), ?_, h.setR (subs_enc k3 (h.rlwe a) ?_)⟩
      · simp only [Instr.step]
        rw [k1, Option.bind_some, c1]; rfl
      · unfold FRLWE.backwardAsTorus
        rw [zero_add, zero_add]
        exact c2
    · cases hb
  | trace1 o a =>
    cases hm; cases hb
    obtain ⟨c, c1, c2⟩ := trace1_spec hp.small hv.fft hv.key.small hp.ksBl hp.ksLv hp.ksLt hv.ksk (h.rlwe a)
    rw [← cast_two_pow] at c2
    refine ⟨σ.setR o c, ?_, h.setR c2⟩
    simp only [Instr.step]
    rw [c1]; rfl
  | trace1Fourier o a =>
    cases hm; cases hb
    obtain ⟨c, c1, c2⟩ := trace1Fourier_spec hp.small hv.fft hv.key.small hp.ksBl hp.ksLv hp.ksLt hv.ksk (h.rlwe a)
    rw [← cast_two_pow] at c2
    refine ⟨σ.setR o c, ?_, h.setR c2⟩
    simp only [Instr.step]
    rw [c1]; rfl
  | addG C D =>
    cases hm
    simp only [Instr.budget] at hb
    rw [Option.bind_eq_some_iff] at hb
    obtain ⟨x, hx, hb⟩ := hb
    rw [Option.bind_eq_some_iff] at hb
    obtain ⟨y, hy, hb⟩ := hb
    split at hb
    · rename_i hxy
      cases hb
      obtain ⟨w1, w2, w3, w4, w5⟩ := h.rgsw C x hx
      obtain ⟨u1, u2, u3, u4, u5⟩ := h.rgsw D y hy
      have hl : (RGSW.updateWithAdd (σ.g C) (σ.g D)).levelCount = x.lv := by
        unfold RGSW.levelCount RGSW.updateWithAdd at *
        simp only [List.length_zipWith]
        omega
      refine ⟨_, rfl, h.setG ⟨⟨w1.bl, ?_, ?_⟩, w2, hl, encG_add (by rw [w2, u2, hxy.1]) w4 u4, ?_, fun hf => by cases hf⟩⟩
      · rw [hl, ← w3]; exact w1.lv
      · have := w1.lt
        rw [hl, ← w3]; exact this
      · exact le_trans (l1_add _ _) (Nat.add_le_add w5.1 u5.1)
    · cases hb
  | pack C as L bit =>
    obtain ⟨mu, hmu, hL, rfl⟩ := hm
    simp only [Instr.budget] at hb
    split at hb
    · rename_i hlen
      cases hb
      obtain ⟨D, d1, d2, d3, d4⟩ := decomposedRlweToRgsw_spec (ctx := v.ctx) hn hv.fft hv.key.small hN hv.negG (m := mu) (eT := A.maxOf as)
        (cs := as.map σ.r) (by rw [List.length_map]; exact hlen) (by
          intro i c hi hc
          rw [List.getElem?_map, Option.map_eq_some_iff] at hc
          obtain ⟨a, ha, rfl⟩ := hc
          rw [← hmu i a hi ha]
          exact (h.rlwe a).mono (le_maxOf A as (List.mem_of_getElem? ha)))
      rw [hv.negBl, hv.negLv] at d4
      refine ⟨σ.setG C D, ?_, h.setG ⟨hCwf D d2 d3, d2, d3, d4, hL⟩⟩
      simp only [Instr.step]
      rw [d1]; rfl
    · cases hb
  | expand C as L bit =>
    obtain ⟨mu, hmu, hL, rfl⟩ := hm
    simp only [Instr.budget] at hb
    split at hb
    · rename_i hlen
      cases hb
      obtain ⟨⟨D, d1, d2, d3, d4⟩, _⟩ := expand_spec hp.small hv.fft hv.key.small hp.ksBl hp.ksLv hp.ksLt hv.ksk hN hv.negG (mu := mu)
        (cs := as.map σ.r) (by rw [List.length_map]; exact hlen.symm)
        (by have := hp.lv; intro h0; rw [List.map_eq_nil_iff] at h0; rw [h0, List.length_nil] at hlen; omega) (hexp as mu hmu)
      rw [hv.negBl, hv.negLv] at d4
      refine ⟨σ.setG C D, ?_, h.setG ⟨hCwf D d2 d3, d2, d3, d4, hL⟩⟩
      simp only [Instr.step]
      rw [d1]; rfl
    · cases hb
  | expandFourier C as L bit =>
    obtain ⟨mu, hmu, hL, rfl⟩ := hm
    simp only [Instr.budget] at hb
    split at hb
    · rename_i hlen
      cases hb
      obtain ⟨_, ⟨D, d1, d2, d3, d4⟩⟩ := expand_spec hp.small hv.fft hv.key.small hp.ksBl hp.ksLv hp.ksLt hv.ksk hN hv.negG (mu := mu)
        (cs := as.map σ.r) (by rw [List.length_map]; exact hlen.symm)
        (by have := hp.lv; intro h0; rw [List.map_eq_nil_iff] at h0; rw [h0, List.length_nil] at hlen; omega) (hexp as mu hmu)
      rw [hv.negBl, hv.negLv] at d4
      refine ⟨σ.setG C D, ?_, h.setG ⟨hCwf D d2 d3, d2, d3, d4, hL⟩⟩
      simp only [Instr.step]
      rw [d1]; rfl
    · cases hb

theorem prog_sound {v : ProgEnv (2 ^ d)} {s : Poly (2 ^ d)} {phi B : Nat} (hp : ProgParams v.ctx d) (hv : v.OK s phi B) :
    ∀ (is : List (Instr (2 ^ d))) {σ : Regs (2 ^ d)} {P Q : Plain (2 ^ d)} {A A' : Budget}, ProgHolds s σ P A → ProgMeans v.ctx is P Q →
    budgetProg ⟨d, phi, B⟩ v.ctx is A = some A' → ∃ σ', runProg v is σ = some σ' ∧ ProgHolds s σ' Q A'
  | [], σ, P, Q, A, A', h, hm, hb => by
    cases hm; cases hb
    exact ⟨σ, rfl, h⟩
  | i :: is, σ, P, Q, A, A', h, hm, hb => by
    obtain ⟨R, hm1, hm2⟩ := hm
    unfold budgetProg at hb
    rw [Option.bind_eq_some_iff] at hb
    obtain ⟨A1, hb1, hb2⟩ := hb
    obtain ⟨σ1, r1, r2⟩ := step_sound hp hv i h hm1 hb1
    obtain ⟨σ2, r3, r4⟩ := prog_sound hp hv is r2 hm2 hb2
    refine ⟨σ2, ?_, r4⟩
    unfold runProg
    rw [r1, Option.bind_some]
    exact r3

/-! ## C82 -/

/-- C82 (any program): with the keys the crate generates for any binary secret key, any program over the ciphertext API that has a plaintext meaning
and that the static noise analysis accepts runs without panic, and afterwards every variable encrypts its plaintext counterpart with an error of at most
the computed bound. -/
theorem C82_program {ctx : Ctx} (hp : ProgParams ctx d) (hneg : ctx.negsBaseLog = ctx.baseLog) {fft : Fft (2 ^ d)} {phi : Nat} (hf : fft.Bounded phi)
    {s : Poly (2 ^ d)} (hs : Binary s) {g : Gen (2 ^ d)} {B : Nat} (hg : g.Bounded B) :
    ∃ ksks g1 negS g2, genAllSubsKsk ctx s g = some (ksks, g1) ∧ negGsw ctx s g1 = some (negS, g2) ∧ g2.Bounded B ∧
      ∀ (prog : List (Instr (2 ^ d))) (σ : Regs (2 ^ d)) (P Q : Plain (2 ^ d)) (A A' : Budget), ProgHolds s σ P A → ProgMeans ctx prog P Q →
        budgetProg ⟨d, phi, B⟩ ctx prog A = some A' → ∃ σ', runProg ⟨fft, ctx, ksks, negS⟩ prog σ = some σ' ∧ ProgHolds s σ' Q A' := by
  obtain ⟨⟨ksks, g1⟩, h1, h2, h3⟩ := genAllSubsKsk_spec hp.small ctx s hg
  obtain ⟨⟨negS, g2⟩, n1, n2, n3, n4, n5⟩ := C21_neg_gsw hneg hs h3
  refine ⟨ksks, g1, negS, g2, h1, n1, n5, fun prog σ P Q A A' h hm hb => ?_⟩
  exact prog_sound (v := ⟨fft, ctx, ksks, negS⟩) hp ⟨hf, hs, h2, n2, n3, n4⟩ prog h hm hb

/-- Freshly encrypted inputs are within the budget of fresh inputs. -/
theorem C82_inputs {ctx : Ctx} (hp : ProgParams ctx d) {s : Poly (2 ^ d)} {g : Gen (2 ^ d)} {B : Nat} (hg : g.Bounded B)
    (ms : List (Poly (2 ^ d))) (bs : List Bool) :
    ProgHolds s (loadInputs ctx s ms bs g).1 (plainInputs ms bs) (budgetInputs ctx B ms.length bs.length) := by
  unfold loadInputs
  have h := mapGen_spec (P := fun g : Gen (2 ^ d) => g.Bounded B) (Q := fun m c => Enc s c m B) (f := encryptRlwe s)
    (fun m g hg => ⟨encryptRlwe_enc hg, hg⟩) ms g hg
  have hG := mapGen_spec (P := fun g : Gen (2 ^ d) => g.Bounded B)
    (Q := fun (b : Bool) C => C.WF ∧ C.baseLog = ctx.baseLog ∧ C.levelCount = ctx.levelCount ∧ EncG s C (if b then 1 else 0) B)
    (f := fun b g => encryptConstantRgsw s ctx.baseLog ctx.levelCount (if b then 1 else 0) g)
    (fun b g hg => by
      have hc := encryptConstantRgsw_enc (s := s) ctx.baseLog ctx.levelCount (if b then 1 else 0) hg
      refine ⟨⟨encryptConstantRgsw_wf s _ g hp.bl hp.lv hp.lt, rfl, encryptConstantRgsw_levelCount s _ _ _ g, ?_⟩, hc.2⟩
      have e : Poly.const (2 ^ d) (if b then 1 else 0) = if b then 1 else 0 := by
        cases b
        · exact Poly.const_zero
        · exact Poly.const_one
      rw [← e]; exact hc.1) bs _ h.2
  refine ⟨fun i => ?_, fun i x hx => ?_⟩
  · simp only [plainInputs, budgetInputs, List.getD_eq_getElem?_getD]
    by_cases hi : i < ms.length
    · rw [if_pos hi]
      have hl := h.1.length_eq
      obtain ⟨m, hm, hq⟩ := forall₂_getElem h.1 (List.getElem?_eq_getElem (by omega) : (mapGen (encryptRlwe s) ms g).1[i]? = some _)
      rw [hm, List.getElem?_eq_getElem (by omega)]
      exact hq
    · have hl := h.1.length_eq
      rw [if_neg hi, List.getElem?_eq_none (by omega), List.getElem?_eq_none (by omega)]
      exact Enc.zero s
  · simp only [budgetInputs] at hx
    split at hx
    · rename_i hi
      cases hx
      have hl := hG.1.length_eq
      obtain ⟨b, hb, q1, q2, q3, q4⟩ := forall₂_getElem (i := i) hG.1 (List.getElem?_eq_getElem (hl ▸ hi))
      simp only [plainInputs, List.getD_eq_getElem?_getD]
      rw [hb, List.getElem?_eq_getElem (hl ▸ hi)]
      refine ⟨q1, q2, q3, q4, l1_bit b, fun _ => ?_⟩
      cases b
      · exact Or.inl rfl
      · exact Or.inr rfl
    · cases hx

/-- C82 (end to end): generate the keys, encrypt polynomials and bits, run the program: every variable whose plaintext meaning is the encoding of `pt` and
whose computed bound is below half a plaintext step decrypts and decodes to exactly `pt`. -/
theorem C82_end_to_end {t : Scalar} {ctx : Ctx} (hcd : Codec.new t = some ctx.codec) (hp : ProgParams ctx d) (hneg : ctx.negsBaseLog = ctx.baseLog)
    {fft : Fft (2 ^ d)} {phi : Nat} (hf : fft.Bounded phi) {s : Poly (2 ^ d)} (hs : Binary s) {g : Gen (2 ^ d)} {B : Nat} (hg : g.Bounded B)
    (ms : List (Poly (2 ^ d))) (bs : List Bool) {prog : List (Instr (2 ^ d))} {Q : Plain (2 ^ d)} {A : Budget}
    (hm : ProgMeans ctx prog (plainInputs ms bs) Q) (hb : budgetProg ⟨d, phi, B⟩ ctx prog (budgetInputs ctx B ms.length bs.length) = some A) :
    ∃ ksks g1 negS g2 σ, genAllSubsKsk ctx s g = some (ksks, g1) ∧ negGsw ctx s g1 = some (negS, g2) ∧
      runProg ⟨fft, ctx, ksks, negS⟩ prog (loadInputs ctx s ms bs g2).1 = some σ ∧
      ∀ i pt, ctx.codec.polyEncode pt = some (Q.r i) → 2 * A.e i < 2 ^ 64 / t.toNat → decryptDecodeRlwe ctx s (σ.r i) = pt := by
  obtain ⟨ksks, g1, negS, g2, h1, h2, h3, h4⟩ := C82_program hp hneg hf hs hg
  obtain ⟨σ, r1, r2⟩ := h4 prog _ _ Q _ A (C82_inputs hp h3 ms bs) hm hb
  exact ⟨ksks, g1, negS, g2, σ, h1, h2, r1, fun i pt hpt he => decryptDecode_of_enc hcd hpt (r2.rlwe i) he⟩

/-- The call packs RLWE ciphertexts into an RGSW ciphertext. -/
def Instr.packs {n : Nat} : Instr n → Bool
  | .pack _ _ _ _ => true
  | .expand _ _ _ _ => true
  | .expandFourier _ _ _ _ => true
  | _ => false

/-- C82 (meaning): a program that does not pack or expand has exactly one plaintext meaning, whatever its inputs. -/
theorem C82_meaning (ctx : Ctx) : ∀ (prog : List (Instr (2 ^ d))), (∀ i ∈ prog, i.packs = false) → ∀ P : Plain (2 ^ d), ∃! Q, ProgMeans ctx prog P Q
  | [], _, P => ⟨P, rfl, fun _ h => h⟩
  | i :: is, h, P => by
    have hn : 0 < 2 ^ d := by positivity
    have hinv : ∀ (m : Nat) (p : Poly (2 ^ d)), ∃! q, Spec.X (2 ^ d) ^ m * q = p := by
      intro m p
      have h1 := mono_inverse hn m
      refine ⟨Poly.mono (2 ^ d) (2 * 2 ^ d * m - m) * p, ?_, fun q hq => ?_⟩
      · show Spec.X (2 ^ d) ^ m * (Poly.mono (2 ^ d) (2 * 2 ^ d * m - m) * p) = p
        rw [← mul_assoc, mul_comm (Spec.X (2 ^ d) ^ m), h1, one_mul]
      · rw [← hq, ← mul_assoc, h1, one_mul]
    have hi : ∃! R, i.Means ctx P R := by
      have hpk := h i (by simp)
      have huniq : ∀ R : Plain (2 ^ d), ∃! Q, Q = R := fun R => ⟨R, rfl, fun _ h => h⟩
      have hdiv : ∀ o m : Nat, ∃! R, ∃ q, Spec.X (2 ^ d) ^ m * q = P.r o ∧ R = P.setR o q := by
        intro o m
        obtain ⟨q, hq, hu⟩ := hinv m (P.r o)
        refine ⟨P.setR o q, ⟨q, hq, rfl⟩, ?_⟩
        rintro R ⟨q', hq', rfl⟩
        rw [hu q' hq']
      cases i with
      | monomialDiv o m => exact hdiv o m
      | eqTo o m => exact hdiv o m
      | pack => cases hpk
      | expand => cases hpk
      | expandFourier => cases hpk
      | _ => exact huniq _
    obtain ⟨R, hR, hRu⟩ := hi
    obtain ⟨Q, hQ, hQu⟩ := C82_meaning ctx is (fun j hj => h j (by simp [hj])) R
    refine ⟨Q, ⟨R, hR, hQ⟩, ?_⟩
    rintro Q' ⟨R', hR', hQ'⟩
    rw [hRu R' hR'] at hQ'
    exact hQu Q' hQ'

end

/-! ## A concrete program -/

/-- Parameters for the example: plaintext modulus 16. -/
def progCtx : Ctx := ⟨8, 3, 8, 6, 8, 6, exTreeCtx.codec⟩

theorem progCtx_ok : ProgParams progCtx 2 := by constructor <;> decide

/-- `X` scaled by the three gadget factors divided by 4, and the numbers 5 and 9. -/
def progInputs : List (Poly 4) :=
  [Poly.mono 4 1 * Poly.const 4 (2 ^ 54), Poly.mono 4 1 * Poly.const 4 (2 ^ 46), Poly.mono 4 1 * Poly.const 4 (2 ^ 38),
   Poly.const 4 (5 * 2 ^ 60), Poly.const 4 (9 * 2 ^ 60)]

/-- Compare an encrypted exponent with 2, expand the result to a selector bit, select between two numbers, add the first number again under an encrypted
condition, divide by `X`. -/
def progExample : List (Instr 4) :=
  [.lessEqThan 0 2, .lessEqThan 1 2, .lessEqThan 2 2, .expandFourier 1 [0, 1, 2] 1 true, .cmux 1 5 3 4, .externalProduct 0 5 3, .monomialDiv 5 1]

/-- C82 (witness): the hypotheses are met by a program with comparison, expansion, selection and product: 1 <= 2 selects 9, adding 5 gives 14, and
`14 / X = -14 X^3 = 2 X^3` modulo 16. -/
theorem C82_witness : ∃ ksks g1 negS g2 σ, genAllSubsKsk progCtx exKey exGen = some (ksks, g1) ∧ negGsw progCtx exKey g1 = some (negS, g2) ∧
    runProg ⟨exFft, progCtx, ksks, negS⟩ progExample (loadInputs progCtx exKey progInputs [true] g2).1 = some σ ∧
    decryptDecodeRlwe progCtx exKey (σ.r 5) = ⟨fun k => if k.val = 3 then 2 else 0⟩ := by
  obtain ⟨A, hA, he⟩ : ∃ A, budgetProg ⟨2, 5, 3⟩ progCtx progExample (budgetInputs progCtx 3 5 1) = some A ∧ A.e 5 = 5505627998726 := by
    refine ⟨_, rfl, ?_⟩
    decide +kernel
  have hL : leqFactor 4 2 = RLWE.leqPoly 4 2 := (leqPoly_eq_factor (by decide) (by decide)).symm
  let P0 : Plain 4 := plainInputs progInputs [true]
  let P1 := P0.setR 0 (leqFactor 4 2 * P0.r 0)
  let P2 := P1.setR 1 (leqFactor 4 2 * P1.r 1)
  let P3 := P2.setR 2 (leqFactor 4 2 * P2.r 2)
  let P4 := P3.setG 1 (Poly.const 4 1)
  let P5 := P4.setR 5 (P4.r 3 + P4.g 1 * (P4.r 4 - P4.r 3))
  let P6 := P5.setR 5 (P5.r 5 + P5.g 0 * P5.r 3)
  let q : Poly 4 := ⟨fun k => if k.val = 3 then 2 * 2 ^ 60 else 0⟩
  have hm : ProgMeans progCtx progExample (plainInputs progInputs [true]) (P6.setR 5 q) := by
    refine ⟨P1, rfl, P2, rfl, P3, rfl, P4, ⟨1, ?_, ⟨?_, fun _ => Or.inr Poly.const_one⟩, rfl⟩, P5, rfl, P6, rfl, _, ⟨q, ?_, rfl⟩, rfl⟩
    · intro i a hi
      have h0 : (leqFactor 4 2 * P0.r 0).get 0 = 2 ^ 54 := by rw [hL]; decide +kernel
      have h1 : (leqFactor 4 2 * P0.r 1).get 0 = 2 ^ 46 := by rw [hL]; decide +kernel
      have h2 : (leqFactor 4 2 * P0.r 2).get 0 = 2 ^ 38 := by rw [hL]; decide +kernel
      have e0 : P3.r 0 = leqFactor 4 2 * P0.r 0 := by simp [P3, P2, P1, Plain.setR]
      have e1 : P3.r 1 = leqFactor 4 2 * P0.r 1 := by simp [P3, P2, P1, Plain.setR]
      have e2 : P3.r 2 = leqFactor 4 2 * P0.r 2 := by simp [P3, P2, P1, Plain.setR]
      match i, hi with
      | 0, hi => cases hi; rw [e0, h0]; decide +kernel
      | 1, hi => cases hi; rw [e1, h1]; decide +kernel
      | 2, hi => cases hi; rw [e2, h2]; decide +kernel
      | _ + 3, hi => cases hi
    · exact le_trans (l1_const 1) (by decide)
    · show Spec.X 4 ^ 1 * q = (P0.r 3 + Poly.const 4 1 * (P0.r 4 - P0.r 3)) + P0.g 0 * P0.r 3
      rw [pow_one]
      decide +kernel
  obtain ⟨ksks, g1, negS, g2, σ, h1, h2, h3, h4⟩ := C82_end_to_end (t := 16) (d := 2) (by decide +kernel) progCtx_ok rfl exFft_bounded exKey_binary
    exGen_bounded progInputs [true] hm hA
  refine ⟨ksks, g1, negS, g2, σ, h1, h2, h3, h4 5 _ ?_ (by rw [he]; decide)⟩
  show progCtx.codec.polyEncode (⟨fun k => if k.val = 3 then 2 else 0⟩ : Poly 4) = some q
  decide +kernel

end Panacea
