import Verif.Lemmas.Keyswitch
import Verif.Lemmas.Subst
import Verif.Props.Codec

namespace Panacea
open Finset

/-! ## subs -/

theorem decrypt_subst {d k : Nat} (hk : k % 2 = 1) (s : Poly (2 ^ d)) (c : RLWE (2 ^ d)) :
    decryptRlwe (s.subst k) ⟨c.mask.subst k, c.body.subst k⟩ = (decryptRlwe s c).subst k := by
  unfold decryptRlwe
  simp only
  rw [Poly.subst_sub, Poly.subst_mul hk]

theorem fillWithSubs_spec {d k : Nat} (hk : k % 2 = 1) (K : KeyswitchKey (2 ^ d)) (s : Poly (2 ^ d)) {g : Gen (2 ^ d)} {B : Nat}
    (hg : g.Bounded B) : ∃ r, K.fillWithSubsKeyswitchKey s k g = some r ∧ IsKsk s r.1 (s.subst k) B ∧ r.1.subsK = k ∧
      r.1.baseLog = K.baseLog ∧ r.1.levelCount = K.levelCount ∧ r.2.Bounded B := by
  unfold KeyswitchKey.fillWithSubsKeyswitchKey evalXk
  rw [evalXkInMemory_eq hk]
  have h := fillWithKeyswitchKey_spec K (s.subst k) s hg
  exact ⟨_, rfl, ⟨h.1.len, h.1.row⟩, rfl, rfl, rfl, h.2⟩

theorem subs_spec {d : Nat} {fft : Fft (2 ^ d)} {phi : Nat} (hf : fft.Bounded phi) {s : Poly (2 ^ d)} (hs : Small s 1)
    {K : KeyswitchKey (2 ^ d)} (hK : K.WF) {E : Nat} (hk : K.subsK % 2 = 1) (hE : IsKsk s K (s.subst K.subsK) E)
    (after c : RLWE (2 ^ d)) : ∃ out, K.subs fft after c = some out ∧
      Enc s out ((decryptRlwe s c).subst K.subsK)
        (ksNoise (2 ^ d) K.baseLog K.levelCount E (K.levelCount * fftNoise (2 ^ d) phi (2 ^ (K.baseLog - 1)))) := by
  obtain ⟨out, h1, h2⟩ := keyswitchCiphertext_spec hf hs hK hE (Small.subst hk hs) after ⟨c.mask.subst K.subsK, c.body.subst K.subsK⟩
  refine ⟨out, ?_, ?_⟩
  · unfold KeyswitchKey.subs evalXk
    rw [evalXkInMemory_eq hk, evalXkInMemory_eq hk]
    exact h1
  · rwa [decrypt_subst hk] at h2

theorem fourierSubs_spec {d : Nat} {fft : Fft (2 ^ d)} {phi : Nat} (hf : fft.Bounded phi) {s : Poly (2 ^ d)} (hs : Small s 1)
    {K : KeyswitchKey (2 ^ d)} (hK : K.WF) {E : Nat} (hk : K.subsK % 2 = 1) (hE : IsKsk s K (s.subst K.subsK) E)
    (after : FRLWE (2 ^ d)) (c : RLWE (2 ^ d)) : ∃ out, K.fourierSubs after c = some out ∧
      Enc s ⟨fft.backward out.mask, fft.backward out.body⟩ ((decryptRlwe s c).subst K.subsK)
        (ksNoise (2 ^ d) K.baseLog K.levelCount E (fftNoise (2 ^ d) phi (1 + K.levelCount * 2 ^ (K.baseLog - 1)))) := by
  obtain ⟨out, h1, h2⟩ := fourierKeyswitchCiphertext_spec hf hs hK hE (Small.subst hk hs) after
    ⟨c.mask.subst K.subsK, c.body.subst K.subsK⟩
  refine ⟨out, ?_, ?_⟩
  · unfold KeyswitchKey.fourierSubs evalXk
    rw [evalXkInMemory_eq hk, evalXkInMemory_eq hk]
    exact h1
  · rwa [decrypt_subst hk] at h2

/-! ## The trace on polynomials -/

/-- The partial trace after `i` rounds: coefficients at multiples of `2^i`, scaled by `2^i`. -/
def tracePoly {d : Nat} (i : Nat) (p : Poly (2 ^ d)) : Poly (2 ^ d) := ⟨fun k => if 2 ^ i ∣ k.val then 2 ^ i * p k else 0⟩

theorem traceExp_eq {d i : Nat} (h1 : 1 ≤ i) (h2 : i ≤ d) : traceExp (2 ^ d) i = 2 ^ (d + 1 - i) + 1 := by
  unfold traceExp
  rw [Nat.pow_div (by omega) (by decide), show d - (i - 1) = d + 1 - i by omega]

theorem traceExp_odd {d i : Nat} (h1 : 1 ≤ i) (h2 : i ≤ d) : traceExp (2 ^ d) i % 2 = 1 := by
  rw [traceExp_eq h1 h2, show d + 1 - i = (d - i) + 1 by omega, pow_succ]
  omega

theorem tracePoly_step {d i : Nat} (h2 : i + 1 ≤ d) (p : Poly (2 ^ d)) :
    tracePoly i p + (tracePoly i p).subst (traceExp (2 ^ d) (i + 1)) = tracePoly (i + 1) p := by
  conv_lhs => lhs; rw [Poly.eq_sum_mono (tracePoly i p)]
  conv_rhs => rw [Poly.eq_sum_mono (tracePoly (i + 1) p)]
  unfold Poly.subst
  rw [← Finset.sum_add_distrib]
  refine Finset.sum_congr rfl fun j _ => ?_
  by_cases hj : 2 ^ i ∣ j.val
  · obtain ⟨q, hq⟩ := hj
    have hv : tracePoly i p j = 2 ^ i * p j := by unfold tracePoly; simp only; rw [if_pos ⟨q, hq⟩]
    have he : traceExp (2 ^ d) (i + 1) * j.val = j.val + 2 ^ d * q := by
      rw [traceExp_eq (by omega) h2, Nat.add_mul, one_mul, hq, ← mul_assoc, ← pow_add, show d + 1 - (i + 1) + i = d by omega]
      ring
    rw [he, Poly.mono_add_mul', hv]
    by_cases hq2 : 2 ∣ q
    · have hv' : tracePoly (i + 1) p j = 2 ^ (i + 1) * p j := by
        unfold tracePoly; simp only
        rw [if_pos]
        rw [hq, pow_succ]; exact Nat.mul_dvd_mul_left _ hq2
      rw [hv', (even_iff_two_dvd.mpr hq2).neg_one_pow, one_mul, ← add_mul, ← Poly.const_add]
      congr 2; ring
    · have hv' : tracePoly (i + 1) p j = 0 := by
        unfold tracePoly; simp only
        rw [if_neg]
        rw [hq, pow_succ]
        intro h
        exact hq2 (Nat.dvd_of_mul_dvd_mul_left (by positivity) h)
      have : Odd q := by rw [← Nat.not_even_iff_odd, even_iff_two_dvd]; exact hq2
      rw [hv', this.neg_one_pow, Poly.const_zero]; ring
  · have hv : tracePoly i p j = 0 := by unfold tracePoly; simp only; rw [if_neg hj]
    have hv' : tracePoly (i + 1) p j = 0 := by
      unfold tracePoly; simp only
      rw [if_neg (fun h => hj (Nat.dvd_trans (pow_dvd_pow 2 (by omega)) h))]
    rw [hv, hv', Poly.const_zero]; ring

theorem tracePoly_zero {d : Nat} (p : Poly (2 ^ d)) : tracePoly 0 p = p := by
  refine Poly.ext (funext fun k => ?_)
  unfold tracePoly; simp

theorem tracePoly_full {d : Nat} (p : Poly (2 ^ d)) : tracePoly d p = Poly.const (2 ^ d) (2 ^ d * p.get 0) := by
  refine Poly.ext (funext fun k => ?_)
  unfold tracePoly
  simp only [Poly.const_apply]
  by_cases hk : k.val = 0
  · have := Poly.get_lt p k
    rw [hk] at this
    rw [if_pos hk, if_pos (by rw [hk]; exact dvd_zero _), this]
  · rw [if_neg hk, if_neg]
    intro h
    have := Nat.le_of_dvd (by omega) h
    omega

/-! ## The trace on ciphertexts -/

/-- `K` is a usable substitution key for exponent `k`. -/
structure SubsKey {d : Nat} (s : Poly (2 ^ d)) (bl lv E k : Nat) (K : KeyswitchKey (2 ^ d)) : Prop where
  subsK : K.subsK = k
  bl : K.baseLog = bl
  lv : K.levelCount = lv
  ksk : IsKsk s K (s.subst k) E

/-- The key map contains a usable key for every round of the trace. -/
def TraceKeys {d : Nat} (s : Poly (2 ^ d)) (bl lv E : Nat) (ksks : KskMap (2 ^ d)) : Prop :=
  ∀ i, 1 ≤ i → i ≤ d → ∃ K, ksks (traceExp (2 ^ d) i) = some K ∧ SubsKey s bl lv E (traceExp (2 ^ d) i) K

theorem genSubsKskLoop_spec {d : Nat} (ctx : Ctx) (s : Poly (2 ^ d)) {B : Nat} : ∀ (is : List Nat) (hm : KskMap (2 ^ d)) (g : Gen (2 ^ d)),
    (∀ i ∈ is, 1 ≤ i ∧ i ≤ d) → g.Bounded B →
    (∀ k K, hm k = some K → SubsKey s ctx.ksBaseLog ctx.ksLevelCount B k K) →
    ∃ r, genSubsKskLoop ctx s is hm g = some r ∧ r.2.Bounded B ∧
      (∀ k K, r.1 k = some K → SubsKey s ctx.ksBaseLog ctx.ksLevelCount B k K) ∧
      (∀ k, (hm k).isSome → (r.1 k).isSome) ∧ (∀ i ∈ is, (r.1 (traceExp (2 ^ d) i)).isSome)
  | [], hm, g, _, hg, hv => ⟨_, rfl, hg, hv, fun _ h => h, by simp⟩
  | i :: is, hm, g, hi, hg, hv => by
    have hodd := traceExp_odd (hi i (by simp)).1 (hi i (by simp)).2
    obtain ⟨⟨K, g'⟩, h1, h2, h3, h4, h5, h6⟩ := fillWithSubs_spec hodd
      (KeyswitchKey.allocate (2 ^ d) ctx.ksBaseLog ctx.ksLevelCount) s hg
    obtain ⟨r, hr, hb, hv', hk, his⟩ := genSubsKskLoop_spec ctx s is
      (fun j => if j = traceExp (2 ^ d) i then some K else hm j) g' (fun j hj => hi j (by simp [hj])) h6 (by
        intro k K' hK'
        by_cases hkk : k = traceExp (2 ^ d) i
        · simp only [hkk, if_true, Option.some.injEq] at hK'
          subst hK'
          rw [hkk]
          exact ⟨h3, h4, h5, h2⟩
        · simp only [if_neg hkk] at hK'
          exact hv k K' hK')
    refine ⟨r, ?_, hb, hv', ?_, ?_⟩
    · rw [genSubsKskLoop]
      simp only [h1]
      exact hr
    · intro k hh
      refine hk k ?_
      by_cases hkk : k = traceExp (2 ^ d) i
      · simp [hkk]
      · simpa [hkk] using hh
    · intro j hj
      rcases List.mem_cons.mp hj with h | h
      · rw [h]; exact hk _ (by simp)
      · exact his j h

theorem genAllSubsKsk_spec {d : Nat} (hd : d < 64) (ctx : Ctx) (s : Poly (2 ^ d)) {g : Gen (2 ^ d)} {B : Nat} (hg : g.Bounded B) :
    ∃ r, genAllSubsKsk ctx s g = some r ∧ TraceKeys s ctx.ksBaseLog ctx.ksLevelCount B r.1 ∧ r.2.Bounded B := by
  unfold genAllSubsKsk
  rw [log2_pow hd]
  obtain ⟨r, h1, h2, h3, _, h5⟩ := genSubsKskLoop_spec ctx s (List.range' 1 d) (fun _ => none) g
    (fun i hi => by rw [List.mem_range'_1] at hi; omega) hg (by simp)
  refine ⟨r, h1, fun i hi1 hi2 => ?_, h2⟩
  obtain ⟨K, hK⟩ := Option.isSome_iff_exists.mp (h5 i (by rw [List.mem_range'_1]; omega))
  exact ⟨K, hK, h3 _ K hK⟩

/-- One round of the trace on messages. -/
theorem trace_round {d : Nat} {s : Poly (2 ^ d)} {i : Nat} (hi : i + 1 ≤ d) {p : Poly (2 ^ d)} {c b : RLWE (2 ^ d)} {e N : Nat}
    (hc : Enc s c (tracePoly i p) e) (hb : Enc s b ((decryptRlwe s c).subst (traceExp (2 ^ d) (i + 1))) N) :
    Enc s (c + b) (tracePoly (i + 1) p) (2 * e + N) := by
  have hodd := traceExp_odd (d := d) (i := i + 1) (by omega) hi
  have h1 : Small ((decryptRlwe s c - tracePoly i p).subst (traceExp (2 ^ d) (i + 1))) e := Small.subst hodd hc
  unfold Enc at *
  rw [← tracePoly_step hi p, decrypt_add]
  have e1 : decryptRlwe s c + decryptRlwe s b - (tracePoly i p + (tracePoly i p).subst (traceExp (2 ^ d) (i + 1)))
      = (decryptRlwe s c - tracePoly i p) + (decryptRlwe s c - tracePoly i p).subst (traceExp (2 ^ d) (i + 1))
        + (decryptRlwe s b - (decryptRlwe s c).subst (traceExp (2 ^ d) (i + 1))) := by
    rw [Poly.subst_sub]; ring
  rw [e1]
  exact ((hc.add h1).add hb).mono (le_of_eq (by ring))

theorem trace1Loop_spec {d : Nat} {fft : Fft (2 ^ d)} {phi : Nat} (hf : fft.Bounded phi) {s : Poly (2 ^ d)} (hs : Small s 1)
    {bl lv E : Nat} (h1 : 1 ≤ bl) (h2 : 1 ≤ lv) (h3 : bl * lv < 64) {ksks : KskMap (2 ^ d)} (hk : TraceKeys s bl lv E ksks)
    (p : Poly (2 ^ d)) : ∀ (m i : Nat) (buf c : RLWE (2 ^ d)) (e : Nat), i + m = d → Enc s c (tracePoly i p) e →
    ∃ out, trace1Loop fft ksks (List.range' (i + 1) m) buf c = some out ∧
      Enc s out (tracePoly d p) (2 ^ m * e + (2 ^ m - 1) * ksNoise (2 ^ d) bl lv E (lv * fftNoise (2 ^ d) phi (2 ^ (bl - 1))))
  | 0, i, buf, c, e, hm, hc => by
    refine ⟨c, rfl, ?_⟩
    have : i = d := by omega
    subst this
    simpa using hc
  | m + 1, i, buf, c, e, hm, hc => by
    obtain ⟨K, hK, hKs⟩ := hk (i + 1) (by omega) (by omega)
    have hwf : K.WF := ⟨by rw [hKs.bl]; exact h1, by rw [hKs.lv]; exact h2, by rw [hKs.bl, hKs.lv]; exact h3⟩
    obtain ⟨b, hb1, hb2⟩ := subs_spec hf hs hwf (by rw [hKs.subsK]; exact traceExp_odd (by omega) (by omega))
      (by rw [hKs.subsK]; exact hKs.ksk) buf c
    rw [hKs.subsK, hKs.bl, hKs.lv] at hb2
    obtain ⟨out, ho1, ho2⟩ := trace1Loop_spec hf hs h1 h2 h3 hk p m (i + 1) b (c + b) _ (by omega)
      (trace_round (by omega) hc hb2)
    refine ⟨out, ?_, ho2.mono ?_⟩
    · rw [List.range'_succ, trace1Loop]
      simp only [hK, hKs.subsK, if_true, hb1]
      exact ho1
    · generalize ksNoise (2 ^ d) bl lv E (lv * fftNoise (2 ^ d) phi (2 ^ (bl - 1))) = N
      have hpos : 0 < 2 ^ m := by positivity
      obtain ⟨q, hq⟩ : ∃ q, 2 ^ m = q + 1 := ⟨2 ^ m - 1, by omega⟩
      rw [pow_succ, hq]
      apply le_of_eq
      rw [show (q + 1) * 2 - 1 = 2 * q + 1 by omega, Nat.add_sub_cancel]; ring

theorem trace1_spec {d : Nat} (hd : d < 64) {fft : Fft (2 ^ d)} {phi : Nat} (hf : fft.Bounded phi) {s : Poly (2 ^ d)} (hs : Small s 1)
    {bl lv E : Nat} (h1 : 1 ≤ bl) (h2 : 1 ≤ lv) (h3 : bl * lv < 64) {ksks : KskMap (2 ^ d)} (hk : TraceKeys s bl lv E ksks)
    {p : Poly (2 ^ d)} {c : RLWE (2 ^ d)} {e : Nat} (hc : Enc s c p e) : ∃ out, trace1 fft ksks c = some out ∧
      Enc s out (Poly.const (2 ^ d) (2 ^ d * p.get 0))
        (2 ^ d * e + (2 ^ d - 1) * ksNoise (2 ^ d) bl lv E (lv * fftNoise (2 ^ d) phi (2 ^ (bl - 1)))) := by
  unfold trace1
  rw [log2_pow hd, ← tracePoly_full]
  exact trace1Loop_spec hf hs h1 h2 h3 hk p d 0 0 c e (by omega) (by rw [tracePoly_zero]; exact hc)

theorem trace1FourierLoop_spec {d : Nat} {fft : Fft (2 ^ d)} {phi : Nat} (hf : fft.Bounded phi) {s : Poly (2 ^ d)} (hs : Small s 1)
    {bl lv E : Nat} (h1 : 1 ≤ bl) (h2 : 1 ≤ lv) (h3 : bl * lv < 64) {ksks : KskMap (2 ^ d)} (hk : TraceKeys s bl lv E ksks)
    (p : Poly (2 ^ d)) : ∀ (m i : Nat) (buf : FRLWE (2 ^ d)) (c : RLWE (2 ^ d)) (e : Nat), i + m = d → Enc s c (tracePoly i p) e →
    ∃ out, trace1FourierLoop fft ksks (List.range' (i + 1) m) buf c = some out ∧
      Enc s out (tracePoly d p) (2 ^ m * e + (2 ^ m - 1) * ksNoise (2 ^ d) bl lv E (fftNoise (2 ^ d) phi (1 + lv * 2 ^ (bl - 1))))
  | 0, i, buf, c, e, hm, hc => by
    refine ⟨c, rfl, ?_⟩
    have : i = d := by omega
    subst this
    simpa using hc
  | m + 1, i, buf, c, e, hm, hc => by
    obtain ⟨K, hK, hKs⟩ := hk (i + 1) (by omega) (by omega)
    have hwf : K.WF := ⟨by rw [hKs.bl]; exact h1, by rw [hKs.lv]; exact h2, by rw [hKs.bl, hKs.lv]; exact h3⟩
    obtain ⟨b, hb1, hb2⟩ := fourierSubs_spec hf hs hwf (by rw [hKs.subsK]; exact traceExp_odd (by omega) (by omega))
      (by rw [hKs.subsK]; exact hKs.ksk) buf c
    rw [hKs.subsK, hKs.bl, hKs.lv] at hb2
    have hr := trace_round (by omega) hc hb2
    have hadd : c + ⟨fft.backward b.mask, fft.backward b.body⟩
        = (⟨c.mask + fft.backward b.mask, c.body + fft.backward b.body⟩ : RLWE (2 ^ d)) := rfl
    rw [hadd] at hr
    obtain ⟨out, ho1, ho2⟩ := trace1FourierLoop_spec hf hs h1 h2 h3 hk p m (i + 1) b _ _ (by omega) hr
    refine ⟨out, ?_, ho2.mono ?_⟩
    · rw [List.range'_succ, trace1FourierLoop]
      simp only [hK, hKs.subsK, if_true, hb1]
      exact ho1
    · generalize ksNoise (2 ^ d) bl lv E (fftNoise (2 ^ d) phi (1 + lv * 2 ^ (bl - 1))) = N
      have hpos : 0 < 2 ^ m := by positivity
      obtain ⟨q, hq⟩ : ∃ q, 2 ^ m = q + 1 := ⟨2 ^ m - 1, by omega⟩
      rw [pow_succ, hq]
      apply le_of_eq
      rw [show (q + 1) * 2 - 1 = 2 * q + 1 by omega, Nat.add_sub_cancel]; ring

theorem trace1Fourier_spec {d : Nat} (hd : d < 64) {fft : Fft (2 ^ d)} {phi : Nat} (hf : fft.Bounded phi) {s : Poly (2 ^ d)} (hs : Small s 1)
    {bl lv E : Nat} (h1 : 1 ≤ bl) (h2 : 1 ≤ lv) (h3 : bl * lv < 64) {ksks : KskMap (2 ^ d)} (hk : TraceKeys s bl lv E ksks)
    {p : Poly (2 ^ d)} {c : RLWE (2 ^ d)} {e : Nat} (hc : Enc s c p e) : ∃ out, trace1Fourier fft ksks c = some out ∧
      Enc s out (Poly.const (2 ^ d) (2 ^ d * p.get 0))
        (2 ^ d * e + (2 ^ d - 1) * ksNoise (2 ^ d) bl lv E (fftNoise (2 ^ d) phi (1 + lv * 2 ^ (bl - 1)))) := by
  unfold trace1Fourier
  rw [log2_pow hd, ← tracePoly_full]
  exact trace1FourierLoop_spec hf hs h1 h2 h3 hk p d 0 ⟨[], []⟩ c e (by omega) (by rw [tracePoly_zero]; exact hc)

/-- Only the constant coefficient matters: turn a statement about it into a full one. -/
theorem enc_of_const_coeff {n : Nat} (hn : 0 < n) {s : Poly n} {c : RLWE n} {v : Scalar} {e : Nat}
    (h : nrm ((decryptRlwe s c).get 0 - v) ≤ e) : ∃ p : Poly n, p.get 0 = v ∧ Enc s c p e := by
  refine ⟨(decryptRlwe s c).set 0 v, ?_, ?_⟩
  · have := Poly.get_lt ((decryptRlwe s c).set 0 v) ⟨0, hn⟩
    simp only at this
    rw [this, Poly.set_apply, if_pos rfl]
  · intro k
    rw [Poly.sub_apply, Poly.set_apply]
    by_cases hk : k.val = 0
    · have := Poly.get_lt (decryptRlwe s c) k
      rw [hk] at this
      rw [if_pos hk, ← this]; exact h
    · rw [if_neg hk, sub_self]; exact le_trans (le_of_eq nrm_zero) (Nat.zero_le _)

/-! ## Expansion -/

theorem mapOption_spec {α β : Type} {f : α → Option β} {Q : α → β → Prop} : ∀ (l : List α), (∀ a ∈ l, ∃ b, f a = some b ∧ Q a b) →
    ∃ bs, mapOption f l = some bs ∧ List.Forall₂ Q l bs
  | [], _ => ⟨[], rfl, List.Forall₂.nil⟩
  | a :: as, h => by
    obtain ⟨b, hb, hq⟩ := h a (by simp)
    obtain ⟨bs, hbs, hqs⟩ := mapOption_spec as (fun a ha => h a (by simp [ha]))
    exact ⟨b :: bs, by rw [mapOption, hb, hbs], List.Forall₂.cons hq hqs⟩

theorem forall₂_getElem {α β : Type} {Q : α → β → Prop} : ∀ {l : List α} {m : List β}, List.Forall₂ Q l m →
    ∀ {i : Nat} {b : β}, m[i]? = some b → ∃ a, l[i]? = some a ∧ Q a b
  | _, _, .nil, i, b, h => by simp at h
  | _, _, .cons hq hqs, 0, b, h => by simp at h; subst h; exact ⟨_, rfl, hq⟩
  | _, _, .cons hq hqs, i + 1, b, h => by
    simp only [List.getElem?_cons_succ] at h ⊢
    exact forall₂_getElem hqs h

theorem expand_row {n : Nat} {fft : Fft n} {phi : Nat} (hf : fft.Bounded phi) {s : Poly n} (hs : Small s 1)
    {negS : RGSW n} (hN : negS.WF) {B : Nat} (hneg : EncG s negS (-s) B) {c : RLWE n} {m t : Poly n} {eT : Nat}
    (hc : Enc s c (t * m) eT) :
    Enc s (externalProduct fft negS 0 c) (t * -(s * m)) (expandNoise n negS.baseLog negS.levelCount B phi eT) := by
  have h := externalProduct_enc hf hs hN hneg 0 c
  rw [decrypt_zero, zero_add] at h
  have hl : l1 (-s) ≤ n := by rw [l1_neg]; exact le_trans (l1_le hs) (by omega)
  unfold Enc at *
  have e : decryptRlwe s (externalProduct fft negS 0 c) - t * -(s * m)
      = -s * (decryptRlwe s c - t * m) + (decryptRlwe s (externalProduct fft negS 0 c) - -s * decryptRlwe s c) := by ring
  rw [e]
  refine ((Small.l1_mul (-s) hc).add h).mono ?_
  unfold expandNoise extNoise
  have h1 := Nat.mul_le_mul_right eT hl
  have h2 := Nat.mul_le_mul_right ((1 + n) * 2 ^ (63 - negS.baseLog * negS.levelCount)) hl
  omega

theorem expandNoise_ge {n nbl nlv B phi eT : Nat} (hn : 0 < n) : eT ≤ expandNoise n nbl nlv B phi eT :=
  le_trans (Nat.le_mul_of_pos_left _ hn) (Nat.le_add_right _ _)

theorem decomposedRlweToRgsw_spec {n : Nat} (hn : 0 < n) {fft : Fft n} {phi : Nat} (hf : fft.Bounded phi) {s : Poly n} (hs : Small s 1)
    {ctx : Ctx} {negS : RGSW n} (hN : negS.WF) {B : Nat} (hneg : EncG s negS (-s) B) {m : Poly n} {eT : Nat} {cs : List (RLWE n)}
    (hlen : ctx.levelCount ≤ cs.length)
    (hcs : ∀ i c, i < ctx.levelCount → cs[i]? = some c → Enc s c (Poly.const n (gadget ctx.baseLog (i + 1)) * m) eT) :
    ∃ C, decomposedRlweToRgsw fft ctx cs negS = some C ∧ C.baseLog = ctx.baseLog ∧ C.levelCount = ctx.levelCount ∧
      EncG s C m (expandNoise n negS.baseLog negS.levelCount B phi eT) := by
  unfold decomposedRlweToRgsw
  rw [if_pos hlen]
  refine ⟨_, rfl, rfl, ?_, ?_⟩
  · unfold RGSW.levelCount; simp [hlen]
  · intro i r hr
    simp only [List.getElem?_map, Option.map_eq_some_iff, List.getElem?_take] at hr
    obtain ⟨c, hc, rfl⟩ := hr
    split at hc
    · rename_i hi
      have := hcs i c hi hc
      exact ⟨expand_row hf hs hN hneg this, this.mono (expandNoise_ge hn)⟩
    · cases hc

/-- Expansion of any list of ciphertexts whose constant coefficients are `v_i` with `n * v_i = mu * 2^(64-bl*(i+1))`. -/
theorem expand_spec {d : Nat} (hd : d < 64) {fft : Fft (2 ^ d)} {phi : Nat} (hf : fft.Bounded phi) {s : Poly (2 ^ d)} (hs : Small s 1)
    {ctx : Ctx} (h1 : 1 ≤ ctx.ksBaseLog) (h2 : 1 ≤ ctx.ksLevelCount) (h3 : ctx.ksBaseLog * ctx.ksLevelCount < 64)
    {E : Nat} {ksks : KskMap (2 ^ d)} (hk : TraceKeys s ctx.ksBaseLog ctx.ksLevelCount E ksks)
    {negS : RGSW (2 ^ d)} (hN : negS.WF) {B : Nat} (hneg : EncG s negS (-s) B) {mu : Scalar} {e : Nat} {cs : List (RLWE (2 ^ d))}
    (hlen : ctx.levelCount = cs.length) (hne : cs ≠ [])
    (hcs : ∀ i c, cs[i]? = some c → ∃ v, 2 ^ d * v = mu * gadget ctx.baseLog (i + 1) ∧ nrm ((decryptRlwe s c).get 0 - v) ≤ e) :
    (∃ C, expand fft ctx cs ksks negS = some C ∧ C.baseLog = ctx.baseLog ∧ C.levelCount = ctx.levelCount ∧
      EncG s C (Poly.const _ mu) (expandNoise (2 ^ d) negS.baseLog negS.levelCount B phi
        (2 ^ d * e + (2 ^ d - 1) * ksNoise (2 ^ d) ctx.ksBaseLog ctx.ksLevelCount E (ctx.ksLevelCount * fftNoise (2 ^ d) phi (2 ^ (ctx.ksBaseLog - 1)))))) ∧
    (∃ C, expandFourier fft ctx cs ksks negS = some C ∧ C.baseLog = ctx.baseLog ∧ C.levelCount = ctx.levelCount ∧
      EncG s C (Poly.const _ mu) (expandNoise (2 ^ d) negS.baseLog negS.levelCount B phi
        (2 ^ d * e + (2 ^ d - 1) * ksNoise (2 ^ d) ctx.ksBaseLog ctx.ksLevelCount E (fftNoise (2 ^ d) phi (1 + ctx.ksLevelCount * 2 ^ (ctx.ksBaseLog - 1)))))) := by
  have hn : 0 < 2 ^ d := by positivity
  -- every traced ciphertext encrypts the gadget-scaled constant
  have hidx : ∀ c ∈ cs, ∃ i : Nat, cs[i]? = some c := fun c hc => List.mem_iff_getElem?.mp hc
  constructor
  · obtain ⟨csp, hcsp, hF⟩ := mapOption_spec (f := trace1 fft ksks)
      (Q := fun c c' => trace1 fft ksks c = some c') cs (fun c hc => by
        obtain ⟨i, hi⟩ := hidx c hc
        obtain ⟨v, hv, hve⟩ := hcs i c hi
        obtain ⟨p, hp, hpe⟩ := enc_of_const_coeff hn hve
        obtain ⟨out, ho, _⟩ := trace1_spec hd hf hs h1 h2 h3 hk hpe
        exact ⟨out, ho, ho⟩)
    have hlen' : csp.length = cs.length := hF.length_eq.symm
    unfold expand
    rw [if_neg hne, hcsp]
    refine decomposedRlweToRgsw_spec hn hf hs hN hneg (by omega) ?_
    intro i c' hi hc'
    obtain ⟨c, hc, ht⟩ := forall₂_getElem hF hc'
    obtain ⟨v, hv, hve⟩ := hcs i c hc
    obtain ⟨p, hp, hpe⟩ := enc_of_const_coeff hn hve
    obtain ⟨out, ho, hoe⟩ := trace1_spec hd hf hs h1 h2 h3 hk hpe
    rw [ht] at ho; cases ho
    rw [hp, hv, mul_comm mu, Poly.const_mul] at hoe
    exact hoe
  · unfold expandFourier
    rw [if_neg hne, if_pos (by omega), List.take_of_length_le (by omega)]
    obtain ⟨rows, hrows, hF⟩ := mapOption_spec (f := expandFourierRow fft ksks negS)
      (Q := fun c (r : RLWE (2 ^ d) × RLWE (2 ^ d)) => trace1Fourier fft ksks c = some r.2 ∧ r.1 = externalProduct fft negS 0 r.2)
      cs (fun c hc => by
        obtain ⟨i, hi⟩ := hidx c hc
        obtain ⟨v, hv, hve⟩ := hcs i c hi
        obtain ⟨p, hp, hpe⟩ := enc_of_const_coeff hn hve
        obtain ⟨out, ho, _⟩ := trace1Fourier_spec hd hf hs h1 h2 h3 hk hpe
        exact ⟨(externalProduct fft negS 0 out, out), by rw [expandFourierRow, ho], ho, rfl⟩)
    rw [hrows]
    refine ⟨_, rfl, rfl, ?_, ?_⟩
    · unfold RGSW.levelCount
      rw [hlen]; exact hF.length_eq.symm
    · intro i r hr
      obtain ⟨c, hc, ht, hr1⟩ := forall₂_getElem hF hr
      obtain ⟨v, hv, hve⟩ := hcs i c hc
      obtain ⟨p, hp, hpe⟩ := enc_of_const_coeff hn hve
      obtain ⟨out, ho, hoe⟩ := trace1Fourier_spec hd hf hs h1 h2 h3 hk hpe
      rw [ht] at ho; cases ho
      rw [hp, hv, mul_comm mu, Poly.const_mul] at hoe
      rw [hr1]
      exact ⟨expand_row hf hs hN hneg hoe, hoe.mono (expandNoise_ge hn)⟩

theorem gadget_shift {d bl l : Nat} (h1 : 1 ≤ bl) (hl : 1 ≤ l) (h : bl * l + d ≤ 64) (mu : Scalar) (hmu : mu = 1 ∨ mu = 0) :
    (2 ^ d : Scalar) * (mu <<< (64 - bl * l - d)) = mu * gadget bl l := by
  rcases hmu with rfl | rfl
  · unfold gadget
    have hb : 1 ≤ bl * l := Nat.mul_pos h1 hl
    rw [one_mul, ← ofInt_two_pow _ (by omega), ← ofInt_two_pow _ (by omega)]
    have : (2 ^ d : Scalar) = BitVec.ofInt 64 (2 ^ d) := by
      induction d with
      | zero => decide
      | succ d ih =>
        rw [pow_succ, pow_succ, ofInt_mul', ← ih (by omega)]; rfl
    rw [this, ← ofInt_mul', ← pow_add]
    congr 2; omega
  · simp

end Panacea
