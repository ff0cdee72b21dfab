import Verif.Lemmas.Trace
import Verif.Props.Rlwe
import Verif.Props.Poly

/-!
# C25-C29: key switching, substitution, trace, expansion
-/

namespace Panacea
open Finset

/-! ## C25 -/

/-- C25 (key): `fill_with_keyswitch_key(before, after)` yields a key switching key from `before` to `after`, one row per
allocated level, whatever the key held before. -/
theorem C25_key {n : Nat} (K : KeyswitchKey n) (before after : Poly n) {g : Gen n} {B : Nat} (hg : g.Bounded B) :
    IsKsk after (K.fillWithKeyswitchKey before after g).1 before B ∧
    (K.fillWithKeyswitchKey before after g).1.baseLog = K.baseLog ∧
    (K.fillWithKeyswitchKey before after g).1.levelCount = K.levelCount :=
  ⟨(fillWithKeyswitchKey_spec K before after hg).1, rfl, rfl⟩

/-- C25: switching a ciphertext under `before` with such a key never panics and yields a ciphertext that decrypts under `s` to what
the input decrypts to under `before`, up to an explicit error; the old contents of the output do not occur in the result. -/
theorem C25_keyswitch {n : Nat} {fft : Fft n} {phi : Nat} (hf : fft.Bounded phi) {s before : Poly n} (hs : Binary s)
    (hb : Small before 1) {K : KeyswitchKey n} (hK : K.WF) {E : Nat} (hE : IsKsk s K before E) (c : RLWE n) :
    ∃ out, (∀ after, K.keyswitchCiphertext fft after c = some out) ∧
      Enc s out (decryptRlwe before c) (n * 2 ^ (63 - K.baseLog * K.levelCount) +
        (K.levelCount * (n * 2 ^ (K.baseLog - 1) * E) + K.levelCount * fftNoise n phi (2 ^ (K.baseLog - 1)))) := by
  obtain ⟨out, h1, h2⟩ := keyswitchCiphertext_spec hf hs.small hK hE hb 0 c
  exact ⟨out, fun _ => h1, h2⟩

/-- C25 (Fourier): the Fourier-domain variant followed by `backward_as_torus` does the same, for odd and even level counts, with a
single FFT error. -/
theorem C25_keyswitch_fourier {n : Nat} {fft : Fft n} {phi : Nat} (hf : fft.Bounded phi) {s before : Poly n} (hs : Binary s)
    (hb : Small before 1) {K : KeyswitchKey n} (hK : K.WF) {E : Nat} (hE : IsKsk s K before E) (c : RLWE n) :
    ∃ out, (∀ after, K.fourierKeyswitchCiphertext after c = some out) ∧
      Enc s (out.backwardAsTorus fft) (decryptRlwe before c) (n * 2 ^ (63 - K.baseLog * K.levelCount) +
        (K.levelCount * (n * 2 ^ (K.baseLog - 1) * E) + fftNoise n phi (1 + K.levelCount * 2 ^ (K.baseLog - 1)))) := by
  obtain ⟨out, h1, h2⟩ := fourierKeyswitchCiphertext_spec hf hs.small hK hE hb ⟨[], []⟩ c
  refine ⟨out, fun _ => h1, ?_⟩
  unfold FRLWE.backwardAsTorus
  rw [zero_add, zero_add]
  exact h2

/-- C25 (variants agree): the ordinary and the Fourier variant differ, after decryption, by at most the two FFT errors
(they process the same products; only rounding differs). -/
theorem C25_variants_agree {n : Nat} {fft : Fft n} {phi : Nat} (hf : fft.Bounded phi) {s before : Poly n} (hs : Binary s)
    (hb : Small before 1) {K : KeyswitchKey n} (hK : K.WF) {E : Nat} (hE : IsKsk s K before E) (c : RLWE n) :
    ∃ o1 o2, K.keyswitchCiphertext fft 0 c = some o1 ∧ K.fourierKeyswitchCiphertext ⟨[], []⟩ c = some o2 ∧
      Small (decryptRlwe s o1 - decryptRlwe s (o2.backwardAsTorus fft)) (fftNoise n phi (1 + 2 * K.levelCount * 2 ^ (K.baseLog - 1))) := by
  have hlen : K.ksks.reverse.length ≤ (maskTerms K.baseLog K.levelCount c.mask).length := by
    rw [List.length_reverse, hE.len, maskTerms_length]
  obtain ⟨o1, h1, h2⟩ := keyswitchLoop_spec hf hs.small K.ksks.reverse (maskTerms K.baseLog K.levelCount c.mask) ⟨0, 0 + c.body⟩ hlen
    (maskTerms_small hK.bl hK.bl_lt c.mask)
  obtain ⟨o2, h3, h4⟩ := fourierKeyswitch_exact hf hs.small hK c hE.len
  refine ⟨o1, o2, h1, h3 _, ?_⟩
  rw [List.length_reverse, hE.len] at h2
  unfold FRLWE.backwardAsTorus
  rw [zero_add, zero_add]
  set D := decryptRlwe s ⟨0, 0 + c.body⟩ - phaseSum s ((maskTerms K.baseLog K.levelCount c.mask).zip K.ksks.reverse)
  have e : decryptRlwe s o1 - decryptRlwe s ⟨fft.backward o2.mask, fft.backward o2.body⟩
      = (decryptRlwe s o1 - D) - (decryptRlwe s ⟨fft.backward o2.mask, fft.backward o2.body⟩ - D) := by ring
  rw [e]
  exact (h2.sub h4).mono (le_of_eq (by unfold fftNoise; ring))

/-- Honest keys satisfy the hypotheses (odd level count 3 and even level count 2). -/
example (lv : Nat) (hlv : lv = 2 ∨ lv = 3) : ((KeyswitchKey.allocate 4 8 lv).fillWithKeyswitchKey ⟨fun k => if k.val = 0 then 0 else 1⟩ exKey exGen).1.WF ∧
    IsKsk exKey ((KeyswitchKey.allocate 4 8 lv).fillWithKeyswitchKey ⟨fun k => if k.val = 0 then 0 else 1⟩ exKey exGen).1
      ⟨fun k => if k.val = 0 then 0 else 1⟩ 3 ∧ Small (⟨fun k => if k.val = 0 then 0 else 1⟩ : Poly 4) 1 := by
  refine ⟨⟨?_, ?_, ?_⟩, (C25_key _ _ _ exGen_bounded).1, by unfold Small; decide⟩
  · show 1 ≤ 8; omega
  · show 1 ≤ lv; omega
  · show 8 * lv < 64; omega

/-! ## C26 -/

/-- C26 (panic): `from_keyswitch_key` succeeds iff the number of rows is the level count. -/
theorem C26_panics_iff {n : Nat} (K : KeyswitchKey n) : RGSW.fromKeyswitchKey K = none ↔ K.ksks.length ≠ K.levelCount := by
  unfold RGSW.fromKeyswitchKey
  split <;> simp [*]

theorem fromKeyswitchKey_gadget {n : Nat} {s before : Poly n} {K : KeyswitchKey n} {E : Nat} (hE : IsKsk s K before E) :
    ∃ C, RGSW.fromKeyswitchKey K = some C ∧ C.baseLog = K.baseLog ∧ C.levelCount = K.levelCount ∧
      GadgetEnc s C (-before) 1 E := by
  unfold RGSW.fromKeyswitchKey
  rw [if_pos hE.len]
  refine ⟨_, rfl, rfl, ?_, ?_⟩
  · unfold RGSW.levelCount
    simp [hE.len]
  · intro i r hr
    simp only [List.getElem?_map, Option.map_eq_some_iff, List.getElem?_zipIdx] at hr
    obtain ⟨⟨k, l⟩, hkl, rfl⟩ := hr
    obtain ⟨k', hk', he⟩ := hkl
    cases he
    have hrow := hE.row i k hk'
    constructor
    · unfold Enc at *
      have e : decryptRlwe s ⟨0 - k.mask, 0 - k.body⟩ - Poly.const n (gadget K.baseLog (i + 1)) * -before
          = -(decryptRlwe s k - Poly.const n (gadget K.baseLog (i + 1)) * before) := by
        unfold decryptRlwe; ring
      rw [e]; exact Small.neg hrow
    · unfold Enc
      rw [set_zero_eq_const, Nat.add_comm 1 i]
      have e : decryptRlwe s ⟨0, Poly.const n (gadget K.baseLog (i + 1))⟩ - Poly.const n (gadget K.baseLog (i + 1)) * 1 = 0 := by
        unfold decryptRlwe; ring
      rw [e]; exact Small.zero _

/-- C26: with a key switching key from `before` to `s`, converting it to RGSW form and applying `keyswitch_ciphertext` adds to the
output (which the caller allocates as zero) the decryption of the input under `before`, up to an explicit error. -/
theorem C26_keyswitch_rgsw {n : Nat} {fft : Fft n} {phi : Nat} (hf : fft.Bounded phi) {s before : Poly n} (hs : Binary s)
    (hb : Small before 1) {K : KeyswitchKey n} (hK : K.WF) {E : Nat} (hE : IsKsk s K before E) :
    ∃ C, RGSW.fromKeyswitchKey K = some C ∧ ∀ after c : RLWE n,
      Enc s (C.keyswitchCiphertext fft after c) (decryptRlwe s after + decryptRlwe before c)
        ((1 + n) * 2 ^ (63 - K.baseLog * K.levelCount) +
          (2 * K.levelCount * (n * 2 ^ (K.baseLog - 1) * E) + fftNoise n phi (2 * K.levelCount * 2 ^ (K.baseLog - 1)))) := by
  obtain ⟨C, h1, h2, h3, h4⟩ := fromKeyswitchKey_gadget hE
  refine ⟨C, h1, fun after c => ?_⟩
  have hC : C.WF := ⟨by rw [h2]; exact hK.bl, by rw [h3]; exact hK.lv, by rw [h2, h3]; exact hK.lt⟩
  have h := externalProduct_core hf hs.small hC h4 after c
  have ha := roundPoly_error hC.lt c.mask
  have hbo := roundPoly_error hC.lt c.body
  rw [h2, h3] at *
  unfold RGSW.keyswitchCiphertext Enc
  set ra := roundPoly K.baseLog K.levelCount c.mask
  set rb := roundPoly K.baseLog K.levelCount c.body
  have e : decryptRlwe s (externalProduct fft C after c) - (decryptRlwe s after + decryptRlwe before c)
      = ((rb - c.body) - (ra - c.mask) * before)
        + (decryptRlwe s (externalProduct fft C after c) - (decryptRlwe s after + -before * ra + 1 * rb)) := by
    have : decryptRlwe before c = c.body - c.mask * before := rfl
    rw [this]; ring
  rw [e]
  exact (((hbo.sub (ha.mul hb)).mono (le_of_eq (by ring))).add h)

example : (RGSW.fromKeyswitchKey ((KeyswitchKey.allocate 4 8 3).fillWithKeyswitchKey (-exKey) exKey exGen).1).isSome := by
  rw [Option.isSome_iff_ne_none, ne_eq, C26_panics_iff, not_not]
  exact (C25_key _ _ _ exGen_bounded).1.len

/-! ## C27 -/

/-- C27 (key): for odd `k` `fill_with_subs_keyswitch_key(k)` succeeds, `get_subs_k` returns `k`, and the key switches from
`s(X^k)` to `s`. -/
theorem C27_key {d k : Nat} (hk : k % 2 = 1) (K : KeyswitchKey (2 ^ d)) (s : Poly (2 ^ d)) {g : Gen (2 ^ d)} {B : Nat} (hg : g.Bounded B) :
    ∃ r, K.fillWithSubsKeyswitchKey s k g = some r ∧ r.1.subsK = k ∧ IsKsk s r.1 (Spec.evalAt s (Spec.X _ ^ k)) B ∧
      r.1.baseLog = K.baseLog ∧ r.1.levelCount = K.levelCount := by
  obtain ⟨r, h1, h2, h3, h4, h5, _⟩ := fillWithSubs_spec hk K s hg
  rw [Poly.subst_eq_evalAt] at h2
  exact ⟨r, h1, h3, h2, h4, h5⟩

/-- C27: with a freshly generated key, `subs` and its Fourier variant turn an encryption of `p(X)` into one of `p(X^k)` under the
same key, with explicit noise. -/
theorem C27_subs {d : Nat} {fft : Fft (2 ^ d)} {phi : Nat} (hf : fft.Bounded phi) {s : Poly (2 ^ d)} (hs : Binary s) {k bl lv : Nat}
    (hk : k % 2 = 1) (h1 : 1 ≤ bl) (h2 : 1 ≤ lv) (h3 : bl * lv < 64) {g : Gen (2 ^ d)} {B : Nat} (hg : g.Bounded B) :
    ∃ K g', (KeyswitchKey.allocate (2 ^ d) bl lv).fillWithSubsKeyswitchKey s k g = some (K, g') ∧
      ∀ (c : RLWE (2 ^ d)) (p : Poly (2 ^ d)) (e : Nat), Enc s c p e →
        (∀ after, ∃ out, K.subs fft after c = some out ∧
          Enc s out (Spec.evalAt p (Spec.X _ ^ k)) (e + ksNoise (2 ^ d) bl lv B (lv * fftNoise (2 ^ d) phi (2 ^ (bl - 1))))) ∧
        (∀ after, ∃ out, K.fourierSubs after c = some out ∧
          Enc s (out.backwardAsTorus fft) (Spec.evalAt p (Spec.X _ ^ k)) (e + ksNoise (2 ^ d) bl lv B (fftNoise (2 ^ d) phi (1 + lv * 2 ^ (bl - 1))))) := by
  obtain ⟨⟨K, g'⟩, hr1, hr2, hr3, hr4, hr5, _⟩ := fillWithSubs_spec hk (KeyswitchKey.allocate (2 ^ d) bl lv) s hg
  simp only at hr2 hr3 hr4 hr5
  refine ⟨K, g', hr1, fun c p e hc => ?_⟩
  have hb : K.baseLog = bl := hr4
  have hl : K.levelCount = lv := hr5
  have hwf : K.WF := ⟨by rw [hb]; exact h1, by rw [hl]; exact h2, by rw [hb, hl]; exact h3⟩
  have hsub : ∀ (out : RLWE (2 ^ d)) (N : Nat), Enc s out ((decryptRlwe s c).subst k) N →
      Enc s out (Spec.evalAt p (Spec.X _ ^ k)) (e + N) := by
    intro out N ho
    have h4 : Small ((decryptRlwe s c - p).subst k) e := Small.subst hk hc
    rw [← Poly.subst_eq_evalAt]
    unfold Enc at *
    have e1 : decryptRlwe s out - p.subst k = (decryptRlwe s c - p).subst k + (decryptRlwe s out - (decryptRlwe s c).subst k) := by
      rw [Poly.subst_sub]; ring
    rw [e1]; exact h4.add ho
  constructor
  · intro after
    obtain ⟨out, ho, hoe⟩ := subs_spec hf hs.small hwf (by rw [hr3]; exact hk) (by rw [hr3]; exact hr2) after c
    rw [hr3, hb, hl] at hoe
    exact ⟨out, ho, hsub _ _ hoe⟩
  · intro after
    obtain ⟨out, ho, hoe⟩ := fourierSubs_spec hf hs.small hwf (by rw [hr3]; exact hk) (by rw [hr3]; exact hr2) after c
    rw [hr3, hb, hl] at hoe
    refine ⟨out, ho, ?_⟩
    unfold FRLWE.backwardAsTorus
    rw [zero_add, zero_add]
    exact hsub _ _ hoe

/-- C27 (panic): key generation for an even `k` panics. -/
theorem C27_even_panics {n : Nat} (K : KeyswitchKey n) (s : Poly n) {k : Nat} (hk : k % 2 = 0) (g : Gen n) :
    K.fillWithSubsKeyswitchKey s k g = none := by
  unfold KeyswitchKey.fillWithSubsKeyswitchKey evalXk
  rw [(C07_panics_iff 0 s k).mpr (Or.inl hk)]

/-! ## C28 -/

/-- C28: for every power-of-two ring size, binary key and bounded randomness, the key map of `gen_all_subs_ksk` lets `trace1` and
`trace1_fourier` succeed on every ciphertext; if the *constant* coefficient of the decryption is `v` up to `e` (nothing is assumed about
the others), the result encrypts the constant polynomial `n*v` with explicit noise. -/
theorem C28_trace {d : Nat} (hd : d < 64) {fft : Fft (2 ^ d)} {phi : Nat} (hf : fft.Bounded phi) {s : Poly (2 ^ d)} (hs : Binary s)
    {ctx : Ctx} (h1 : 1 ≤ ctx.ksBaseLog) (h2 : 1 ≤ ctx.ksLevelCount) (h3 : ctx.ksBaseLog * ctx.ksLevelCount < 64)
    {g : Gen (2 ^ d)} {B : Nat} (hg : g.Bounded B) :
    ∃ ksks g', genAllSubsKsk ctx s g = some (ksks, g') ∧
      ∀ (c : RLWE (2 ^ d)) (v : Scalar) (e : Nat), nrm ((decryptRlwe s c).get 0 - v) ≤ e →
        (∃ out, trace1 fft ksks c = some out ∧ Enc s out (Poly.const _ (2 ^ d * v))
          (2 ^ d * e + (2 ^ d - 1) * ksNoise (2 ^ d) ctx.ksBaseLog ctx.ksLevelCount B (ctx.ksLevelCount * fftNoise (2 ^ d) phi (2 ^ (ctx.ksBaseLog - 1))))) ∧
        (∃ out, trace1Fourier fft ksks c = some out ∧ Enc s out (Poly.const _ (2 ^ d * v))
          (2 ^ d * e + (2 ^ d - 1) * ksNoise (2 ^ d) ctx.ksBaseLog ctx.ksLevelCount B (fftNoise (2 ^ d) phi (1 + ctx.ksLevelCount * 2 ^ (ctx.ksBaseLog - 1))))) := by
  obtain ⟨⟨ksks, g'⟩, hr1, hr2, _⟩ := genAllSubsKsk_spec hd ctx s hg
  refine ⟨ksks, g', hr1, fun c v e hv => ?_⟩
  obtain ⟨p, hp, hpe⟩ := enc_of_const_coeff (by positivity) hv
  have ha := trace1_spec hd hf hs.small h1 h2 h3 hr2 hpe
  have hb := trace1Fourier_spec hd hf hs.small h1 h2 h3 hr2 hpe
  rw [hp] at ha hb
  exact ⟨ha, hb⟩

/-- C28 (on messages): the special case of an encryption of a polynomial `p`: the result encrypts `n * p(0)`. -/
theorem C28_trace_message {d : Nat} (hd : d < 64) {fft : Fft (2 ^ d)} {phi : Nat} (hf : fft.Bounded phi) {s : Poly (2 ^ d)} (hs : Binary s)
    {ctx : Ctx} (h1 : 1 ≤ ctx.ksBaseLog) (h2 : 1 ≤ ctx.ksLevelCount) (h3 : ctx.ksBaseLog * ctx.ksLevelCount < 64)
    {g : Gen (2 ^ d)} {B : Nat} (hg : g.Bounded B) :
    ∃ ksks g', genAllSubsKsk ctx s g = some (ksks, g') ∧
      ∀ (c : RLWE (2 ^ d)) (p : Poly (2 ^ d)) (e : Nat), Enc s c p e →
        ∃ out, trace1 fft ksks c = some out ∧ Enc s out (Poly.const _ (2 ^ d * p.get 0))
          (2 ^ d * e + (2 ^ d - 1) * ksNoise (2 ^ d) ctx.ksBaseLog ctx.ksLevelCount B (ctx.ksLevelCount * fftNoise (2 ^ d) phi (2 ^ (ctx.ksBaseLog - 1)))) := by
  obtain ⟨⟨ksks, g'⟩, hr1, hr2, _⟩ := genAllSubsKsk_spec hd ctx s hg
  exact ⟨ksks, g', hr1, fun c p e hpe => trace1_spec hd hf hs.small h1 h2 h3 hr2 hpe⟩

/-- C28 (missing or mislabelled key): if for some round `i` the map has no key for the exponent `n / 2^(i-1) + 1`, or the key stored there was
made for another exponent, then `trace1` and `trace1_fourier` panic. -/
theorem C28_missing_key_panics {n : Nat} (fft : Fft n) (ksks : KskMap n) (c : RLWE n) {ln i : Nat} (hl : log2 n = some ln)
    (hi : 1 ≤ i ∧ i ≤ ln) (hk : ∀ K, ksks (n / 2 ^ (i - 1) + 1) = some K → K.subsK ≠ n / 2 ^ (i - 1) + 1) :
    trace1 fft ksks c = none ∧ trace1Fourier fft ksks c = none := by
  have key : ∀ (is : List Nat) (buf out : RLWE n), i ∈ is → trace1Loop fft ksks is buf out = none := by
    intro is
    induction is with
    | nil => intro _ _ h; simp at h
    | cons j js ih =>
      intro buf out h
      rw [trace1Loop]
      split
      · rfl
      rename_i K hK
      rcases List.mem_cons.mp h with h | h
      · subst h; exact if_neg (hk K hK)
      · split
        · split
          · rfl
          · exact ih _ _ h
        · rfl
  have key' : ∀ (is : List Nat) (buf : FRLWE n) (out : RLWE n), i ∈ is → trace1FourierLoop fft ksks is buf out = none := by
    intro is
    induction is with
    | nil => intro _ _ h; simp at h
    | cons j js ih =>
      intro buf out h
      rw [trace1FourierLoop]
      split
      · rfl
      rename_i K hK
      rcases List.mem_cons.mp h with h | h
      · subst h; exact if_neg (hk K hK)
      · split
        · split
          · rfl
          · exact ih _ _ h
        · rfl
  unfold trace1 trace1Fourier
  rw [hl]
  exact ⟨key _ _ _ (by rw [List.mem_range'_1]; omega), key' _ _ _ (by rw [List.mem_range'_1]; omega)⟩

example : ∃ r, genAllSubsKsk exCtx exKey exGen = some r ∧ ∃ out, trace1 exFft r.1
    (encryptRlwe exKey ⟨fun k => BitVec.ofNat 64 (2 ^ 55 * (k.val + 3))⟩ exGen).1 = some out ∧
      Enc exKey out (Poly.const 4 (4 * (2 ^ 55 * 3))) (2 ^ 50) := by
  have hs : Binary (n := 2 ^ 2) exKey := exKey_binary
  obtain ⟨ksks, g', h1, h2⟩ := C28_trace_message (d := 2) (by decide) (fft := exFft) (phi := 5) exFft_bounded hs (ctx := exCtx)
    (by decide) (by decide) (by decide) (g := exGen) (B := 3) exGen_bounded
  obtain ⟨out, h3, h4⟩ := h2 _ _ 3 (encryptRlwe_enc (s := exKey) (m := ⟨fun k => BitVec.ofNat 64 (2 ^ 55 * (k.val + 3))⟩) exGen_bounded)
  refine ⟨_, h1, out, h3, ?_⟩
  have h5 := h4.mono (show _ ≤ 2 ^ 50 by decide)
  have e : (2 ^ 2 * (Poly.get (⟨fun k => BitVec.ofNat 64 (2 ^ 55 * (k.val + 3))⟩ : Poly 4) 0) : Scalar) = 4 * (2 ^ 55 * 3) := by
    decide +kernel
  rw [← e]; exact h5

/-! ## C29 -/

theorem makeDecomposed_spec {d : Nat} (hd : d < 64) {ctx : Ctx} (h1 : 1 ≤ ctx.baseLog) (h2 : ctx.baseLog * ctx.levelCount + d ≤ 64)
    (s : Poly (2 ^ d)) {bit : Scalar} (hbit : bit = 1 ∨ bit = 0) {g : Gen (2 ^ d)} {B : Nat} (hg : g.Bounded B) :
    ∃ r, makeDecomposedRlweCt ctx s bit g = some r ∧ r.1.length = ctx.levelCount ∧ r.2.Bounded B ∧
      ∀ i c, r.1[i]? = some c → ∃ v, 2 ^ d * v = bit * gadget ctx.baseLog (i + 1) ∧ nrm ((decryptRlwe s c).get 0 - v) ≤ B := by
  unfold makeDecomposedRlweCt
  rw [if_pos hbit, log2_pow hd]
  obtain ⟨r, hr, hF, hb⟩ := mapGenM_spec (f := makeDecomposedLevel ctx s bit d) (P := fun g : Gen (2 ^ d) => g.Bounded B)
    (Q := fun l c => ∃ v, 2 ^ d * v = bit * gadget ctx.baseLog l ∧ nrm ((decryptRlwe s c).get 0 - v) ≤ B)
    (List.range' 1 ctx.levelCount) (fun l hl g hg => by
      rw [List.mem_range'_1] at hl
      have hle : ctx.baseLog * l + d ≤ 64 := le_trans (Nat.add_le_add_right (Nat.mul_le_mul_left _ (by omega)) _) h2
      unfold makeDecomposedLevel
      rw [if_pos hle]
      refine ⟨_, rfl, ⟨bit <<< (64 - ctx.baseLog * l - d), gadget_shift h1 hl.1 hle bit hbit, ?_⟩, hg⟩
      rw [decrypt_encrypt]
      have hn : 0 < 2 ^ d := by positivity
      have hget := Poly.get_lt ((g.plains g.pos).set 0 (bit <<< (64 - ctx.baseLog * l - d)) + g.noises g.pos) ⟨0, hn⟩
      simp only at hget
      rw [hget, Poly.add_apply, Poly.set_apply, if_pos rfl, add_sub_cancel_left]
      exact hg _ _) g hg
  refine ⟨r, hr, ?_, hb, fun i c hc => ?_⟩
  · have := hF.length_eq
    rw [List.length_range'] at this
    exact this.symm
  · have := forall₂_range'_getElem hF hc
    rwa [Nat.add_comm] at this

/-- C29: with honestly generated trace keys, `-s` encryption (`negs_base_log = base_log`) and decomposed ciphertexts of a bit, `expand` and
`expand_fourier` return an RGSW encryption of the bit with the context's decomposition parameters and explicit row noise. -/
theorem C29_expand {d : Nat} (hd : d < 64) {fft : Fft (2 ^ d)} {phi : Nat} (hf : fft.Bounded phi) {s : Poly (2 ^ d)} (hs : Binary s)
    {ctx : Ctx} (hb1 : 1 ≤ ctx.baseLog) (hl1 : 1 ≤ ctx.levelCount) (hbl : ctx.baseLog * ctx.levelCount + d ≤ 64)
    (hk1 : 1 ≤ ctx.ksBaseLog) (hk2 : 1 ≤ ctx.ksLevelCount) (hk3 : ctx.ksBaseLog * ctx.ksLevelCount < 64)
    (hn1 : ctx.negsBaseLog = ctx.baseLog) (hn2 : 1 ≤ ctx.negsLevelCount) (hn3 : ctx.negsBaseLog * ctx.negsLevelCount < 64)
    {g : Gen (2 ^ d)} {B : Nat} (hg : g.Bounded B) {bit : Scalar} (hbit : bit = 1 ∨ bit = 0) :
    ∃ ksks g1 negS g2 cs g3, genAllSubsKsk ctx s g = some (ksks, g1) ∧ negGsw ctx s g1 = some (negS, g2) ∧
      makeDecomposedRlweCt ctx s bit g2 = some (cs, g3) ∧
      (∃ C, expand fft ctx cs ksks negS = some C ∧ C.baseLog = ctx.baseLog ∧ C.levelCount = ctx.levelCount ∧
        EncG s C (Poly.const _ bit) (expandNoise (2 ^ d) ctx.negsBaseLog ctx.negsLevelCount B phi
          (2 ^ d * B + (2 ^ d - 1) * ksNoise (2 ^ d) ctx.ksBaseLog ctx.ksLevelCount B (ctx.ksLevelCount * fftNoise (2 ^ d) phi (2 ^ (ctx.ksBaseLog - 1)))))) ∧
      (∃ C, expandFourier fft ctx cs ksks negS = some C ∧ C.baseLog = ctx.baseLog ∧ C.levelCount = ctx.levelCount ∧
        EncG s C (Poly.const _ bit) (expandNoise (2 ^ d) ctx.negsBaseLog ctx.negsLevelCount B phi
          (2 ^ d * B + (2 ^ d - 1) * ksNoise (2 ^ d) ctx.ksBaseLog ctx.ksLevelCount B (fftNoise (2 ^ d) phi (1 + ctx.ksLevelCount * 2 ^ (ctx.ksBaseLog - 1)))))) := by
  obtain ⟨⟨ksks, g1⟩, hr1, hr2, hr3⟩ := genAllSubsKsk_spec hd ctx s hg
  obtain ⟨⟨negS, g2⟩, hq1, hq2, hq3, hq4, hq5⟩ := C21_neg_gsw hn1 hs hr3
  simp only at hq2 hq3 hq4 hq5
  obtain ⟨⟨cs, g3⟩, hc1, hc2, hc3, hc4⟩ := makeDecomposed_spec hd hb1 hbl s hbit hq5
  simp only at hc2 hc4
  refine ⟨ksks, g1, negS, g2, cs, g3, hr1, hq1, hc1, ?_⟩
  have hN : negS.WF := ⟨by rw [hq3, hn1]; exact hb1, by rw [hq4]; exact hn2, by rw [hq3, hq4]; exact hn3⟩
  have hne : cs ≠ [] := by
    intro h
    rw [h] at hc2
    have : 0 = ctx.levelCount := hc2
    omega
  have h := expand_spec hd hf hs.small hk1 hk2 hk3 hr2 hN hq2 hc2.symm hne hc4
  rw [hq3, hq4] at h
  exact h

/-- C29 (panic): `make_decomposed_rlwe_ct` panics on anything but a bit. -/
theorem C29_non_bit_panics {n : Nat} (ctx : Ctx) (s : Poly n) {bit : Scalar} (h : ¬ (bit = 1 ∨ bit = 0)) (g : Gen n) :
    makeDecomposedRlweCt ctx s bit g = none := by
  unfold makeDecomposedRlweCt; rw [if_neg h]

/-- The hypotheses hold for the example parameters (and with base log 4, 10 levels the row noise is below `2^30`). -/
example : exCtx.baseLog * exCtx.levelCount + 2 ≤ 64 ∧ exCtx.ksBaseLog * exCtx.ksLevelCount < 64 ∧
    expandNoise (2 ^ 2) 4 10 3 5 (2 ^ 2 * 3 + (2 ^ 2 - 1) * ksNoise (2 ^ 2) 4 10 3 ((1 + 2 ^ 2) * 5)) < 2 ^ 30 := by decide

end Panacea
