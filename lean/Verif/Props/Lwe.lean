import Verif.Props.Keyswitch

/-!
# C30-C32: sample extraction, LWE to RLWE conversion, noise measurement
-/

namespace Panacea
open Finset

/-! ## C30 -/

/-- C30: extracting coefficient `k` gives an LWE ciphertext whose decryption under the same key words is *exactly* coefficient `k` of the
RLWE decryption. -/
theorem C30_sample_extract {n : Nat} (s : Poly n) (c : RLWE n) (k : Fin n) :
    decryptLwe s (sampleExtract c k.val) = decryptRlwe s c k := by
  unfold decryptLwe sampleExtract decryptRlwe dot
  simp only
  rw [Poly.sub_apply, Poly.get_lt, mul_comm c.mask s, Poly.mul_apply]
  congr 1
  refine Finset.sum_congr rfl fun i _ => ?_
  rw [mul_comm]
  rfl

/-- C30 (constant): `fill_with_const_sample_extract` extracts the constant coefficient; `to_rlwe_sk` does not change the key words. -/
theorem C30_const_extract {n : Nat} (hn : 0 < n) (s : Poly n) (c : RLWE n) :
    decryptLwe s (constSampleExtract c) = decryptRlwe (toRlweSk s) c ⟨0, hn⟩ :=
  C30_sample_extract s c ⟨0, hn⟩

example : decryptLwe exKey (sampleExtract (encryptRlwe exKey ⟨fun k => BitVec.ofNat 64 (2 ^ 40 * k.val)⟩ exGen).1 3) = 2 ^ 40 * 3 := by
  decide +kernel

/-! ## C31 -/

theorem decompose_eq_reverse (bl lv : Nat) (x : Scalar) :
    decompose bl lv x = ((List.range' 1 lv).map (digit bl lv x)).reverse := by
  apply List.ext_getElem
  · rw [decompose_length]; simp
  · intro i h1 h2
    rw [decompose_length] at h1
    rw [List.getElem_reverse, List.getElem_map, List.getElem_range']
    unfold digit
    simp only [List.length_map, List.length_range']
    rw [show lv - (1 + 1 * (lv - 1 - i)) = i by omega, List.getD_eq_getElem?_getD,
      List.getElem?_eq_getElem (by rw [decompose_length]; exact h1), Option.getD_some]

theorem convInner_decrypt {n : Nat} (s : Poly n) : ∀ (rows : List (RLWE n)) (ds : List Scalar) (out : RLWE n),
    decryptRlwe s (convInner rows ds out) = decryptRlwe s out - phaseSum s ((ds.map (Poly.const n)).zip rows)
  | [], ds, out => by
    unfold convInner
    simp only [List.zip_nil_left, List.foldl_nil, List.zip_nil_right, phaseSum]; ring
  | r :: rows, [], out => by
    unfold convInner
    simp only [List.zip_nil_right, List.foldl_nil, List.map_nil, List.zip_nil_left, phaseSum]; ring
  | r :: rows, d :: ds, out => by
    have ih := convInner_decrypt s rows ds ⟨out.mask - r.mask.mulConst d, out.body - r.body.mulConst d⟩
    unfold convInner at *
    simp only [List.zip_cons_cons, List.foldl_cons, List.map_cons, phaseSum]
    rw [ih, Poly.mulConst_eq, Poly.mulConst_eq]
    unfold decryptRlwe
    ring

/-- Contribution of one key word. -/
theorem convOuter_phase {n : Nat} {s : Poly n} {ctx : Ctx} (h1 : 1 ≤ ctx.ksBaseLog) (h2 : 1 ≤ ctx.ksLevelCount)
    (h3 : ctx.ksBaseLog * ctx.ksLevelCount < 64) {C : RGSW n} (hC1 : C.baseLog = ctx.ksBaseLog) (hC2 : C.levelCount = ctx.ksLevelCount)
    {sw : Scalar} (hsw : nrm sw ≤ 1) {B : Nat} (hE : EncG s C (Poly.const n sw) B) (a : Scalar) (out : RLWE n) :
    Small (decryptRlwe s (convOuter ctx out (C, a)) - (decryptRlwe s out - Poly.const n (a * sw)))
      (2 ^ (63 - ctx.ksBaseLog * ctx.ksLevelCount) + ctx.ksLevelCount * (2 ^ (ctx.ksBaseLog - 1) * B)) := by
  set bl := ctx.ksBaseLog with hbl
  set lv := ctx.ksLevelCount with hlv
  have hblt : bl < 64 := lt_of_le_of_lt (Nat.le_mul_of_pos_right _ h2) h3
  set w := closestRepresentable bl lv a with hw
  have hph : decryptRlwe s (convOuter ctx out (C, a))
      = decryptRlwe s out - ∑ i ∈ range lv, Poly.const n (digit bl lv w (i + 1)) * decryptRlwe s (C.rows.getD i (0, 0)).2 := by
    unfold convOuter
    simp only
    rw [convInner_decrypt, decompose_eq_reverse, List.map_reverse, List.map_reverse, zip_reverse', phaseSum_reverse, List.map_map]
    · have := phaseSum_zip s (Poly.const n ∘ digit bl lv w) (C.rows.map fun r => r.2) 1
      rw [List.length_map] at this
      have hlen : C.rows.length = lv := hC2
      rw [hlen] at this
      rw [this]
      congr 1
      refine Finset.sum_congr rfl fun i hi => ?_
      have hi' : i < C.rows.length := by rw [hlen]; exact Finset.mem_range.mp hi
      rw [Nat.add_comm 1 i, List.getD_eq_getElem?_getD, List.getD_eq_getElem?_getD, List.getElem?_map,
        List.getElem?_eq_getElem hi']
      rfl
    · have hlen : C.rows.length = lv := hC2
      simp [hlen, ← hlv]
  have hrow : ∀ i ∈ range lv, Small (decryptRlwe s (C.rows.getD i (0, 0)).2 - Poly.const n (gadget bl (i + 1)) * Poly.const n sw) B := by
    intro i hi
    have hi' : i < C.rows.length := by
      have hlen : C.rows.length = lv := hC2
      rw [hlen]; exact Finset.mem_range.mp hi
    have := (hE i (C.rows.getD i (0, 0)) (by
      rw [List.getD_eq_getElem?_getD, List.getElem?_eq_getElem hi', Option.getD_some])).2
    rw [hC1] at this
    exact this
  have hsum : ∑ i ∈ range lv, Poly.const n (digit bl lv w (i + 1)) * (Poly.const n (gadget bl (i + 1)) * Poly.const n sw)
      = Poly.const n (w * sw) := by
    have hd := decompose_sum bl lv h1 h3 h2 w
    have hidem : closestRepresentable bl lv w = w := closest_idem bl lv h3 a
    rw [hidem] at hd
    have hcs : ∀ (f : Nat → Scalar), ∑ i ∈ range lv, Poly.const n (f i) = Poly.const n (∑ i ∈ range lv, f i) := by
      intro f
      refine Poly.ext (funext fun k => ?_)
      rw [Poly.sum_apply, Poly.const_apply]
      by_cases hk : k.val = 0
      · rw [if_pos hk]; refine Finset.sum_congr rfl fun i _ => ?_
        rw [Poly.const_apply, if_pos hk]
      · rw [if_neg hk]; refine Finset.sum_eq_zero fun i _ => ?_
        rw [Poly.const_apply, if_neg hk]
    conv_rhs => rw [← hd, Finset.sum_mul, ← hcs]
    refine Finset.sum_congr rfl fun i _ => ?_
    rw [Poly.const_mul, Poly.const_mul]
    unfold gadget; ring
  have e : decryptRlwe s (convOuter ctx out (C, a)) - (decryptRlwe s out - Poly.const n (a * sw))
      = -(Poly.const n ((w - a) * sw)) - ∑ i ∈ range lv, Poly.const n (digit bl lv w (i + 1))
          * (decryptRlwe s (C.rows.getD i (0, 0)).2 - Poly.const n (gadget bl (i + 1)) * Poly.const n sw) := by
    have : ∑ i ∈ range lv, Poly.const n (digit bl lv w (i + 1))
          * (decryptRlwe s (C.rows.getD i (0, 0)).2 - Poly.const n (gadget bl (i + 1)) * Poly.const n sw)
        = (∑ i ∈ range lv, Poly.const n (digit bl lv w (i + 1)) * decryptRlwe s (C.rows.getD i (0, 0)).2) - Poly.const n (w * sw) := by
      rw [← hsum, ← Finset.sum_sub_distrib]
      refine Finset.sum_congr rfl fun i _ => ?_
      ring
    rw [this, hph, show (w - a) * sw = w * sw - a * sw by ring, Poly.const_sub]
    ring
  rw [e]
  refine Small.sub (Small.neg ?_) ?_
  · intro k
    rw [Poly.const_apply]
    split
    · refine le_trans (nrm_mul _ _) ?_
      have := closest_error bl lv h3 a
      exact le_trans (Nat.mul_le_mul this hsw) (by omega)
    · exact le_trans (le_of_eq nrm_zero) (Nat.zero_le _)
  · have := Small.sum (range lv) (fun i => Poly.const n (digit bl lv w (i + 1))
          * (decryptRlwe s (C.rows.getD i (0, 0)).2 - Poly.const n (gadget bl (i + 1)) * Poly.const n sw)) (fun _ => 2 ^ (bl - 1) * B)
      (fun i hi => (Small.l1_mul _ (hrow i hi)).mono
        (Nat.mul_le_mul_right _ (le_trans (l1_const _) (digit_small bl lv h1 hblt w (i + 1)))))
    refine this.mono (le_of_eq ?_)
    rw [Finset.sum_const, Finset.card_range, smul_eq_mul]

/-- `ksks` is an LWE-to-RLWE key for `s`: one RGSW encryption of every key word, with the context's key switching parameters. -/
def IsLweKsk {n : Nat} (ctx : Ctx) (s : Poly n) (ksks : List (RGSW n)) (B : Nat) : Prop :=
  List.Forall₂ (fun (i : Fin n) C => C.baseLog = ctx.ksBaseLog ∧ C.levelCount = ctx.ksLevelCount ∧ EncG s C (Poly.const n (s i)) B)
    (List.finRange n) ksks

/-- Noise added by `conv_lwe_to_rlwe`. -/
def convNoise (n bl lv B : Nat) : Nat := n * (2 ^ (63 - bl * lv) + lv * (2 ^ (bl - 1) * B))

theorem convFold_spec {n : Nat} {s : Poly n} (hs : Binary s) {ctx : Ctx} (h1 : 1 ≤ ctx.ksBaseLog) (h2 : 1 ≤ ctx.ksLevelCount)
    (h3 : ctx.ksBaseLog * ctx.ksLevelCount < 64) {B : Nat} (a : Poly n) : ∀ (is : List (Fin n)) (ksks : List (RGSW n)) (out : RLWE n),
    List.Forall₂ (fun (i : Fin n) C => C.baseLog = ctx.ksBaseLog ∧ C.levelCount = ctx.ksLevelCount ∧ EncG s C (Poly.const n (s i)) B) is ksks →
    Small (decryptRlwe s ((ksks.zip (is.map fun i => a i)).foldl (convOuter ctx) out)
        - (decryptRlwe s out - Poly.const n ((is.map fun i => a i * s i).sum)))
      (is.length * (2 ^ (63 - ctx.ksBaseLog * ctx.ksLevelCount) + ctx.ksLevelCount * (2 ^ (ctx.ksBaseLog - 1) * B)))
  | [], _, out, .nil => by
    simp only [List.map_nil, List.zip_nil_right, List.foldl_nil, List.sum_nil, Poly.const_zero, sub_zero, sub_self]
    exact Small.zero _
  | i :: is, C :: ksks, out, .cons hq hqs => by
    simp only [List.map_cons, List.zip_cons_cons, List.foldl_cons, List.sum_cons, List.length_cons]
    have ih := convFold_spec hs h1 h2 h3 a is ksks (convOuter ctx out (C, a i)) hqs
    have hstep := convOuter_phase h1 h2 h3 hq.1 hq.2.1 (hs.small i) hq.2.2 (a i) out
    set R := decryptRlwe s ((ksks.zip (is.map fun i => a i)).foldl (convOuter ctx) (convOuter ctx out (C, a i)))
    have e : R - (decryptRlwe s out - Poly.const n (a i * s i + (is.map fun i => a i * s i).sum))
        = (R - (decryptRlwe s (convOuter ctx out (C, a i)) - Poly.const n ((is.map fun i => a i * s i).sum)))
          + (decryptRlwe s (convOuter ctx out (C, a i)) - (decryptRlwe s out - Poly.const n (a i * s i))) := by
      rw [Poly.const_add]; ring
    rw [e]
    exact (ih.add hstep).mono (le_of_eq (by ring))

theorem conv_spec {n : Nat} {s : Poly n} (hs : Binary s) {ctx : Ctx} (h1 : 1 ≤ ctx.ksBaseLog) (h2 : 1 ≤ ctx.ksLevelCount)
    (h3 : ctx.ksBaseLog * ctx.ksLevelCount < 64) {B : Nat} {ksks : List (RGSW n)} (hk : IsLweKsk ctx s ksks B) (lwe : LWE n) :
    Enc s (convLweToRlwe ctx ksks lwe) (Poly.const n (decryptLwe s lwe)) (convNoise n ctx.ksBaseLog ctx.ksLevelCount B) := by
  have h := convFold_spec hs h1 h2 h3 lwe.mask (List.finRange n) ksks 0 hk
  rw [List.length_finRange, decrypt_zero] at h
  unfold convLweToRlwe Enc
  simp only
  set O := (ksks.zip ((List.finRange n).map fun i => lwe.mask i)).foldl (convOuter ctx) 0
  have hdot : ((List.finRange n).map fun i => lwe.mask i * s i).sum = dot lwe.mask s := by
    unfold dot
    rw [← List.ofFn_eq_map, List.sum_ofFn]
  rw [hdot] at h
  have e : decryptRlwe s ⟨O.mask, O.body + Poly.set 0 0 lwe.body⟩ - Poly.const n (decryptLwe s lwe)
      = decryptRlwe s O - (0 - Poly.const n (dot lwe.mask s)) := by
    unfold decryptLwe
    rw [set_zero_eq_const, Poly.const_sub]
    unfold decryptRlwe
    simp only
    ring
  rw [e]
  exact h

/-- C31 (key): `fill_with_keyswitching_key` yields one RGSW encryption per key word. -/
theorem C31_key {n : Nat} (ctx : Ctx) (s : Poly n) {g : Gen n} {B : Nat} (hg : g.Bounded B) :
    IsLweKsk ctx s (lweToRlweKeyswitchKey ctx s g).1 B ∧ (lweToRlweKeyswitchKey ctx s g).1.length = n ∧
      (lweToRlweKeyswitchKey ctx s g).2.Bounded B := by
  have h := mapGen_spec (P := fun g : Gen n => g.Bounded B)
    (Q := fun (i : Fin n) C => C.baseLog = ctx.ksBaseLog ∧ C.levelCount = ctx.ksLevelCount ∧ EncG s C (Poly.const n (s i)) B)
    (f := fun i g => encryptConstantRgsw (toRlweSk s) ctx.ksBaseLog ctx.ksLevelCount (s i) g)
    (fun i g hg => ⟨⟨rfl, encryptConstantRgsw_levelCount _ _ _ _ _, (encryptConstantRgsw_enc _ _ _ hg).1⟩,
      (encryptConstantRgsw_enc (s := toRlweSk s) _ _ _ hg).2⟩) (List.finRange n) g hg
  refine ⟨h.1, ?_, h.2⟩
  unfold lweToRlweKeyswitchKey
  rw [mapGen_length, List.length_finRange]

/-- C31: with an honestly generated key, `conv_lwe_to_rlwe` returns an RLWE encryption of the constant polynomial whose constant coefficient
is the LWE decryption, with explicit noise. -/
theorem C31_conv {n : Nat} {s : Poly n} (hs : Binary s) {ctx : Ctx} (h1 : 1 ≤ ctx.ksBaseLog) (h2 : 1 ≤ ctx.ksLevelCount)
    (h3 : ctx.ksBaseLog * ctx.ksLevelCount < 64) {g : Gen n} {B : Nat} (hg : g.Bounded B) (lwe : LWE n) :
    Enc s (convLweToRlwe ctx (lweToRlweKeyswitchKey ctx s g).1 lwe) (Poly.const n (decryptLwe s lwe))
      (n * (2 ^ (63 - ctx.ksBaseLog * ctx.ksLevelCount) + ctx.ksLevelCount * (2 ^ (ctx.ksBaseLog - 1) * B))) :=
  conv_spec hs h1 h2 h3 (C31_key ctx s hg).1 lwe

/-- `expand_slow` with key material generated in any order. -/
theorem expandSlow_spec {n : Nat} (hn : 0 < n) {fft : Fft n} {phi : Nat} (hf : fft.Bounded phi) {s : Poly n} (hs : Binary s)
    {ctx : Ctx} (hl1 : 1 ≤ ctx.levelCount)
    (hk1 : 1 ≤ ctx.ksBaseLog) (hk2 : 1 ≤ ctx.ksLevelCount) (hk3 : ctx.ksBaseLog * ctx.ksLevelCount < 64)
    {g g2 : Gen n} {B : Nat} (hg : g.Bounded B) (hq5 : g2.Bounded B) {negS : RGSW n} (hN : negS.WF) (hq2 : EncG s negS (-s) B)
    {bit : Scalar} (hbit : bit = 1 ∨ bit = 0) :
    ∃ cs g3 C, makeDecomposedRlweCt2 ctx s bit g2 = some (cs, g3) ∧
      expandSlow fft ctx cs (lweToRlweKeyswitchKey ctx s g).1 negS = some C ∧
      C.baseLog = ctx.baseLog ∧ C.levelCount = ctx.levelCount ∧
      EncG s C (Poly.const n bit) (expandNoise n negS.baseLog negS.levelCount B phi
        (B + convNoise n ctx.ksBaseLog ctx.ksLevelCount B)) := by
  obtain ⟨hkk, hklen, hg1⟩ := C31_key ctx s hg
  have hm := mapGen_spec (P := fun g : Gen n => g.Bounded B)
    (Q := fun l c => nrm ((decryptRlwe s c).get 0 - bit * gadget ctx.baseLog l) ≤ B)
    (f := fun level g => encryptRlwe s ((g.plains g.pos).set 0 (bit <<< (64 - ctx.baseLog * level))) g)
    (fun l g hg => ⟨by
      rw [decrypt_encrypt]
      have hget := Poly.get_lt ((g.plains g.pos).set 0 (bit <<< (64 - ctx.baseLog * l)) + g.noises g.pos) ⟨0, hn⟩
      simp only at hget
      rw [hget, Poly.add_apply, Poly.set_apply, if_pos rfl]
      have : bit <<< (64 - ctx.baseLog * l) = bit * gadget ctx.baseLog l := by
        rcases hbit with rfl | rfl
        · unfold gadget; rw [one_mul]
        · simp
      rw [this, add_sub_cancel_left]
      exact hg _ _, hg⟩) (List.range' 1 ctx.levelCount) g2 hq5
  have hmk : makeDecomposedRlweCt2 ctx s bit g2 = some (mapGen (fun level g =>
      encryptRlwe s ((g.plains g.pos).set 0 (bit <<< (64 - ctx.baseLog * level))) g) (List.range' 1 ctx.levelCount) g2) := by
    unfold makeDecomposedRlweCt2
    rw [if_pos hbit]
  set R := mapGen (fun level g =>
      encryptRlwe s ((g.plains g.pos).set 0 (bit <<< (64 - ctx.baseLog * level))) g) (List.range' 1 ctx.levelCount) g2 with hR
  have hlen : R.1.length = ctx.levelCount := by rw [hR, mapGen_length, List.length_range']
  have hne : R.1 ≠ [] := by
    intro h; rw [h] at hlen; have : 0 = ctx.levelCount := hlen; omega
  obtain ⟨C, hC1, hC2, hC3, hC4⟩ := decomposedRlweToRgsw_spec hn hf hs.small (ctx := ctx) hN hq2 (m := Poly.const n bit)
    (eT := B + convNoise n ctx.ksBaseLog ctx.ksLevelCount B)
    (cs := R.1.map fun c => convLweToRlwe ctx (lweToRlweKeyswitchKey ctx s g).1 (constSampleExtract c)) (by simp [hlen]) (by
      intro i c hi hc
      simp only [List.getElem?_map, Option.map_eq_some_iff] at hc
      obtain ⟨c0, hc0, rfl⟩ := hc
      have hb := forall₂_range'_getElem hm.1 hc0
      rw [Nat.add_comm] at hb
      have hcv := conv_spec hs hk1 hk2 hk3 hkk (constSampleExtract c0)
      rw [C30_const_extract hn] at hcv
      have hget := Poly.get_lt (decryptRlwe s c0) ⟨0, hn⟩
      simp only at hget
      rw [hget] at hb
      unfold Enc at *
      set D := decryptRlwe s (convLweToRlwe ctx (lweToRlweKeyswitchKey ctx s g).1 (constSampleExtract c0))
      have e : D - Poly.const n (gadget ctx.baseLog (i + 1)) * Poly.const n bit
          = Poly.const n (decryptRlwe s c0 ⟨0, hn⟩ - bit * gadget ctx.baseLog (i + 1))
            + (D - Poly.const n (decryptRlwe (toRlweSk s) c0 ⟨0, hn⟩)) := by
        rw [Poly.const_sub, Poly.const_mul]
        unfold toRlweSk
        ring
      rw [e]
      refine Small.add (fun k => ?_) hcv
      rw [Poly.const_apply]
      split
      · exact hb
      · exact le_trans (le_of_eq nrm_zero) (Nat.zero_le _))
  refine ⟨R.1, R.2, C, hmk, ?_, hC2, hC3, ?_⟩
  · unfold expandSlow
    rw [if_pos ⟨hklen.symm, hlen, hne⟩]
    exact hC1
  · exact hC4

/-- C31 (expand_slow): from honestly generated keys and `make_decomposed_rlwe_ct2(bit)`, `expand_slow` returns an RGSW encryption of the bit
with explicit row noise. -/
theorem C31_expand_slow {n : Nat} (hn : 0 < n) {fft : Fft n} {phi : Nat} (hf : fft.Bounded phi) {s : Poly n} (hs : Binary s)
    {ctx : Ctx} (hb1 : 1 ≤ ctx.baseLog) (hl1 : 1 ≤ ctx.levelCount)
    (hk1 : 1 ≤ ctx.ksBaseLog) (hk2 : 1 ≤ ctx.ksLevelCount) (hk3 : ctx.ksBaseLog * ctx.ksLevelCount < 64)
    (hn1 : ctx.negsBaseLog = ctx.baseLog) (hn2 : 1 ≤ ctx.negsLevelCount) (hn3 : ctx.negsBaseLog * ctx.negsLevelCount < 64)
    {g : Gen n} {B : Nat} (hg : g.Bounded B) {bit : Scalar} (hbit : bit = 1 ∨ bit = 0) :
    ∃ negS g2 cs g3 C, negGsw ctx s (lweToRlweKeyswitchKey ctx s g).2 = some (negS, g2) ∧
      makeDecomposedRlweCt2 ctx s bit g2 = some (cs, g3) ∧
      expandSlow fft ctx cs (lweToRlweKeyswitchKey ctx s g).1 negS = some C ∧
      C.baseLog = ctx.baseLog ∧ C.levelCount = ctx.levelCount ∧
      EncG s C (Poly.const n bit) (expandNoise n ctx.negsBaseLog ctx.negsLevelCount B phi
        (B + convNoise n ctx.ksBaseLog ctx.ksLevelCount B)) := by
  obtain ⟨hkk, hklen, hg1⟩ := C31_key ctx s hg
  obtain ⟨⟨negS, g2⟩, hq1, hq2, hq3, hq4, hq5⟩ := C21_neg_gsw hn1 hs hg1
  simp only at hq2 hq3 hq4 hq5
  have hN : negS.WF := ⟨by rw [hq3, hn1]; exact hb1, by rw [hq4]; exact hn2, by rw [hq3, hq4]; exact hn3⟩
  obtain ⟨cs, g3, C, o1, o2, o3, o4, o5⟩ := expandSlow_spec hn hf hs hl1 hk1 hk2 hk3 hg hq5 hN hq2 hbit
  rw [hq3, hq4] at o5
  exact ⟨negS, g2, cs, g3, C, hq1, o1, o2, o3, o4, o5⟩

example : 1 ≤ exCtx.ksBaseLog ∧ exCtx.ksBaseLog * exCtx.ksLevelCount < 64 ∧ exGen.Bounded 3 ∧ Binary exKey ∧
    convNoise 4 8 3 3 < 2 ^ 42 := ⟨by decide, by decide, exGen_bounded, exKey_binary, by decide⟩

/-! ## C32 -/

theorem noiseFold_spec {n : Nat} (pt : Poly n) : ∀ (is : List (Fin n)) (m0 : Int), 0 ≤ m0 →
    ((∃ k ∈ is, (pt k).toInt = -2 ^ 63) → is.foldl (fun acc k =>
      match acc with
      | none => none
      | some maxE =>
        if (pt k).toInt = -2 ^ 63 then none
        else
          let z : Int := |(pt k).toInt|
          some (if maxE < z then z else maxE)) (some m0) = none) ∧
    ((∀ k ∈ is, (pt k).toInt ≠ -2 ^ 63) → ∃ z, is.foldl (fun acc k =>
      match acc with
      | none => none
      | some maxE =>
        if (pt k).toInt = -2 ^ 63 then none
        else
          let z : Int := |(pt k).toInt|
          some (if maxE < z then z else maxE)) (some m0) = some z ∧ m0 ≤ z ∧
        (∀ k ∈ is, |(pt k).toInt| ≤ z) ∧ (z = m0 ∨ ∃ k ∈ is, |(pt k).toInt| = z)) := by
  intro is
  have hnone : ∀ is : List (Fin n), is.foldl (fun acc k =>
      match acc with
      | none => none
      | some maxE =>
        if (pt k).toInt = -2 ^ 63 then none
        else
          let z : Int := |(pt k).toInt|
          some (if maxE < z then z else maxE)) none = none := by
    intro is; induction is with
    | nil => rfl
    | cons k ks ih => rw [List.foldl_cons]; exact ih
  induction is with
  | nil =>
    intro m0 h0
    refine ⟨by simp, fun _ => ⟨m0, rfl, le_refl _, by simp, Or.inl rfl⟩⟩
  | cons k ks ih =>
    intro m0 h0
    by_cases hk : (pt k).toInt = -2 ^ 63
    · constructor
      · intro _
        rw [List.foldl_cons]
        simp only [hk, if_true]
        exact hnone ks
      · intro h; exact absurd hk (h k (by simp))
    · have hih := ih (if m0 < |(pt k).toInt| then |(pt k).toInt| else m0) (by split <;> omega)
      constructor
      · rintro ⟨j, hj, hjv⟩
        rw [List.foldl_cons]
        simp only [if_neg hk]
        refine hih.1 ?_
        rcases List.mem_cons.mp hj with h | h
        · rw [h] at hjv; exact absurd hjv hk
        · exact ⟨j, h, hjv⟩
      · intro h
        rw [List.foldl_cons]
        simp only [if_neg hk]
        obtain ⟨z, hz, hle, hall, hor⟩ := hih.2 (fun j hj => h j (by simp [hj]))
        refine ⟨z, hz, ?_, ?_, ?_⟩
        · split at hle <;> omega
        · intro j hj
          rcases List.mem_cons.mp hj with h | h
          · rw [h]; split at hle <;> omega
          · exact hall j h
        · rcases hor with h | ⟨j, hj, hjz⟩
          · by_cases hlt : m0 < |(pt k).toInt|
            · rw [if_pos hlt] at h
              exact Or.inr ⟨k, by simp, h.symm⟩
            · rw [if_neg hlt] at h
              exact Or.inl h
          · exact Or.inr ⟨j, by simp [hj], hjz⟩

/-- C32 (panic): the maximum of `compute_noise` overflows (checked build) iff some coefficient difference is exactly `-2^63`. -/
theorem C32_panics_iff {n : Nat} (s : Poly n) (c : RLWE n) (m : Poly n) :
    computeNoiseMax s c m = none ↔ ∃ k, ((decryptRlwe s c - m) k).toInt = -2 ^ 63 := by
  have h := noiseFold_spec (decryptRlwe s c - m) (List.finRange n) 0 (le_refl _)
  constructor
  · intro hn
    by_contra hh
    rw [not_exists] at hh
    obtain ⟨z, hz, _⟩ := h.2 (fun k _ => hh k)
    have hn' : computeNoiseMax s c m = some z := hz
    rw [hn'] at hn; cases hn
  · rintro ⟨k, hk⟩
    exact h.1 ⟨k, List.mem_finRange k, hk⟩

/-- C32: otherwise the reported value (before the final `log2`) is the infinity norm of `decrypt(ct) - m`: an upper bound of all
centred absolute values that is attained (0 for the empty polynomial). -/
theorem C32_is_max {n : Nat} (s : Poly n) (c : RLWE n) (m : Poly n) (z : Int) (h : computeNoiseMax s c m = some z) :
    (∀ k, |((decryptRlwe s c - m) k).toInt| ≤ z) ∧ ((n = 0 ∧ z = 0) ∨ ∃ k, |((decryptRlwe s c - m) k).toInt| = z) := by
  have hs := noiseFold_spec (decryptRlwe s c - m) (List.finRange n) 0 (le_refl _)
  have hno : ∀ k, ((decryptRlwe s c - m) k).toInt ≠ -2 ^ 63 := by
    intro k hk
    rw [(C32_panics_iff s c m).mpr ⟨k, hk⟩] at h; cases h
  obtain ⟨z', hz', hle, hall, hor⟩ := hs.2 (fun k _ => hno k)
  have : z' = z := by
    have hz'' : computeNoiseMax s c m = some z' := hz'
    rw [hz''] at h; exact Option.some.inj h
  subst this
  refine ⟨fun k => hall k (List.mem_finRange k), ?_⟩
  rcases hor with h0 | ⟨k, _, hk⟩
  · rcases Nat.eq_zero_or_pos n with hn | hn
    · exact Or.inl ⟨hn, h0⟩
    · refine Or.inr ⟨⟨0, hn⟩, ?_⟩
      have := hall ⟨0, hn⟩ (List.mem_finRange _)
      have h2 := abs_nonneg ((decryptRlwe s c - m) ⟨0, hn⟩).toInt
      omega
  · exact Or.inr ⟨k, hk⟩

/-- C32 (fresh ciphertext): for a fresh encryption the report is the infinity norm of the drawn noise. -/
theorem C32_fresh {n : Nat} (s m : Poly n) (g : Gen n) (z : Int) (h : computeNoiseMax s (encryptRlwe s m g).1 m = some z) :
    Small (g.noises g.pos) z.toNat := by
  have := (C32_is_max _ _ _ _ h).1
  rw [C16_decrypt_encrypt] at this
  intro k
  have hk := this k
  have h2 : (((g.noises g.pos) k).toInt.natAbs : Int) = |((g.noises g.pos) k).toInt| := Int.natCast_natAbs _
  omega

/-- C32 (encoded): `compute_noise_encoded` measures against the encoding; a report below half of delta guarantees that decryption and decoding
returns the plaintext. -/
theorem C32_encoded_guarantee {n : Nat} {t : Scalar} {ctx : Ctx} (hc : Codec.new t = some ctx.codec) (s : Poly n) (c : RLWE n) (pt : Poly n)
    (z : Int) (h : computeNoiseEncodedMax ctx.codec s c pt = some z) (hz : 2 * z.toNat < 2 ^ 64 / t.toNat) :
    decryptDecodeRlwe ctx s c = pt := by
  unfold computeNoiseEncodedMax at h
  rcases hp : ctx.codec.polyEncode pt with _ | enc
  · rw [hp] at h; cases h
  · rw [hp] at h
    have hm := (C32_is_max s c enc z h).1
    refine decryptDecode_of_enc hc hp (fun k => ?_) hz
    have hk := hm k
    have h2 : (((decryptRlwe s c - enc) k).toInt.natAbs : Int) = |((decryptRlwe s c - enc) k).toInt| := Int.natCast_natAbs _
    omega

/-- C32 (FINDING): for every ternary plaintext, `compute_noise_ternary` measures the distance of the decryption to *zero*, because the
reference plaintext is decoded instead of encoded. -/
theorem C32_ternary_measures_zero {n : Nat} (s : Poly n) (c : RLWE n) (pt : Poly n) (hpt : ∀ k, pt k = 0 ∨ pt k = 1 ∨ pt k = -1) :
    computeNoiseTernaryMax s c pt = computeNoiseMax s c 0 := by
  unfold computeNoiseTernaryMax
  congr 1
  refine Poly.ext (funext fun k => ?_)
  unfold polyTernaryDecode
  simp only
  rw [show Poly.coeff (0 : Poly n) k = (0 : Scalar) from rfl]
  rcases hpt k with h | h | h <;> rw [h] <;> decide +kernel

/-- C32 (FINDING, consequence): for a ternary encryption with a coefficient 1 and *no noise at all* there, the reported noise is at least a
third of the torus. -/
theorem C32_ternary_wrong {n : Nat} (s pt : Poly n) (hpt : ∀ k, pt k = 0 ∨ pt k = 1 ∨ pt k = -1) (k : Fin n) (hk : pt k = 1) (g : Gen n)
    (hg : g.noises g.pos k = 0) (r : RLWE n × Gen n) (hr : ternaryEncryptRlwe s pt g = some r) (z : Int)
    (hz : computeNoiseTernaryMax s r.1 pt = some z) : 0x5555555555555400 ≤ z := by
  rw [C32_ternary_measures_zero s r.1 pt hpt] at hz
  have := (C32_is_max _ _ _ _ hz).1 k
  unfold ternaryEncryptRlwe at hr
  rcases hp : polyTernaryEncode pt with _ | enc
  · rw [hp] at hr; cases hr
  · rw [hp] at hr
    cases hr
    have hek := polyTernaryEncode_some hp k
    rw [hk] at hek
    have h1 : ternaryEncode 1 = some encTHIRD := by decide
    rw [h1] at hek
    rw [decrypt_encrypt, sub_zero, Poly.add_apply, hg, ← Option.some.inj hek] at this
    have h2 : (encTHIRD + 0).toInt = 0x5555555555555400 := by decide
    rw [h2] at this
    exact this

example : computeNoiseMax exKey (encryptRlwe exKey (Poly.const 4 77) exGen).1 (Poly.const 4 77) = some 3 := by decide +kernel

end Panacea
