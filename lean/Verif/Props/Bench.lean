import Verif.Model.Bench
import Verif.Spec.Bench
import Verif.Props.Keyswitch
import Verif.Props.Context
import Verif.Props.MeasuredTree
import Verif.Model.Main

/-!
# C81: the benchmark suite
-/

namespace Panacea
variable {n : Nat}

/-! ## Iteration -/

theorem benchIter_succ {σ : Type} (f : σ → Option σ) : ∀ (k : Nat) (x y : σ), benchIter f k x = some y → benchIter f (k + 1) x = f y
  | 0, x, y, h => by
    cases h
    rw [benchIter]
    cases f x <;> rfl
  | k + 1, x, y, h => by
    rw [benchIter] at h ⊢
    cases hf : f x with
    | none => rw [hf] at h; cases h
    | some z =>
      rw [hf] at h
      exact benchIter_succ f k z y h

theorem benchIter_inv {σ : Type} {f : σ → Option σ} {P : Nat → σ → Prop} (h : ∀ k x, P k x → ∃ y, f x = some y ∧ P (k + 1) y) {x : σ} (h0 : P 0 x) :
    ∀ k, ∃ y, benchIter f k x = some y ∧ P k y
  | 0 => ⟨x, rfl, h0⟩
  | k + 1 => by
    obtain ⟨y, e1, p1⟩ := benchIter_inv h h0 k
    obtain ⟨z, e2, p2⟩ := h k y p1
    exact ⟨z, by rw [benchIter_succ f k x y e1]; exact e2, p2⟩

/-- A closure whose result does not depend on the old contents: after one or more iterations the state is that result. -/
theorem benchIter_const {σ : Type} {f : σ → Option σ} {r : σ} (h : ∀ x, f x = some r) (x : σ) (k : Nat) : benchIter f (k + 1) x = some r := by
  obtain ⟨y, e, _⟩ := benchIter_inv (P := fun _ _ => True) (fun _ x _ => ⟨r, h x, trivial⟩) (x := x) trivial k
  rw [benchIter_succ f k x y e, h]

/-! ## Encryption and decryption -/

/-- C81 (`enc`): after `k + 1` iterations the buffer holds the encryption of the random binary plaintext with the `(k+1)`-st mask and noise drawn
after it, and it decrypts and decodes to that plaintext exactly when that noise is inside the decoding window. -/
theorem C81_enc {t : Scalar} {ctx : Ctx} (hc : Codec.new t = some ctx.codec) (sg : SecretGen) (g : Gen n) (k : Nat) :
    ∃ ct g', encBenchmark ctx sg g (k + 1) = some (ct, g') ∧ g'.pos = g.pos + 1 + (k + 1) ∧ ct.mask = g.masks (g.pos + 1 + k) ∧
      (decryptDecodeRlwe ctx (genRlweSk n sg).1 ct = (genBinaryPt g).1 ↔
        ∀ j, Spec.InWindow t.toNat (g.noises (g.pos + 1 + k) j).toInt) := by
  obtain ⟨enc, he⟩ := polyEncode_total hc (genBinaryPt_encodable hc g)
  have step : ∀ x : Gen n, encodeEncryptRlwe ctx (genRlweSk n sg).1 (genBinaryPt g).1 x = some (encryptRlwe (genRlweSk n sg).1 enc x) :=
    fun x => by unfold encodeEncryptRlwe; rw [he]
  obtain ⟨st, e1, p1⟩ := benchIter_inv (f := fun st : RLWE n × Gen n => encodeEncryptRlwe ctx (genRlweSk n sg).1 (genBinaryPt g).1 st.2)
    (P := fun k st => st.2 = { g with pos := g.pos + 1 + k }) (x := (0, (genBinaryPt g).2))
    (fun k x hx => ⟨_, step x.2, by rw [hx]; rfl⟩) rfl k
  refine ⟨(encryptRlwe (genRlweSk n sg).1 enc st.2).1, (encryptRlwe (genRlweSk n sg).1 enc st.2).2, ?_, ?_, ?_, ?_⟩
  · unfold encBenchmark
    rw [benchIter_succ _ k _ st e1, step st.2]
  · show st.2.pos + 1 = _
    rw [p1]
    show g.pos + 1 + k + 1 = _
    omega
  · rw [p1]; rfl
  · have := C16_roundtrip_iff hc (genRlweSk n sg).1 (genBinaryPt g).1 st.2 _ (step st.2)
    rw [this, p1]

/-- C81 (`dec`): after one or more iterations the plaintext buffer holds the encrypted plaintext exactly when the one noise polynomial drawn
is inside the decoding window. -/
theorem C81_dec {t : Scalar} {ctx : Ctx} (hc : Codec.new t = some ctx.codec) (sg : SecretGen) (g : Gen n) (k : Nat) :
    ∃ out, decBenchmark ctx sg g (k + 1) = some out ∧
      (out = (genBinaryPt g).1 ↔ ∀ j, Spec.InWindow t.toNat (g.noises (g.pos + 1) j).toInt) := by
  obtain ⟨enc, he⟩ := polyEncode_total hc (genBinaryPt_encodable hc g)
  have step : encodeEncryptRlwe ctx (genRlweSk n sg).1 (genBinaryPt g).1 (genBinaryPt g).2 =
      some (encryptRlwe (genRlweSk n sg).1 enc (genBinaryPt g).2) := by unfold encodeEncryptRlwe; rw [he]
  refine ⟨decryptDecodeRlwe ctx (genRlweSk n sg).1 (encryptRlwe (genRlweSk n sg).1 enc (genBinaryPt g).2).1, ?_,
    C16_roundtrip_iff hc (genRlweSk n sg).1 (genBinaryPt g).1 _ _ step⟩
  unfold decBenchmark
  simp only [step]
  exact benchIter_const (fun _ => rfl) _ k

/-! ## External product and cmux -/

theorem benchIter_add {f : RLWE n → RLWE n} {a : RLWE n} (h : ∀ x : RLWE n, f x = ⟨x.mask + a.mask, x.body + a.body⟩) (k : Nat) :
    benchIter (fun x => some (f x)) k 0 = some ⟨k • a.mask, k • a.body⟩ := by
  obtain ⟨y, e, p⟩ := benchIter_inv (f := fun x => some (f x)) (P := fun k x => x = (⟨k • a.mask, k • a.body⟩ : RLWE n)) (x := 0)
    (fun k x hx => ⟨_, rfl, by rw [h, hx]; simp only [succ_nsmul]⟩) (by simp only [zero_nsmul]; rfl) k
  rw [e, p]

theorem externalProduct_accum (fft : Fft n) (C : RGSW n) (d x : RLWE n) : externalProduct fft C x d =
    ⟨x.mask + (externalProduct fft C 0 d).mask, x.body + (externalProduct fft C 0 d).body⟩ := by
  show (⟨_, _⟩ : RLWE n) = ⟨_ + ((0 : Poly n) + _), _ + ((0 : Poly n) + _)⟩
  rw [zero_add, zero_add]

theorem benchSk_binary (sg : SecretGen) : Binary (genRlweSk n sg).1 := (C62_keys n sg).1

/-- C81 (`external_product`): the closure never clears its output: after `k` iterations the buffer is exactly `k` times the product computed by
the first one, so it encrypts `k` times the message - here 0 - and the noise bound is `k` times that of one product. -/
theorem C81_external_product {ctx : Ctx} (h1 : 1 ≤ ctx.baseLog) (h2 : 1 ≤ ctx.levelCount) (h3 : ctx.baseLog * ctx.levelCount < 64)
    {fft : Fft n} {phi : Nat} (hf : fft.Bounded phi) (sg : SecretGen) {g : Gen n} {B : Nat} (hg : g.Bounded B) (k : Nat) :
    ∃ one out, externalProductBenchmark ctx fft sg g 1 = some one ∧ externalProductBenchmark ctx fft sg g k = some out ∧
      out.mask = k • one.mask ∧ out.body = k • one.body ∧
      Enc (genRlweSk n sg).1 out 0 (k * (B + extNoise n ctx.baseLog ctx.levelCount B phi 1)) := by
  set s := (genRlweSk n sg).1 with hs
  set C := (encryptConstantRgsw s ctx.baseLog ctx.levelCount 1 g).1 with hC
  set g1 := (encryptConstantRgsw s ctx.baseLog ctx.levelCount 1 g).2 with hg1
  set d := (encryptConstantRlwe s 0 g1).1 with hd
  have run : ∀ k, externalProductBenchmark ctx fft sg g k =
      some ⟨k • (externalProduct fft C 0 d).mask, k • (externalProduct fft C 0 d).body⟩ :=
    fun k => benchIter_add (externalProduct_accum fft C d) k
  refine ⟨_, _, run 1, run k, by show _ = k • (1 • _); rw [one_nsmul], by show _ = k • (1 • _); rw [one_nsmul], ?_⟩
  have hgb : g1.Bounded B := (encryptConstantRgsw_enc ctx.baseLog ctx.levelCount 1 hg).2
  have hG : EncG s C 1 B := by
    have := (C21_constant (s := s) ctx.baseLog ctx.levelCount 1 hg).1
    rwa [Poly.const_one] at this
  have hl : C.levelCount = ctx.levelCount := encryptConstantRgsw_levelCount _ _ _ _ _
  have hwf : C.WF := ⟨h1, by rw [hl]; exact h2, by rw [hl]; exact h3⟩
  have hde : Enc s d 0 B := by
    have := C16_constant s 0 g1
    unfold Enc
    rw [hd, this, Poly.const_zero, zero_add, sub_zero]
    exact hgb _
  have hx : Enc s (externalProduct fft C 0 d) (0 + 1 * 0) (0 + l1 (1 : Poly n) * B + extNoise n C.baseLog C.levelCount B phi (l1 1)) :=
    C19_messages hf (benchSk_binary sg) hwf hG (m0 := 0) (e0 := 0) (by
      unfold Enc decryptRlwe
      show Small ((0 : Poly n) - 0 * s - 0) 0
      rw [zero_mul, sub_zero, sub_zero]; exact Small.zero 0) hde
  rw [mul_zero, add_zero, zero_add, hl, show C.baseLog = ctx.baseLog from rfl] at hx
  have hx : Enc s (externalProduct fft C 0 d) 0 (B + extNoise n ctx.baseLog ctx.levelCount B phi 1) := by
    refine hx.mono (Nat.add_le_add ?_ ?_)
    · calc l1 (1 : Poly n) * B ≤ 1 * B := Nat.mul_le_mul_right _ l1_one
        _ = B := one_mul _
    · unfold extNoise
      exact Nat.add_le_add_right (Nat.mul_le_mul_right _ l1_one) _
  generalize externalProduct fft C 0 d = x at hx
  unfold Enc decryptRlwe at hx ⊢
  simp only [sub_zero] at hx ⊢
  induction k with
  | zero =>
    rw [zero_nsmul, zero_nsmul, zero_mul, zero_mul, sub_zero]
    exact Small.zero 0
  | succ k ih =>
    have e : (k + 1) • x.body - (k + 1) • x.mask * s = (k • x.body - k • x.mask * s) + (x.body - x.mask * s) := by
      rw [succ_nsmul, succ_nsmul]; ring
    rw [e, Nat.succ_mul]
    exact ih.add hx

/-- C81 (`cmux`): after one or more iterations the buffer encrypts the constant 1 (the second operand) with the noise of one `cmux`. -/
theorem C81_cmux {ctx : Ctx} (h1 : 1 ≤ ctx.baseLog) (h2 : 1 ≤ ctx.levelCount) (h3 : ctx.baseLog * ctx.levelCount < 64)
    {fft : Fft n} {phi : Nat} (hf : fft.Bounded phi) (sg : SecretGen) {g : Gen n} {B : Nat} (hg : g.Bounded B) (k : Nat) :
    ∃ out, cmuxBenchmark ctx fft sg g (k + 1) = some out ∧
      Enc (genRlweSk n sg).1 out 1 (B + extNoise n ctx.baseLog ctx.levelCount B phi 1) := by
  set s := (genRlweSk n sg).1 with hs
  set C := (encryptConstantRgsw s ctx.baseLog ctx.levelCount 1 g).1 with hC
  set g1 := (encryptConstantRgsw s ctx.baseLog ctx.levelCount 1 g).2 with hg1
  set d := encryptConstantRlwe s 0 g1 with hd
  set d1 := (encryptConstantRlwe s 1 d.2).1 with hd1
  refine ⟨cmux fft C 0 d.1 d1, benchIter_const (f := fun out => some (cmux fft C out d.1 d1)) (fun x => rfl) 0 k, ?_⟩
  have hgb : g1.Bounded B := (encryptConstantRgsw_enc ctx.baseLog ctx.levelCount 1 hg).2
  have hG : EncG s C (if true then 1 else 0) B := by
    have := (C21_constant (s := s) ctx.baseLog ctx.levelCount 1 hg).1
    rw [Poly.const_one] at this
    exact this
  have hl : C.levelCount = ctx.levelCount := encryptConstantRgsw_levelCount _ _ _ _ _
  have hwf : C.WF := ⟨h1, by rw [hl]; exact h2, by rw [hl]; exact h3⟩
  have h0e : Enc s d.1 0 B := by
    unfold Enc
    rw [hd, C16_constant, Poly.const_zero, zero_add, sub_zero]
    exact hgb _
  have h1e : Enc s d1 1 B := by
    unfold Enc
    rw [hd1, C16_constant, Poly.const_one, add_sub_cancel_left]
    exact hgb _
  have := C20_messages hf (benchSk_binary sg) hwf hG 0 h0e h1e
  rw [hl, show C.baseLog = ctx.baseLog from rfl] at this
  exact this

/-! ## Key switching -/

theorem genTernary_values (g : Gen n) (k : Fin n) : (genTernaryPtxt g).1 k = 0 ∨ (genTernaryPtxt g).1 k = 1 ∨ (genTernaryPtxt g).1 k = -1 := by
  show ternaryOf _ = 0 ∨ ternaryOf _ = 1 ∨ ternaryOf _ = -1
  unfold ternaryOf
  split
  · exact Or.inl rfl
  · split
    · exact Or.inr (Or.inl rfl)
    · exact Or.inr (Or.inr rfl)

theorem benchKeyswitchSetup_spec (ctx : Ctx) (sg : SecretGen) {g : Gen n} {B : Nat} (hg : g.Bounded B) :
    ∃ ksk ct enc, benchKeyswitchSetup ctx sg g = some (ksk, ct) ∧ IsKsk (benchKeys n sg).1 ksk (benchKeys n sg).2 B ∧
      ksk.baseLog = ctx.baseLog ∧ ksk.levelCount = ctx.levelCount ∧
      polyTernaryEncode (benchKeyswitchMessage ctx sg g) = some enc ∧ Enc (benchKeys n sg).2 ct enc B := by
  obtain ⟨h1, h2⟩ := fillWithKeyswitchKey_spec (KeyswitchKey.allocate n ctx.baseLog ctx.levelCount) (benchKeys n sg).2 (benchKeys n sg).1 hg
  have hg2 : (genTernaryPtxt ((KeyswitchKey.allocate n ctx.baseLog ctx.levelCount).fillWithKeyswitchKey (benchKeys n sg).2 (benchKeys n sg).1 g).2).2.Bounded B := h2
  have hv : ∀ k, (ternaryEncode (benchKeyswitchMessage ctx sg g k)).isSome := fun k => by
    rw [Option.isSome_iff_ne_none, ne_eq, (C03_ternary_reject _).1, not_not, scalarMAX_eq]
    exact genTernary_values _ k
  have he : ∃ enc, polyTernaryEncode (benchKeyswitchMessage ctx sg g) = some enc := by
    unfold polyTernaryEncode
    rw [if_pos hv]
    exact ⟨_, rfl⟩
  obtain ⟨enc, he⟩ := he
  refine ⟨_, _, enc, ?_, h1, rfl, rfl, he, encryptRlwe_enc (m := enc) hg2⟩
  unfold benchKeyswitchSetup
  have : ∀ g', ternaryEncryptRlwe (benchKeys n sg).2 (benchKeyswitchMessage ctx sg g) g' = some (encryptRlwe (benchKeys n sg).2 enc g') := fun g' => by
    unfold ternaryEncryptRlwe
    rw [he]
  unfold benchKeyswitchMessage at this
  simp only [this]

theorem ternary_of_enc {s pt enc : Poly n} (hp : polyTernaryEncode pt = some enc) {c : RLWE n} {e : Nat} (h : Enc s c enc e)
    (he : e < 0x2AAAAAAAAAAAA800) : ternaryDecryptRlwe s c = pt := by
  refine Poly.ext (funext fun k => ?_)
  have hk := polyTernaryEncode_some hp k
  have hm : pt k = 0 ∨ pt k = 1 ∨ pt k = scalarMAX := by
    by_contra hne
    rw [((C03_ternary_reject (pt k)).1).mpr hne] at hk
    cases hk
  have hb : nrm (decryptRlwe s c k - enc k) ≤ e := h k
  obtain ⟨w, hw1, hw2⟩ := C03_ternary_roundtrip (pt k) hm (decryptRlwe s c k - enc k).toInt (by
    have : ((decryptRlwe s c k - enc k).toInt.natAbs : Int) ≤ e := by exact_mod_cast hb
    rw [Int.natCast_natAbs] at this
    omega)
  rw [hk] at hw1
  cases hw1
  rw [ofInt_toInt', show enc k + (decryptRlwe s c k - enc k) = decryptRlwe s c k by ring] at hw2
  exact hw2

/-- The two keys of the key switching benchmarks are drawn from disjoint parts of the secret stream and are binary. -/
theorem benchKeys_binary (sg : SecretGen) : Binary (benchKeys n sg).1 ∧ Binary (benchKeys n sg).2 :=
  ⟨benchSk_binary sg, benchSk_binary _⟩

/-- C81 (`keyswitch`): after one or more iterations the buffer is an encryption under `sk_after` of the random ternary message; with small
enough noise it ternary-decrypts to it. -/
theorem C81_keyswitch {ctx : Ctx} (h1 : 1 ≤ ctx.baseLog) (h2 : 1 ≤ ctx.levelCount) (h3 : ctx.baseLog * ctx.levelCount < 64)
    {fft : Fft n} {phi : Nat} (hf : fft.Bounded phi) (sg : SecretGen) {g : Gen n} {B : Nat} (hg : g.Bounded B) (k : Nat) :
    ∃ out enc, keyswitchBenchmark ctx fft sg g (k + 1) = some out ∧ polyTernaryEncode (benchKeyswitchMessage ctx sg g) = some enc ∧
      Enc (benchKeys n sg).1 out enc (B + benchKsNoise ctx n B phi) ∧
      (B + benchKsNoise ctx n B phi < 0x2AAAAAAAAAAAA800 → ternaryDecryptRlwe (benchKeys n sg).1 out = benchKeyswitchMessage ctx sg g) := by
  obtain ⟨ksk, ct, enc, e1, e2, e3, e4, e5, e6⟩ := benchKeyswitchSetup_spec ctx sg hg
  have hb := benchKeys_binary (n := n) sg
  have hwf : ksk.WF := ⟨by rw [e3]; exact h1, by rw [e4]; exact h2, by rw [e3, e4]; exact h3⟩
  obtain ⟨out, o1, o2⟩ := C25_keyswitch hf hb.1 hb.2.small hwf e2 ct
  rw [e3, e4] at o2
  have hE : Enc (benchKeys n sg).1 out enc (B + benchKsNoise ctx n B phi) := by
    unfold Enc at *
    have e : decryptRlwe (benchKeys n sg).1 out - enc =
      (decryptRlwe (benchKeys n sg).2 ct - enc) + (decryptRlwe (benchKeys n sg).1 out - decryptRlwe (benchKeys n sg).2 ct) := by ring
    rw [e]
    exact e6.add o2
  refine ⟨out, enc, ?_, e5, hE, fun h => ternary_of_enc e5 hE h⟩
  unfold keyswitchBenchmark
  simp only [e1]
  exact benchIter_const (fun x => o1 x) 0 k

/-- C81 (`keyswitch fourier`): the same for the Fourier variant, after transforming back. -/
theorem C81_keyswitch_fourier {ctx : Ctx} (h1 : 1 ≤ ctx.baseLog) (h2 : 1 ≤ ctx.levelCount) (h3 : ctx.baseLog * ctx.levelCount < 64)
    {fft : Fft n} {phi : Nat} (hf : fft.Bounded phi) (sg : SecretGen) {g : Gen n} {B : Nat} (hg : g.Bounded B) (k : Nat) :
    ∃ out enc, keyswitchFourierBenchmark ctx sg g (k + 1) = some out ∧ polyTernaryEncode (benchKeyswitchMessage ctx sg g) = some enc ∧
      Enc (benchKeys n sg).1 (out.backwardAsTorus fft) enc (B + benchKsFourierNoise ctx n B phi) ∧
      (B + benchKsFourierNoise ctx n B phi < 0x2AAAAAAAAAAAA800 →
        ternaryDecryptRlwe (benchKeys n sg).1 (out.backwardAsTorus fft) = benchKeyswitchMessage ctx sg g) := by
  obtain ⟨ksk, ct, enc, e1, e2, e3, e4, e5, e6⟩ := benchKeyswitchSetup_spec ctx sg hg
  have hb := benchKeys_binary (n := n) sg
  have hwf : ksk.WF := ⟨by rw [e3]; exact h1, by rw [e4]; exact h2, by rw [e3, e4]; exact h3⟩
  obtain ⟨out, o1, o2⟩ := C25_keyswitch_fourier hf hb.1 hb.2.small hwf e2 ct
  rw [e3, e4] at o2
  have hE : Enc (benchKeys n sg).1 (out.backwardAsTorus fft) enc (B + benchKsFourierNoise ctx n B phi) := by
    unfold Enc at *
    have e : decryptRlwe (benchKeys n sg).1 (out.backwardAsTorus fft) - enc =
      (decryptRlwe (benchKeys n sg).2 ct - enc) +
        (decryptRlwe (benchKeys n sg).1 (out.backwardAsTorus fft) - decryptRlwe (benchKeys n sg).2 ct) := by ring
    rw [e]
    exact e6.add o2
  refine ⟨out, enc, ?_, e5, hE, fun h => ternary_of_enc e5 hE h⟩
  unfold keyswitchFourierBenchmark
  simp only [e1]
  exact benchIter_const (fun x => o1 x) _ k

/-- Multiples of ternary encodings wrap around after three, up to `2^10` per multiple (the code's third of the torus is rounded to a double). -/
theorem ternary_multiple {m w x : Scalar} (hw : ternaryEncode m = some w) (k e : Nat) (hx : nrm (x - k • w) ≤ e)
    (he : e + 1024 * k < 0x2AAAAAAAAAAAA800) : ternaryDecode x = balanced3 (k * m.toInt) := by
  have hm : m = 0 ∨ m = 1 ∨ m = scalarMAX := by
    by_contra hne
    rw [((C03_ternary_reject m).1).mpr hne] at hw
    cases hw
  have fin : ∀ (v : Scalar), (v = 0 ∨ v = 1 ∨ v = scalarMAX) → ∀ u, ternaryEncode v = some u → nrm (x - u) ≤ e + 1024 * k → ternaryDecode x = v := by
    intro v hv u hu hxu
    obtain ⟨w', hw1, hw2⟩ := C03_ternary_roundtrip v hv (x - u).toInt (by
      have : ((x - u).toInt.natAbs : Int) ≤ ((e + 1024 * k : Nat) : Int) := by exact_mod_cast hxu
      rw [Int.natCast_natAbs] at this
      push_cast at this
      omega)
    rw [hu] at hw1
    cases hw1
    rwa [ofInt_toInt', show u + (x - u) = x by ring] at hw2
  have h3 : (3 : Scalar) * encTHIRD = -1024 := by decide +kernel
  have key : ∀ q r : Nat, q ≤ k → k • w = (BitVec.ofNat 64 r) * encTHIRD - BitVec.ofNat 64 (1024 * q) → nrm (x - BitVec.ofNat 64 r * encTHIRD) ≤ e + 1024 * k := by
    intro q r hq hkw
    have e1 : x - BitVec.ofNat 64 r * encTHIRD = (x - k • w) - BitVec.ofNat 64 (1024 * q) := by rw [hkw]; ring
    rw [e1]
    refine le_trans (nrm_sub _ _) (Nat.add_le_add hx (le_trans ?_ (Nat.mul_le_mul_left 1024 hq)))
    unfold nrm
    have h64 : 1024 * q < 2 ^ 64 := by omega
    rw [BitVec.toInt_eq_toNat_of_lt]
    · rw [BitVec.toNat_ofNat]
      show 1024 * q % 2 ^ 64 ≤ 1024 * q
      exact Nat.mod_le _ _
    · rw [BitVec.toNat_ofNat, Nat.mod_eq_of_lt h64]
      omega
  have mul3 : ∀ a q r : Nat, a = 3 * q + r → BitVec.ofNat 64 a * encTHIRD = BitVec.ofNat 64 r * encTHIRD - BitVec.ofNat 64 (1024 * q) := by
    intro a q r ha
    have : BitVec.ofNat 64 a = 3 * BitVec.ofNat 64 q + BitVec.ofNat 64 r := by
      rw [ha, BitVec.ofNat_add, BitVec.ofNat_mul]; rfl
    rw [this, add_mul, mul_right_comm, h3, BitVec.ofNat_mul]
    show -1024 * BitVec.ofNat 64 q + _ = _ - 1024 * BitVec.ofNat 64 q
    ring
  have hns : ∀ y : Scalar, k • y = BitVec.ofNat 64 k * y := fun y => by
    rw [nsmul_eq_mul]; rfl
  have close : ∀ a : Nat, a ≤ 2 * k → k • w = BitVec.ofNat 64 a * encTHIRD → (k * m.toInt - a) % 3 = 0 → ternaryDecode x = balanced3 (k * m.toInt) := by
    intro a ha hkw hmod
    have h1 := key (a / 3) (a % 3) (by omega) (by rw [hkw]; exact mul3 a (a / 3) (a % 3) (by omega))
    have hr : a % 3 = 0 ∨ a % 3 = 1 ∨ a % 3 = 2 := by omega
    unfold balanced3
    rcases hr with hr | hr | hr
    · rw [hr] at h1
      rw [if_pos (by omega)]
      exact fin 0 (Or.inl rfl) 0 rfl (by simpa using h1)
    · rw [hr] at h1
      rw [if_neg (by omega), if_pos (by omega)]
      refine fin 1 (Or.inr (Or.inl rfl)) encTHIRD rfl ?_
      rw [show BitVec.ofNat 64 1 * encTHIRD = encTHIRD by decide +kernel] at h1
      exact h1
    · rw [hr] at h1
      rw [if_neg (by omega), if_neg (by omega)]
      refine fin (-1) (Or.inr (Or.inr scalarMAX_eq.symm)) (2 * encTHIRD) (by decide +kernel) h1
  rcases hm with rfl | rfl | rfl
  · have hw0 : w = 0 := by
      rw [show ternaryEncode 0 = some 0 from rfl] at hw
      exact (Option.some.inj hw).symm
    exact close 0 (by omega) (by rw [hw0, nsmul_zero]; exact (zero_mul encTHIRD).symm) (by simp)
  · have hw1 : w = encTHIRD := by
      rw [show ternaryEncode 1 = some encTHIRD from rfl] at hw
      exact (Option.some.inj hw).symm
    exact close k (by omega) (by rw [hw1, hns]) (by rw [show (1 : Scalar).toInt = 1 by decide]; omega)
  · have hw2 : w = 2 * encTHIRD := by
      rw [show ternaryEncode scalarMAX = some (2 * encTHIRD) by decide +kernel] at hw
      exact (Option.some.inj hw).symm
    refine close (2 * k) (by omega) ?_ (by rw [show scalarMAX.toInt = -1 by decide +kernel]; omega)
    rw [hw2, hns, BitVec.ofNat_mul]
    show _ = 2 * _ * _
    ring

theorem Poly.nsmul_apply (p : Poly n) (j : Fin n) : ∀ k : Nat, (k • p) j = k • p j
  | 0 => by rw [zero_nsmul, zero_nsmul]; rfl
  | k + 1 => by rw [succ_nsmul, succ_nsmul, Poly.add_apply, Poly.nsmul_apply p j k]

/-- C81 (`keyswitch gsw`): the closure never clears its output: after `k` iterations it holds an encryption of `k` times the encoded message, with
`k` times the noise; as long as that is small enough it ternary-decrypts to `k * message` modulo 3 (in -1, 0, 1) - the message after
1, 4, 7, ... iterations, its negative after 2, 5, 8, ..., and zero after 3, 6, 9, .... -/
theorem C81_keyswitch_gsw {ctx : Ctx} (h1 : 1 ≤ ctx.baseLog) (h2 : 1 ≤ ctx.levelCount) (h3 : ctx.baseLog * ctx.levelCount < 64)
    {fft : Fft n} {phi : Nat} (hf : fft.Bounded phi) (sg : SecretGen) {g : Gen n} {B : Nat} (hg : g.Bounded B) (k : Nat) :
    ∃ out enc, keyswitchGswBenchmark ctx fft sg g k = some out ∧ polyTernaryEncode (benchKeyswitchMessage ctx sg g) = some enc ∧
      Enc (benchKeys n sg).1 out (k • enc) (k * (B + benchKsGswNoise ctx n B phi)) ∧
      (k * (B + benchKsGswNoise ctx n B phi) + 1024 * k < 0x2AAAAAAAAAAAA800 →
        ∀ j, ternaryDecryptRlwe (benchKeys n sg).1 out j = balanced3 (k * (benchKeyswitchMessage ctx sg g j).toInt)) := by
  obtain ⟨ksk, ct, enc, e1, e2, e3, e4, e5, e6⟩ := benchKeyswitchSetup_spec ctx sg hg
  have hb := benchKeys_binary (n := n) sg
  have hwf : ksk.WF := ⟨by rw [e3]; exact h1, by rw [e4]; exact h2, by rw [e3, e4]; exact h3⟩
  obtain ⟨C, o1, o2⟩ := C26_keyswitch_rgsw hf hb.1 hb.2.small hwf e2
  rw [e3, e4] at o2
  obtain ⟨out, r1, r2⟩ := benchIter_inv (f := fun after => some (C.keyswitchCiphertext fft after ct))
    (P := fun k x => Enc (benchKeys n sg).1 x (k • enc) (k * (B + benchKsGswNoise ctx n B phi))) (x := 0)
    (fun k x hx => ⟨_, rfl, by
      have := o2 x ct
      unfold Enc at *
      have e : decryptRlwe (benchKeys n sg).1 (C.keyswitchCiphertext fft x ct) - (k + 1) • enc =
        (decryptRlwe (benchKeys n sg).1 x - k • enc) + ((decryptRlwe (benchKeys n sg).2 ct - enc) +
          (decryptRlwe (benchKeys n sg).1 (C.keyswitchCiphertext fft x ct) -
            (decryptRlwe (benchKeys n sg).1 x + decryptRlwe (benchKeys n sg).2 ct))) := by rw [succ_nsmul]; ring
      rw [e, Nat.succ_mul]
      refine hx.add (e6.add (this.mono (le_of_eq ?_)))
      unfold benchKsGswNoise extNoise
      rw [one_mul]⟩)
    (by
      unfold Enc decryptRlwe
      show Small ((0 : Poly n) - 0 * _ - _) _
      rw [zero_mul, zero_nsmul, sub_zero, sub_zero]
      exact Small.zero _) k
  refine ⟨out, enc, ?_, e5, r2, fun h j => ?_⟩
  · unfold keyswitchGswBenchmark
    simp only [e1, o1]
    exact r1
  · refine ternary_multiple (polyTernaryEncode_some e5 j) k _ ?_ h
    have := r2 j
    rwa [Poly.sub_apply, Poly.nsmul_apply] at this

/-! ## Expansion -/

theorem benchExpandSetup_spec {t : Scalar} {ctx : Ctx} {d : Nat} (h : BenchParams ctx t d) (sg : SecretGen) {g : Gen (2 ^ d)} {B : Nat}
    (hg : g.Bounded B) : ∃ negS ksks cs, benchExpandSetup ctx sg g = some (negS, ksks, cs) ∧
      TraceKeys (genRlweSk (2 ^ d) sg).1 ctx.ksBaseLog ctx.ksLevelCount B ksks ∧ EncG (genRlweSk (2 ^ d) sg).1 negS (-(genRlweSk (2 ^ d) sg).1) B ∧
      negS.baseLog = ctx.negsBaseLog ∧ negS.levelCount = ctx.negsLevelCount ∧ cs.length = ctx.levelCount ∧
      ∀ i c, cs[i]? = some c → ∃ v, 2 ^ d * v = 1 * gadget ctx.baseLog (i + 1) ∧
        nrm ((decryptRlwe (genRlweSk (2 ^ d) sg).1 c).get 0 - v) ≤ B := by
  have hs := benchSk_binary (n := 2 ^ d) sg
  generalize hsk : (genRlweSk (2 ^ d) sg).1 = s at *
  obtain ⟨⟨negS, g1⟩, a1, a2, a3, a4, a5⟩ := C21_neg_gsw h.negBl hs hg
  obtain ⟨⟨ksks, g2⟩, b1, b2, b3⟩ := genAllSubsKsk_spec h.small ctx s a5
  obtain ⟨enc, he⟩ := polyEncode_total h.codec (genBinaryPt_encodable h.codec g2)
  have b4 : (encryptRlwe s enc (genBinaryPt g2).2).2.Bounded B := b3
  obtain ⟨⟨cs, g3⟩, c1, c2, _, c4⟩ := makeDecomposed_spec h.small h.bl h.room s (bit := 1) (Or.inl rfl) b4
  refine ⟨negS, ksks, cs, ?_, b2, a2, a3, a4, c2, c4⟩
  have e : encodeEncryptRlwe ctx s (genBinaryPt g2).1 (genBinaryPt g2).2 = some (encryptRlwe s enc (genBinaryPt g2).2) := by
    unfold encodeEncryptRlwe; rw [he]
  unfold benchExpandSetup
  simp only [hsk, a1, b1, e]
  simp only [c1]

theorem benchIter_map {α : Type} {x : Option α} {r : α} (h : x = some r) (k : Nat) :
    benchIter (fun _ => x.map some) (k + 1) none = some (some r) := benchIter_const (fun _ => by rw [h]; rfl) none k

/-- C81 (`expand`, `expand fourier`): every iteration returns an RGSW encryption of 1 with the context's decomposition parameters. -/
theorem C81_expand {t : Scalar} {ctx : Ctx} {d : Nat} (h : BenchParams ctx t d) {fft : Fft (2 ^ d)} {phi : Nat} (hf : fft.Bounded phi) (sg : SecretGen)
    {g : Gen (2 ^ d)} {B : Nat} (hg : g.Bounded B) (k : Nat) :
    (∃ C, expandBenchmark ctx fft sg g (k + 1) = some (some C) ∧ C.baseLog = ctx.baseLog ∧ C.levelCount = ctx.levelCount ∧
      EncG (genRlweSk (2 ^ d) sg).1 C 1
        (expandNoise (2 ^ d) ctx.negsBaseLog ctx.negsLevelCount B phi (benchTraceSlowNoise ctx (2 ^ d) B phi))) ∧
    (∃ C, expandFourierBenchmark ctx fft sg g (k + 1) = some (some C) ∧ C.baseLog = ctx.baseLog ∧ C.levelCount = ctx.levelCount ∧
      EncG (genRlweSk (2 ^ d) sg).1 C 1
        (expandNoise (2 ^ d) ctx.negsBaseLog ctx.negsLevelCount B phi (benchTraceNoise ctx (2 ^ d) B phi))) := by
  obtain ⟨negS, ksks, cs, e1, e2, e3, e4, e5, e6, e7⟩ := benchExpandSetup_spec h sg hg
  have hN : negS.WF := ⟨by rw [e4, h.negBl]; exact h.bl, by rw [e5]; exact h.negLv, by rw [e4, e5]; exact h.negLt⟩
  have hne : cs ≠ [] := by
    intro hc
    have := h.lv
    rw [← e6, hc] at this
    exact absurd this (by simp)
  obtain ⟨⟨C, p1, p2, p3, p4⟩, D, q1, q2, q3, q4⟩ :=
    expand_spec h.small hf (benchSk_binary sg).small h.ksBl h.ksLv h.ksLt e2 hN e3 e6.symm hne e7
  rw [e4, e5, Poly.const_one] at p4 q4
  refine ⟨⟨C, ?_, p2, p3, p4⟩, D, ?_, q2, q3, q4⟩
  · unfold expandBenchmark
    simp only [e1]
    exact benchIter_map p1 k
  · unfold expandFourierBenchmark
    simp only [e1]
    exact benchIter_map q1 k

/-! ## Comparison -/

theorem leqPoly_eq_factor (hn : 0 < n) {d : Nat} (hd : d < n) : RLWE.leqPoly n d = leqFactor n d := by
  unfold leqFactor
  refine Poly.ext (funext fun k => ?_)
  have hsum : ∀ m, m ≤ n → ∀ k : Fin n, (-∑ i ∈ Finset.range m, Spec.X n ^ (n - i) : Poly n) k =
      if k.val = 0 then (if 0 < m then 1 else 0) else if n < k.val + m then -1 else 0 := by
    intro m
    induction m with
    | zero =>
      intro _ k
      rw [Finset.sum_range_zero, neg_zero, Poly.zero_apply]
      have := k.isLt
      split
      · simp
      · rw [if_neg (by omega)]
    | succ m ih =>
      intro hm k
      rw [Finset.sum_range_succ, neg_add, Poly.add_apply, ih (by omega) k, Poly.neg_apply, Spec.X, Poly.mono_pow, one_mul]
      show _ + -(if (n - m) % n = k.val then (-1 : Scalar) ^ ((n - m) / n) else 0) = _
      have hk := k.isLt
      rcases Nat.eq_zero_or_pos m with rfl | hm0
      · rw [Nat.sub_zero, Nat.mod_self, Nat.div_self hn, pow_one]
        by_cases h0 : k.val = 0
        · rw [if_pos h0, if_pos h0, if_pos h0.symm]; decide
        · rw [if_neg h0, if_neg h0, if_neg (Ne.symm h0), if_neg (by omega), if_neg (by omega)]; decide
      · rw [Nat.mod_eq_of_lt (by omega), Nat.div_eq_of_lt (by omega), pow_zero]
        by_cases h0 : k.val = 0
        · rw [if_pos h0, if_pos h0, if_pos hm0, if_neg (show ¬ n - m = k.val by omega), if_pos (Nat.succ_pos m)]; decide
        · rw [if_neg h0, if_neg h0]
          by_cases h1 : n - m = k.val
          · rw [if_pos h1, if_neg (by omega), if_pos (by omega)]; decide
          · rw [if_neg h1]
            by_cases h2 : n < k.val + m
            · rw [if_pos h2, if_pos (by omega)]; decide
            · rw [if_neg h2, if_neg (by omega)]; decide
  rw [hsum (d + 1) (by omega) k]
  unfold RLWE.leqPoly
  simp only
  have hk := k.isLt
  by_cases h0 : k.val = 0
  · rw [if_neg (by omega), if_pos h0, if_pos h0, if_pos (Nat.succ_pos d)]
  · by_cases h1 : n - d ≤ k.val
    · rw [if_pos h1, if_neg h0, if_pos (by omega), scalarMAX_eq]
    · rw [if_neg h1, if_neg h0, if_neg h0, if_neg (by omega)]

/-- One in-place comparison on messages. -/
theorem lessEqThan_enc {fft : Fft n} {phi : Nat} (hf : fft.Bounded phi) {s : Poly n} (hs : Binary s) {c : RLWE n} {p : Poly n} {d e : Nat} (hd : d < n)
    (h : Enc s c p e) : ∃ c', c.lessEqThan fft d = some c' ∧ Enc s c' (leqFactor n d * p) ((d + 1) * e + fftNoise n phi 1) := by
  unfold RLWE.lessEqThan
  rw [if_pos hd]
  refine ⟨_, rfl, ?_⟩
  have h1t := leqPoly_small (n := n) d
  have hl := l1_leqPoly (n := n) hd
  rw [← leqPoly_eq_factor (by omega) hd]
  generalize RLWE.leqPoly n d = t at *
  unfold Enc at *
  rw [fourierMul_decrypt]
  have hone : ∀ p : Poly n, FPoly.weight [(p, t)] ≤ 1 := fun p => by
    have := weight_le (B := 1) (ts := [(p, t)]) fun u hu => by
      rw [List.mem_singleton.mp hu]; exact Or.inr h1t
    simpa using this
  have h1 := (Small.l1_mul t h).add (fft_pair_small hf hs.small (by simp) (by simp) (hone c.body) (hone c.mask))
  have e1 : t * (decryptRlwe s c - p) + (fft.err [(c.body, t)] - fft.err [(c.mask, t)] * s)
      = (t * decryptRlwe s c + (fft.err [(c.body, t)] - fft.err [(c.mask, t)] * s)) - t * p := by ring
  rw [e1] at h1
  exact h1.mono (Nat.add_le_add_right (Nat.mul_le_mul_right _ hl) _)

/-- C81 (`less_eq`): the ciphertext is compared in place again and again: after `k` iterations it encrypts the encoded `X^(n/2)` times the
`k`-th power of the comparison polynomial of `n/2 + 1`; after exactly one iteration the constant coefficient decodes to 1, because
`n/2 ≤ n/2 + 1`. -/
theorem C81_less_eq {t : Scalar} {ctx : Ctx} {d : Nat} (h : BenchParams ctx t d) {fft : Fft (2 ^ d)} {phi : Nat} (hf : fft.Bounded phi) (sg : SecretGen)
    {g : Gen (2 ^ d)} {B : Nat} (hg : g.Bounded B) (k : Nat) :
    ∃ v out, ctx.codec.encode 1 = some v ∧ lessEqBenchmark ctx fft sg g k = some out ∧
      Enc (genRlweSk (2 ^ d) sg).1 out (leqFactor (2 ^ d) (2 ^ d / 2 + 1) ^ k * (Poly.const _ v * Spec.X _ ^ (2 ^ d / 2)))
        (benchLeqNoise (2 ^ d) phi (2 ^ d / 2 + 1) B k) ∧
      (k = 1 → 2 * ((2 ^ d / 2 + 1 + 1) * B + fftNoise (2 ^ d) phi 1) < 2 ^ 64 / t.toNat →
        (decryptDecodeRlwe ctx (genRlweSk (2 ^ d) sg).1 out).get 0 = 1) := by
  have hs := benchSk_binary (n := 2 ^ d) sg
  have h4 : 4 ≤ 2 ^ d := by
    calc 4 = 2 ^ 2 := rfl
      _ ≤ 2 ^ d := Nat.pow_le_pow_right (by decide) h.two
  unfold lessEqBenchmark
  simp only
  generalize hsk : (genRlweSk (2 ^ d) sg).1 = s at *
  generalize hN : 2 ^ d = N at *
  obtain ⟨enc, he⟩ := polyEncode_total h.codec (set_one_encodable (n := N) h.codec (N / 2))
  have hstep : encodeEncryptRlwe ctx s (Poly.set 0 (N / 2) 1) g = some (encryptRlwe s enc g) := by
    unfold encodeEncryptRlwe; rw [he]
  obtain ⟨v, hv⟩ : ∃ v, ctx.codec.encode 1 = some v := by
    have := polyEncode_some he ⟨N / 2, by omega⟩
    rw [Poly.set_apply, if_pos rfl] at this
    exact ⟨_, this⟩
  have h0 : ctx.codec.encode 0 = some 0 := by
    have := polyEncode_some he ⟨0, by omega⟩
    rw [Poly.set_apply, if_neg (by show ¬ 0 = N / 2; omega), Poly.zero_apply] at this
    rw [this]
    have h2 := (C02_encode h.codec 0).2 _ this
    congr 1
    apply BitVec.eq_of_toNat_eq
    rw [h2]
    simp
  have henc : enc = Poly.const N v * Spec.X N ^ (N / 2) := by
    rw [Spec.X, Poly.mono_pow, one_mul]
    refine Poly.ext (funext fun j => ?_)
    have hj := polyEncode_some he j
    rw [Poly.const_mul_apply]
    show enc j = v * (if (N / 2) % N = j.val then (-1) ^ (N / 2 / N) else 0)
    rw [Nat.mod_eq_of_lt (show N / 2 < N by omega), Nat.div_eq_of_lt (show N / 2 < N by omega), pow_zero]
    rw [Poly.set_apply, Poly.zero_apply] at hj
    by_cases hjj : j.val = N / 2
    · rw [if_pos hjj, hv] at hj
      rw [if_pos hjj.symm, mul_one]
      exact (Option.some.inj hj).symm
    · rw [if_neg hjj, h0] at hj
      rw [if_neg (Ne.symm hjj), mul_zero]
      exact (Option.some.inj hj).symm
  have hct : Enc s (encryptRlwe s enc g).1 (Poly.const N v * Spec.X N ^ (N / 2)) B := by
    rw [← henc]; exact encryptRlwe_enc hg
  obtain ⟨out, r1, r2⟩ := benchIter_inv (f := fun ct : RLWE N => ct.lessEqThan fft (N / 2 + 1))
    (P := fun k x => Enc s x (leqFactor N (N / 2 + 1) ^ k * (Poly.const _ v * Spec.X _ ^ (N / 2))) (benchLeqNoise N phi (N / 2 + 1) B k))
    (x := (encryptRlwe s enc g).1)
    (fun k x hx => by
      obtain ⟨c', q1, q2⟩ := lessEqThan_enc hf hs (d := N / 2 + 1) (by omega) hx
      refine ⟨c', q1, ?_⟩
      rw [pow_succ', mul_assoc]
      exact q2)
    (by rw [pow_zero, one_mul]; exact hct) k
  refine ⟨v, out, hv, ?_, r2, fun hk hb => ?_⟩
  · rw [if_pos (by omega), hstep]
    exact r1
  · subst hk
    obtain ⟨c', q1, q2⟩ := C23_decides h.codec hv hf hs (by omega) (by omega) hct hb
    have : out = c' := by
      rw [benchIter] at r1
      simp only [q1] at r1
      exact (Option.some.inj r1).symm
    rw [this, q2, if_pos (by omega)]

/-! ## Trace -/

/-- C81 (`trace1 fourier`): after one or more iterations the buffer encrypts the constant coefficient of the random binary plaintext as a
constant polynomial: dividing the encoding by `n` undoes exactly the factor `n` of the trace when `n` divides the scaling factor. -/
theorem C81_trace1_fourier {t : Scalar} {ctx : Ctx} {d : Nat} (h : BenchParams ctx t d) (hdiv : 2 ^ d * t.toNat ≤ 2 ^ 64) {fft : Fft (2 ^ d)} {phi : Nat}
    (hf : fft.Bounded phi) (sg : SecretGen) {g : Gen (2 ^ d)} {B : Nat} (hg : g.Bounded B) (k : Nat) :
    ∃ v out, ctx.codec.encode ((genBinaryPt g).1.get 0) = some v ∧ trace1FourierBenchmark ctx fft sg g (k + 1) = some out ∧
      Enc (genRlweSk (2 ^ d) sg).1 out (Poly.const _ v) (benchTraceNoise ctx (2 ^ d) B phi) ∧
      (2 * benchTraceNoise ctx (2 ^ d) B phi < 2 ^ 64 / t.toNat →
        decryptDecodeRlwe ctx (genRlweSk (2 ^ d) sg).1 out = Poly.const _ ((genBinaryPt g).1.get 0)) := by
  have hs := benchSk_binary (n := 2 ^ d) sg
  have hn : 0 < 2 ^ d := by positivity
  unfold trace1FourierBenchmark
  generalize hsk : (genRlweSk (2 ^ d) sg).1 = s at *
  obtain ⟨enc, he⟩ := polyEncode_total h.codec (genBinaryPt_encodable h.codec g)
  simp only [he]
  set m : Poly (2 ^ d) := ⟨fun j => enc j / BitVec.ofNat 64 (2 ^ d)⟩ with hm
  have hg1 : (genBinaryPt g).2.Bounded B := hg
  have hg2 : (encryptRlwe s m (genBinaryPt g).2).2.Bounded B := hg
  obtain ⟨⟨ksks, g2⟩, b1, b2, _⟩ := genAllSubsKsk_spec h.small ctx s hg2
  obtain ⟨out, o1, o2⟩ := trace1Fourier_spec h.small hf hs.small h.ksBl h.ksLv h.ksLt b2 (encryptRlwe_enc (s := s) (m := m) hg1)
  have hv : ctx.codec.encode ((genBinaryPt g).1.get 0) = some (enc ⟨0, hn⟩) := by
    have := polyEncode_some he ⟨0, hn⟩
    rwa [← Poly.get_lt (genBinaryPt g).1 ⟨0, hn⟩] at this
  have hdv : (2 ^ d : Scalar) * m.get 0 = enc ⟨0, hn⟩ := by
    have e0 : m.get 0 = enc ⟨0, hn⟩ / BitVec.ofNat 64 (2 ^ d) := Poly.get_lt m ⟨0, hn⟩
    have hw := (C02_encode h.codec _).2 _ hv
    obtain ⟨j, hj1, hj2, hj⟩ := (C02_new_isSome_iff t).mp (by rw [h.codec]; rfl)
    have h64 : 2 ^ 64 / t.toNat = 2 ^ (64 - j) := by rw [hj]; exact Nat.pow_div (by omega) (by decide)
    have hdj : d ≤ 64 - j := by
      rw [hj, ← pow_add] at hdiv
      have := (Nat.pow_le_pow_iff_right (by decide)).mp hdiv
      omega
    have hdvd : 2 ^ d ∣ (enc ⟨0, hn⟩).toNat := by
      rw [hw, h64]
      exact Dvd.dvd.mul_left (pow_dvd_pow 2 hdj) _
    have hd64 : 2 ^ d < 2 ^ 64 := Nat.pow_lt_pow_right (by decide) h.small
    have ec : (2 ^ d : Scalar) = BitVec.ofNat 64 (2 ^ d) := by
      apply BitVec.eq_of_toNat_eq
      have : (2 ^ d : Scalar) = ((2 ^ d : Nat) : Scalar) := by push_cast; rfl
      rw [this]
      rfl
    rw [e0, ec]
    apply BitVec.eq_of_toNat_eq
    rw [BitVec.toNat_mul, BitVec.toNat_udiv, BitVec.toNat_ofNat, Nat.mod_eq_of_lt hd64, Nat.mul_div_cancel' hdvd]
    exact Nat.mod_eq_of_lt (enc ⟨0, hn⟩).isLt
  rw [hdv] at o2
  refine ⟨_, out, hv, ?_, o2, fun hb => ?_⟩
  · simp only [b1]
    exact benchIter_const (fun _ => o1) 0 k
  · refine decryptDecode_of_enc h.codec (enc := Poly.const _ (enc ⟨0, hn⟩)) ?_ o2 hb
    have h0 : ctx.codec.encode 0 = some 0 := by
      rcases hz : ctx.codec.encode 0 with _ | w
      · have h1 := (C02_encode h.codec 0).1.mp hz
        have h2 := two_le_modulus h.codec
        have : t.toNat ≤ 0 := h1
        omega
      · have h2 := (C02_encode h.codec 0).2 _ hz
        congr 1
        apply BitVec.eq_of_toNat_eq
        rw [h2]
        simp
    have hall : ∀ j, ctx.codec.encode (Poly.const (2 ^ d) ((genBinaryPt g).1.get 0) j) = some (Poly.const (2 ^ d) (enc ⟨0, hn⟩) j) := fun j => by
      show ctx.codec.encode (if j.val = 0 then _ else 0) = some (if j.val = 0 then _ else 0)
      split
      · exact hv
      · exact h0
    unfold Codec.polyEncode
    rw [if_pos fun j => by rw [hall j]; rfl]
    congr 1
    refine Poly.ext (funext fun j => ?_)
    show (ctx.codec.encode _).getD 0 = _
    rw [hall j]; rfl

/-! ## All of them -/

theorem benchIter_none {σ : Type} (f : σ → Option σ) : ∀ (k : Nat) (x : σ), (benchIter f (k + 1) x).isSome → (benchIter f k x).isSome
  | 0, _, _ => rfl
  | k + 1, x, h => by
    rw [benchIter] at h ⊢
    cases hf : f x with
    | none => rw [hf] at h; cases h
    | some y => rw [hf] at h; exact benchIter_none f k y h

/-- C81 (completion): for every parameter set of the suite's kind - in particular the default one - every generator and every number of
iterations, none of the eleven benchmarks panics. -/
theorem C81_completes {t : Scalar} {ctx : Ctx} {d : Nat} (h : BenchParams ctx t d) (hdiv : 2 ^ d * t.toNat ≤ 2 ^ 64) {fft : Fft (2 ^ d)} {phi : Nat}
    (hf : fft.Bounded phi) (sg : SecretGen) {g : Gen (2 ^ d)} {B : Nat} (hg : g.Bounded B) (k : Nat) :
    (encBenchmark ctx sg g k).isSome ∧ (decBenchmark ctx sg g k).isSome ∧ (externalProductBenchmark ctx fft sg g k).isSome ∧
    (cmuxBenchmark ctx fft sg g k).isSome ∧ (keyswitchBenchmark ctx fft sg g k).isSome ∧ (keyswitchFourierBenchmark ctx sg g k).isSome ∧
    (keyswitchGswBenchmark ctx fft sg g k).isSome ∧ (expandBenchmark ctx fft sg g k).isSome ∧ (expandFourierBenchmark ctx fft sg g k).isSome ∧
    (lessEqBenchmark ctx fft sg g k).isSome ∧ (trace1FourierBenchmark ctx fft sg g k).isSome := by
  have some_of : ∀ {α : Type} {x : Option α} {y : α}, x = some y → x.isSome := fun e => by rw [e]; rfl
  refine ⟨?_, ?_, ?_, ?_, ?_, ?_, ?_, ?_, ?_, ?_, ?_⟩
  · obtain ⟨_, _, e, _⟩ := C81_enc h.codec sg g k
    exact benchIter_none _ _ _ (some_of e)
  · obtain ⟨_, e, _⟩ := C81_dec h.codec sg g k
    have e := some_of e
    unfold decBenchmark at e ⊢
    cases hx : encodeEncryptRlwe ctx (genRlweSk (2 ^ d) sg).1 (genBinaryPt g).1 (genBinaryPt g).2 with
    | none => simp only [hx] at e; cases e
    | some r => simp only [hx] at e ⊢; exact benchIter_none _ _ _ e
  · obtain ⟨_, _, _, e, _⟩ := C81_external_product h.bl h.lv h.lt hf sg hg k
    exact some_of e
  · obtain ⟨_, e, _⟩ := C81_cmux h.bl h.lv h.lt hf sg hg k
    exact benchIter_none _ _ _ (some_of e)
  · obtain ⟨_, _, e, _⟩ := C81_keyswitch h.bl h.lv h.lt hf sg hg k
    have e := some_of e
    unfold keyswitchBenchmark at e ⊢
    cases hx : benchKeyswitchSetup ctx sg g with
    | none => rw [hx] at e; cases e
    | some r => rw [hx] at e; exact benchIter_none _ _ _ e
  · obtain ⟨_, _, e, _⟩ := C81_keyswitch_fourier h.bl h.lv h.lt hf sg hg k
    have e := some_of e
    unfold keyswitchFourierBenchmark at e ⊢
    cases hx : benchKeyswitchSetup ctx sg g with
    | none => rw [hx] at e; cases e
    | some r => rw [hx] at e; exact benchIter_none _ _ _ e
  · obtain ⟨_, _, e, _⟩ := C81_keyswitch_gsw h.bl h.lv h.lt hf sg hg k
    exact some_of e
  · obtain ⟨⟨_, e, _⟩, _⟩ := C81_expand h hf sg hg k
    have e := some_of e
    unfold expandBenchmark at e ⊢
    cases hx : benchExpandSetup ctx sg g with
    | none => rw [hx] at e; cases e
    | some r => rw [hx] at e; exact benchIter_none _ _ _ e
  · obtain ⟨_, _, e, _⟩ := C81_expand h hf sg hg k
    have e := some_of e
    unfold expandFourierBenchmark at e ⊢
    cases hx : benchExpandSetup ctx sg g with
    | none => rw [hx] at e; cases e
    | some r => rw [hx] at e; exact benchIter_none _ _ _ e
  · obtain ⟨_, _, _, e, _⟩ := C81_less_eq h hf sg hg k
    exact some_of e
  · obtain ⟨_, _, _, e, _⟩ := C81_trace1_fourier h hdiv hf sg hg k
    have e := some_of e
    unfold trace1FourierBenchmark at e ⊢
    cases hx : ctx.codec.polyEncode (genBinaryPt g).1 with
    | none => simp only [hx] at e; cases e
    | some enc =>
      simp only [hx] at e ⊢
      generalize genAllSubsKsk ctx (genRlweSk (2 ^ d) sg).1
        (encryptRlwe (genRlweSk (2 ^ d) sg).1 ⟨fun j => enc j / BitVec.ofNat 64 (2 ^ d)⟩ (genBinaryPt g).2).2 = ks at e ⊢
      cases ks with
      | none => cases e
      | some r => exact benchIter_none _ _ _ e

theorem benchParams_default : BenchParams defaultCtx 256 11 :=
  ⟨by decide, by decide, by decide, by decide, by decide, by decide, by decide, by decide, by decide, by decide, by decide, by decide, by decide⟩

theorem bench_default_noise : 2 ^ 12 + benchKsNoise defaultCtx (2 ^ 11) (2 ^ 12) (2 ^ 20) < 0x2AAAAAAAAAAAA800 ∧
    2 ^ 12 + benchKsFourierNoise defaultCtx (2 ^ 11) (2 ^ 12) (2 ^ 20) < 0x2AAAAAAAAAAAA800 ∧
    3 * (2 ^ 12 + benchKsGswNoise defaultCtx (2 ^ 11) (2 ^ 12) (2 ^ 20)) + 1024 * 3 < 0x2AAAAAAAAAAAA800 ∧
    2 * (1 * (2 ^ 12 + extNoise (2 ^ 11) 5 9 (2 ^ 12) (2 ^ 20) 1)) < 2 ^ 64 / 256 ∧
    2 * ((2 ^ 11 / 2 + 1 + 1) * 2 ^ 12 + fftNoise (2 ^ 11) (2 ^ 20) 1) < 2 ^ 64 / 256 ∧
    2 * benchTraceNoise defaultCtx (2 ^ 11) (2 ^ 12) (2 ^ 20) < 2 ^ 64 / 256 := by
  unfold benchKsNoise benchKsFourierNoise benchKsGswNoise benchTraceNoise extNoise ksNoise fftNoise defaultCtx
  norm_num

theorem inWindow_small {g : Gen n} (hg : g.Bounded (2 ^ 12)) (i : Nat) (j : Fin n) : Spec.InWindow (256 : Scalar).toNat (g.noises i j).toInt := by
  have h : ((g.noises i j).toInt.natAbs : Int) ≤ ((2 ^ 12 : Nat) : Int) := by exact_mod_cast hg i j
  unfold Spec.InWindow
  rw [show (256 : Scalar).toNat = 256 from rfl]
  norm_num at h ⊢
  rw [abs_le] at h
  omega

theorem bench_default_aux {d : Nat} {t : Scalar} {ctx : Ctx} (h : BenchParams ctx t d) (hdiv : 2 ^ d * t.toNat ≤ 2 ^ 64) {B phi : Nat}
    {fft : Fft (2 ^ d)} (hf : fft.Bounded phi) (sg : SecretGen) {g : Gen (2 ^ d)} (hg : g.Bounded B) (k : Nat)
    (hw : ∀ i j, Spec.InWindow t.toNat (g.noises i j).toInt)
    (hb : B + benchKsNoise ctx (2 ^ d) B phi < 0x2AAAAAAAAAAAA800 ∧ B + benchKsFourierNoise ctx (2 ^ d) B phi < 0x2AAAAAAAAAAAA800 ∧
      3 * (B + benchKsGswNoise ctx (2 ^ d) B phi) + 1024 * 3 < 0x2AAAAAAAAAAAA800 ∧
      2 * (1 * (B + extNoise (2 ^ d) ctx.baseLog ctx.levelCount B phi 1)) < 2 ^ 64 / t.toNat ∧
      2 * ((2 ^ d / 2 + 1 + 1) * B + fftNoise (2 ^ d) phi 1) < 2 ^ 64 / t.toNat ∧
      2 * benchTraceNoise ctx (2 ^ d) B phi < 2 ^ 64 / t.toNat) :
    (∃ ct g', encBenchmark ctx sg g (k + 1) = some (ct, g') ∧ decryptDecodeRlwe ctx (genRlweSk (2 ^ d) sg).1 ct = (genBinaryPt g).1) ∧
    decBenchmark ctx sg g (k + 1) = some (genBinaryPt g).1 ∧
    (∃ out, externalProductBenchmark ctx fft sg g 1 = some out ∧ decryptDecodeRlwe ctx (genRlweSk (2 ^ d) sg).1 out = 0) ∧
    (∃ out, keyswitchBenchmark ctx fft sg g (k + 1) = some out ∧ ternaryDecryptRlwe (benchKeys (2 ^ d) sg).1 out = benchKeyswitchMessage ctx sg g) ∧
    (∃ out, keyswitchFourierBenchmark ctx sg g (k + 1) = some out ∧
      ternaryDecryptRlwe (benchKeys (2 ^ d) sg).1 (out.backwardAsTorus fft) = benchKeyswitchMessage ctx sg g) ∧
    (∃ out, keyswitchGswBenchmark ctx fft sg g 1 = some out ∧ ternaryDecryptRlwe (benchKeys (2 ^ d) sg).1 out = benchKeyswitchMessage ctx sg g) ∧
    (∃ out, keyswitchGswBenchmark ctx fft sg g 3 = some out ∧ ternaryDecryptRlwe (benchKeys (2 ^ d) sg).1 out = 0) ∧
    (∃ out, lessEqBenchmark ctx fft sg g 1 = some out ∧ (decryptDecodeRlwe ctx (genRlweSk (2 ^ d) sg).1 out).get 0 = 1) ∧
    (∃ out, trace1FourierBenchmark ctx fft sg g (k + 1) = some out ∧
      decryptDecodeRlwe ctx (genRlweSk (2 ^ d) sg).1 out = Poly.const _ ((genBinaryPt g).1.get 0)) := by
  obtain ⟨b1, b2, b3, b4, b5, b6⟩ := hb
  refine ⟨?_, ?_, ?_, ?_, ?_, ?_, ?_, ?_, ?_⟩
  · obtain ⟨ct, g', e, _, _, hd⟩ := C81_enc h.codec sg g k
    exact ⟨ct, g', e, hd.mpr (hw _)⟩
  · obtain ⟨out, e, hd⟩ := C81_dec h.codec sg g k
    rw [e, hd.mpr (hw _)]
  · obtain ⟨_, out, _, e, _, _, hE⟩ := C81_external_product h.bl h.lv h.lt hf sg hg 1
    refine ⟨out, e, decryptDecode_of_enc h.codec (enc := 0) ?_ hE b4⟩
    have h0 : ctx.codec.encode 0 = some 0 := by
      rcases hz : ctx.codec.encode 0 with _ | w
      · have h1 := (C02_encode h.codec 0).1.mp hz
        have h2 := two_le_modulus h.codec
        have : t.toNat ≤ 0 := h1
        omega
      · have h2 := (C02_encode h.codec 0).2 _ hz
        congr 1
        apply BitVec.eq_of_toNat_eq
        rw [h2]
        simp
    unfold Codec.polyEncode
    rw [if_pos fun j => by rw [Poly.zero_apply, h0]; rfl]
    congr 1
    refine Poly.ext (funext fun j => ?_)
    show (ctx.codec.encode ((0 : Poly (2 ^ d)) j)).getD 0 = _
    rw [Poly.zero_apply, h0]; rfl
  · obtain ⟨out, _, e, _, _, hd⟩ := C81_keyswitch h.bl h.lv h.lt hf sg hg k
    exact ⟨out, e, hd b1⟩
  · obtain ⟨out, _, e, _, _, hd⟩ := C81_keyswitch_fourier h.bl h.lv h.lt hf sg hg k
    exact ⟨out, e, hd b2⟩
  · obtain ⟨out, _, e, _, _, hd⟩ := C81_keyswitch_gsw h.bl h.lv h.lt hf sg hg 1
    refine ⟨out, e, Poly.ext (funext fun j => ?_)⟩
    rw [hd (by omega) j]
    rcases genTernary_values ((KeyswitchKey.allocate (2 ^ d) ctx.baseLog ctx.levelCount).fillWithKeyswitchKey (benchKeys (2 ^ d) sg).2
      (benchKeys (2 ^ d) sg).1 g).2 j with hv | hv | hv <;>
    · unfold benchKeyswitchMessage
      rw [hv]
      decide
  · obtain ⟨out, _, e, _, _, hd⟩ := C81_keyswitch_gsw h.bl h.lv h.lt hf sg hg 3
    refine ⟨out, e, Poly.ext (funext fun j => ?_)⟩
    rw [hd (by omega) j, Poly.zero_apply]
    unfold balanced3
    rw [if_pos]
    rw [Nat.cast_ofNat]
    exact Int.mul_emod_right 3 _
  · obtain ⟨_, out, _, e, _, hd⟩ := C81_less_eq h hf sg hg 1
    exact ⟨out, e, hd rfl b5⟩
  · obtain ⟨_, out, _, e, _, hd⟩ := C81_trace1_fourier h hdiv hf sg hg k
    exact ⟨out, e, hd b6⟩

/-- C81 (default parameters): with `TFHEParameters::default()`, for every secret and public randomness with noise at most `2^12` and every
Fourier transform with relative error at most `2^20` per unit of weight, the suite runs for every number of iterations, and each benchmark
computes what its name says: the results decrypt to the plaintext, the switched ciphertexts to the ternary message, the trace to the constant
coefficient, one comparison to 1; the key switch through RGSW gives the message after one iteration and zero after three. -/
theorem C81_default {F : Type} (m55 : F) {N : Nat} (hN : N = (TFHEParameters.default' m55).polynomialSize) {ctx : Ctx}
    (hctx : Ctx.ofParams (TFHEParameters.default' m55) = some ctx) {fft : Fft N} (hf : fft.Bounded (2 ^ 20)) (sg : SecretGen) {g : Gen N}
    (hg : g.Bounded (2 ^ 12)) (k : Nat) :
    (∃ ct g', encBenchmark ctx sg g (k + 1) = some (ct, g') ∧ decryptDecodeRlwe ctx (genRlweSk N sg).1 ct = (genBinaryPt g).1) ∧
    decBenchmark ctx sg g (k + 1) = some (genBinaryPt g).1 ∧
    (∃ out, externalProductBenchmark ctx fft sg g 1 = some out ∧ decryptDecodeRlwe ctx (genRlweSk N sg).1 out = 0) ∧
    (∃ out, keyswitchBenchmark ctx fft sg g (k + 1) = some out ∧ ternaryDecryptRlwe (benchKeys N sg).1 out = benchKeyswitchMessage ctx sg g) ∧
    (∃ out, keyswitchFourierBenchmark ctx sg g (k + 1) = some out ∧
      ternaryDecryptRlwe (benchKeys N sg).1 (out.backwardAsTorus fft) = benchKeyswitchMessage ctx sg g) ∧
    (∃ out, keyswitchGswBenchmark ctx fft sg g 1 = some out ∧ ternaryDecryptRlwe (benchKeys N sg).1 out = benchKeyswitchMessage ctx sg g) ∧
    (∃ out, keyswitchGswBenchmark ctx fft sg g 3 = some out ∧ ternaryDecryptRlwe (benchKeys N sg).1 out = 0) ∧
    (∃ out, lessEqBenchmark ctx fft sg g 1 = some out ∧ (decryptDecodeRlwe ctx (genRlweSk N sg).1 out).get 0 = 1) ∧
    (∃ out, trace1FourierBenchmark ctx fft sg g (k + 1) = some out ∧
      decryptDecodeRlwe ctx (genRlweSk N sg).1 out = Poly.const _ ((genBinaryPt g).1.get 0)) := by
  obtain rfl : N = 2 ^ 11 := by rw [hN]; rfl
  obtain rfl : ctx = defaultCtx := by
    have hcod : Codec.new (BitVec.ofNat 64 (2 ^ 8)) = some ⟨8, 2 ^ 56⟩ := by decide
    unfold Ctx.ofParams at hctx
    rw [show (TFHEParameters.default' m55).plaintextModulus = 2 ^ 8 from rfl, hcod] at hctx
    exact (Option.some.inj hctx).symm
  exact bench_default_aux benchParams_default (by decide) hf sg hg k (inWindow_small hg) bench_default_noise

/-- The hypotheses are met: the default context in the ring of size 2048 with a non-trivial generator and a rounding transform. -/
example (sg : SecretGen) (k : Nat) : (∃ out, keyswitchGswBenchmark defaultCtx treeFft sg treeGen 3 = some out ∧
      ternaryDecryptRlwe (benchKeys (2 ^ 11) sg).1 out = 0) ∧ (trace1FourierBenchmark defaultCtx treeFft sg treeGen k).isSome := by
  have hg : treeGen.Bounded (2 ^ 12) := fun i => (treeGen_bounded i).mono (by decide)
  have hf : treeFft.Bounded (2 ^ 20) := fun ts h => (treeFft_bounded ts h).mono (Nat.mul_le_mul_right _ (by decide))
  have h1 := bench_default_aux benchParams_default (by decide) hf sg hg k (inWindow_small hg) bench_default_noise
  exact ⟨h1.2.2.2.2.2.2.1, (C81_completes benchParams_default (by decide) hf sg hg k).2.2.2.2.2.2.2.2.2.2⟩
/-- A small instance: ring size 4, modulus 16. -/
example : BenchParams exTreeCtx 16 2 ∧ 2 ^ 2 * (16 : Scalar).toNat ≤ 2 ^ 64 ∧ exFft.Bounded 5 ∧ exGen.Bounded 3 :=
  ⟨⟨by decide +kernel, by decide, by decide, by decide, by decide, by decide, by decide, by decide, by decide, by decide, by decide, by decide,
    by decide⟩, by decide, exFft_bounded, exGen_bounded⟩
/-- The random message really is non-zero for some generator, so "zero after three iterations" is not its decryption. -/
example : benchKeyswitchMessage (n := 4) exTreeCtx ⟨fun i => BitVec.ofNat 64 i, 0⟩ exGen ≠ 0 := by decide +kernel

end Panacea
