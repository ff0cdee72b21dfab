import Verif.Props.Tests
import Verif.Props.Noise
import Verif.Props.EncEval
import Verif.Props.OramShape

/-!
# C83, continued: expansion, trees, Fourier products and noise measurements
-/

namespace Panacea
variable {n : Nat}

/-! ## Expansion -/

theorem nrm_gadget_le {b l : Nat} (h1 : 2 ≤ b) (h2 : 1 ≤ l) (h3 : b * l < 64) : (gadget b l).toNat ≤ 2 ^ 62 := by
  have hbl : 2 ≤ b * l := le_trans h1 (Nat.le_mul_of_pos_right b h2)
  unfold gadget
  rw [BitVec.toNat_shiftLeft, show (1 : Scalar).toNat = 1 from rfl, Nat.one_shiftLeft]
  exact le_trans (Nat.mod_le _ _) (Nat.pow_le_pow_right (by norm_num) (by omega))

theorem gadget_diff {b l b' l' : Nat} (h1 : 2 ≤ b) (h2 : 1 ≤ l) (h3 : b * l < 64) (h1' : 2 ≤ b') (h2' : 1 ≤ l') (h3' : b' * l' < 64) :
    nrm (gadget b l - gadget b' l') ≤ 2 ^ 62 := by
  have a := nrm_gadget_le h1 h2 h3
  have a' := nrm_gadget_le h1' h2' h3'
  unfold nrm
  generalize gadget b l = x at *
  generalize gadget b' l' = y at *
  rw [BitVec.toInt_sub, BitVec.toInt_eq_toNat_of_lt (by omega), BitVec.toInt_eq_toNat_of_lt (by omega), Int.bmod_def]
  split <;> omega

theorem small_const (n : Nat) {x : Scalar} {e : Nat} (h : nrm x ≤ e) : Small (Poly.const n x) e := fun k => by
  show ((if k.val = 0 then x else 0 : Scalar)).toInt.natAbs ≤ _
  split
  · exact h
  · simp

/-- What `test_expand` prints about an RGSW encryption of one does not panic. -/
theorem printExpandRows_some {F : F64Arith} (hF : F.Ok) {ctx : Ctx} (h1 : 2 ≤ ctx.baseLog) (h2 : 1 ≤ ctx.levelCount)
    (h3 : ctx.baseLog * ctx.levelCount < 64) (k0 : ctx.negsBaseLog = ctx.baseLog) (k2 : 1 ≤ ctx.negsLevelCount)
    (k3 : ctx.negsBaseLog * ctx.negsLevelCount < 64) (hn : 0 < n) {s : Poly n} (hs : Binary s) {C : RGSW n} (b : C.baseLog = ctx.baseLog)
    (l : C.levelCount = ctx.levelCount) {E : Nat} (hE : EncG s C 1 E) (hE2 : E < 2 ^ 62) : printExpandRows F ctx s C = some () := by
  have hneg : (⟨fun k => s k * scalarMAX⟩ : Poly n) = -s := by
    refine Poly.ext (funext fun k => ?_)
    show s k * scalarMAX = -(s k)
    rw [scalarMAX_eq, mul_neg_one]
  have hwf : C.WF := ⟨by rw [b]; omega, by rw [l]; exact h2, by rw [b, l]; exact h3⟩
  obtain ⟨r0, r1, q0, q1, q2, q3⟩ := row_zero hE (by rw [l]; exact h2)
  obtain ⟨r2, q4, q5⟩ := row_last hE (by rw [l]; exact h2)
  rw [b] at q2 q3 q5
  rw [l] at q5
  rw [← k0] at q2 q3
  have hunit : ∀ x, (Poly.set (0 : Poly n) 0 1).mulConst x = Poly.const n x := fun x => by
    rw [Poly.mulConst_eq, Poly.set_zero_const, Poly.const_one, mul_one]
  rw [mul_one] at q2 q3 q5
  have q5' := q5.shift (m' := Poly.const n (gadget ctx.negsBaseLog ctx.negsLevelCount)) (e' := 2 ^ 62) (by
    have : Poly.const n (gadget ctx.baseLog ctx.levelCount) - Poly.const n (gadget ctx.negsBaseLog ctx.negsLevelCount) =
        Poly.const n (gadget ctx.baseLog ctx.levelCount - gadget ctx.negsBaseLog ctx.negsLevelCount) := by
      refine Poly.ext (funext fun k => ?_)
      rw [Poly.sub_apply]
      show (if k.val = 0 then _ else 0 : Scalar) - (if k.val = 0 then _ else 0) = if k.val = 0 then _ else 0
      split <;> simp
    rw [this]
    exact small_const n (gadget_diff h1 h2 h3 (by rw [k0]; exact h1) k2 k3))
  obtain ⟨x0, n0⟩ := noiseMax_some q2 (by omega)
  obtain ⟨x1, n1⟩ := noiseMax_some q3 (by omega)
  obtain ⟨x2, n2⟩ := noiseMax_some q5' (by omega)
  obtain ⟨v, hv, _⟩ := C77_rgsw1_one hF hn hwf b l (k := 62) (by norm_num) (hE.mono (by omega))
  unfold printExpandRows naiveUpdateWithMul
  simp only [hneg, genUnitPt_some hn, hunit, q0, q1, q4, n0, n1, n2, hv, Option.bind_eq_bind, Option.bind_some, Option.pure_def]
  rw [assertT_pos (show ∀ k, s k = 0 ∨ s k = 1 from hs)]
  rfl

/-- Noise of the expanded RGSW ciphertext of `test_expand`. -/
def testExpandNoise (ctx : Ctx) (n B phi : Nat) : Nat :=
  expandNoise n ctx.negsBaseLog ctx.negsLevelCount B phi (benchTraceSlowNoise ctx n B phi)

/-- The external product with an RGSW encryption of a bit, decrypted. -/
theorem ext_bit {t : Scalar} {ctx : Ctx} (hc : Codec.new t = some ctx.codec) {fft : Fft n} {phi : Nat} (hf : fft.Bounded phi) {s : Poly n} (hs : Binary s)
    {C : RGSW n} (hw : C.WF) {E B : Nat} {m enc : Poly n} (he : ctx.codec.polyEncode m = some enc) {ct : RLWE n} (hct : Enc s ct enc B)
    (hB : 2 * (B + extNoise n C.baseLog C.levelCount E phi 1) < 2 ^ 64 / t.toNat) :
    (EncG s C 1 E → decryptDecodeRlwe ctx s (externalProduct fft C 0 ct) = m ∧
      ∃ x, computeNoiseEncodedMax ctx.codec s (externalProduct fft C 0 ct) m = some x) ∧
    (EncG s C 0 E → decryptDecodeRlwe ctx s (externalProduct fft C 0 ct) = genZeroPt n ∧
      ∃ x, computeNoiseEncodedMax ctx.codec s (externalProduct fft C 0 ct) (genZeroPt n) = some x) := by
  have hhalf := half_modulus hc
  constructor
  · intro hG
    have x1 := C19_messages hf hs hw hG (enc_zero_zero s) hct
    rw [zero_add, zero_add, one_mul] at x1
    have x1 := x1.mono (show _ ≤ B + extNoise n C.baseLog C.levelCount E phi 1 from
      Nat.add_le_add (le_trans (Nat.mul_le_mul_right B l1_one) (by rw [one_mul])) (extNoise_mono_K n _ _ E phi l1_one))
    exact ⟨decryptDecode_of_enc hc he x1 hB, noiseEncodedMax_some he x1 (by omega)⟩
  · intro hG
    have x0 := C19_messages hf hs hw hG (enc_zero_zero s) hct
    rw [zero_add, zero_add, zero_mul, l1_zero_eq, zero_mul, zero_add] at x0
    have x0 := x0.mono (show _ ≤ B + extNoise n C.baseLog C.levelCount E phi 1 from
      le_trans (extNoise_mono_K n _ _ E phi (Nat.zero_le 1)) (Nat.le_add_left _ _))
    exact ⟨decryptDecode_of_enc hc (polyEncode_zero hc) x0 hB, noiseEncodedMax_some (polyEncode_zero hc) x0 (by omega)⟩

/-- C83: `test_expand` passes. -/
theorem C83_expand {t : Scalar} {ctx : Ctx} {d : Nat} (h : BenchParams ctx t d) (hbl : 2 ≤ ctx.baseLog) {F : F64Arith} (hF : F.Ok) {fft : Fft (2 ^ d)}
    {phi : Nat} (hf : fft.Bounded phi) (sg : SecretGen) {g : Gen (2 ^ d)} {B : Nat} (hg : g.Bounded B)
    (hE : testExpandNoise ctx (2 ^ d) B phi < 2 ^ 62)
    (hB : 2 * (B + extNoise (2 ^ d) ctx.baseLog ctx.levelCount (testExpandNoise ctx (2 ^ d) B phi) phi 1) < 2 ^ 64 / t.toNat) :
    testExpand F ctx fft sg g = some () := by
  have hn : 0 < 2 ^ d := by positivity
  have hs := benchSk_binary (n := 2 ^ d) sg
  unfold testExpand
  dsimp only
  generalize (genRlweSk (2 ^ d) sg).1 = s at *
  obtain ⟨⟨negS, g1⟩, a1, a2, a3, a4, a5⟩ := C21_neg_gsw h.negBl hs hg
  obtain ⟨⟨ksks, g2⟩, b1, b2, b3⟩ := genAllSubsKsk_spec h.small ctx s a5
  obtain ⟨enc, he⟩ := polyEncode_total h.codec (genBinaryPt_encodable h.codec g2)
  have hfr : Enc s (encryptRlwe s enc (genBinaryPt g2).2).1 enc B := encryptRlwe_enc (genBinary_bounded b3)
  have b4 : (encryptRlwe s enc (genBinaryPt g2).2).2.Bounded B := b3
  obtain ⟨⟨cs1, g3⟩, c1, c2, c3, c4⟩ := makeDecomposed_spec h.small h.bl h.room s (bit := 1) (Or.inl rfl) b4
  obtain ⟨⟨cs0, g4⟩, d1, d2, _, d4⟩ := makeDecomposed_spec h.small h.bl h.room s (bit := 0) (Or.inr rfl) c3
  simp only at a2 a3 a4 b2 c2 c4 d2 d4
  have hN : negS.WF := ⟨by rw [a3, h.negBl]; exact h.bl, by rw [a4]; exact h.negLv, by rw [a3, a4]; exact h.negLt⟩
  have hne : ∀ {cs : List (RLWE (2 ^ d))}, cs.length = ctx.levelCount → cs ≠ [] := by
    intro cs hl hc
    have := h.lv
    rw [← hl, hc] at this
    exact absurd this (by simp)
  obtain ⟨⟨C1, p1, p2, p3, p4⟩, _⟩ := expand_spec h.small hf hs.small h.ksBl h.ksLv h.ksLt b2 hN a2 c2.symm (hne c2) c4
  obtain ⟨⟨C0, q1, q2, q3, q4⟩, _⟩ := expand_spec h.small hf hs.small h.ksBl h.ksLv h.ksLt b2 hN a2 d2.symm (hne d2) d4
  rw [a3, a4, Poly.const_one] at p4
  rw [a3, a4, Poly.const_zero] at q4
  have w1 : C1.WF := ⟨by rw [p2]; exact h.bl, by rw [p3]; exact h.lv, by rw [p2, p3]; exact h.lt⟩
  have w0 : C0.WF := ⟨by rw [q2]; exact h.bl, by rw [q3]; exact h.lv, by rw [q2, q3]; exact h.lt⟩
  obtain ⟨e1, y1, f1⟩ := (ext_bit h.codec hf hs w1 he hfr (E := testExpandNoise ctx (2 ^ d) B phi) (by rw [p2, p3]; exact hB)).1 p4
  obtain ⟨e0, y0, f0⟩ := (ext_bit h.codec hf hs w0 he hfr (E := testExpandNoise ctx (2 ^ d) B phi) (by rw [q2, q3]; exact hB)).2 q4
  have hp := printExpandRows_some hF hbl h.lv h.lt h.negBl h.negLv h.negLt hn hs p2 p3 p4 hE
  simp only [a1, b1, encodeEncrypt_eq he, c1, d1, p1, q1, hp, e1, e0, f1, f0, Option.bind_eq_bind, Option.bind_some, assertT, if_true, Option.pure_def]

/-- Noise of the expanded RGSW ciphertext of `test_expand_slow`. -/
def testExpandSlowNoise (ctx : Ctx) (n B phi : Nat) : Nat :=
  expandNoise n ctx.negsBaseLog ctx.negsLevelCount B phi (B + convNoise n ctx.ksBaseLog 11 B)

/-- C83: `test_expand_slow` passes. -/
theorem C83_expand_slow {t : Scalar} {ctx : Ctx} (hc : Codec.new t = some ctx.codec) (h1 : 1 ≤ ctx.baseLog) (h2 : 1 ≤ ctx.levelCount)
    (h3 : ctx.baseLog * ctx.levelCount < 64) (k1 : 1 ≤ ctx.ksBaseLog) (k3 : ctx.ksBaseLog * 11 < 64)
    (m1 : ctx.negsBaseLog = ctx.baseLog) (m2 : 1 ≤ ctx.negsLevelCount) (m3 : ctx.negsBaseLog * ctx.negsLevelCount < 64) (hn : 0 < n)
    {F : F64Arith} (hF : F.Ok) {fft : Fft n} {phi : Nat} (hf : fft.Bounded phi) (sg : SecretGen) {g : Gen n} {B : Nat} (hg : g.Bounded B)
    (hE : testExpandSlowNoise ctx n B phi < 2 ^ 62)
    (hB : 2 * (B + extNoise n ctx.baseLog ctx.levelCount (testExpandSlowNoise ctx n B phi) phi 1) < 2 ^ 64 / t.toNat) :
    testExpandSlow F ctx fft sg g = some () := by
  have hs := lweSk_binary (n := n) sg
  obtain ⟨v, hv⟩ := encode_one_some hc
  have henc1 := polyEncode_set (n := n) hc hv 0
  obtain ⟨cx, hcx⟩ : ∃ cx : Ctx, cx = { ctx with ksLevelCount := 11 } := ⟨_, rfl⟩
  have e1 : cx.baseLog = ctx.baseLog := by rw [hcx]
  have e2 : cx.levelCount = ctx.levelCount := by rw [hcx]
  have e3 : cx.ksBaseLog = ctx.ksBaseLog := by rw [hcx]
  have e4 : cx.ksLevelCount = 11 := by rw [hcx]
  have e5 : cx.negsBaseLog = ctx.negsBaseLog := by rw [hcx]
  have e6 : cx.negsLevelCount = ctx.negsLevelCount := by rw [hcx]
  have e7 : cx.codec = ctx.codec := by rw [hcx]
  unfold testExpandSlow
  dsimp only
  rw [← hcx]
  generalize (genLweSk n sg).1 = s at *
  obtain ⟨⟨negS, g1⟩, a1, a2, a3, a4, a5⟩ := C21_neg_gsw (ctx := cx) (by rw [e5, e1]; exact m1) hs hg
  simp only at a2 a3 a4
  rw [e5] at a3
  rw [e6] at a4
  have hN : negS.WF := ⟨by rw [a3, m1]; exact h1, by rw [a4]; exact m2, by rw [a3, a4]; exact m3⟩
  obtain ⟨_, _, b3⟩ := C31_key cx s a5
  have hfr : Enc s (encryptRlwe s (Poly.set 0 0 v) (lweToRlweKeyswitchKey cx s g1).2).1 (Poly.set 0 0 v) B := encryptRlwe_enc b3
  have b4 : (encryptRlwe s (Poly.set 0 0 v) (lweToRlweKeyswitchKey cx s g1).2).2.Bounded B := b3
  obtain ⟨cs, g3, C, o1, o2, o3, o4, o5⟩ := expandSlow_spec hn hf hs (ctx := cx) (by rw [e2]; exact h2) (by rw [e3]; exact k1) (by rw [e4]; norm_num)
    (by rw [e3, e4]; exact k3) a5 b4 hN a2 (bit := 1) (Or.inl rfl)
  rw [a3, a4, e3, e4, Poly.const_one] at o5
  rw [e1] at o3
  rw [e2] at o4
  have hw : C.WF := ⟨by rw [o3]; exact h1, by rw [o4]; exact h2, by rw [o3, o4]; exact h3⟩
  have hcx' : Codec.new t = some cx.codec := by rw [e7]; exact hc
  have henc1' : cx.codec.polyEncode (Poly.set (0 : Poly n) 0 1) = some (Poly.set 0 0 v) := by rw [e7]; exact henc1
  obtain ⟨f1, y1, f2⟩ := (ext_bit hcx' hf hs hw henc1' hfr (E := testExpandSlowNoise ctx n B phi) (by rw [o3, o4]; exact hB)).1 o5
  obtain ⟨w, hw2, _⟩ := C77_rgsw1_one hF hn hw (ctx := cx) (by rw [o3, e1]) (by rw [o4, e2]) (k := 62) (by norm_num)
    (o5.mono (show testExpandSlowNoise ctx n B phi ≤ _ by omega))
  rw [e7] at f2
  simp only [toRlweSk, a1, genUnitPt_some hn, encodeEncrypt_eq henc1', o1, o2, f1, f2, hw2, Option.bind_eq_bind, Option.bind_some, assertT, if_true,
    Option.pure_def]

/-! ## Decision trees -/

/-- C83: `test_clear_node` and `test_depth` pass. -/
theorem C83_clear_trees : testClearNode = some () ∧ testDepth = some () := by decide +kernel

/-- The labels of a tree from left to right. -/
def leafList : Tree → List Nat
  | .missing => []
  | .leaf x => [x]
  | .internal _ l r => leafList l ++ leafList r

theorem mem_leafList {x : Nat} : ∀ {t : Tree}, x ∈ leafList t ↔ Spec.HasLeaf x t
  | .missing => ⟨fun h => by simp [leafList] at h, fun h => by cases h⟩
  | .leaf y => ⟨fun h => by simp [leafList] at h; subst h; exact .here, fun h => by cases h; simp [leafList]⟩
  | .internal d l r => by
    rw [leafList, List.mem_append, mem_leafList, mem_leafList]
    constructor
    · rintro (h | h)
      · exact .left _ _ _ h
      · exact .right _ _ _ h
    · intro h
      cases h with
      | left _ _ _ h => exact Or.inl h
      | right _ _ _ h => exact Or.inr h

/-- The noise `simulate` needs room for. -/
def simulateNoise (ctx : Ctx) (n B phi : Nat) (tree : Tree) : Nat :=
  tree.countLeaf * (tree.countDepth * extNoise n ctx.baseLog ctx.levelCount (compareNoise ctx n B phi) phi 1)

/-- `simulate` on a tree and features whose side conditions are decidable. -/
theorem simulate_of_decided {t : Scalar} {ctx : Ctx} {d : Nat} (h : BenchParams ctx t d) {F : F64Ops} (hF : F.Ok) {fft : Fft (2 ^ d)} {phi : Nat}
    (hf : fft.Bounded phi) (sg : SecretGen) {g : Gen (2 ^ d)} {B : Nat} (hg : g.Bounded B) {tree : Tree} {f : List Nat} {M : Nat} (hM : M ≤ 2 ^ d)
    (hroot : tree.isInternal = true) (hnodes : ∀ nd ∈ tree.flatten, nd.op = .leq ∧ nd.threshold < M) (hlab : ∃ x ∈ leafList tree, x ≠ 0)
    (hmax : ∀ x ∈ leafList tree, x < 2 ^ 48) (hfeat : tree.maxFeatureIndex < f.length ∧ ∀ v ∈ f, v < M)
    (hb : 2 * simulateNoise ctx (2 ^ d) B phi tree < 2 ^ 64 / t.toNat) :
    ∃ ys, simulate fft ctx F.ceilLog2 (genRlweSk (2 ^ d) sg).1 tree [f] g = some ys := by
  obtain ⟨ys, e, _⟩ := C39_simulate h.codec h.small h.bl h.lv h.room h.lt h.ksBl h.ksLv h.ksLt h.negBl h.negLv h.negLt hf (benchSk_binary sg) hg
    (tree := tree) (by
      cases tree with
      | missing => cases hroot
      | leaf x => cases hroot
      | internal d l r => exact ⟨d, l, r, rfl⟩)
    (fun nd hnd => by
      have := hnodes nd (((C35_flatten tree).2 nd).mpr hnd)
      exact ⟨this.1, lt_of_lt_of_le this.2 hM⟩) hF
    (by obtain ⟨x, a, b⟩ := hlab; exact ⟨x, b, mem_leafList.mp a⟩) (fun x hx => hmax x (mem_leafList.mpr hx))
    (features := [f]) (fun f' hf' => by
      rw [List.mem_singleton] at hf'
      subst hf'
      exact ⟨hfeat.1, fun v hv => lt_of_lt_of_le (hfeat.2 v hv) hM⟩) hb
  exact ⟨ys, e⟩

/-- C83: `test_traversal_1` passes. -/
theorem C83_traversal_1 {t : Scalar} {ctx : Ctx} {d : Nat} (h : BenchParams ctx t d) {F : F64Ops} (hF : F.Ok) {fft : Fft (2 ^ d)} {phi : Nat}
    (hf : fft.Bounded phi) (sg : SecretGen) {g : Gen (2 ^ d)} {B : Nat} (hg : g.Bounded B)
    (hb : 2 * (4 * (3 * extNoise (2 ^ d) ctx.baseLog ctx.levelCount (compareNoise ctx (2 ^ d) B phi) phi 1)) < 2 ^ 64 / t.toNat) :
    testTraversal1 ctx F.ceilLog2 fft sg g = some () := by
  have hM : 4 ≤ 2 ^ d := le_trans (by norm_num) (Nat.pow_le_pow_right (by norm_num) h.two)
  obtain ⟨tree, e1⟩ : ∃ tree, tree = Tree.internal ⟨2, 0, 0, .leq⟩ (.internal ⟨2, 1, 1, .leq⟩ (.leaf 0) (.internal ⟨3, 1, 2, .leq⟩ (.leaf 10) (.leaf 0))) (.leaf 0) :=
    ⟨_, rfl⟩
  have e2 : testTraversalClear traversalTree1 10 = some tree := by subst e1; decide +kernel
  have e3 : simulateNoise ctx (2 ^ d) B phi tree =
      4 * (3 * extNoise (2 ^ d) ctx.baseLog ctx.levelCount (compareNoise ctx (2 ^ d) B phi) phi 1) := by
    unfold simulateNoise
    rw [show tree.countLeaf = 4 by subst e1; decide +kernel, show tree.countDepth = 3 by subst e1; decide +kernel]
  obtain ⟨ys, e4⟩ := simulate_of_decided h hF hf sg hg (tree := tree) (f := [2, 3]) hM (by subst e1; rfl) (by subst e1; decide +kernel)
    (by subst e1; decide +kernel) (by subst e1; decide +kernel) (by subst e1; decide +kernel) (by rw [e3]; exact hb)
  unfold testTraversal1
  simp only [e2, e4, Option.bind_eq_bind, Option.bind_some, Option.pure_def]

/-- C83: `test_traversal_2` passes. -/
theorem C83_traversal_2 {t : Scalar} {ctx : Ctx} {d : Nat} (h : BenchParams ctx t d) {F : F64Ops} (hF : F.Ok) {fft : Fft (2 ^ d)} {phi : Nat}
    (hf : fft.Bounded phi) (sg : SecretGen) {g : Gen (2 ^ d)} {B : Nat} (hg : g.Bounded B)
    (hb : 2 * (4 * (3 * extNoise (2 ^ d) ctx.baseLog ctx.levelCount (compareNoise ctx (2 ^ d) B phi) phi 1)) < 2 ^ 64 / t.toNat) :
    testTraversal2 ctx F.ceilLog2 fft sg g = some () := by
  have hM : 4 ≤ 2 ^ d := le_trans (by norm_num) (Nat.pow_le_pow_right (by norm_num) h.two)
  obtain ⟨tree, e1⟩ : ∃ tree, tree = Tree.internal ⟨2, 0, 0, .leq⟩ (.internal ⟨2, 1, 1, .leq⟩ (.leaf 1) (.internal ⟨1, 1, 2, .leq⟩ (.leaf 1) (.leaf 0))) (.leaf 1) :=
    ⟨_, rfl⟩
  have e2 : testTraversalClear traversalTree2 0 = some tree := by subst e1; decide +kernel
  have e3 : simulateNoise ctx (2 ^ d) B phi tree =
      4 * (3 * extNoise (2 ^ d) ctx.baseLog ctx.levelCount (compareNoise ctx (2 ^ d) B phi) phi 1) := by
    unfold simulateNoise
    rw [show tree.countLeaf = 4 by subst e1; decide +kernel, show tree.countDepth = 3 by subst e1; decide +kernel]
  obtain ⟨ys, e4⟩ := simulate_of_decided h hF hf sg hg (tree := tree) (f := [2, 3]) hM (by subst e1; rfl) (by subst e1; decide +kernel)
    (by subst e1; decide +kernel) (by subst e1; decide +kernel) (by subst e1; decide +kernel) (by rw [e3]; exact hb)
  unfold testTraversal2
  simp only [e2, e4, Option.bind_eq_bind, Option.bind_some, Option.pure_def]

/-- The numbered tree of `test_traversal_long`. -/
def numberedLine : Nat → Nat → Tree
  | _, 0 => .leaf 1
  | i, d + 1 => .internal ⟨10, 0, i, .leq⟩ (numberedLine (i + 1) d) (.leaf 0)

/-- C83: `test_traversal_long` passes. -/
theorem C83_traversal_long {t : Scalar} {ctx : Ctx} {d : Nat} (h : BenchParams ctx t d) (h4 : 4 ≤ d) {F : F64Ops} (hF : F.Ok) {fft : Fft (2 ^ d)}
    {phi : Nat} (hf : fft.Bounded phi) (sg1 sg2 : SecretGen) {g1 g2 : Gen (2 ^ d)} {B : Nat} (hg1 : g1.Bounded B) (hg2 : g2.Bounded B)
    (hb : 2 * (11 * (10 * extNoise (2 ^ d) ctx.baseLog ctx.levelCount (compareNoise ctx (2 ^ d) B phi) phi 1)) < 2 ^ 64 / t.toNat) :
    testTraversalLong ctx F.ceilLog2 fft sg1 sg2 g1 g2 = some () := by
  have hM : 16 ≤ 2 ^ d := le_trans (by norm_num) (Nat.pow_le_pow_right (by norm_num) h4)
  obtain ⟨tree, e1⟩ : ∃ tree, tree = numberedLine 0 10 := ⟨_, rfl⟩
  have e2 : (genLine 10).fixIndex = some (tree, 10 - 1) := by subst e1; decide +kernel
  have e3 : simulateNoise ctx (2 ^ d) B phi tree =
      11 * (10 * extNoise (2 ^ d) ctx.baseLog ctx.levelCount (compareNoise ctx (2 ^ d) B phi) phi 1) := by
    unfold simulateNoise
    rw [show tree.countLeaf = 11 by subst e1; decide +kernel, show tree.countDepth = 10 by subst e1; decide +kernel]
  have r1 : tree.eval [1] = some 1 := by subst e1; decide +kernel
  have r2 : tree.eval [11] = some 0 := by subst e1; decide +kernel
  obtain ⟨y1, e4⟩ := simulate_of_decided h hF hf sg1 hg1 (tree := tree) (f := [1]) hM (by subst e1; rfl) (by subst e1; decide +kernel)
    (by subst e1; decide +kernel) (by subst e1; decide +kernel) (by subst e1; decide +kernel) (by rw [e3]; exact hb)
  obtain ⟨y2, e5⟩ := simulate_of_decided h hF hf sg2 hg2 (tree := tree) (f := [11]) hM (by subst e1; rfl) (by subst e1; decide +kernel)
    (by subst e1; decide +kernel) (by subst e1; decide +kernel) (by subst e1; decide +kernel) (by rw [e3]; exact hb)
  unfold testTraversalLong
  simp only [e2, r1, r2, e4, e5, Option.bind_eq_bind, Option.bind_some, assertT, if_true, Option.pure_def]

/-! ## The Fourier product -/

theorem forT_index {σ : Type} {f : Nat → σ → Option σ} {P : Nat → σ → Prop} : ∀ (m k : Nat) (x : σ), P k x →
    (∀ i x, k ≤ i → i < k + m → P i x → ∃ y, f i x = some y ∧ P (i + 1) y) → ∃ y, forT f (List.range' k m) x = some y ∧ P (k + m) y
  | 0, k, x, h, _ => ⟨x, rfl, h⟩
  | m + 1, k, x, h, hs => by
    obtain ⟨y, e1, h1⟩ := hs k x (le_refl k) (by omega) h
    obtain ⟨z, e2, h2⟩ := forT_index m (k + 1) y h1 (fun i x a b => hs i x (by omega) (by omega))
    refine ⟨z, ?_, by rw [show k + (m + 1) = k + 1 + m by omega]; exact h2⟩
    rw [List.range'_succ, forT, e1]
    exact e2

/-- The random ternary and the random uniform polynomial of round `i` of `test_fourier_mul`. -/
def fourierMulPair (g : Gen n) (i : Nat) : Poly n × Poly n :=
  (⟨fun k => ternaryOf (g.plains (g.pos + 2 * i) k)⟩, g.plains (g.pos + 2 * i + 1))

/-- The exact sum of the products of the first `k` rounds of `test_fourier_mul`. -/
def fourierMulExact (g : Gen n) : Nat → Poly n
  | 0 => 0
  | k + 1 => fourierMulExact g k + (fourierMulPair g k).1 * (fourierMulPair g k).2

theorem ternaryOf_small (x : Scalar) : nrm (ternaryOf x) ≤ 1 := by
  unfold ternaryOf
  split
  · decide
  · split <;> decide

theorem nearest_ofNat {F : F64Ops} (hF : F.Ok) {x : Nat} (hx : x < 2 ^ 64) : |F.ofNat x - x| ≤ 2 ^ 11 := by
  have hz : IsF64 ((x / 2 ^ 11 * 2 ^ 11 : Nat) : ℝ) := by
    refine ⟨(x / 2 ^ 11 : Nat), 11, ?_, by norm_num, by norm_num, by
      rw [Nat.cast_mul, Int.cast_natCast]; norm_num⟩
    rw [abs_of_nonneg (by positivity)]
    have : x / 2 ^ 11 ≤ 2 ^ 53 := by omega
    exact_mod_cast this
  refine le_trans ((hF.1 x).2 _ hz) ?_
  have h1 : x / 2 ^ 11 * 2 ^ 11 ≤ x := Nat.div_mul_le_self x _
  have h2 : x - x / 2 ^ 11 * 2 ^ 11 ≤ 2 ^ 11 := by omega
  have h1' : ((x / 2 ^ 11 * 2 ^ 11 : Nat) : ℝ) ≤ x := by exact_mod_cast h1
  have h2' : (x : ℝ) - ((x / 2 ^ 11 * 2 ^ 11 : Nat) : ℝ) ≤ 2 ^ 11 := by
    rw [← Nat.cast_sub h1]; exact_mod_cast h2
  rw [abs_le]
  constructor <;> linarith

theorem nearest_sub_le {x y d : ℝ} (h : NearestF64 (x - y) d) : |d| ≤ 2 * |x - y| := by
  have h0 : IsF64 0 := ⟨0, 0, by norm_num, by norm_num, by norm_num, by norm_num⟩
  have := h.2 0 h0
  rw [zero_sub, abs_neg] at this
  calc |d| = |(d - (x - y)) + (x - y)| := by congr 1; ring
    _ ≤ |d - (x - y)| + |x - y| := abs_add_le _ _
    _ ≤ 2 * |x - y| := by linarith

/-- One comparison of `test_fourier_mul` succeeds if the difference does not wrap around. -/
theorem fourierMulCheck_some {F : F64Ops} (hF : F.Ok) {sub : ℝ → ℝ → ℝ} (hsub : ∀ x y, NearestF64 (x - y) (sub x y)) {tol : ℝ} {a b : Scalar} {e : Nat}
    (hab : nrm (a - b) ≤ e) (hb1 : e ≤ b.toNat) (hb2 : b.toNat + e < 2 ^ 64) (htol : 2 * ((e : ℝ) + 2 ^ 12) < tol) :
    fourierMulCheck F sub tol a b = some () := by
  have hint : (a.toNat : Int) - b.toNat = (a - b).toInt := by
    have hx : a = b + (a - b) := by ring
    have h1 : ((a - b).toInt).natAbs ≤ e := hab
    have h2 : a.toNat = (b.toNat + (a - b).toNat) % 2 ^ 64 := by
      conv_lhs => rw [hx]
      exact BitVec.toNat_add _ _
    have h3 := BitVec.toInt_eq_toNat_cond (a - b)
    have h4 := (a - b).isLt
    have h5 := b.isLt
    split at h3 <;> omega
  have hnat : |(a.toNat : ℝ) - b.toNat| ≤ e := by
    have h1 : ((a - b).toInt).natAbs ≤ e := hab
    have h2 : |(a.toNat : Int) - b.toNat| ≤ (e : Int) := by rw [hint, Int.abs_eq_natAbs]; exact_mod_cast h1
    exact_mod_cast h2
  refine assertT_pos ?_
  have d1 := nearest_ofNat hF a.isLt
  have d2 := nearest_ofNat hF b.isLt
  refine lt_of_le_of_lt (nearest_sub_le (hsub _ _)) (lt_of_le_of_lt ?_ htol)
  rw [abs_le] at d1 d2 hnat
  have : |F.ofNat a.toNat - F.ofNat b.toNat| ≤ (e : ℝ) + 2 ^ 12 := by
    rw [abs_le]
    constructor <;> linarith
  linarith

/-- C83: `test_fourier_mul` passes whenever no coefficient of the ten exact sums is within the accumulated error of 0 modulo 2^64 (the tolerance
of the test is about 2^34). -/
theorem C83_fourier_mul {F : F64Ops} (hF : F.Ok) {sub : ℝ → ℝ → ℝ} (hsub : ∀ x y, NearestF64 (x - y) (sub x y)) {tol : ℝ} (htol : 2 ^ 34 ≤ tol)
    {fft : Fft n} {phi : Nat} (hf : fft.Bounded phi) (hphi : phi ≤ 2 ^ 29) (g : Gen n)
    (hfar : ∀ i < 10, ∀ k, 10 * phi ≤ (fourierMulExact g (i + 1) k).toNat ∧ (fourierMulExact g (i + 1) k).toNat + 10 * phi < 2 ^ 64) :
    testFourierMul F sub tol fft g = some () := by
  unfold testFourierMul
  obtain ⟨y, e, _⟩ := forT_index (σ := (Poly n × Poly n) × Gen n)
    (f := fun _ (st : (Poly n × Poly n) × Gen n) =>
      (mapOption (fun k => fourierMulCheck F sub tol (fourierUpdateWithMulAcc fft st.1.1 (genTernaryPtxt st.2).1
          ((genTernaryPtxt st.2).2.plains (genTernaryPtxt st.2).2.pos) k)
        (naiveUpdateWithMulAcc st.1.2 (genTernaryPtxt st.2).1 ((genTernaryPtxt st.2).2.plains (genTernaryPtxt st.2).2.pos) k)) (List.finRange n)).bind
        fun _ => some ((fourierUpdateWithMulAcc fft st.1.1 (genTernaryPtxt st.2).1 ((genTernaryPtxt st.2).2.plains (genTernaryPtxt st.2).2.pos),
          naiveUpdateWithMulAcc st.1.2 (genTernaryPtxt st.2).1 ((genTernaryPtxt st.2).2.plains (genTernaryPtxt st.2).2.pos)), (genTernaryPtxt st.2).2.next))
    (P := fun i st => st.1.2 = fourierMulExact g i ∧ Small (st.1.1 - st.1.2) (i * phi) ∧ st.2 = { g with pos := g.pos + 2 * i }) 10 0 ((0, 0), g)
    ⟨rfl, by rw [zero_mul]; exact fun k => by simp, rfl⟩ (by
      rintro i ⟨⟨oF, oN⟩, g'⟩ _ hi ⟨h1, h2, h3⟩
      simp only at h1 h2 h3
      subst h3
      have ha : (genTernaryPtxt { g with pos := g.pos + 2 * i }).1 = (fourierMulPair g i).1 := rfl
      have hb : (genTernaryPtxt { g with pos := g.pos + 2 * i }).2.plains (genTernaryPtxt { g with pos := g.pos + 2 * i }).2.pos =
        (fourierMulPair g i).2 := rfl
      simp only [ha, hb]
      have hw : FPoly.weight [fourierMulPair g i] ≤ 1 := by
        unfold FPoly.weight
        simp only [List.map_cons, List.map_nil, List.sum_cons, List.sum_nil, add_zero]
        exact le_trans (min_le_left _ _) (supNorm_le fun k => ternaryOf_small _)
      have herr : Small (fft.err [fourierMulPair g i]) phi := (hf [fourierMulPair g i] (by simp)).mono
        (le_trans (Nat.mul_le_mul_left phi hw) (by rw [mul_one]))
      have hN : naiveUpdateWithMulAcc oN (fourierMulPair g i).1 (fourierMulPair g i).2 = fourierMulExact g (i + 1) := by
        rw [fourierMulExact, ← h1]; rfl
      have hS : Small (fourierUpdateWithMulAcc fft oF (fourierMulPair g i).1 (fourierMulPair g i).2 -
          naiveUpdateWithMulAcc oN (fourierMulPair g i).1 (fourierMulPair g i).2) ((i + 1) * phi) := by
        have e : fourierUpdateWithMulAcc fft oF (fourierMulPair g i).1 (fourierMulPair g i).2 -
          naiveUpdateWithMulAcc oN (fourierMulPair g i).1 (fourierMulPair g i).2 = (oF - oN) + fft.err [fourierMulPair g i] := by
          unfold fourierUpdateWithMulAcc naiveUpdateWithMulAcc Fft.backward FPoly.eval
          simp only [List.foldr_cons, List.foldr_nil, Prod.mk.eta]
          ring
        rw [e, Nat.succ_mul]
        exact h2.add herr
      have hchk : ∃ l, mapOption (fun k => fourierMulCheck F sub tol (fourierUpdateWithMulAcc fft oF (fourierMulPair g i).1 (fourierMulPair g i).2 k)
          (naiveUpdateWithMulAcc oN (fourierMulPair g i).1 (fourierMulPair g i).2 k)) (List.finRange n) = some l := by
        obtain ⟨l, hl, _⟩ := mapOption_spec (f := fun k => fourierMulCheck F sub tol
          (fourierUpdateWithMulAcc fft oF (fourierMulPair g i).1 (fourierMulPair g i).2 k)
          (naiveUpdateWithMulAcc oN (fourierMulPair g i).1 (fourierMulPair g i).2 k)) (Q := fun _ _ => True) (List.finRange n) (fun k _ => by
            refine ⟨(), ?_, trivial⟩
            have hle : (i + 1) * phi ≤ 10 * phi := Nat.mul_le_mul_right phi (by omega)
            have hk := hfar i (by omega) k
            have hsk := hS k
            rw [Poly.sub_apply] at hsk
            rw [hN] at hsk ⊢
            refine fourierMulCheck_some hF hsub (le_trans hsk hle) hk.1 hk.2 (lt_of_lt_of_le ?_ htol)
            have : ((10 * phi : Nat) : ℝ) ≤ 10 * 2 ^ 29 := by
              push_cast
              have : (phi : ℝ) ≤ 2 ^ 29 := by exact_mod_cast hphi
              linarith
            norm_num at this ⊢
            linarith)
        exact ⟨l, hl⟩
      obtain ⟨l, hl⟩ := hchk
      refine ⟨((fourierUpdateWithMulAcc fft oF (fourierMulPair g i).1 (fourierMulPair g i).2,
        naiveUpdateWithMulAcc oN (fourierMulPair g i).1 (fourierMulPair g i).2), { g with pos := g.pos + 2 * (i + 1) }), ?_, hN, hS, rfl⟩
      rw [hl]
      rfl)
  rw [show List.range 10 = List.range' 0 10 from List.range_eq_range']
  simp only [Option.bind_eq_bind, Option.pure_def]
  rw [e]
  rfl

/-- C83 (finding): `test_fourier_mul` compares the words as unsigned numbers, so a correct product whose rounding error crosses 0 modulo 2^64
fails: whenever some coefficient of the first product is below the permitted error, some rounding within the error bound makes the test fail. -/
theorem C83_fourier_mul_fails {F : F64Ops} (hF : F.Ok) {sub : ℝ → ℝ → ℝ} (hsub : ∀ x y, NearestF64 (x - y) (sub x y)) {tol : ℝ} (htol : tol ≤ 2 ^ 63)
    (g : Gen n) (k : Fin n) {phi : Nat} (hphi : phi ≤ 2 ^ 40) (hw : 1 ≤ FPoly.weight [fourierMulPair g 0])
    (hk : (((fourierMulPair g 0).1 * (fourierMulPair g 0).2) k).toNat < phi) :
    ∃ fft : Fft n, fft.Bounded phi ∧ testFourierMul F sub tol fft g = none := by
  obtain ⟨v, hv⟩ : ∃ v, v = ((fourierMulPair g 0).1 * (fourierMulPair g 0).2) k := ⟨_, rfl⟩
  rw [← hv] at hk
  have hnv : nrm (-(v + 1)) ≤ phi := by
    have h1 : (v + 1).toNat = v.toNat + 1 := by
      rw [BitVec.toNat_add, show (1 : Scalar).toNat = 1 from rfl]
      omega
    rw [nrm_neg]
    unfold nrm
    rw [BitVec.toInt_eq_toNat_of_lt (by omega), h1]
    omega
  refine ⟨⟨fun ts => if 1 ≤ FPoly.weight ts then ⟨fun j => if j = k then -(v + 1) else 0⟩ else 0⟩, fun ts _ => ?_, ?_⟩
  · show Small (if 1 ≤ FPoly.weight ts then (⟨fun j => if j = k then -(v + 1) else 0⟩ : Poly n) else 0) _
    split
    · next h =>
      intro j
      show nrm (if j = k then -(v + 1) else 0) ≤ _
      split
      · exact le_trans hnv (Nat.le_mul_of_pos_right phi h)
      · exact le_trans (le_of_eq nrm_zero) (Nat.zero_le _)
    · exact Small.zero _
  · obtain ⟨fft, hfft⟩ : ∃ fft : Fft n, fft = ⟨fun ts => if 1 ≤ FPoly.weight ts then ⟨fun j => if j = k then -(v + 1) else 0⟩ else 0⟩ := ⟨_, rfl⟩
    rw [← hfft]
    have hout : fourierUpdateWithMulAcc fft 0 (fourierMulPair g 0).1 (fourierMulPair g 0).2 k = -1 := by
      unfold fourierUpdateWithMulAcc Fft.backward FPoly.eval
      have herr : fft.err [((fourierMulPair g 0).1, (fourierMulPair g 0).2)] = ⟨fun j => if j = k then -(v + 1) else 0⟩ := by
        rw [hfft, Prod.mk.eta]
        exact if_pos hw
      rw [herr, Poly.add_apply, Poly.add_apply]
      simp only [List.foldr_cons, List.foldr_nil, add_zero]
      rw [← hv]
      rw [if_pos trivial, Poly.zero_apply]
      ring
    have hnaive : naiveUpdateWithMulAcc 0 (fourierMulPair g 0).1 (fourierMulPair g 0).2 k = v := by
      unfold naiveUpdateWithMulAcc
      rw [zero_add, ← hv]
    have hchk : fourierMulCheck F sub tol (-1) v = none := by
      refine if_neg (not_lt.mpr ?_)
      have d1 := nearest_ofNat hF (-1 : Scalar).isLt
      have d2 := nearest_ofNat hF v.isLt
      have h1 : ((-1 : Scalar).toNat : ℝ) = 2 ^ 64 - 1 := by
        rw [show (-1 : Scalar).toNat = 2 ^ 64 - 1 by decide +kernel]
        norm_num
      have h2 : (v.toNat : ℝ) ≤ 2 ^ 40 := by
        have : v.toNat ≤ 2 ^ 40 := by omega
        exact_mod_cast this
      rw [h1] at d1
      rw [abs_le] at d1 d2
      have hge : (2 : ℝ) ^ 63 ≤ F.ofNat (-1 : Scalar).toNat - F.ofNat v.toNat := by
        have a1 := d1.1
        have a2 := d2.2
        have a3 : (2 : ℝ) ^ 64 - 1 - 2 ^ 11 - 2 ^ 11 - 2 ^ 40 ≥ 2 ^ 63 := by norm_num
        linarith
      have h63 : IsF64 ((2 : ℝ) ^ 63) := isF64_pow (by norm_num)
      have hs := (hsub (F.ofNat (-1 : Scalar).toNat) (F.ofNat v.toNat)).2 _ h63
      rw [abs_of_nonpos (by linarith : (2 : ℝ) ^ 63 - (F.ofNat (-1 : Scalar).toNat - F.ofNat v.toNat) ≤ 0)] at hs
      rw [abs_le] at hs
      refine le_trans htol (le_trans ?_ (le_abs_self _))
      linarith [hs.1]
    have hfail : mapOption (fun j => fourierMulCheck F sub tol (fourierUpdateWithMulAcc fft 0 (fourierMulPair g 0).1 (fourierMulPair g 0).2 j)
        (naiveUpdateWithMulAcc 0 (fourierMulPair g 0).1 (fourierMulPair g 0).2 j)) (List.finRange n) = none :=
      mapOption_none (List.mem_finRange k) (by rw [hout, hnaive]; exact hchk)
    unfold testFourierMul
    have ha : (genTernaryPtxt g).1 = (fourierMulPair g 0).1 := rfl
    have hb : (genTernaryPtxt g).2.plains (genTernaryPtxt g).2.pos = (fourierMulPair g 0).2 := rfl
    rw [show List.range 10 = 0 :: List.range' 1 9 from rfl, forT]
    simp only [ha, hb, hfail, Option.bind_eq_bind, Option.bind_none]

/-! ## Noise measurement -/

/-- The noise of the ciphertext and of the encryption of zero of `test_compute_noise`. -/
def computeNoiseErrs (g : Gen n) : Poly n × Poly n := (g.noises (g.pos + 1), g.noises (g.pos + 2))

open Classical in
theorem testComputeNoise_eq {t : Scalar} {ctx : Ctx} (hc : Codec.new t = some ctx.codec) (F : F64Ops) (support : ℝ) (sg : SecretGen) (g : Gen n) :
    ∃ s msg c0 c1, decryptRlwe s c0 - msg = (computeNoiseErrs g).1 ∧ decryptRlwe s c1 - msg = (computeNoiseErrs g).1 + (computeNoiseErrs g).2 ∧
      testComputeNoise F support ctx sg g = ((computeNoise F s c0 msg).bind fun noise0 => (assertT (noise0.lt (.fin support))).bind fun _ =>
        (computeNoise F s c1 msg).bind fun noise1 => assertT (noise0.lt noise1)) := by
  obtain ⟨enc, he⟩ := polyEncode_total hc (genBinaryPt_encodable hc g)
  refine ⟨(genRlweSk n sg).1, enc, (encryptRlwe (genRlweSk n sg).1 enc (genBinaryPt g).2).1,
    (encryptRlwe (genRlweSk n sg).1 enc (genBinaryPt g).2).1 +
      (encryptRlwe (genRlweSk n sg).1 0 (encryptRlwe (genRlweSk n sg).1 enc (genBinaryPt g).2).2).1, ?_, ?_, ?_⟩
  · rw [decrypt_encrypt, add_sub_cancel_left]; rfl
  · rw [decrypt_add, decrypt_encrypt, decrypt_encrypt, zero_add, add_assoc, add_sub_cancel_left]; rfl
  · unfold testComputeNoise
    simp only [he, Option.bind_eq_bind, Option.bind_some]

open Classical in
/-- C83: `test_compute_noise` passes if for some `k` below the support the first noise is within 2^k and the sum of both noises somewhere reaches
2^(k+1) (and is nowhere exactly -2^63). -/
theorem C83_compute_noise {t : Scalar} {ctx : Ctx} (hc : Codec.new t = some ctx.codec) {F : F64Ops} (hF : F.Ok) {support : ℝ} (sg : SecretGen) (g : Gen n)
    {k : Nat} (hk : k < 63) (hsup : (k : ℝ) < support) (h0 : ∀ i, |((computeNoiseErrs g).1 i).toInt| ≤ 2 ^ k)
    (h1 : ∃ i, 2 ^ (k + 1) ≤ |(((computeNoiseErrs g).1 + (computeNoiseErrs g).2) i).toInt|)
    (h2 : ∀ i, (((computeNoiseErrs g).1 + (computeNoiseErrs g).2) i).toInt ≠ -2 ^ 63) :
    testComputeNoise F support ctx sg g = some () := by
  obtain ⟨s, msg, c0, c1, e0, e1, e2⟩ := testComputeNoise_eq hc F support sg g
  have some_of : ∀ c : RLWE n, (∀ i, ((decryptRlwe s c - msg) i).toInt ≠ -2 ^ 63) → ∃ v, computeNoise F s c msg = some v := by
    intro c h
    unfold computeNoise
    rcases hm : computeNoiseMax s c msg with _ | z
    · obtain ⟨i, hi⟩ := (C32_panics_iff s c msg).mp hm
      exact absurd hi (h i)
    · exact ⟨_, rfl⟩
  have hlt : (2 : Int) ^ k < 2 ^ 63 := pow_lt_pow_right₀ (by norm_num) hk
  obtain ⟨v0, w0⟩ := some_of c0 (fun i hi => by
    rw [e0] at hi
    have := h0 i
    rw [hi, abs_neg, abs_of_nonneg (by positivity)] at this
    exact absurd this (not_le.mpr hlt))
  obtain ⟨v1, w1⟩ := some_of c1 (fun i => by rw [e1]; exact h2 i)
  have p0 := (C77_thresholds hF w0 (k := k) (by omega)).1 (fun i => by rw [e0]; exact h0 i)
  have p1 := (C77_thresholds hF w1 (k := k + 1) (by omega)).2.1 (by rw [e1]; exact h1)
  rw [e2, w0, w1, Option.bind_some, Option.bind_some]
  have q0 : v0.lt (.fin support) := by
    cases v0 with
    | nan => exact p0.elim
    | negInf => trivial
    | fin y => exact lt_of_le_of_lt p0 hsup
  have q1 : v0.lt v1 := by
    cases v1 with
    | nan => exact p1.elim
    | negInf => exact p1.elim
    | fin z =>
      cases v0 with
      | nan => exact p0.elim
      | negInf => trivial
      | fin y =>
        have a : y ≤ k := p0
        have b : ((k + 1 : Nat) : ℝ) ≤ z := p1
        push_cast at b
        show y < z
        linarith
  rw [assertT_pos q0, Option.bind_some, assertT_pos q1]

open Classical in
/-- C83 (finding): `test_compute_noise` fails when the noise of the encryption of zero happens to be zero, or to cancel the other one, or more generally
not to push the largest coefficient over a power of two below which it started. -/
theorem C83_compute_noise_fails {t : Scalar} {ctx : Ctx} (hc : Codec.new t = some ctx.codec) {F : F64Ops} (hF : F.Ok) (support : ℝ) (sg : SecretGen)
    (g : Gen n) (h : (computeNoiseErrs g).2 = 0 ∨ (computeNoiseErrs g).1 + (computeNoiseErrs g).2 = 0 ∨
      ∃ k ≤ 63, (∃ i, 2 ^ k ≤ |((computeNoiseErrs g).1 i).toInt|) ∧ ∀ i, |(((computeNoiseErrs g).1 + (computeNoiseErrs g).2) i).toInt| ≤ 2 ^ k) :
    testComputeNoise F support ctx sg g = none := by
  obtain ⟨s, msg, c0, c1, e0, e1, e2⟩ := testComputeNoise_eq hc F support sg g
  rw [e2]
  rcases w0 : computeNoise F s c0 msg with _ | v0
  · rfl
  rw [Option.bind_some]
  by_cases ha : v0.lt (.fin support)
  swap
  · rw [show assertT (v0.lt (.fin support)) = none from if_neg ha]; rfl
  rw [assertT_pos ha, Option.bind_some]
  rcases w1 : computeNoise F s c1 msg with _ | v1
  · rfl
  rw [Option.bind_some]
  refine if_neg ?_
  rcases h with h | h | ⟨k, hk, ha', hb'⟩
  · have : v1 = v0 := by
      have hd : decryptRlwe s c1 - msg = decryptRlwe s c0 - msg := by rw [e0, e1, h, add_zero]
      unfold computeNoise computeNoiseMax at w0 w1
      rw [hd, w0] at w1
      exact (Option.some.inj w1).symm
    subst this
    cases v1 with
    | nan => exact fun h => h
    | negInf => exact fun h => h
    | fin y => exact lt_irrefl y
  · have : v1 = .negInf := (C77_thresholds hF w1 (k := 0) (by omega)).2.2.2.1.mpr (by
      rw [h] at e1
      exact sub_eq_zero.mp e1)
    subst this
    cases v0 <;> exact fun h => h
  · have p0 := (C77_thresholds hF w0 hk).2.1 (by rw [e0]; exact ha')
    have p1 := (C77_thresholds hF w1 hk).1 (fun i => by rw [e1]; exact hb' i)
    cases v0 with
    | nan => exact fun h => h
    | negInf => exact p0.elim
    | fin y =>
      cases v1 with
      | nan => exact fun h => h
      | negInf => exact fun h => h
      | fin z => exact not_lt.mpr (le_trans p1 p0)

end Panacea
