import Verif.Props.Measured

/-!
# C71: encrypted tree evaluation for the noise of the run at hand

As C70, for the decision trees: the hypotheses bound the errors of the comparisons, key switches and external products of the run
(`Spec/MeasuredTree`), so the theorems apply to the default parameters, which `simulate` always uses.
-/

namespace Panacea
open Tree Spec
variable {n : Nat}

theorem fourierSubs_exists {d : Nat} {s : Poly (2 ^ d)} (hs : Small s 1) {K : KeyswitchKey (2 ^ d)} (hK : K.WF) {E : Nat}
    (hk : K.subsK % 2 = 1) (hE : IsKsk s K (s.subst K.subsK) E) (after : FRLWE (2 ^ d)) (c : RLWE (2 ^ d)) :
    ∃ b, K.fourierSubs after c = some b := by
  obtain ⟨b, h, _⟩ := fourierSubs_spec (fft := ⟨fun _ => 0⟩) (phi := 0) (fun _ _ => Small.zero _) hs hK hk hE after c
  exact ⟨b, h⟩

theorem trace1FourierLoop_of {d : Nat} {fft : Fft (2 ^ d)} {s : Poly (2 ^ d)} (hs : Small s 1)
    {bl lv E V : Nat} (h1 : 1 ≤ bl) (h2 : 1 ≤ lv) (h3 : bl * lv < 64) {ksks : KskMap (2 ^ d)} (hk : TraceKeys s bl lv E ksks)
    (p : Poly (2 ^ d)) : ∀ (m i : Nat) (buf : FRLWE (2 ^ d)) (c : RLWE (2 ^ d)) (e : Nat), i + m = d → Enc s c (tracePoly i p) e →
    (∀ x ∈ traceCalls fft ksks (List.range' (i + 1) m) buf c, SwitchOk fft s E V x.1 x.2.1 x.2.2) →
    ∃ out, trace1FourierLoop fft ksks (List.range' (i + 1) m) buf c = some out ∧
      Enc s out (tracePoly d p) (2 ^ m * e + (2 ^ m - 1) * V)
  | 0, i, buf, c, e, hm, hc, _ => by
    refine ⟨c, rfl, ?_⟩
    have : i = d := by omega
    subst this
    simpa using hc
  | m + 1, i, buf, c, e, hm, hc, hx => by
    obtain ⟨K, hK, hKs⟩ := hk (i + 1) (by omega) (by omega)
    have hwf : K.WF := ⟨by rw [hKs.bl]; exact h1, by rw [hKs.lv]; exact h2, by rw [hKs.bl, hKs.lv]; exact h3⟩
    have hksk : IsKsk s K (s.subst K.subsK) E := by rw [hKs.subsK]; exact hKs.ksk
    obtain ⟨b, hb1⟩ := fourierSubs_exists hs hwf (by rw [hKs.subsK]; exact traceExp_odd (by omega) (by omega)) hksk buf c
    rw [List.range'_succ, traceCalls] at hx
    simp only [hK, hb1] at hx
    have hb2 := hx _ (List.mem_cons_self ..) hksk b hb1
    rw [hKs.subsK] at hb2
    have hr := trace_round (by omega) hc hb2
    have hadd : c + ⟨fft.backward b.mask, fft.backward b.body⟩
        = (⟨c.mask + fft.backward b.mask, c.body + fft.backward b.body⟩ : RLWE (2 ^ d)) := rfl
    rw [hadd] at hr
    obtain ⟨out, ho1, ho2⟩ := trace1FourierLoop_of hs h1 h2 h3 hk p m (i + 1) b _ _ (by omega) hr
      (fun x hx' => hx x (List.mem_cons_of_mem _ hx'))
    refine ⟨out, ?_, ho2.mono ?_⟩
    · rw [List.range'_succ, trace1FourierLoop]
      simp only [hK, hKs.subsK, if_true, hb1]
      exact ho1
    · have hpos : 0 < 2 ^ m := by positivity
      obtain ⟨q, hq⟩ : ∃ q, 2 ^ m = q + 1 := ⟨2 ^ m - 1, by omega⟩
      rw [pow_succ, hq]
      apply le_of_eq
      rw [show (q + 1) * 2 - 1 = 2 * q + 1 by omega, Nat.add_sub_cancel]; ring

theorem trace1Fourier_of {d : Nat} (hd : d < 64) {fft : Fft (2 ^ d)} {s : Poly (2 ^ d)} (hs : Small s 1)
    {bl lv E V : Nat} (h1 : 1 ≤ bl) (h2 : 1 ≤ lv) (h3 : bl * lv < 64) {ksks : KskMap (2 ^ d)} (hk : TraceKeys s bl lv E ksks)
    {p : Poly (2 ^ d)} {c : RLWE (2 ^ d)} {e : Nat} (hc : Enc s c p e)
    (hx : ∀ x ∈ traceCalls fft ksks (List.range' 1 d) ⟨[], []⟩ c, SwitchOk fft s E V x.1 x.2.1 x.2.2) :
    ∃ out, trace1Fourier fft ksks c = some out ∧ Enc s out (Poly.const (2 ^ d) (2 ^ d * p.get 0)) (2 ^ d * e + (2 ^ d - 1) * V) := by
  unfold trace1Fourier
  rw [log2_pow hd, ← tracePoly_full]
  exact trace1FourierLoop_of hs h1 h2 h3 hk p d 0 ⟨[], []⟩ c e (by omega) (by rw [tracePoly_zero]; exact hc) hx

/-- The comparison, with the error of its multiplication given. -/
theorem lessEqThan_of {fft : Fft n} {s : Poly n} {c : RLWE n} {v : Scalar} {m d e V : Nat} (hm : m < n) (hd : d < n)
    (h : Enc s c (Poly.const n v * Spec.X n ^ m) e)
    (hV : ∀ c', c.lessEqThan fft d = some c' → Enc s c' (RLWE.leqPoly n d * decryptRlwe s c) V) :
    ∃ c', c.lessEqThan fft d = some c' ∧ nrm ((decryptRlwe s c').get 0 - (if m ≤ d then v else 0)) ≤ n * e + V := by
  have hn : 0 < n := by omega
  obtain ⟨c', hc'⟩ : ∃ c', c.lessEqThan fft d = some c' := by unfold RLWE.lessEqThan; rw [if_pos hd]; exact ⟨_, rfl⟩
  refine ⟨c', hc', ?_⟩
  have hx : Spec.X n ^ m = Poly.mono n m := by unfold Spec.X; rw [Poly.mono_pow, one_mul]
  rw [hx] at h
  have h1 := ((Small.l1_mul (RLWE.leqPoly n d) h).add (hV c' hc')) ⟨0, hn⟩
  have hg := Poly.get_lt (decryptRlwe s c') ⟨0, hn⟩
  simp only at hg
  rw [hg]
  have e1 : RLWE.leqPoly n d * (decryptRlwe s c - Poly.const n v * Poly.mono n m) + (decryptRlwe s c' - RLWE.leqPoly n d * decryptRlwe s c)
      = decryptRlwe s c' - Poly.const n v * (RLWE.leqPoly n d * Poly.mono n m) := by ring
  rw [e1, Poly.sub_apply, Poly.const_mul_apply, leqPoly_coeff hn hm hd,
    show v * (if m ≤ d then 1 else 0) = if m ≤ d then v else 0 by split <;> simp] at h1
  refine le_trans h1 (Nat.add_le_add_right (Nat.mul_le_mul_right _ ?_) _)
  exact le_trans (l1_leqPoly hd) hd

/-- C71 (choice bits): comparing and expanding the client's feature ciphertexts gives, for every node of the tree, a usable encryption of
the comparison bit, with the row noise measured in this evaluation. -/
theorem C71_compare_expand {d : Nat} (hd : d < 64) {ctx : Ctx} (h1 : 1 ≤ ctx.baseLog) (hl1 : 1 ≤ ctx.levelCount)
    (h2' : ctx.baseLog * ctx.levelCount < 64)
    (hk1 : 1 ≤ ctx.ksBaseLog) (hk2 : 1 ≤ ctx.ksLevelCount) (hk3 : ctx.ksBaseLog * ctx.ksLevelCount < 64)
    {fft : Fft (2 ^ d)} {s : Poly (2 ^ d)} (hs : Binary s) {B : Nat}
    {ksks : KskMap (2 ^ d)} (hk : TraceKeys s ctx.ksBaseLog ctx.ksLevelCount B ksks)
    {negS : RGSW (2 ^ d)} (hneg : EncG s negS (-s) B)
    {features : List Nat} {cts : List (List (RLWE (2 ^ d)))}
    (hcts : List.Forall₂ (fun v (cts : List (RLWE (2 ^ d))) => v < 2 ^ d ∧ cts.length = ctx.levelCount ∧ ∀ i c, cts[i]? = some c →
        ctx.baseLog * (i + 1) + d ≤ 64 ∧
        Enc s c (Poly.const _ ((1 : Scalar) <<< (64 - ctx.baseLog * (i + 1) - d)) * Spec.X _ ^ v) B) features cts)
    {tree : Tree} (hev : ∀ nd, HasNode nd tree → nd.op = .leq ∧ nd.feature < features.length ∧ nd.threshold < 2 ^ d)
    {m : TreeMeasure} (hm : ∀ nd, HasNode nd tree → MeasuredNode fft s ctx ksks negS cts nd B m) :
    ∃ bits, compareExpand fft ctx tree.flatten cts ksks negS = some bits ∧
      EncChoices s features tree bits ctx.baseLog ctx.levelCount (m.rows (2 ^ d) B) := by
  have hn : 0 < 2 ^ d := by positivity
  unfold compareExpand EncChoices
  refine mapOption_spec _ fun nd hnd => ?_
  have hnd' := ((C35_flatten tree).2 nd).mp hnd
  obtain ⟨hop, hfe, hth⟩ := hev nd hnd'
  have hM := hm nd hnd'
  obtain ⟨fc, hfc, hv, hlen, hrow⟩ := forall₂_getElem_left hcts (List.getElem?_eq_getElem hfe)
  set v := features[nd.feature] with hvdef
  unfold compareExpandOne
  rw [hfc]
  simp only
  obtain ⟨fc', e1, e2⟩ := mapOption_spec (f := compareCt fft nd)
    (Q := fun c c' => c.lessEqThan fft nd.threshold = some c') fc (fun c hc => by
      unfold compareCt
      rw [hop]
      simp only
      rcases h : c.lessEqThan fft nd.threshold with _ | c'
      · rw [C23_panics_iff] at h; omega
      · exact ⟨c', rfl, rfl⟩)
  rw [e1]
  simp only
  have hlen' : fc'.length = fc.length := e2.length_eq.symm
  have hbit : cmpBit features nd = decide (v ≤ nd.threshold) := by
    unfold cmpBit; rw [List.getElem?_eq_getElem hfe]
  -- the traced ciphertexts
  have htr : ∀ (i : Nat) c', fc'[i]? = some c' → ∃ c o, fc[i]? = some c ∧ c.lessEqThan fft nd.threshold = some c' ∧
      trace1Fourier fft ksks c' = some o ∧
      Enc s o (Poly.const _ (gadget ctx.baseLog (i + 1)) * if decide (v ≤ nd.threshold) then 1 else 0) (m.trace (2 ^ d) B) := by
    intro i c' hc'
    obtain ⟨c, hc, hle⟩ := forall₂_getElem e2 hc'
    obtain ⟨hsh, hE⟩ := hrow i c hc
    have hmem : c ∈ fc := List.mem_of_getElem? hc
    obtain ⟨c'', hc'', hN'⟩ := lessEqThan_of hv hth hE (fun c' h => hM.cmp fc hfc c hmem c' h)
    rw [hle] at hc''; cases hc''
    have hve : nrm ((decryptRlwe s c').get 0 - (if v ≤ nd.threshold then (1 : Scalar) else 0) <<< (64 - ctx.baseLog * (i + 1) - d))
        ≤ 2 ^ d * B + m.cmp := by
      refine le_trans ?_ hN'
      split
      · exact le_refl _
      · simp
    obtain ⟨p, hp, hpe⟩ := enc_of_const_coeff hn hve
    obtain ⟨o, ho, hoe⟩ := trace1Fourier_of hd hs.small hk1 hk2 hk3 hk hpe (V := m.ks)
      (hM.ks fc hfc c hmem c' hle d (log2_pow hd))
    refine ⟨c, o, hc, hle, ho, ?_⟩
    rw [hp, gadget_shift h1 (by omega) hsh _ (by split <;> simp), mul_comm (if v ≤ nd.threshold then (1 : Scalar) else 0), Poly.const_mul] at hoe
    have : Poly.const (2 ^ d) (if v ≤ nd.threshold then 1 else 0) = (if decide (v ≤ nd.threshold) then 1 else 0 : Poly (2 ^ d)) := by
      rw [← const_bit]
      simp
    rw [this] at hoe
    exact hoe
  unfold expandFourier
  rw [if_neg (by intro h0; rw [h0] at hlen'; simp at hlen'; omega), if_pos (by omega), List.take_of_length_le (by omega)]
  obtain ⟨rows, hrows, hF⟩ := mapOption_spec (f := expandFourierRow fft ksks negS)
    (Q := fun c (r : RLWE (2 ^ d) × RLWE (2 ^ d)) => trace1Fourier fft ksks c = some r.2 ∧ r.1 = externalProduct fft negS 0 r.2)
    fc' (fun c' hc' => by
      obtain ⟨i, hi⟩ := List.mem_iff_getElem?.mp hc'
      obtain ⟨c, o, _, _, ho, _⟩ := htr i c' hi
      exact ⟨(externalProduct fft negS 0 o, o), by rw [expandFourierRow, ho], ho, rfl⟩)
  rw [hrows]
  have hlv : RGSW.levelCount ⟨ctx.baseLog, rows⟩ = ctx.levelCount := by
    unfold RGSW.levelCount
    have := hF.length_eq
    simp only; omega
  refine ⟨_, rfl, ⟨⟨h1, by rw [hlv]; exact hl1, by rw [hlv]; exact h2'⟩, rfl, hlv, ?_⟩⟩
  intro i r hr
  obtain ⟨c', hc', ht, hr1⟩ := forall₂_getElem hF hr
  obtain ⟨c, o, hc, hle, ho, hoe⟩ := htr i c' hc'
  rw [ht] at ho; cases ho
  rw [hbit]
  refine ⟨?_, hoe.mono (le_max_left _ _)⟩
  rw [hr1]
  exact (hM.neg hneg fc hfc i c hc c' hle _ ht _ hoe).mono (le_max_right _ _)

/-- C71 (one evaluation): if the errors of this evaluation are within `m`, then what the server returns for the client's ciphertexts
recomposes to the clear evaluation. -/
theorem C71_server {t : Scalar} {ctx : Ctx} (hc : Codec.new t = some ctx.codec) {d : Nat} (hd : d < 64)
    (h1 : 1 ≤ ctx.baseLog) (hl1 : 1 ≤ ctx.levelCount) (h2' : ctx.baseLog * ctx.levelCount < 64)
    (hk1 : 1 ≤ ctx.ksBaseLog) (hk2 : 1 ≤ ctx.ksLevelCount) (hk3 : ctx.ksBaseLog * ctx.ksLevelCount < 64)
    {fft : Fft (2 ^ d)} {s : Poly (2 ^ d)} (hs : Binary s) {B : Nat}
    {ksks : KskMap (2 ^ d)} (hk : TraceKeys s ctx.ksBaseLog ctx.ksLevelCount B ksks)
    {negS : RGSW (2 ^ d)} (hneg : EncG s negS (-s) B)
    {features : List Nat} {cts : List (List (RLWE (2 ^ d)))}
    (hcts : List.Forall₂ (fun v (cts : List (RLWE (2 ^ d))) => v < 2 ^ d ∧ cts.length = ctx.levelCount ∧ ∀ i c, cts[i]? = some c →
        ctx.baseLog * (i + 1) + d ≤ 64 ∧
        Enc s c (Poly.const _ ((1 : Scalar) <<< (64 - ctx.baseLog * (i + 1) - d)) * Spec.X _ ^ v) B) features cts)
    {tree : Tree} (hroot : ∃ d l r, tree = .internal d l r)
    (hnodes : ∀ nd, HasNode nd tree → nd.op = .leq ∧ nd.threshold < 2 ^ d) (hfeat : tree.maxFeatureIndex < features.length)
    {F : F64Ops} (hF : F.Ok) (hlab : ∃ x, x ≠ 0 ∧ HasLeaf x tree) (hmax : ∀ x, HasLeaf x tree → x < 2 ^ 48)
    {m : TreeMeasure} (hm : MeasuredTree fft s ctx ksks negS tree cts B m)
    (hb : 2 * (tree.countLeaf * (tree.countDepth * m.bit)) < 2 ^ 64 / t.toNat) :
    ∃ out y, simulateServer fft ctx F.ceilLog2 tree ksks negS cts = some out ∧ tree.eval features = some y ∧
      decryptAndRecompose ctx s out = some y := by
  obtain ⟨y, hy⟩ := Option.isSome_iff_exists.mp
    (C34_max_feature_index tree features (fun nd h => (hnodes nd h).1) hfeat)
  obtain ⟨bits, b1, b2⟩ := C71_compare_expand hd h1 hl1 h2' hk1 hk2 hk3 hs hk hneg hcts (tree := tree)
    (fun nd hnd => by
      refine ⟨(hnodes nd hnd).1, ?_, (hnodes nd hnd).2⟩
      by_contra hcon
      have : tree.eval features = none := (C34_eval_panics tree features).mpr ⟨nd, hnd, Or.inr (not_lt.mp hcon)⟩
      rw [hy] at this; cases this) hm.nodes
  obtain ⟨root, out, o1, o2, o3⟩ := eval_of hc (by positivity) hroot hy b2 hb (hm.gates bits b1) hF hlab hmax
  refine ⟨out, y, ?_, hy, o3⟩
  unfold simulateServer
  simp only [b1, o1, o2]

/-- C71 (end to end): a run of `simulate` whose errors stay within `m` succeeds (its `assert_eq!` does not fire) and its predictions are the
clear evaluations.  No bound on the FFT or on the worst-case noise. -/
theorem C71_simulate {t : Scalar} {ctx : Ctx} (hc : Codec.new t = some ctx.codec) {d : Nat} (hd : d < 64)
    (h1 : 1 ≤ ctx.baseLog) (hl1 : 1 ≤ ctx.levelCount)
    (h2 : ctx.baseLog * ctx.levelCount + d ≤ 64) (h2' : ctx.baseLog * ctx.levelCount < 64)
    (hk1 : 1 ≤ ctx.ksBaseLog) (hk2 : 1 ≤ ctx.ksLevelCount) (hk3 : ctx.ksBaseLog * ctx.ksLevelCount < 64)
    (hn1 : ctx.negsBaseLog = ctx.baseLog)
    {fft : Fft (2 ^ d)} {s : Poly (2 ^ d)} (hs : Binary s) {g : Gen (2 ^ d)} {B : Nat} (hg : g.Bounded B)
    {tree : Tree} (hroot : ∃ d l r, tree = .internal d l r)
    (hnodes : ∀ nd, HasNode nd tree → nd.op = .leq ∧ nd.threshold < 2 ^ d)
    {F : F64Ops} (hF : F.Ok) (hlab : ∃ x, x ≠ 0 ∧ HasLeaf x tree) (hmax : ∀ x, HasLeaf x tree → x < 2 ^ 48)
    {features : List (List Nat)}
    (hfeat : ∀ f ∈ features, tree.maxFeatureIndex < f.length ∧ ∀ v ∈ f, v < 2 ^ d)
    {m : TreeMeasure} (hm : MeasuredSimulate fft ctx s tree features g B m)
    (hb : 2 * (tree.countLeaf * (tree.countDepth * m.bit)) < 2 ^ 64 / t.toNat) :
    ∃ ys, simulate fft ctx F.ceilLog2 s tree features g = some ys ∧
      List.Forall₂ (fun f y => tree.eval f = some y) features ys := by
  obtain ⟨⟨negS, g1⟩, e1, e2, e3, e4, e5⟩ := C21_neg_gsw hn1 hs hg
  obtain ⟨⟨ksks, g2⟩, f1, f2, f3⟩ := genAllSubsKsk_spec hd ctx s e5
  obtain ⟨⟨cts, g3⟩, k1, k2, _⟩ := mapGenM_spec (f := encryptFeatureVector ctx s) features (P := fun g : Gen (2 ^ d) => g.Bounded B)
    (Q := fun f cts => List.Forall₂ (fun v (cts : List (RLWE (2 ^ d))) => v < 2 ^ d ∧ cts.length = ctx.levelCount ∧
      ∀ i c, cts[i]? = some c → ctx.baseLog * (i + 1) + d ≤ 64 ∧
        Enc s c (Poly.const _ ((1 : Scalar) <<< (64 - ctx.baseLog * (i + 1) - d)) * Spec.X _ ^ v) B) f cts)
    (fun f hfm g hg => by
      obtain ⟨r, r1, r2, r3⟩ := C39_feature_vector hd h1 h2 s (hfeat f hfm).2 hg
      exact ⟨r, r1, r3, r2⟩) g2 f3
  refine simulate_of e1 f1 k1 k2.length_eq.symm fun p hp => ?_
  obtain ⟨hq, hmem⟩ := forall₂_zip_mem k2 p hp
  obtain ⟨out, y, o1, o2, o3⟩ := C71_server hc hd h1 hl1 h2' hk1 hk2 hk3 hs f2 e2 hq hroot hnodes (hfeat p.2 hmem).1 hF hlab hmax
    (hm negS g1 ksks g2 cts g3 e1 f1 k1 p.1 (List.of_mem_zip hp).1) hb
  exact ⟨out, o1, y, o2, o3⟩

/-- C71 (default parameters, which `simulate` always uses): degree 2048, plaintext modulus 256.  For every key, every generator (whatever
its noise bound `B`) and every floating-point behaviour, a run in which no product with a choice bit is off by more than
`2^55 / (leaves * depth)` predicts correctly. -/
theorem C71_default_params {fft : Fft (2 ^ 11)} {s : Poly (2 ^ 11)} (hs : Binary s) {g : Gen (2 ^ 11)} {B : Nat} (hg : g.Bounded B)
    {tree : Tree} (hroot : ∃ d l r, tree = .internal d l r)
    (hnodes : ∀ nd, HasNode nd tree → nd.op = .leq ∧ nd.threshold < 2048)
    {F : F64Ops} (hF : F.Ok) (hlab : ∃ x, x ≠ 0 ∧ HasLeaf x tree) (hmax : ∀ x, HasLeaf x tree → x < 2 ^ 48)
    {features : List (List Nat)} (hfeat : ∀ f ∈ features, tree.maxFeatureIndex < f.length ∧ ∀ v ∈ f, v < 2048)
    {m : TreeMeasure} (hm : MeasuredSimulate fft defaultCtx s tree features g B m)
    (hb : tree.countLeaf * (tree.countDepth * m.bit) < 2 ^ 55) :
    ∃ ys, simulate fft defaultCtx F.ceilLog2 s tree features g = some ys ∧
      List.Forall₂ (fun f y => tree.eval f = some y) features ys := by
  refine C71_simulate (t := 256) (ctx := defaultCtx) (d := 11) (by decide) (by decide) (by decide) (by decide) (by decide) (by decide) (by decide)
    (by decide) (by decide) rfl hs hg hroot hnodes hF hlab hmax hfeat hm ?_
  have h2 : 2 ^ 64 / (256 : Scalar).toNat = 2 ^ 56 := by decide
  rw [h2]
  omega

/-! ### The hypotheses are met -/

/-- The measure of an evaluation with a key of l1 norm at most `h` and a relative FFT error of `phi`. -/
def sparseTreeMeasure (ctx : Ctx) (n h B phi : Nat) : TreeMeasure :=
  let cmp := fftNoise n phi 1
  let ks := ksNoise n ctx.ksBaseLog ctx.ksLevelCount B (fftNoise n phi (1 + ctx.ksLevelCount * 2 ^ (ctx.ksBaseLog - 1)))
  let tr := n * (n * B + cmp) + (n - 1) * ks
  let neg := h * tr + sparseGate n h ctx.negsBaseLog ctx.negsLevelCount B phi h
  ⟨cmp, ks, neg, sparseGate n h ctx.baseLog ctx.levelCount (max tr neg) phi 1⟩

theorem lessEqThan_error {fft : Fft n} {phi : Nat} (hf : fft.Bounded phi) {s : Poly n} (hs : Binary s) {c c' : RLWE n} {d : Nat}
    (h : c.lessEqThan fft d = some c') : Enc s c' (RLWE.leqPoly n d * decryptRlwe s c) (fftNoise n phi 1) := by
  unfold RLWE.lessEqThan at h
  split at h
  · cases h
    have hone : ∀ p : Poly n, FPoly.weight [(p, RLWE.leqPoly n d)] ≤ 1 := fun p => by
      have := weight_le (B := 1) (ts := [(p, RLWE.leqPoly n d)]) fun u hu => by
        rw [List.mem_singleton.mp hu]; exact Or.inr (leqPoly_small d)
      simpa using this
    unfold Enc
    rw [fourierMul_decrypt]
    have := fft_pair_small hf hs.small (by simp) (by simp) (hone c.body) (hone c.mask)
    convert this using 1
    ring
  · cases h

theorem traceCalls_keys {fft : Fft n} {ksks : KskMap n} : ∀ {is : List Nat} {buf : FRLWE n} {out : RLWE n},
    ∀ x ∈ traceCalls fft ksks is buf out, ∃ i ∈ is, ksks (traceExp n i) = some x.1
  | [], _, _, x, h => by simp [traceCalls] at h
  | i :: is, buf, out, x, h => by
    rw [traceCalls] at h
    split at h
    · simp at h
    · rename_i K hK
      rcases List.mem_cons.mp h with rfl | h
      · exact ⟨i, by simp, hK⟩
      · split at h
        · simp at h
        · obtain ⟨j, hj, hj'⟩ := traceCalls_keys x h
          exact ⟨j, by simp [hj], hj'⟩

/-- C71 (sparse keys): every evaluation with well-formed key material stays within the measure given by the weight of the key (with
`h = n`: the worst case). -/
theorem C71_sparse_tree {d : Nat} (hd : d < 64) {fft : Fft (2 ^ d)} {phi : Nat} (hf : fft.Bounded phi) {s : Poly (2 ^ d)} (hs : Binary s)
    {h : Nat} (hh : l1 s ≤ h) {ctx : Ctx} (hk1 : 1 ≤ ctx.ksBaseLog) (hk2 : 1 ≤ ctx.ksLevelCount) (hk3 : ctx.ksBaseLog * ctx.ksLevelCount < 64)
    {B : Nat} {ksks : KskMap (2 ^ d)} (hk : TraceKeys s ctx.ksBaseLog ctx.ksLevelCount B ksks)
    {negS : RGSW (2 ^ d)} (hN : negS.WF) (hbl : negS.baseLog = ctx.negsBaseLog) (hlv : negS.levelCount = ctx.negsLevelCount)
    (tree : Tree) (cts : List (List (RLWE (2 ^ d)))) :
    MeasuredTree fft s ctx ksks negS tree cts B (sparseTreeMeasure ctx (2 ^ d) h B phi) := by
  refine ⟨fun nd _ => ⟨fun fc _ c _ c' hc' => lessEqThan_error hf hs hc', ?_, ?_⟩,
    fun _ _ _ _ _ _ _ x _ => gateOk_sparse hf hs.small hh _ _ _ x.1 x.2⟩
  · intro fc _ c _ c' _ ln hln x hx hksk b hb
    rw [log2_pow hd] at hln; cases hln
    obtain ⟨i, hi, hi'⟩ := traceCalls_keys x hx
    rw [List.mem_range'_1] at hi
    obtain ⟨K, hK, hKs⟩ := hk i hi.1 (by omega)
    rw [hi'] at hK; cases hK
    obtain ⟨out, o1, o2⟩ := fourierSubs_spec hf hs.small
      ⟨by rw [hKs.bl]; exact hk1, by rw [hKs.lv]; exact hk2, by rw [hKs.bl, hKs.lv]; exact hk3⟩
      (by rw [hKs.subsK]; exact traceExp_odd hi.1 (by omega)) hksk x.2.1 x.2.2
    rw [hb] at o1; cases o1
    rw [hKs.bl, hKs.lv] at o2
    exact o2
  · intro hneg fc _ i c _ c' _ o _ b hc
    have hx := externalProduct_sparse hf hs.small hh hN (K := h) (by rw [l1_neg]; exact hh) hneg o
    rw [hbl, hlv] at hx
    unfold Enc at *
    set t := Poly.const (2 ^ d) (gadget ctx.baseLog (i + 1))
    set m : Poly (2 ^ d) := if b then 1 else 0
    rw [show decryptRlwe s (externalProduct fft negS 0 o) - t * -(s * m)
        = -s * (decryptRlwe s o - t * m) + (decryptRlwe s (externalProduct fft negS 0 o) - -s * decryptRlwe s o) by ring]
    refine ((Small.l1_mul (-s) hc).add hx).mono ?_
    rw [l1_neg]
    exact Nat.add_le_add_right (Nat.mul_le_mul_right _ hh) _

/-- C71 (default parameters, unconditionally): with a key of at most 2 ones, encryption noise and relative FFT error at most 1, `simulate`
predicts correctly for every tree with `leaves * depth ≤ 6`. -/
theorem C71_default_sparse {fft : Fft (2 ^ 11)} (hf : fft.Bounded 1) {s : Poly (2 ^ 11)} (hs : Binary s) (hh : l1 s ≤ 2) {g : Gen (2 ^ 11)}
    (hg : g.Bounded 1) {tree : Tree} (hroot : ∃ d l r, tree = .internal d l r)
    (hnodes : ∀ nd, HasNode nd tree → nd.op = .leq ∧ nd.threshold < 2048) (hsz : tree.countLeaf * tree.countDepth ≤ 6)
    {F : F64Ops} (hF : F.Ok) (hlab : ∃ x, x ≠ 0 ∧ HasLeaf x tree) (hmax : ∀ x, HasLeaf x tree → x < 2 ^ 48)
    {features : List (List Nat)} (hfeat : ∀ f ∈ features, tree.maxFeatureIndex < f.length ∧ ∀ v ∈ f, v < 2048) :
    ∃ ys, simulate fft defaultCtx F.ceilLog2 s tree features g = some ys ∧
      List.Forall₂ (fun f y => tree.eval f = some y) features ys := by
  refine C71_default_params hs hg hroot hnodes hF hlab hmax hfeat (m := sparseTreeMeasure defaultCtx (2 ^ 11) 2 1 1) ?_ ?_
  · intro negS g1 ksks g2 cts g3 h1 h2 h3 c _
    obtain ⟨⟨negS', g1'⟩, e1, _, e3, e4, e5⟩ := C21_neg_gsw (ctx := defaultCtx) rfl hs hg
    rw [h1] at e1; cases e1
    obtain ⟨⟨ksks', g2'⟩, f1, f2, _⟩ := genAllSubsKsk_spec (by decide) defaultCtx s e5
    rw [h2] at f1; cases f1
    exact C71_sparse_tree (by decide) hf hs hh (by decide) (by decide) (by decide) f2
      ⟨by rw [e3]; decide, by rw [e4]; decide, by rw [e3, e4]; decide⟩ e3 e4 tree c
  · rw [← Nat.mul_assoc]
    refine lt_of_le_of_lt (Nat.mul_le_mul_right _ hsz) ?_
    decide

/-! A concrete run at the default parameters. -/

/-- The key `1 + X^5`. -/
def treeKey : Poly (2 ^ 11) := ⟨fun k => if k.val = 0 ∨ k.val = 5 then 1 else 0⟩

theorem treeKey_binary : Binary treeKey := fun k => by
  by_cases h : k.val = 0 ∨ k.val = 5
  · exact Or.inr (if_pos h)
  · exact Or.inl (if_neg h)

theorem treeKey_l1 : l1 treeKey ≤ 2 := by
  have h : ∀ k : Fin (2 ^ 11), nrm (treeKey k) = if k.val = 0 ∨ k.val = 5 then 1 else 0 := fun k => by
    by_cases h : k.val = 0 ∨ k.val = 5
    · rw [if_pos h, show treeKey k = 1 from if_pos h]; decide
    · rw [if_neg h, show treeKey k = 0 from if_neg h]; decide
  unfold l1
  rw [Finset.sum_congr rfl fun k _ => h k, Fin.sum_univ_eq_sum_range (fun k => if k = 0 ∨ k = 5 then 1 else 0) (2 ^ 11)]
  decide +kernel

/-- A generator with non-zero masks and noise -1, 0 or 1. -/
def treeGen : Gen (2 ^ 11) := ⟨fun i => ⟨fun k => BitVec.ofNat 64 (7919 * i + 104729 * k.val + 13)⟩,
  fun i => ⟨fun k => BitVec.ofInt 64 (((i + k.val) % 3 : Nat) - 1 : Int)⟩, fun i => ⟨fun k => BitVec.ofNat 64 (i + k.val)⟩, 0⟩

theorem treeGen_bounded : treeGen.Bounded 1 := by
  intro i k
  have h : (i + k.val) % 3 < 3 := Nat.mod_lt _ (by decide)
  unfold treeGen
  simp only
  generalize (i + k.val) % 3 = r at h
  revert h; revert r; decide

/-- An FFT whose every coefficient is off by 1 unless it transforms zero. -/
def treeFft : Fft (2 ^ 11) := ⟨fun ts => if FPoly.weight ts = 0 then 0 else ⟨fun _ => 1⟩⟩

theorem treeFft_bounded : treeFft.Bounded 1 := fun ts _ k => by
  show (BitVec.toInt ((if FPoly.weight ts = 0 then (0 : Poly (2 ^ 11)) else ⟨fun _ => 1⟩) k)).natAbs ≤ 1 * FPoly.weight ts
  split
  · simp
  · have : (BitVec.toInt (1 : Scalar)).natAbs = 1 := by decide
    show (BitVec.toInt (1 : Scalar)).natAbs ≤ _
    omega

/-- The hypotheses of C71 are met at the default parameters: a tree with thresholds 1500 and 700 and the labels 2, 3 and 1, and three
feature vectors. -/
theorem C71_witness : ∃ ys, simulate treeFft defaultCtx exF64.ceilLog2 treeKey
      (.internal ⟨1500, 0, 0, .leq⟩ (.internal ⟨700, 1, 1, .leq⟩ (.leaf 2) (.leaf 3)) (.leaf 1)) [[1500, 701], [2, 700], [2047, 0]] treeGen = some ys ∧
    ys = [3, 2, 1] := by
  obtain ⟨ys, h1, h2⟩ := C71_default_sparse treeFft_bounded treeKey_binary treeKey_l1 treeGen_bounded
    (tree := .internal ⟨1500, 0, 0, .leq⟩ (.internal ⟨700, 1, 1, .leq⟩ (.leaf 2) (.leaf 3)) (.leaf 1)) ⟨_, _, _, rfl⟩ (by
      intro nd h
      cases h with
      | here => decide
      | left _ _ _ h => cases h with
        | here => decide
        | left _ _ _ h => cases h
        | right _ _ _ h => cases h
      | right _ _ _ h => cases h) (by decide) exF64_exact.ok ⟨2, by decide, .left _ _ _ (.left _ _ _ .here)⟩ (by
      intro x h
      cases h with
      | left _ _ _ h => cases h with
        | left _ _ _ h => cases h; decide
        | right _ _ _ h => cases h; decide
      | right _ _ _ h => cases h; decide) (features := [[1500, 701], [2, 700], [2047, 0]]) (by decide)
  refine ⟨ys, h1, ?_⟩
  cases h2 with
  | cons a h2 => cases h2 with
    | cons b h2 => cases h2 with
      | cons c h2 => cases h2; cases a; cases b; cases c; rfl

end Panacea
