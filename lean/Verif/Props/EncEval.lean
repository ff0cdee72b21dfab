import Verif.Lemmas.Float
import Verif.Lemmas.EncEval
import Verif.Lemmas.Trace
import Verif.Props.Rlwe

/-!
# C39, C40: homomorphic tree evaluation and demultiplexing
-/

namespace Panacea
open Tree Spec
variable {n : Nat}

/-! ## C40 -/

/-- C40: for encrypted index bits of `i < 2^D`, `D ≥ 1`, demultiplexing any ciphertext `b` succeeds and gives exactly `2^D`
ciphertexts: number `i` decrypts to the decryption of `b`, every other one to 0, up to `D` external-product errors. -/
theorem C40_demux {fft : Fft n} {phi : Nat} (hf : fft.Bounded phi) {s : Poly n} (hs : Binary s) {bits : List (RGSW n)}
    {D i bl lv E : Nat} (hD : 1 ≤ D) (h : EncIndex s bits D i bl lv E) (b : RLWE n) :
    ∃ out, demuxWith fft b bits = some out ∧ out.length = 2 ^ D ∧
      ∀ j c, out[j]? = some c → Enc s c (if j = i then decryptRlwe s b else 0) (D * extNoise n bl lv E phi 1) := by
  obtain ⟨ds, h1, h2, h3⟩ := h.digits
  have hne : bits ≠ [] := by
    rintro rfl
    cases h3; simp at h1; omega
  obtain ⟨out, ho, hl, hc⟩ := demuxRec_spec hf hs.small ds bits h3 hne b (decryptRlwe s b) 0 (by
    unfold Enc; rw [sub_self]; exact Small.zero 0)
  refine ⟨out, ho, by rw [hl, h1], fun j c hj => ?_⟩
  have := hc j c hj
  rw [h1, h2] at this
  simpa using this

/-- C40 (client): `bit_decomposed_rgsw(i, 2^D)` never panics and encrypts `i mod 2^D`: an index `i ≥ 2^D` is silently reduced. -/
theorem C40_client {ctx : Ctx} (h1 : 1 ≤ ctx.baseLog) (h2 : 1 ≤ ctx.levelCount) (h3 : ctx.baseLog * ctx.levelCount < 64)
    (s : Poly n) (i D : Nat) (hD : D < 64) {g : Gen n} {B : Nat} (hg : g.Bounded B) :
    ∃ bits g', bitDecomposedRgsw ctx s i (2 ^ D) g = some (bits, g') ∧ bits.length = D ∧
      EncIndex s bits D (i % 2 ^ D) ctx.baseLog ctx.levelCount B := by
  obtain ⟨bits, g', e1, _, e2⟩ := bitDecomposed_spec h1 h2 h3 s i (2 ^ D) D (log2_pow hD) hg
  obtain ⟨ds, hd1, _, hd3⟩ := e2.digits
  exact ⟨bits, g', e1, by rw [← hd1]; exact hd3.length_eq.symm, e2⟩

/-- C40 (silent reduction, exact): the ciphertexts for `i` and `i mod 2^D` are identical. -/
theorem C40_index_wraps (ctx : Ctx) (s : Poly n) (i D : Nat) (hD : D < 64) (g : Gen n) :
    bitDecomposedRgsw ctx s i (2 ^ D) g = bitDecomposedRgsw ctx s (i % 2 ^ D) (2 ^ D) g := by
  unfold bitDecomposedRgsw
  rw [log2_pow hD]
  have : indexBits (i % 2 ^ D) D = indexBits i D := by
    unfold indexBits
    congr 1
    refine List.map_congr_left fun k hk => ?_
    rw [List.mem_range] at hk
    simp [Nat.testBit_mod_two_pow, hk]
  simp only [this]

/-- C40 (client and server together): demultiplexing with the client's bits. -/
theorem C40_one_hot {ctx : Ctx} (h1 : 1 ≤ ctx.baseLog) (h2 : 1 ≤ ctx.levelCount) (h3 : ctx.baseLog * ctx.levelCount < 64)
    {fft : Fft n} {phi : Nat} (hf : fft.Bounded phi) {s : Poly n} (hs : Binary s) {i D : Nat} (hD1 : 1 ≤ D) (hD : D < 64)
    (hi : i < 2 ^ D) {g : Gen n} {B : Nat} (hg : g.Bounded B) (b : RLWE n) :
    ∃ bits g' out, bitDecomposedRgsw ctx s i (2 ^ D) g = some (bits, g') ∧ demuxWith fft b bits = some out ∧ out.length = 2 ^ D ∧
      ∀ j c, out[j]? = some c → Enc s c (if j = i then decryptRlwe s b else 0)
        (D * extNoise n ctx.baseLog ctx.levelCount B phi 1) := by
  obtain ⟨bits, g', e1, _, e2⟩ := C40_client h1 h2 h3 s i D hD hg
  rw [Nat.mod_eq_of_lt hi] at e2
  obtain ⟨out, e3, e4, e5⟩ := C40_demux hf hs hD1 e2 b
  exact ⟨bits, g', out, e1, e3, e4, e5⟩

/-- C40 (`demux`): with the budget respected, the outputs of `demux` decrypt and decode to the unit vector: the constant term of entry
`j` is 1 for `j = i` and 0 otherwise. -/
theorem C40_unit_vector {t : Scalar} {ctx : Ctx} (hc : Codec.new t = some ctx.codec) (hn : 0 < n)
    {fft : Fft n} {phi : Nat} (hf : fft.Bounded phi) {s : Poly n} (hs : Binary s) {bits : List (RGSW n)}
    {D i bl lv E : Nat} (hD : 1 ≤ D) (h : EncIndex s bits D i bl lv E)
    (hb : 2 * (D * extNoise n bl lv E phi 1) < 2 ^ 64 / t.toNat) :
    ∃ out, demux fft ctx bits = some out ∧ out.length = 2 ^ D ∧
      ∀ j c, out[j]? = some c → (decryptDecodeRlwe ctx s c).get 0 = if j = i then 1 else 0 := by
  obtain ⟨b, v, hb1, hv, hb2⟩ := trivialOne_enc hc s
  obtain ⟨out, e1, e2, e3⟩ := C40_demux hf hs hD h b
  refine ⟨out, by unfold demux; rw [hb1]; exact e1, e2, fun j c hj => ?_⟩
  have := e3 j c hj
  rw [hb2] at this
  have h' := decode_bit (b := decide (j = i)) hc hv hn (s := s) (c := c) (e := D * extNoise n bl lv E phi 1) (by simpa using this) hb
  simpa using h'

/-- C40 (panic): demultiplexing with no bits panics; in particular for `n = 1` (no index bits are produced). -/
theorem C40_empty_panics (fft : Fft n) (ctx : Ctx) (s : Poly n) (i : Nat) (g : Gen n) (b : RLWE n) :
    demuxWith fft b [] = none ∧ bitDecomposedRgsw ctx s i 1 g = some ([], g) := by
  refine ⟨rfl, ?_⟩
  unfold bitDecomposedRgsw
  rw [show (1 : Nat) = 2 ^ 0 from rfl, log2_pow (by decide)]
  rfl

/-- The hypotheses are met: the client's bits for index 5 of 8 with the example parameters, and a budget that holds for `t = 16`. -/
example : ∃ bits g', bitDecomposedRgsw exCtx exKey 5 (2 ^ 3) exGen = some (bits, g') ∧ EncIndex exKey bits 3 5 8 3 3 ∧
    2 * (3 * extNoise 4 8 3 3 5 1) < 2 ^ 64 / (16 : Scalar).toNat := by
  obtain ⟨bits, g', h1, _, h2⟩ := C40_client (ctx := exCtx) (by decide) (by decide) (by decide) exKey 5 3 (by decide) exGen_bounded
  exact ⟨bits, g', h1, h2, by decide⟩

/-! ## C39 -/

theorem new_encFor {s : Poly n} {features : List Nat} {bl lv E : Nat} {t : Tree} (hroot : ∃ d l r, t = .internal d l r)
    {cts : List (RGSW n)} (h : EncChoices s features t cts bl lv E) :
    ∃ e, EncTree.new t cts = some (e, []) ∧ EncFor s features bl lv E t e := by
  obtain ⟨d, l, r, rfl⟩ := hroot
  obtain ⟨e, h1, h2⟩ := build_encFor _ cts [] h
  rw [List.append_nil] at h1
  refine ⟨e, ?_, h2⟩
  cases cts with
  | nil => unfold EncChoices at h; rw [flatten] at h; cases h
  | cons c cs => exact h1

/-- Evaluation with any error `δ` of the products with choice bits. -/
theorem eval_mod_of {t : Scalar} {ctx : Ctx} (hc : Codec.new t = some ctx.codec) (hn : 0 < n)
    {fft : Fft n} {s : Poly n} {features : List Nat} {bl lv E δ : Nat} {tree : Tree}
    (hroot : ∃ d l r, tree = .internal d l r) {y : Nat} (hy : tree.eval features = some y) {cts : List (RGSW n)}
    (h : EncChoices s features tree cts bl lv E)
    (hb : 2 * (tree.countLeaf * (tree.countDepth * δ)) < 2 ^ 64 / t.toNat)
    (hg : ∀ root rest, EncTree.new tree cts = some (root, rest) → ∀ b, trivialOne ctx = some b →
      ∀ x ∈ treeCalls fft root b, GateOk fft s bl lv E δ x.1 x.2) (ceilLog2 : Nat → Nat) :
    ∃ root out, EncTree.new tree cts = some (root, []) ∧ encEval fft ctx ceilLog2 root = some out ∧
      out.length = ceilLog2 (root.maxLeaf + 1) ∧ y ≤ root.maxLeaf ∧
      (1 ≤ out.length → out.length ≤ 64 → decryptAndRecompose ctx s out = some (y % 2 ^ out.length)) := by
  obtain ⟨root, h1, h2⟩ := new_encFor hroot h
  obtain ⟨b, v, hb1, hv, hb2⟩ := trivialOne_enc hc s
  have hpath := (C34_eval_path tree features y hy).1
  have hev : Evaluable features tree := by
    by_contra hcon
    unfold Tree.eval at hy
    rw [evalNode_none hcon 0 1 (by norm_num)] at hy; cases hy
  refine ⟨root, evalEncNode fft root (List.replicate (ceilLog2 (root.maxLeaf + 1)) 0) b, h1, by unfold encEval; simp only [hb1], ?_, encFor_maxLeaf h2 hpath, ?_⟩
  · rw [evalEncNode_length, List.length_replicate]
  · intro hl1 hl2
    have hbits := decryptBits_spec (ctx := ctx) (s := s) y
      (evalEncNode fft root (List.replicate (ceilLog2 (root.maxLeaf + 1)) 0) b) 0 (fun i c hi => by
        obtain ⟨c0, hc0, hE⟩ := evalEncNode_of tree root h2 hev y hpath b (Poly.const n v) 0 (by
          unfold Enc; rw [hb2, sub_self]; exact Small.zero 0) (hg root [] h1 b hb1) _ i c hi
        rw [List.getElem?_replicate] at hc0
        split at hc0
        · cases hc0
          rw [decrypt_zero, zero_add, zero_add] at hE
          rw [zero_add]
          exact decode_bit hc hv hn hE hb
        · cases hc0)
    obtain ⟨bs, e1, e2, e3⟩ := hbits
    unfold decryptAndRecompose
    rw [e1]
    simp only
    rw [if_neg (by omega), e3, pow_zero, Nat.div_one]

/-- C39 (general): if the ciphertexts encrypt the comparison bits of the tree for `features` and the noise budget
`#leaves * depth * δ < Δ/2` holds, then the tree built from them evaluates (`eval` allots `k` output bits) to ciphertexts whose
recomposition is the clear evaluation modulo `2^k`. -/
theorem C39_eval_mod {t : Scalar} {ctx : Ctx} (hc : Codec.new t = some ctx.codec) (hn : 0 < n)
    {fft : Fft n} {phi : Nat} (hf : fft.Bounded phi) {s : Poly n} (hs : Binary s) {features : List Nat} {bl lv E : Nat} {tree : Tree}
    (hroot : ∃ d l r, tree = .internal d l r) {y : Nat} (hy : tree.eval features = some y) {cts : List (RGSW n)}
    (h : EncChoices s features tree cts bl lv E)
    (hb : 2 * (tree.countLeaf * (tree.countDepth * extNoise n bl lv E phi 1)) < 2 ^ 64 / t.toNat) (ceilLog2 : Nat → Nat) :
    ∃ root out, EncTree.new tree cts = some (root, []) ∧ encEval fft ctx ceilLog2 root = some out ∧
      out.length = ceilLog2 (root.maxLeaf + 1) ∧ y ≤ root.maxLeaf ∧
      (1 ≤ out.length → out.length ≤ 64 → decryptAndRecompose ctx s out = some (y % 2 ^ out.length)) :=
  eval_mod_of hc hn hroot hy h hb (fun _ _ _ _ _ _ _ => gateOk_worst hf hs.small _ _ _ _ _) ceilLog2

/-- C39 (label bits): for labels below `2^48` the floating point computation `((max_leaf() + 1) as f64).log2().ceil() as usize` of `eval`
allots exactly the number of bits of the largest label. -/
theorem C39_label_bits {F : F64Ops} (hF : F.Ok) {m : Nat} (hm : m < 2 ^ 48) :
    m < 2 ^ F.ceilLog2 (m + 1) ∧ ∀ k, m < 2 ^ k → F.ceilLog2 (m + 1) ≤ k := by
  rw [ceilLog2_eq hF (by omega) (by omega)]
  refine ⟨?_, fun k hk => (Nat.clog_le_iff_le_pow (by decide)).mpr hk⟩
  have := Nat.le_pow_clog (b := 2) (by decide) (m + 1)
  omega

/-- Evaluation with any error `δ` of the products with choice bits, labels below `2^48`. -/
theorem eval_of {t : Scalar} {ctx : Ctx} (hc : Codec.new t = some ctx.codec) (hn : 0 < n)
    {fft : Fft n} {s : Poly n} {features : List Nat} {bl lv E δ : Nat} {tree : Tree}
    (hroot : ∃ d l r, tree = .internal d l r) {y : Nat} (hy : tree.eval features = some y) {cts : List (RGSW n)}
    (h : EncChoices s features tree cts bl lv E)
    (hb : 2 * (tree.countLeaf * (tree.countDepth * δ)) < 2 ^ 64 / t.toNat)
    (hg : ∀ root rest, EncTree.new tree cts = some (root, rest) → ∀ b, trivialOne ctx = some b →
      ∀ x ∈ treeCalls fft root b, GateOk fft s bl lv E δ x.1 x.2)
    {F : F64Ops} (hF : F.Ok) (hlab : ∃ x, x ≠ 0 ∧ HasLeaf x tree) (hmax : ∀ x, HasLeaf x tree → x < 2 ^ 48) :
    ∃ root out, EncTree.new tree cts = some (root, []) ∧ encEval fft ctx F.ceilLog2 root = some out ∧
      decryptAndRecompose ctx s out = some y := by
  obtain ⟨root, out, h1, h2, h3, h4, h5⟩ := eval_mod_of hc hn hroot hy h hb hg F.ceilLog2
  have hmir : Mirrors tree root := (C38_new_consumes tree cts [] root h1).1
  obtain ⟨m1, m2⟩ := C38_max_leaf tree root hmir
  have hlt : root.maxLeaf < 2 ^ 48 := by
    rcases m2 with m2 | m2
    · rw [m2]; positivity
    · exact hmax _ m2
  rw [ceilLog2_eq hF (by omega) (by omega)] at h3
  obtain ⟨x, hx0, hx⟩ := hlab
  have hpos : 1 ≤ root.maxLeaf := le_trans (Nat.one_le_iff_ne_zero.mpr hx0) (m1 x hx)
  have hle : root.maxLeaf + 1 ≤ 2 ^ out.length := by rw [h3]; exact Nat.le_pow_clog (by decide) _
  refine ⟨root, out, h1, h2, ?_⟩
  rw [h5 ?_ ?_, Nat.mod_eq_of_lt (by omega)]
  · rw [h3]; exact Nat.clog_pos (by decide) (by omega)
  · rw [h3]
    exact (Nat.clog_le_iff_le_pow (by decide)).mpr (by omega)

/-- C39: when the labels are below `2^48` (so that `eval` allots enough bits in spite of its floating point logarithm), the recomposed
decryption *is* the clear evaluation `Node::eval`. -/
theorem C39_eval {t : Scalar} {ctx : Ctx} (hc : Codec.new t = some ctx.codec) (hn : 0 < n)
    {fft : Fft n} {phi : Nat} (hf : fft.Bounded phi) {s : Poly n} (hs : Binary s) {features : List Nat} {bl lv E : Nat} {tree : Tree}
    (hroot : ∃ d l r, tree = .internal d l r) {y : Nat} (hy : tree.eval features = some y) {cts : List (RGSW n)}
    (h : EncChoices s features tree cts bl lv E)
    (hb : 2 * (tree.countLeaf * (tree.countDepth * extNoise n bl lv E phi 1)) < 2 ^ 64 / t.toNat)
    {F : F64Ops} (hF : F.Ok) (hlab : ∃ x, x ≠ 0 ∧ HasLeaf x tree) (hmax : ∀ x, HasLeaf x tree → x < 2 ^ 48) :
    ∃ root out, EncTree.new tree cts = some (root, []) ∧ encEval fft ctx F.ceilLog2 root = some out ∧
      decryptAndRecompose ctx s out = some y :=
  eval_of hc hn hroot hy h hb (fun _ _ _ _ _ _ _ => gateOk_worst hf hs.small _ _ _ _ _) hF hlab hmax

/-- C39 (FINDING): the bound on the labels is needed, even for a correctly rounded `log2`: the largest label `2^49` needs 50 bits, but
`log2(2^49 + 1)` rounds to 49, so `eval` allots 49 bits and the encrypted evaluation of an input with label `2^49` is 0. -/
theorem C39_wide_label_wrong {t : Scalar} {ctx : Ctx} (hc : Codec.new t = some ctx.codec) (hn : 0 < n)
    {fft : Fft n} {phi : Nat} (hf : fft.Bounded phi) {s : Poly n} (hs : Binary s) {features : List Nat} {bl lv E : Nat} {tree : Tree}
    (hroot : ∃ d l r, tree = .internal d l r) (hy : tree.eval features = some (2 ^ 49)) {cts : List (RGSW n)}
    (h : EncChoices s features tree cts bl lv E)
    (hb : 2 * (tree.countLeaf * (tree.countDepth * extNoise n bl lv E phi 1)) < 2 ^ 64 / t.toNat)
    {F : F64Ops} (hF : F.Exact) (hmax : ∀ x, HasLeaf x tree → x ≤ 2 ^ 49) :
    ∃ root out, EncTree.new tree cts = some (root, []) ∧ encEval fft ctx F.ceilLog2 root = some out ∧
      decryptAndRecompose ctx s out = some 0 := by
  obtain ⟨root, out, h1, h2, h3, h4, h5⟩ := C39_eval_mod hc hn hf hs hroot hy h hb F.ceilLog2
  have hmir : Mirrors tree root := (C38_new_consumes tree cts [] root h1).1
  obtain ⟨m1, m2⟩ := C38_max_leaf tree root hmir
  have hle : root.maxLeaf ≤ 2 ^ 49 := by
    rcases m2 with m2 | m2
    · rw [m2]; positivity
    · exact hmax _ m2
  have he : root.maxLeaf = 2 ^ 49 := by omega
  rw [he, ceilLog2_wide hF] at h3
  refine ⟨root, out, h1, h2, ?_⟩
  rw [h5 (by omega) (by omega), h3]
  norm_num

/-- C39 (FINDING): when every label is 0, `eval` allots no output bits and the recomposition panics (`load` of an empty bit vector)
although the clear evaluation is 0. -/
theorem C39_all_zero_panics {t : Scalar} {ctx : Ctx} (hc : Codec.new t = some ctx.codec) {fft : Fft n} {s : Poly n}
    {root : EncTree (RGSW n)} (h0 : root.maxLeaf = 0) (ceilLog2 : Nat → Nat) (hl : ceilLog2 1 = 0) :
    encEval fft ctx ceilLog2 root = some [] ∧ decryptAndRecompose ctx s ([] : List (RLWE n)) = none := by
  obtain ⟨b, v, hb1, hv, hb2⟩ := trivialOne_enc hc s
  refine ⟨?_, rfl⟩
  unfold encEval
  simp only [hb1, h0, zero_add, hl, List.replicate_zero]
  congr 1
  have := evalEncNode_length fft root [] b
  exact List.length_eq_zero_iff.mp this

example : ∃ root : EncTree (RGSW 4), EncTree.new (.internal ⟨0, 0, 0, .leq⟩ (.leaf 0) (.leaf 0)) [RGSW.allocate 4 8 3] = some (root, []) ∧
    root.maxLeaf = 0 ∧ exF64.ceilLog2 1 = 0 := ⟨_, rfl, rfl, by rw [ceilLog2_eq exF64_exact.ok (by decide) (by decide)]; decide⟩

/-! ### From features to choice bits -/

theorem set_eq_const_mul_X {v : Nat} (hv : v < n) (c : Scalar) : Poly.set (0 : Poly n) v c = Poly.const n c * Spec.X n ^ v := by
  have hx : Spec.X n ^ v = Poly.mono n v := by unfold Spec.X; rw [Poly.mono_pow, one_mul]
  rw [hx]
  refine Poly.ext (funext fun k => ?_)
  rw [Poly.const_mul_apply, Poly.set_apply, Poly.zero_apply, Poly.mono_def, Nat.mod_eq_of_lt hv, Nat.div_eq_of_lt hv, pow_zero]
  by_cases h : k.val = v
  · rw [if_pos h, if_pos h.symm, mul_one]
  · rw [if_neg h, if_neg (fun h' => h h'.symm), mul_zero]

/-- C39 (client): `encrypt_feature_vector` succeeds on features below `n` and gives, for each feature `v` and each level `l`, an
encryption of `2^(64 - bl*l) / n * X^v`. -/
theorem C39_feature_vector {d : Nat} (hd : d < 64) {ctx : Ctx} (h1 : 1 ≤ ctx.baseLog) (h2 : ctx.baseLog * ctx.levelCount + d ≤ 64)
    (s : Poly (2 ^ d)) {vs : List Nat} (hvs : ∀ v ∈ vs, v < 2 ^ d) {g : Gen (2 ^ d)} {B : Nat} (hg : g.Bounded B) :
    ∃ r, encryptFeatureVector ctx s vs g = some r ∧ r.2.Bounded B ∧
      List.Forall₂ (fun v (cts : List (RLWE (2 ^ d))) => v < 2 ^ d ∧ cts.length = ctx.levelCount ∧ ∀ i c, cts[i]? = some c →
        ctx.baseLog * (i + 1) + d ≤ 64 ∧
        Enc s c (Poly.const _ ((1 : Scalar) <<< (64 - ctx.baseLog * (i + 1) - d)) * Spec.X _ ^ v) B) vs r.1 := by
  unfold encryptFeatureVector
  rw [log2_pow hd]
  simp only
  obtain ⟨r, e1, e2, e3⟩ := mapGenM_spec (P := fun g : Gen (2 ^ d) => g.Bounded B)
    (Q := fun v (cts : List (RLWE (2 ^ d))) => v < 2 ^ d ∧ cts.length = ctx.levelCount ∧ ∀ i c, cts[i]? = some c →
        ctx.baseLog * (i + 1) + d ≤ 64 ∧
        Enc s c (Poly.const _ ((1 : Scalar) <<< (64 - ctx.baseLog * (i + 1) - d)) * Spec.X _ ^ v) B)
    (f := fun v g => mapGenM (encryptFeatureLevel ctx s d v) (List.range' 1 ctx.levelCount) g) vs (fun v hv g hg => by
      obtain ⟨r, f1, f2, f3⟩ := mapGenM_spec (P := fun g : Gen (2 ^ d) => g.Bounded B)
        (Q := fun l (c : RLWE (2 ^ d)) => ctx.baseLog * l + d ≤ 64 ∧
          Enc s c (Poly.const _ ((1 : Scalar) <<< (64 - ctx.baseLog * l - d)) * Spec.X _ ^ v) B)
        (f := encryptFeatureLevel ctx s d v) (List.range' 1 ctx.levelCount) (fun l hl g hg => by
          rw [List.mem_range'_1] at hl
          have hle : ctx.baseLog * l ≤ ctx.baseLog * ctx.levelCount := Nat.mul_le_mul_left _ (by omega)
          have hpos : 1 ≤ ctx.baseLog * l := Nat.mul_pos h1 hl.1
          unfold encryptFeatureLevel
          rw [if_pos ⟨hvs v hv, by omega, by omega⟩, set_eq_const_mul_X (hvs v hv)]
          exact ⟨_, rfl, ⟨by omega, encryptRlwe_enc hg⟩, encryptRlwe_gen hg⟩) g hg
      refine ⟨r, f1, ⟨hvs v hv, ?_, ?_⟩, f3⟩
      · rw [← f2.length_eq, List.length_range']
      · intro i c hc
        have := forall₂_range'_getElem f2 hc
        rwa [Nat.add_comm 1 i] at this) g hg
  exact ⟨r, e1, e3, e2⟩

theorem forall₂_getElem_left {α β : Type} {Q : α → β → Prop} : ∀ {l : List α} {m : List β}, List.Forall₂ Q l m →
    ∀ {i : Nat} {a : α}, l[i]? = some a → ∃ b, m[i]? = some b ∧ Q a b
  | _, _, .nil, i, b, h => by simp at h
  | _, _, .cons hq hqs, 0, b, h => by simp at h; subst h; exact ⟨_, rfl, hq⟩
  | _, _, .cons hq hqs, i + 1, b, h => by
    simp only [List.getElem?_cons_succ] at h ⊢
    exact forall₂_getElem_left hqs h

/-- C39 (server): comparing and expanding such feature ciphertexts gives, for every node of the flattened tree, a usable RGSW encryption
of the comparison bit with row noise at most `compareNoise`. -/
theorem C39_compare_expand {d : Nat} (hd : d < 64) {ctx : Ctx} (h1 : 1 ≤ ctx.baseLog) (hl1 : 1 ≤ ctx.levelCount)
    (h2' : ctx.baseLog * ctx.levelCount < 64)
    (hk1 : 1 ≤ ctx.ksBaseLog) (hk2 : 1 ≤ ctx.ksLevelCount) (hk3 : ctx.ksBaseLog * ctx.ksLevelCount < 64)
    {fft : Fft (2 ^ d)} {phi : Nat} (hf : fft.Bounded phi) {s : Poly (2 ^ d)} (hs : Binary s) {B : Nat}
    {ksks : KskMap (2 ^ d)} (hk : TraceKeys s ctx.ksBaseLog ctx.ksLevelCount B ksks)
    {negS : RGSW (2 ^ d)} (hN : negS.WF) (hneg : EncG s negS (-s) B) (hnb : negS.baseLog = ctx.negsBaseLog)
    (hnl : negS.levelCount = ctx.negsLevelCount)
    {features : List Nat} {cts : List (List (RLWE (2 ^ d)))}
    (hcts : List.Forall₂ (fun v (cts : List (RLWE (2 ^ d))) => v < 2 ^ d ∧ cts.length = ctx.levelCount ∧ ∀ i c, cts[i]? = some c →
        ctx.baseLog * (i + 1) + d ≤ 64 ∧
        Enc s c (Poly.const _ ((1 : Scalar) <<< (64 - ctx.baseLog * (i + 1) - d)) * Spec.X _ ^ v) B) features cts)
    {tree : Tree} (hev : ∀ nd, HasNode nd tree → nd.op = .leq ∧ nd.feature < features.length ∧ nd.threshold < 2 ^ d) :
    ∃ bits, compareExpand fft ctx tree.flatten cts ksks negS = some bits ∧
      EncChoices s features tree bits ctx.baseLog ctx.levelCount (compareNoise ctx (2 ^ d) B phi) := by
  unfold compareExpand EncChoices
  refine mapOption_spec _ fun nd hnd => ?_
  obtain ⟨hop, hfe, hth⟩ := hev nd (((C35_flatten tree).2 nd).mp hnd)
  obtain ⟨fc, hfc, hv, hlen, hrow⟩ := forall₂_getElem_left hcts (List.getElem?_eq_getElem hfe)
  set v := features[nd.feature] with hvdef
  unfold compareExpandOne
  rw [hfc]
  simp only
  obtain ⟨fc', e1, e2⟩ := mapOption_spec (f := compareCt fft nd)
    (Q := fun c c' => c.lessEqThan fft nd.threshold = some c') fc (fun c hc => by
      unfold compareCt
      rw [hop]
      simp only
      rcases h : c.lessEqThan fft nd.threshold with _ | c'
      · rw [C23_panics_iff] at h; omega
      · exact ⟨c', rfl, rfl⟩)
  rw [e1]
  simp only
  have hlen' : fc'.length = fc.length := e2.length_eq.symm
  have hbit : cmpBit features nd = decide (v ≤ nd.threshold) := by
    unfold cmpBit; rw [List.getElem?_eq_getElem hfe]
  obtain ⟨_, C, hC1, hC2, hC3, hC4⟩ := expand_spec hd hf hs.small hk1 hk2 hk3 hk hN hneg (mu := if v ≤ nd.threshold then 1 else 0)
    (e := 2 ^ d * B + fftNoise (2 ^ d) phi 1) (cs := fc') (by omega) (by
      intro h0; rw [h0] at hlen'; simp at hlen'; omega) (fun i c' hc' => by
      obtain ⟨c, hc, hle⟩ := forall₂_getElem e2 hc'
      obtain ⟨hsh, hE⟩ := hrow i c hc
      obtain ⟨c'', hc'', hN'⟩ := C23_less_eq_than hf hs hv hth hE
      rw [hle] at hc''; cases hc''
      refine ⟨(if v ≤ nd.threshold then (1 : Scalar) else 0) <<< (64 - ctx.baseLog * (i + 1) - d),
        gadget_shift h1 (by omega) hsh _ (by split <;> simp), ?_⟩
      refine le_trans ?_ (le_trans hN' ?_)
      · split
        · exact le_refl _
        · simp
      · have : (nd.threshold + 1) * B ≤ 2 ^ d * B := Nat.mul_le_mul_right _ hth
        omega)
  refine ⟨C, hC1, ⟨⟨?_, ?_, ?_⟩, hC2, hC3, ?_⟩⟩
  · rw [hC2]; exact h1
  · rw [hC3]; exact hl1
  · rw [hC2, hC3]; exact h2'
  · rw [hnb, hnl] at hC4
    rw [hbit]
    have : Poly.const (2 ^ d) (if v ≤ nd.threshold then 1 else 0) = (if decide (v ≤ nd.threshold) then 1 else 0 : Poly (2 ^ d)) := by
      rw [← const_bit]
      simp
    rw [this] at hC4
    exact hC4

theorem forall₂_zip_mem {α β : Type} {Q : α → β → Prop} : ∀ {l : List α} {m : List β}, List.Forall₂ Q l m →
    ∀ p ∈ m.zip l, Q p.2 p.1 ∧ p.2 ∈ l
  | _, _, .nil, p, h => by simp at h
  | _, _, .cons hq hqs, p, h => by
    simp only [List.zip_cons_cons, List.mem_cons] at h
    rcases h with rfl | h
    · exact ⟨hq, by simp⟩
    · obtain ⟨h1, h2⟩ := forall₂_zip_mem hqs p h
      exact ⟨h1, by simp [h2]⟩

/-- `simulate` succeeds with the clear evaluations if every evaluation decrypts to the clear one. -/
theorem simulate_of {ctx : Ctx} {fft : Fft n} {s : Poly n} {tree : Tree} {features : List (List Nat)} {g g1 g2 g3 : Gen n} {negS : RGSW n}
    {ksks : KskMap n} {cts : List (List (List (RLWE n)))} {ceilLog2 : Nat → Nat} (e1 : negGsw ctx s g = some (negS, g1))
    (f1 : genAllSubsKsk ctx s g1 = some (ksks, g2)) (k1 : mapGenM (encryptFeatureVector ctx s) features g2 = some (cts, g3))
    (hlen : cts.length = features.length)
    (hpair : ∀ p ∈ cts.zip features, ∃ out, simulateServer fft ctx ceilLog2 tree ksks negS p.1 = some out ∧
      ∃ y, tree.eval p.2 = some y ∧ decryptAndRecompose ctx s out = some y) :
    ∃ ys, simulate fft ctx ceilLog2 s tree features g = some ys ∧ List.Forall₂ (fun f y => tree.eval f = some y) features ys := by
  have hsrv : ∀ (fs : List (List Nat)) (cs : List (List (List (RLWE n)))), cs.length = fs.length →
      (∀ p ∈ cs.zip fs, ∃ out, simulateServer fft ctx ceilLog2 tree ksks negS p.1 = some out ∧
        ∃ y, tree.eval p.2 = some y ∧ decryptAndRecompose ctx s out = some y) →
      ∃ outs ys, mapOption (simulateServer fft ctx ceilLog2 tree ksks negS) cs = some outs ∧
        mapOption (simulateCheck ctx s tree) (outs.zip fs) = some ys ∧ List.Forall₂ (fun f y => tree.eval f = some y) fs ys := by
    intro fs
    induction fs with
    | nil =>
      intro cs hl _
      cases cs with
      | nil => exact ⟨[], [], rfl, rfl, .nil⟩
      | cons _ _ => simp at hl
    | cons f fs ih =>
      intro cs hl hp
      cases cs with
      | nil => simp at hl
      | cons c cs =>
        obtain ⟨out, w1, y, w2, w3⟩ := hp (c, f) (by simp)
        obtain ⟨outs, ys, v1, v2, v3⟩ := ih cs (by simpa using hl) (fun p hpm => hp p (by simp [hpm]))
        refine ⟨out :: outs, y :: ys, ?_, ?_, .cons w2 v3⟩
        · rw [mapOption, w1, v1]
        · have hck : simulateCheck ctx s tree (out, f) = some y := by
            unfold simulateCheck
            simp only at w2
            simp only [w2, w3, if_true]
          rw [List.zip_cons_cons, mapOption, hck, v2]
  obtain ⟨outs, ys, v1, v2, v3⟩ := hsrv features cts hlen hpair
  refine ⟨ys, ?_, v3⟩
  unfold simulate
  simp only [e1, f1, k1, v1, v2]

/-- C39 (end to end): `simulate` -- key material, encrypted features, encrypted comparison and evaluation, decryption -- succeeds (its
`assert_eq!` never fires) and its predictions are the clear evaluations of the tree, for every tree of `leq` nodes whose thresholds are
below the ring size and whose labels are below `2^48` and not all 0, every list of feature vectors below the ring size and every generator within the noise
budget. -/
theorem C39_simulate {t : Scalar} {ctx : Ctx} (hc : Codec.new t = some ctx.codec) {d : Nat} (hd : d < 64)
    (h1 : 1 ≤ ctx.baseLog) (hl1 : 1 ≤ ctx.levelCount)
    (h2 : ctx.baseLog * ctx.levelCount + d ≤ 64) (h2' : ctx.baseLog * ctx.levelCount < 64)
    (hk1 : 1 ≤ ctx.ksBaseLog) (hk2 : 1 ≤ ctx.ksLevelCount) (hk3 : ctx.ksBaseLog * ctx.ksLevelCount < 64)
    (hn1 : ctx.negsBaseLog = ctx.baseLog) (hn2 : 1 ≤ ctx.negsLevelCount) (hn3 : ctx.negsBaseLog * ctx.negsLevelCount < 64)
    {fft : Fft (2 ^ d)} {phi : Nat} (hf : fft.Bounded phi) {s : Poly (2 ^ d)} (hs : Binary s) {g : Gen (2 ^ d)} {B : Nat} (hg : g.Bounded B)
    {tree : Tree} (hroot : ∃ d l r, tree = .internal d l r)
    (hnodes : ∀ nd, HasNode nd tree → nd.op = .leq ∧ nd.threshold < 2 ^ d)
    {F : F64Ops} (hF : F.Ok) (hlab : ∃ x, x ≠ 0 ∧ HasLeaf x tree) (hmax : ∀ x, HasLeaf x tree → x < 2 ^ 48)
    {features : List (List Nat)}
    (hfeat : ∀ f ∈ features, tree.maxFeatureIndex < f.length ∧ ∀ v ∈ f, v < 2 ^ d)
    (hb : 2 * (tree.countLeaf * (tree.countDepth *
      extNoise (2 ^ d) ctx.baseLog ctx.levelCount (compareNoise ctx (2 ^ d) B phi) phi 1)) < 2 ^ 64 / t.toNat) :
    ∃ ys, simulate fft ctx F.ceilLog2 s tree features g = some ys ∧
      List.Forall₂ (fun f y => tree.eval f = some y) features ys := by
  obtain ⟨⟨negS, g1⟩, e1, e2, e3, e4, e5⟩ := C21_neg_gsw hn1 hs hg
  obtain ⟨⟨ksks, g2⟩, f1, f2, f3⟩ := genAllSubsKsk_spec hd ctx s e5
  have hN : negS.WF := ⟨by rw [e3, hn1]; exact h1, by rw [e4]; exact hn2, by rw [e3, e4]; exact hn3⟩
  obtain ⟨⟨cts, g3⟩, k1, k2, _⟩ := mapGenM_spec (f := encryptFeatureVector ctx s) features (P := fun g : Gen (2 ^ d) => g.Bounded B)
    (Q := fun f cts => List.Forall₂ (fun v (cts : List (RLWE (2 ^ d))) => v < 2 ^ d ∧ cts.length = ctx.levelCount ∧
      ∀ i c, cts[i]? = some c → ctx.baseLog * (i + 1) + d ≤ 64 ∧
        Enc s c (Poly.const _ ((1 : Scalar) <<< (64 - ctx.baseLog * (i + 1) - d)) * Spec.X _ ^ v) B) f cts)
    (fun f hfm g hg => by
      obtain ⟨r, r1, r2, r3⟩ := C39_feature_vector hd h1 h2 s (hfeat f hfm).2 hg
      exact ⟨r, r1, r3, r2⟩) g2 f3
  have hpair : ∀ p ∈ cts.zip features, ∃ out, simulateServer fft ctx F.ceilLog2 tree ksks negS p.1 = some out ∧
      ∃ y, tree.eval p.2 = some y ∧ decryptAndRecompose ctx s out = some y := by
    intro p hp
    obtain ⟨hq, hm⟩ := forall₂_zip_mem k2 p hp
    obtain ⟨y, hy⟩ := Option.isSome_iff_exists.mp
      (C34_max_feature_index tree p.2 (fun nd h => (hnodes nd h).1) (hfeat p.2 hm).1)
    obtain ⟨bits, b1, b2⟩ := C39_compare_expand hd h1 hl1 h2' hk1 hk2 hk3 hf hs f2 hN e2 e3 e4 hq (tree := tree)
      (fun nd hnd => by
        refine ⟨(hnodes nd hnd).1, ?_, (hnodes nd hnd).2⟩
        by_contra hcon
        have : tree.eval p.2 = none := (C34_eval_panics tree p.2).mpr ⟨nd, hnd, Or.inr (not_lt.mp hcon)⟩
        rw [hy] at this; cases this)
    obtain ⟨root, out, o1, o2, o3⟩ := C39_eval hc (by positivity) hf hs hroot hy b2 hb hF hlab hmax
    refine ⟨out, ?_, y, hy, o3⟩
    unfold simulateServer
    simp only [b1, o1, o2]
  exact simulate_of e1 f1 k1 k2.length_eq.symm hpair

/-- Parameters of the non-vacuity example: ring size 4, base log 3, 20 levels. -/
def exTreeCtx : Ctx := { exCtx with baseLog := 3, levelCount := 20, negsBaseLog := 3, negsLevelCount := 20, ksBaseLog := 3, ksLevelCount := 20 }

/-- A two-level tree with labels 2, 3, 1. -/
def exTree : Tree := .internal ⟨2, 0, 0, .leq⟩ (.internal ⟨1, 1, 1, .leq⟩ (.leaf 2) (.leaf 3)) (.leaf 1)

/-- The hypotheses of `C39_simulate` (hence those of the theorems it uses) are met: two feature vectors, noise up to 3, FFT error 5. -/
theorem exTree_simulate : ∃ ys, simulate exFft exTreeCtx exF64.ceilLog2 exKey exTree [[1, 3], [3, 0]] exGen = some ys ∧
    List.Forall₂ (fun f y => exTree.eval f = some y) [[1, 3], [3, 0]] ys := by
  refine C39_simulate (t := 16) (d := 2) (ctx := exTreeCtx) (by decide) (by decide) (by decide) (by decide) (by decide) (by decide) (by decide)
    (by decide) (by decide) rfl (by decide) (by decide) exFft_bounded exKey_binary exGen_bounded ⟨_, _, _, rfl⟩ ?_
    exF64_exact.ok ⟨2, by decide, .left _ _ _ (.left _ _ _ .here)⟩ ?_ (by decide) (by decide)
  · intro nd h
    cases h with
    | here => decide
    | left _ _ _ h => cases h with
      | here => decide
      | left _ _ _ h => cases h
      | right _ _ _ h => cases h
    | right _ _ _ h => cases h
  · intro x h
    cases h with
    | left _ _ _ h => cases h with
      | left _ _ _ h => cases h; decide
      | right _ _ _ h => cases h; decide
    | right _ _ _ h => cases h; decide

/-- The hypotheses of `C39_wide_label_wrong` are met by a tree with the labels `2^49` and 1, a feature vector with label `2^49` and
correctly rounded operations. -/
example : ∃ root out, EncTree.new (.internal ⟨2, 0, 0, .leq⟩ (.leaf (2 ^ 49)) (.leaf 1)) [(encryptConstantRgsw exKey 3 20 1 exGen).1] = some (root, []) ∧
    Tree.eval (.internal ⟨2, 0, 0, .leq⟩ (.leaf (2 ^ 49)) (.leaf 1)) [1] = some (2 ^ 49) ∧
    encEval exFft exTreeCtx exF64.ceilLog2 root = some out ∧ decryptAndRecompose exTreeCtx exKey out = some 0 := by
  have hb : EncG exKey (encryptConstantRgsw exKey 3 20 1 exGen).1 1 3 := by
    have := (encryptConstantRgsw_enc (s := exKey) 3 20 1 exGen_bounded).1
    rwa [Poly.const_one] at this
  have hc : EncChoices exKey [1] (.internal ⟨2, 0, 0, .leq⟩ (.leaf (2 ^ 49)) (.leaf 1)) [(encryptConstantRgsw exKey 3 20 1 exGen).1] 3 20 3 :=
    .cons ⟨by refine ⟨?_, ?_, ?_⟩ <;> decide, rfl, rfl, hb⟩ .nil
  obtain ⟨root, out, h1, h2, h3⟩ := C39_wide_label_wrong (t := 16) (ctx := exTreeCtx) (by decide) (by decide) exFft_bounded exKey_binary
    ⟨_, _, _, rfl⟩ (by decide) hc (by decide) exF64_exact (by
      intro x h
      cases h with
      | left _ _ _ h => cases h; decide
      | right _ _ _ h => cases h; decide)
  exact ⟨root, out, h1, by decide, h2, h3⟩

end Panacea
