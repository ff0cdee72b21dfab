import Verif.Props.Batch

/-!
# C70: correctness for the noise of the run at hand

No bound on the FFT, no worst-case noise: the hypotheses bound the errors of the external products that the run performs (`Spec/Measured`),
so the theorems apply to the repository's default parameters, whose worst-case noise does not fit.
-/

namespace Panacea
variable {n : Nat}

/-- C70 (single query): if the errors of the external products of this call are within `m`, then `process_one` answers with the content
of column `i` and stores the data of a WRITE there and nothing else. -/
theorem C70_process_one {t : Scalar} {fft : Fft n} {s : Poly n} {S : Server n} (hc : Codec.new t = some S.ctx.codec) {B : Nat}
    (hk : ServerKeys S.ctx s S.negS B) {q : ClientQuery n} {D i : Nat} {w : Bool} {msg : Poly n} (hD : 1 ≤ D)
    (hq : IsQuery S.ctx s q D i w msg B) {row : List (RLWE n)} {rest : List (List (RLWE n))} (hS : S.data = row :: rest)
    (hlen : row.length = 2 ^ D) {v : Nat → Poly n} {e : Nat} (hrow : EncRow s row v e) {m : Measure}
    (hm : MeasuredRow fft s S.ctx S.negS q row D B m) {reduce : List (RLWE n) → RLWE n} (hr : IsReduction (· + ·) 0 reduce) :
    ∃ y S' row', S.processOne reduce fft q = some (y, S') ∧ S'.data = row' :: rest ∧ S'.negS = S.negS ∧ S'.ctx = S.ctx ∧
      row'.length = 2 ^ D ∧ EncRow s row' (if w then Function.update v i msg else v) (max e B + m.op + m.sel) ∧
      Enc s y (v i) (e + 2 ^ D * m.sel) ∧
      ∀ pt, S.ctx.codec.polyEncode pt = some (v i) → 2 * (e + 2 ^ D * m.sel) < 2 ^ 64 / t.toNat → decryptDecodeRlwe S.ctx s y = pt := by
  obtain ⟨y, ls, h1, _, _, h4, h5, h6⟩ := process_row_of hk hD hq hlen hrow hm
  refine ⟨y, { S with data := updateDb fft q row ls :: rest }, _, ?_, rfl, rfl, rfl, h5, h6, h4,
    fun pt hpt hb => decryptDecode_of_enc hc hpt h4 hb⟩
  unfold Server.processOne
  simp only [hS]
  rw [processOneMt_eq_st hr, h1]

/-- C70 (single-query histories): every run of valid commands whose external products stay within `m` returns and stores what a plain
array does, while the accumulated errors fit. -/
theorem C70_history {t : Scalar} {ctx : Ctx} (hcd : Codec.new t = some ctx.codec) {fft : Fft n} {s : Poly n}
    (shuffle : List Nat → List Nat) (hsh : ∀ l, (shuffle l).Perm l) {hc N : Nat}
    {H : NaiveHash} (hnew : NaiveHash.new shuffle hc N = some H) {D : Nat} (hD1 : 1 ≤ D) (hD : D < 64) (hsize : 2 ^ D = hc * N) {B : Nat}
    {m : Measure} :
    ∀ (cmds : List ((List (RLWE n) → RLWE n) × Cmd n)) (v : Nat → Poly n) (e : Nat) (S : Server n) (g : Gen n),
      B ≤ e → g.Bounded B → OneInv ctx s H D N B v e S →
      (∀ c ∈ cmds, IsReduction (· + ·) 0 c.1 ∧ c.2.Valid N t) →
      MeasuredHistory fft ctx s D H B m cmds S g →
      2 * (e + cmds.length * (m.op + m.sel) + 2 ^ D * m.sel) < 2 ^ 64 / t.toNat →
      ∃ S' g', runHistory fft ctx s 1 (2 ^ D) H cmds S g = some (Spec.run v (cmds.map Prod.snd), S', g') ∧
        OneInv ctx s H D N B ((cmds.map Prod.snd).foldl Spec.apply v) (e + cmds.length * (m.op + m.sel)) S' := by
  intro cmds
  induction cmds with
  | nil =>
    intro v e S g _ _ hinv _ _ _
    exact ⟨S, g, rfl, by simpa using hinv⟩
  | cons cmd cmds ih =>
    intro v e S g he hg hinv hval hmeas hb
    obtain ⟨hred, hv⟩ := hval cmd (by simp)
    obtain ⟨b1, b2, _⟩ := C10_tuple_bijection shuffle hsh hc N H hnew 1 (2 ^ D) (by positivity) (by omega)
    have hcpos : 0 < hc := by
      rcases Nat.eq_zero_or_pos hc with h0 | h0
      · have : 0 < 2 ^ D := by positivity
        rw [hsize, h0] at this; omega
      · exact h0
    obtain ⟨r, c, ht, hr, hcl, _⟩ := b1 0 cmd.2.index hcpos hv.lt
    have hr0 : r = 0 := by omega
    subst hr0
    obtain ⟨row, hS, hlen, vc, hrow, hitems⟩ := hinv.shape
    have hk := hinv.keys
    obtain ⟨q, g', w, msg, q1, q2, q3, q4⟩ := clientQuery_one hcd hk.bl hk.lv hk.lt s shuffle hsh hnew hD hv ht hg
    have hctx := hinv.ctx_eq
    subst hctx
    obtain ⟨hm1, hm2⟩ := hmeas q g' q1
    obtain ⟨y, S1, row', p1, p4, p5, p6, p7, p8, _, pd⟩ := C70_process_one hcd hk hD1 q3 hS hlen hrow (hm1 row [] hS) hred
    have p2 := pd (v cmd.2.index) (hitems _ _ hv.lt ht) (by
      simp only [List.length_cons] at hb
      have : (0:Nat) ≤ (cmds.length + 1) * (m.op + m.sel) := Nat.zero_le _
      omega)
    have hmax : max e B = e := by omega
    rw [hmax] at p8
    have hstep : e + (m.op + m.sel) + cmds.length * (m.op + m.sel) = e + (cmds.length + 1) * (m.op + m.sel) := by ring
    obtain ⟨S', g'', i1, i2⟩ := ih (Spec.apply v cmd.2) (e + (m.op + m.sel)) S1 g' (by omega) q2
      ⟨p6, by rw [p5]; exact hk, row', p4, p7, _, by rw [← Nat.add_assoc]; exact p8, by
        intro i ci hi hti
        rcases hcmd : cmd.2 with j | ⟨j, a⟩
        · rw [hcmd] at q4
          have q4 : w = false := q4
          subst q4
          simp only [Bool.false_eq_true, if_false, Spec.apply]
          exact hitems i ci hi hti
        · rw [hcmd] at q4 ht hv
          simp only [Cmd.index] at ht
          obtain ⟨rfl, hm⟩ := q4
          simp only [if_true, Spec.apply]
          by_cases hij : i = j
          · subst hij
            have : ci = c := by
              have := ht.symm.trans hti
              simpa using this.symm
            subst this
            simp only [Function.update_self]
            exact hm
          · have : ci ≠ c := by
              rintro rfl
              exact hij (b2 0 i 0 j (0, ci) hcpos hi hcpos hv.lt hti ht).2
            simp only [Function.update_of_ne hij, Function.update_of_ne this]
            exact hitems i ci hi hti⟩
      (fun c hc => hval c (by simp [hc])) (hm2 y S1 p1)
      (by
        rw [hstep]; simpa using hb)
    refine ⟨S', g'', ?_, ?_⟩
    · rw [runHistory]
      simp only [q1, p1, i1, p2, List.map_cons, Spec.run]
    · rw [hstep] at i2
      simpa using i2

/-- A batch access whose external products stay within `m`. -/
theorem measuredBatch_ok {fft : Fft n} {s : Poly n} {S : Server n} {B : Nat} (hk : ServerKeys S.ctx s S.negS B) {D : Nat} (hD : 1 ≤ D)
    {specs : List (QuerySpec n)} {qs : List (ClientQuery n)} (hq : IsQueries S.ctx s D B specs qs) {H : NaiveHash} {rows hc N : Nat}
    (hcpos : 0 < hc) {T : Nat → Nat → Nat × Nat} (L : Layout H rows (2 ^ D) hc N T) (hpos : 0 < rows) (hsize : rows * 2 ^ D = hc * N)
    (hrows : specs.length = rows) (hsh : DbShape rows (2 ^ D) S.data) {M : Nat → Poly n} {e : Nat} (hM : EncItems s hc N T S.data M e)
    (huniq : ∀ i h h', i < N → h < hc → h' < hc → (Spec.writes specs (T h i)).isSome → (Spec.writes specs (T h' i)).isSome → h = h')
    {m : Measure} (hm : MeasuredBatch fft s S qs H D B m) :
    BatchOk fft s S H rows D hc N T specs qs M (e + 2 ^ D * m.sel) (max e B + (2 * hc - 1) * (m.op + m.sel)) := by
  obtain ⟨k, rfl⟩ := Nat.exists_eq_succ_of_ne_zero (Nat.pos_iff_ne_zero.mp hcpos)
  have := batch_server_of hq.length_eq L hpos hsize hrows hsh hM huniq (E := m.rows D) (er := e + 2 ^ D * m.sel)
    (eu := max e B + m.op + m.sel) (δ := m.op + m.sel) (fun r sp q row hsp hqr hrow v hv => by
      obtain ⟨q', hq', hqq⟩ := forall₂_getElem_left hq hsp
      rw [hqr] at hq'; cases hq'
      exact process_row_of hk hD hqq (hsh.2 row (List.mem_of_getElem? hrow)) hv (hm.rows r q row hqr hrow))
    (fun rs hrs hls => flagSel_of_gates hq hrows hls (fun p v q ls l hP hqr hlr hl => by
      obtain ⟨h, i, hh, hi, rfl, hv⟩ := hP
      exact hm.fix rs hrs i _ (T 0 i) (T h i) v q ls l (itemPositions_some L hi) (by simp [List.range_succ_eq_map])
        (List.mem_map.mpr ⟨h, List.mem_range.mpr hh, rfl⟩) hv hqr hlr hl))
  have hnoise : max e B + (2 * (k + 1) - 1) * (m.op + m.sel) = max e B + m.op + m.sel + k * (2 * (m.op + m.sel)) := by
    rw [show 2 * (k + 1) - 1 = 2 * k + 1 by omega]
    ring
  rw [Nat.succ_eq_add_one, hnoise]
  exact this

/-- C70 (batch histories): every run of valid batch commands whose external products stay within `m` answers and stores what a plain array
does on the served items, while the accumulated errors fit. -/
theorem C70_batches {t : Scalar} {ctx : Ctx} (hcd : Codec.new t = some ctx.codec) {fft : Fft n} {s : Poly n}
    (shuffle : List Nat → List Nat) (hshf : ∀ l, (shuffle l).Perm l) {hc N : Nat}
    {H : NaiveHash} (hnew : NaiveHash.new shuffle hc N = some H) {D rows : Nat} (hD1 : 1 ≤ D) (hD : D < 64) (hpos : 0 < rows)
    (hsize : rows * 2 ^ D = hc * N) {T : Nat → Nat → Nat × Nat} (L : Layout H rows (2 ^ D) hc N T) {B : Nat} {m : Measure} :
    ∀ (cmds : List (BatchCmd n)) (v : Nat → Poly n) (e : Nat) (S : Server n) (g : Gen n),
      B ≤ e → g.Bounded B → S.ctx = ctx → ServerKeys ctx s S.negS B → DbShape rows (2 ^ D) S.data → Consistent ctx s hc N T S.data v e →
      (∀ c ∈ cmds, c.Valid N t) → MeasuredBatches fft ctx s rows D H B m cmds S g →
      2 * (e + cmds.length * ((2 * hc - 1) * (m.op + m.sel)) + 2 ^ D * m.sel) < 2 ^ 64 / t.toNat →
      ∃ yss S' g', runBatches fft ctx s rows (2 ^ D) H cmds S g = some (yss, S', g') ∧ Spec.batchOk H (2 ^ D) v cmds yss ∧
        DbShape rows (2 ^ D) S'.data ∧
        Consistent ctx s hc N T S'.data (cmds.foldl (Spec.applyBatch H (2 ^ D)) v)
          (e + cmds.length * ((2 * hc - 1) * (m.op + m.sel))) := by
  have hcpos : 0 < hc := by
    rcases Nat.eq_zero_or_pos hc with h0 | h0
    · have := (C09_new_panics shuffle hc N).mpr h0
      rw [hnew] at this; cases this
    · exact h0
  intro cmds
  induction cmds with
  | nil =>
    intro v e S g _ _ _ _ hsh hcons _ _ _
    exact ⟨[], S, g, rfl, trivial, hsh, by simpa using hcons⟩
  | cons cmd cmds ih =>
    intro v e S g he hg hctx hk hsh hcons hval hmeas hb
    subst hctx
    obtain ⟨mapping, qs, g', ys, S1, a1, a2, a3, a4, a5, a6, a7, a8, a9, _⟩ := batch_access_of (fft := fft) hcd hk shuffle hshf hnew hD
      hsize L hcons (hval cmd (by simp)) hg (er := e + 2 ^ D * m.sel) (en := max e B + (2 * hc - 1) * (m.op + m.sel))
      (fun specs qs g' M hcl hq hlen hM huniq => measuredBatch_ok hk hD1 hq hcpos L hpos hsize hlen hsh hM huniq (hmeas qs g' hcl).1)
    set X := (2 * hc - 1) * (m.op + m.sel) with hX
    rw [max_eq_left he] at a9
    have hstep : e + X + cmds.length * X = e + (cmds.length + 1) * X := by ring
    simp only [List.length_cons] at hb ⊢
    obtain ⟨yss, S', g'', i1, i2, i3, i4⟩ := ih (Spec.applyBatch H (2 ^ D) v cmd) (e + X) S1 g' (by omega) a3 a6 (by rw [a5]; exact hk) a7
      a9 (fun c hc => hval c (by simp [hc])) ((hmeas qs g' a2).2 ys S1 a4) (by rw [hstep]; exact hb)
    refine ⟨ys.map (decryptDecodeRlwe S.ctx s) :: yss, S', g'', ?_, ⟨?_, i2⟩, i3, ?_⟩
    · rw [runBatches]
      simp only [a2, a4, i1]
    · intro m r col i hm hr
      rw [a1] at hm; cases hm
      obtain ⟨y, enc, y1, y2, y3⟩ := a8 r col i hr
      rw [List.getElem?_map, y1, Option.map_some, decryptDecode_of_enc hcd y2 y3 (by
        have : e ≤ e + (cmds.length + 1) * X := Nat.le_add_right _ _
        omega)]
    · rw [hstep] at i4
      simpa using i4

/-- C70 (end to end): the same for a database made by `setup_random_oram`. -/
theorem C70_from_setup {t : Scalar} {ctx : Ctx} (hcd : Codec.new t = some ctx.codec) {fft : Fft n}
    {s : Poly n} (hs : Binary s) (shuffle : List Nat → List Nat) (hshf : ∀ l, (shuffle l).Perm l) {hc N : Nat}
    {H : NaiveHash} (hnew : NaiveHash.new shuffle hc N = some H) {D rows : Nat} (hD1 : 1 ≤ D) (hD : D < 64) (hpos : 0 < rows)
    (hsize : rows * 2 ^ D = hc * N) (h1 : 1 ≤ ctx.baseLog) (h2 : 1 ≤ ctx.levelCount) (h3 : ctx.baseLog * ctx.levelCount < 64)
    (hn1 : ctx.negsBaseLog = ctx.baseLog) (hn2 : 1 ≤ ctx.negsLevelCount) (hn3 : ctx.negsBaseLog * ctx.negsLevelCount < 64)
    {g : Gen n} {B : Nat} (hg : g.Bounded B) (cmds : List (BatchCmd n)) (hval : ∀ c ∈ cmds, c.Valid N t) {m : Measure}
    (hmeas : ∀ S pts g1, setupRandomOram ctx s rows (2 ^ D) H g = some (S, pts, g1) → MeasuredBatches fft ctx s rows D H B m cmds S g1)
    (hb : 2 * (B + cmds.length * ((2 * hc - 1) * (m.op + m.sel)) + 2 ^ D * m.sel) < 2 ^ 64 / t.toNat) :
    ∃ S pts g1 yss S' g', setupRandomOram ctx s rows (2 ^ D) H g = some (S, pts, g1) ∧ pts.length = N ∧
      runBatches fft ctx s rows (2 ^ D) H cmds S g1 = some (yss, S', g') ∧ Spec.batchOk H (2 ^ D) (fun i => pts.getD i 0) cmds yss := by
  obtain ⟨T, L⟩ := layout_of_hash shuffle hshf hnew (rows := rows) (cols := 2 ^ D) (by positivity) hsize
  obtain ⟨S, pts, g1, hset, e3, e2, hc', hkeys, e4, e7⟩ := setup_consistent hcd hs shuffle hshf hnew hsize L h1 h2 h3 hn1 hn2 hn3 hg
  obtain ⟨yss, S', g', r1, r2, _⟩ := C70_batches hcd shuffle hshf hnew hD1 hD hpos hsize L cmds _ B S g1
    (le_refl B) e2 hc' hkeys e4 e7 hval (hmeas S pts g1 hset) hb
  exact ⟨_, pts, g1, yss, S', g', hset, e3, r1, r2⟩

/-! ### The default parameters -/

/-- The parameters of `TFHEParameters::default()`, as a context (`C58_defaults` relates them). -/
def defaultCtx : Ctx := ⟨5, 9, 5, 11, 5, 11, ⟨8, 2 ^ 56⟩⟩

/-- C70 (default parameters): degree 2048, 384 x 16 cells, 3 hash functions, 2048 items, plaintext modulus 256.  For every key, every
floating-point behaviour, every generator with noise at most `2^15`, and every run of up to eight valid batch commands in which no product
with a READ/WRITE flag is off by more than `2^46` and no product with a selector by more than `2^49`, all responses are correct. -/
theorem C70_default_params {fft : Fft 2048} {s : Poly 2048} (hs : Binary s) (shuffle : List Nat → List Nat) (hshf : ∀ l, (shuffle l).Perm l)
    {H : NaiveHash} (hnew : NaiveHash.new shuffle 3 2048 = some H) {g : Gen 2048} {B : Nat} (hB : B ≤ 2 ^ 15) (hg : g.Bounded B) (cmds : List (BatchCmd 2048))
    (hlen : cmds.length ≤ 8) (hval : ∀ c ∈ cmds, c.Valid 2048 256) {m : Measure} (hop : m.op ≤ 2 ^ 46) (hsel : m.sel ≤ 2 ^ 49)
    (hmeas : ∀ S pts g1, setupRandomOram defaultCtx s 384 16 H g = some (S, pts, g1) →
      MeasuredBatches fft defaultCtx s 384 4 H B m cmds S g1) :
    ∃ S pts g1 yss S' g', setupRandomOram defaultCtx s 384 16 H g = some (S, pts, g1) ∧ pts.length = 2048 ∧
      runBatches fft defaultCtx s 384 16 H cmds S g1 = some (yss, S', g') ∧ Spec.batchOk H 16 (fun i => pts.getD i 0) cmds yss := by
  refine C70_from_setup (t := 256) (ctx := defaultCtx) (D := 4) (by decide) hs shuffle hshf hnew (by decide) (by decide) (by decide)
    (by decide) (by decide) (by decide) (by decide) rfl (by decide) (by decide) hg cmds hval hmeas ?_
  have h1 : cmds.length * ((2 * 3 - 1) * (m.op + m.sel)) ≤ 8 * (5 * (2 ^ 46 + 2 ^ 49)) :=
    Nat.mul_le_mul hlen (Nat.mul_le_mul_left _ (by omega))
  have h2 : 2 ^ 64 / (256 : Scalar).toNat = 2 ^ 56 := by decide
  rw [h2]
  omega

/-! ### The hypotheses are met

The errors are bounded by the weight of the key: for sparse keys the default parameters meet the hypotheses in the worst case. -/

/-- Worst-case error of a product with an encrypted bit, for keys of l1 norm at most `h`. -/
def sparseGate (n h bl lv E phi K : Nat) : Nat :=
  K * ((1 + h) * 2 ^ (63 - bl * lv)) + (2 * lv * (n * 2 ^ (bl - 1) * E) + fftNoise n phi (2 * lv * 2 ^ (bl - 1)))

theorem externalProduct_sparse {fft : Fft n} {phi : Nat} (hf : fft.Bounded phi) {s : Poly n} (hs : Small s 1) {h K : Nat} (hh : l1 s ≤ h)
    {C : RGSW n} (hC : C.WF) {mu : Poly n} (hK : l1 mu ≤ K) {E : Nat} (hG : EncG s C mu E) (d : RLWE n) :
    Enc s (externalProduct fft C 0 d) (mu * decryptRlwe s d) (sparseGate n h C.baseLog C.levelCount E phi K) := by
  have hx := externalProduct_core hf hs hC hG 0 d
  have ha := roundPoly_error hC.lt d.mask
  have hb := roundPoly_error hC.lt d.body
  set ra := roundPoly C.baseLog C.levelCount d.mask
  set rb := roundPoly C.baseLog C.levelCount d.body
  have hmu : Small (mu * ((rb - d.body) - s * (ra - d.mask))) (l1 mu * ((1 + l1 s) * 2 ^ (63 - C.baseLog * C.levelCount))) := by
    apply Small.l1_mul
    exact (hb.sub (Small.l1_mul s ha)).mono (le_of_eq (by ring))
  unfold Enc
  have e : decryptRlwe s (externalProduct fft C 0 d) - mu * decryptRlwe s d
      = mu * ((rb - d.body) - s * (ra - d.mask))
        + (decryptRlwe s (externalProduct fft C 0 d) - (decryptRlwe s 0 + -(s * mu) * ra + mu * rb)) := by
    have h1 : decryptRlwe s d = d.body - d.mask * s := rfl
    rw [decrypt_zero, h1]; ring
  rw [e]
  refine (hmu.add hx).mono ?_
  unfold sparseGate
  have : l1 mu * ((1 + l1 s) * 2 ^ (63 - C.baseLog * C.levelCount)) ≤ K * ((1 + h) * 2 ^ (63 - C.baseLog * C.levelCount)) :=
    Nat.mul_le_mul hK (Nat.mul_le_mul_right _ (by omega))
  omega

theorem gateOk_sparse {fft : Fft n} {phi : Nat} (hf : fft.Bounded phi) {s : Poly n} (hs : Small s 1) {h : Nat} (hh : l1 s ≤ h)
    (bl lv E : Nat) (C : RGSW n) (d : RLWE n) : GateOk fft s bl lv E (sparseGate n h bl lv E phi 1) C d := by
  intro b hb
  have := externalProduct_sparse hf hs hh hb.wf (l1_bit b) hb.enc d
  rw [hb.baseLog, hb.levelCount] at this
  have e : (if b then 1 else 0 : Poly n) * decryptRlwe s d = if b then decryptRlwe s d else 0 := by
    cases b
    · simp only [Bool.false_eq_true, if_false]; ring
    · simp only [if_true]; ring
  rwa [e] at this

/-- The measure of a server with a key of l1 norm at most `h`. -/
def sparseMeasure (ctx : Ctx) (n h B phi D : Nat) : Measure :=
  let bit := sparseGate n h ctx.baseLog ctx.levelCount B phi 1
  let neg := h * (D * bit) + sparseGate n h ctx.negsBaseLog ctx.negsLevelCount B phi h
  ⟨bit, neg, bit, sparseGate n h ctx.baseLog ctx.levelCount (max (D * bit) neg) phi 1⟩

/-- C70 (sparse keys): every access of every server stays within the measure given by the weight of the key. -/
theorem C70_sparse_row {fft : Fft n} {phi : Nat} (hf : fft.Bounded phi) {s : Poly n} (hs : Binary s) {h : Nat} (hh : l1 s ≤ h) {ctx : Ctx}
    {negS : RGSW n} {B : Nat} (hN : negS.WF) (hbl : negS.baseLog = ctx.negsBaseLog) (hlv : negS.levelCount = ctx.negsLevelCount)
    (q : ClientQuery n) (row : List (RLWE n)) (D : Nat) :
    MeasuredRow fft s ctx negS q row D B (sparseMeasure ctx n h B phi D) := by
  refine ⟨fun _ _ _ x _ => gateOk_sparse hf hs.small hh _ _ _ x.1 x.2, ?_, fun y ls _ j l c _ _ =>
    ⟨gateOk_sparse hf hs.small hh _ _ _ _ _, gateOk_sparse hf hs.small hh _ _ _ _ _⟩, fun c _ => gateOk_sparse hf hs.small hh _ _ _ _ _⟩
  intro hneg L _ cs _ k c _ b hc
  have hx := externalProduct_sparse hf hs.small hh hN (K := h) (by rw [l1_neg]; exact hh) hneg c
  rw [hbl, hlv] at hx
  unfold Enc at *
  set t := Poly.const n (gadget ctx.baseLog (k + 1))
  set m : Poly n := if b then 1 else 0
  rw [show decryptRlwe s (externalProduct fft negS 0 c) - t * -(s * m)
      = -s * (decryptRlwe s c - t * m) + (decryptRlwe s (externalProduct fft negS 0 c) - -s * decryptRlwe s c) by ring]
  refine ((Small.l1_mul (-s) hc).add hx).mono ?_
  rw [l1_neg]
  exact Nat.add_le_add_right (Nat.mul_le_mul_right _ hh) _

/-- ... and so does every run of batch commands. -/
theorem C70_sparse_batches {fft : Fft n} {phi : Nat} (hf : fft.Bounded phi) {s : Poly n} (hs : Binary s) {h : Nat} (hh : l1 s ≤ h) {ctx : Ctx}
    {rows D : Nat} {H : NaiveHash} {B : Nat} : ∀ (cmds : List (BatchCmd n)) (S : Server n) (g : Gen n), S.ctx = ctx → S.negS.WF →
      S.negS.baseLog = ctx.negsBaseLog → S.negS.levelCount = ctx.negsLevelCount →
      MeasuredBatches fft ctx s rows D H B (sparseMeasure ctx n h B phi D) cmds S g
  | [], _, _, _, _, _, _ => trivial
  | c :: cs, S, g, hc, hN, hbl, hlv => by
    subst hc
    intro qs g' _
    refine ⟨⟨fun r q row _ _ => C70_sparse_row hf hs hh hN hbl hlv q row D, fun rs _ i ps first p v q ls l _ _ _ _ _ _ _ =>
      ⟨gateOk_sparse hf hs.small hh _ _ _ _ _, gateOk_sparse hf hs.small hh _ _ _ _ _⟩⟩, fun ys S' hS' => ?_⟩
    have hk : S'.ctx = S.ctx ∧ S'.negS = S.negS := by
      unfold Server.processBatch at hS'
      dsimp only at hS'
      split at hS'
      · split at hS'
        · cases hS'
        · split at hS'
          · cases hS'
          · split at hS'
            · cases hS'
            · split at hS'
              · cases hS'
              · cases hS'
                exact ⟨rfl, rfl⟩
      · cases hS'
    exact C70_sparse_batches hf hs hh cs S' g' hk.1 (by rw [hk.2]; exact hN) (by rw [hk.2]; exact hbl) (by rw [hk.2]; exact hlv)

/-- C70 (default parameters, unconditionally): with a key of at most 16 ones, encryption noise at most 8 and relative FFT error at most 8,
every run of up to eight valid batch commands on the default grid is correct. -/
theorem C70_default_sparse {fft : Fft 2048} (hf : fft.Bounded 8) {s : Poly 2048} (hs : Binary s) (hh : l1 s ≤ 16)
    (shuffle : List Nat → List Nat) (hshf : ∀ l, (shuffle l).Perm l)
    {H : NaiveHash} (hnew : NaiveHash.new shuffle 3 2048 = some H) {g : Gen 2048} (hg : g.Bounded 8) (cmds : List (BatchCmd 2048))
    (hlen : cmds.length ≤ 8) (hval : ∀ c ∈ cmds, c.Valid 2048 256) :
    ∃ S pts g1 yss S' g', setupRandomOram defaultCtx s 384 16 H g = some (S, pts, g1) ∧ pts.length = 2048 ∧
      runBatches fft defaultCtx s 384 16 H cmds S g1 = some (yss, S', g') ∧ Spec.batchOk H 16 (fun i => pts.getD i 0) cmds yss := by
  have hg' : g.Bounded (2 ^ 15) := fun i => (hg i).mono (by decide)
  obtain ⟨T, L⟩ := layout_of_hash shuffle hshf hnew (rows := 384) (cols := 2 ^ 4) (by positivity) (by decide)
  obtain ⟨S, pts, g1, hset, e3, e2, hc', hkeys, e4, e7⟩ := setup_consistent (t := 256) (ctx := defaultCtx) (by decide) hs shuffle hshf hnew
    (by decide) L (by decide) (by decide) (by decide) rfl (by decide) (by decide) hg
  obtain ⟨yss, S', g', r1, r2, _⟩ := C70_batches (t := 256) (ctx := defaultCtx) (by decide) shuffle hshf hnew (D := 4) (rows := 384) (by decide)
    (by decide) (by decide) (by decide) L cmds _ 8 S g1 (le_refl 8) e2 hc' hkeys e4 e7 hval
    (C70_sparse_batches (fft := fft) hf hs hh cmds S g1 hc' hkeys.negWF hkeys.negBl hkeys.negLv) (by
      have h1 : ∀ x, cmds.length * x ≤ 8 * x := fun x => Nat.mul_le_mul_right _ hlen
      refine lt_of_le_of_lt (Nat.mul_le_mul_left 2 (Nat.add_le_add_right (Nat.add_le_add_left (h1 _) _) _)) ?_
      decide)
  exact ⟨_, pts, g1, yss, S', g', hset, e3, r1, r2⟩

/-! A concrete run at the default parameters: a key with 16 ones, a noisy generator, an FFT that is off by 5. -/

/-- The key with ones in its first 16 coefficients. -/
def sparseKey : Poly 2048 := ⟨fun k => if k.val < 16 then 1 else 0⟩

theorem sparseKey_binary : Binary sparseKey := fun k => by
  by_cases h : k.val < 16
  · exact Or.inr (if_pos h)
  · exact Or.inl (if_neg h)

theorem sparseKey_l1 : l1 sparseKey ≤ 16 := by
  have h : ∀ k : Fin 2048, nrm (sparseKey k) = if k.val < 16 then 1 else 0 := fun k => by
    by_cases h : k.val < 16
    · rw [if_pos h, show sparseKey k = 1 from if_pos h]; decide
    · rw [if_neg h, show sparseKey k = 0 from if_neg h]; decide
  unfold l1
  rw [Finset.sum_congr rfl fun k _ => h k, Fin.sum_univ_eq_sum_range (fun k => if k < 16 then 1 else 0) 2048]
  decide +kernel

/-- The key with ones in its first 8 coefficients. -/
def lightKey : Poly 2048 := ⟨fun k => if k.val < 8 then 1 else 0⟩

theorem lightKey_binary : Binary lightKey := fun k => by
  by_cases h : k.val < 8
  · exact Or.inr (if_pos h)
  · exact Or.inl (if_neg h)

theorem lightKey_l1 : l1 lightKey ≤ 8 := by
  have h : ∀ k : Fin 2048, nrm (lightKey k) = if k.val < 8 then 1 else 0 := fun k => by
    by_cases h : k.val < 8
    · rw [if_pos h, show lightKey k = 1 from if_pos h]; decide
    · rw [if_neg h, show lightKey k = 0 from if_neg h]; decide
  unfold l1
  rw [Finset.sum_congr rfl fun k _ => h k, Fin.sum_univ_eq_sum_range (fun k => if k < 8 then 1 else 0) 2048]
  decide +kernel

/-- A generator with non-zero masks and noise at most 3 (ring size 2048). -/
def bigGen : Gen 2048 := ⟨fun i => ⟨fun k => BitVec.ofNat 64 (7919 * i + 104729 * k.val + 13)⟩,
  fun i => ⟨fun k => BitVec.ofInt 64 (((i + k.val) % 7 : Nat) - 3 : Int)⟩, fun i => ⟨fun k => BitVec.ofNat 64 (i + k.val)⟩, 0⟩

theorem bigGen_bounded : bigGen.Bounded 8 := by
  intro i k
  have h : (i + k.val) % 7 < 7 := Nat.mod_lt _ (by decide)
  unfold bigGen
  simp only
  generalize (i + k.val) % 7 = r at h
  revert h; revert r; decide

/-- An FFT whose every coefficient is off by 5 unless it transforms zero (ring size 2048). -/
def bigFft : Fft 2048 := ⟨fun ts => if FPoly.weight ts = 0 then 0 else ⟨fun _ => 5⟩⟩

theorem bigFft_bounded : bigFft.Bounded 8 := fun ts _ k => by
  show (BitVec.toInt ((if FPoly.weight ts = 0 then (0 : Poly 2048) else ⟨fun _ => 5⟩) k)).natAbs ≤ 8 * FPoly.weight ts
  split
  · simp
  · have : (BitVec.toInt (5 : Scalar)).natAbs = 5 := by decide
    show (BitVec.toInt (5 : Scalar)).natAbs ≤ _
    omega

/-- Reading items 3, 77, 2047, then overwriting items 77 and 5, then reading items 5, 77, 6, at the default parameters. -/
def bigRun : List (BatchCmd 2048) := [.read [3, 77, 2047], .write [77, 5] ⟨fun k => BitVec.ofNat 64 (k.val % 256)⟩, .read [5, 77, 6]]

theorem bigRun_valid : ∀ c ∈ bigRun, c.Valid 2048 256 := by
  intro c hc
  simp only [bigRun, List.mem_cons, List.not_mem_nil, or_false] at hc
  rcases hc with rfl | rfl | rfl
  · exact ⟨by decide, by decide⟩
  · refine ⟨⟨by decide, by decide⟩, fun k => ?_⟩
    show (BitVec.ofNat 64 (k.val % 256)).toNat < _
    have h : k.val % 256 < 256 := Nat.mod_lt _ (by decide)
    rw [BitVec.toNat_ofNat, Nat.mod_eq_of_lt (by omega)]
    exact h
  · exact ⟨by decide, by decide⟩

/-- The run has correct responses. -/
theorem C70_witness : ∃ H S pts g1 yss S' g', NaiveHash.new id 3 2048 = some H ∧ setupRandomOram defaultCtx sparseKey 384 16 H bigGen = some (S, pts, g1) ∧
    pts.length = 2048 ∧ runBatches bigFft defaultCtx sparseKey 384 16 H bigRun S g1 = some (yss, S', g') ∧
    Spec.batchOk H 16 (fun i => pts.getD i 0) bigRun yss := by
  have hnew : NaiveHash.new id 3 2048 = some (((NaiveHash.new id 3 2048).getD ⟨[], 0, 0⟩)) := by
    unfold NaiveHash.new
    rw [if_pos (by decide)]
    rfl
  obtain ⟨S, pts, g1, yss, S', g', h1, h2, h3, h4⟩ := C70_default_sparse bigFft_bounded sparseKey_binary sparseKey_l1 id (fun l => List.Perm.refl l)
    hnew bigGen_bounded bigRun (by decide) bigRun_valid
  exact ⟨_, S, pts, g1, yss, S', g', hnew, h1, h2, h3, h4⟩

end Panacea
