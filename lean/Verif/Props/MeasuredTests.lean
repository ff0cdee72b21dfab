import Verif.Spec.MeasuredTests
import Verif.Props.MeasuredMain
import Verif.Props.TestsOramBatch

/-!
# C94: the crate's tests of the ORAM at the shipped parameters

C84 assumes a worst-case noise budget that `TFHEParameters::default()`, with which the tests run, does not meet.  Here the tests pass whenever the external
products performed by the run at hand have errors that fit the plaintext modulus.
-/

namespace Panacea
variable {n : Nat}

theorem OramTest.Fair.good {E : OramTest n} {t : Scalar} {cols B : Nat} (h : E.Fair t cols B) : E.ctx.Good t :=
  ⟨h.codec, h.bl, h.lv, h.lt, h.nbl, h.nlv, h.nlt⟩

/-- One single access, within measured errors. -/
theorem one_step_of {t : Scalar} {ctx : Ctx} (hctx : ctx.Good t) {fft : Fft n} {s : Poly n}
    {shuffle : List Nat → List Nat} (hsh : ∀ l, (shuffle l).Perm l) {N : Nat} {H : NaiveHash}
    (hnew : NaiveHash.new shuffle 1 N = some H) {D : Nat} (hD1 : 1 ≤ D) (hD : D < 64) (hN : N = 2 ^ D) {B e : Nat} {v : Nat → Poly n}
    {S : Server n} {g : Gen n} (he : B ≤ e) (hg : g.Bounded B) (hinv : OneInv ctx s H D N B v e S) {R : Reducer n} (hR : R.Valid ctx N)
    {c : Poly n → Cmd n} {p : Poly n} (hc : (c p).Valid N t) {m : Measure} {V : Nat} {sts : List (TestStep n)}
    (hm : MeasuredScript fft ctx s D H B m V (.call R (fun p => .one (c p)) :: sts) p S g)
    (hb : 2 * (e + (m.op + m.sel) + 2 ^ D * m.sel) < 2 ^ 64 / t.toNat) :
    ∃ q g1 y S1, clientQuery ctx s 1 N H (c p) g = some (q, g1) ∧ S.processOne R.one fft q = some (y, S1) ∧
      decryptDecodeRlwe ctx s y = v (c p).index ∧ g1.Bounded B ∧
      OneInv ctx s H D N B (Spec.apply v (c p)) (e + (m.op + m.sel)) S1 ∧ MeasuredScript fft ctx s D H B m V sts p S1 g1 := by
  obtain ⟨hm1, hm2⟩ := hm
  obtain ⟨S', g', q1, q2, q3⟩ := C73_session (fft := fft) (m := m) (V := V) hctx.codec shuffle hsh hnew hD1 hD (by omega)
    [(R, .one (c p))] v e S g he hg hinv (by
      intro x hx
      simp only [List.mem_cons, List.not_mem_nil, or_false] at hx
      subst hx
      refine ⟨by rw [← hN]; exact hR, ?_, by simp [Call.cmds]⟩
      intro c' hc'
      simp only [Call.cmds, List.mem_cons, List.not_mem_nil, or_false] at hc'
      subst hc'
      exact hc) hm1 (by
      simp only [Measure.session, List.map_cons, List.map_nil, List.sum_cons, List.sum_nil, Measure.call]
      omega)
  have hm3 := hm2 _ _ _ q1
  simp only [Measure.session, List.map_cons, List.map_nil, List.sum_cons, List.sum_nil, Measure.call, List.foldl_cons, List.foldl_nil,
    Call.cmds, Nat.add_zero] at q3
  simp only [runSession] at q1
  rcases h1 : clientQuery ctx s 1 (2 ^ D) H (c p) g with _ | ⟨q, g2⟩
  · rw [h1] at q1; cases q1
  · rw [h1] at q1
    simp only at q1
    rcases h2 : S.processOne R.one fft q with _ | ⟨y, S2⟩
    · rw [h2] at q1; cases q1
    · rw [h2] at q1
      simp only [Spec.session, Call.cmds, List.map_cons, List.map_nil, Option.some.injEq, Prod.mk.injEq, List.cons.injEq, and_true] at q1
      obtain ⟨hy, rfl, rfl⟩ := q1
      exact ⟨q, g2, y, S2, by rw [hN]; exact h1, h2, hy, q2, q3, hm3⟩

/-- Two accesses in one call of `process_multi`, within measured errors. -/
theorem multi_step_of {t : Scalar} {ctx : Ctx} (hctx : ctx.Good t) {fft : Fft n} {s : Poly n}
    {shuffle : List Nat → List Nat} (hsh : ∀ l, (shuffle l).Perm l) {N : Nat} {H : NaiveHash}
    (hnew : NaiveHash.new shuffle 1 N = some H) {D : Nat} (hD1 : 1 ≤ D) (hD : D < 64) (hN : N = 2 ^ D) {B e : Nat} {v : Nat → Poly n}
    {S : Server n} {g : Gen n} (he : B ≤ e) (hg : g.Bounded B) (hinv : OneInv ctx s H D N B v e S) {R : Reducer n} (hR : R.Valid ctx N)
    {c d : Poly n → Cmd n} {p : Poly n} (hc : (c p).Valid N t) (hd : (d p).Valid N t) (hcd : (c p).index ≠ (d p).index) {m : Measure} {V : Nat}
    {sts : List (TestStep n)} (hm : MeasuredScript fft ctx s D H B m V (.call R (fun p => .multi [c p, d p]) :: sts) p S g)
    (hb : 2 * (e + (m.op + 2 * m.sel + V) + 2 ^ D * m.sel) < 2 ^ 64 / t.toNat) :
    ∃ q1 g1 q2 g2 y1 y2 S1, clientQuery ctx s 1 N H (c p) g = some (q1, g1) ∧ clientQuery ctx s 1 N H (d p) g1 = some (q2, g2) ∧
      S.processMulti R.vec R.gsw fft [q1, q2] = some ([y1, y2], S1) ∧
      decryptDecodeRlwe ctx s y1 = v (c p).index ∧ decryptDecodeRlwe ctx s y2 = v (d p).index ∧ g2.Bounded B ∧
      OneInv ctx s H D N B (Spec.apply (Spec.apply v (c p)) (d p)) (e + (m.op + 2 * m.sel + V)) S1 ∧
      MeasuredScript fft ctx s D H B m V sts p S1 g2 := by
  obtain ⟨hm1, hm2⟩ := hm
  obtain ⟨S', g', q1, q2, q3⟩ := C73_session (fft := fft) (m := m) (V := V) hctx.codec shuffle hsh hnew hD1 hD (by omega)
    [(R, .multi [c p, d p])] v e S g he hg hinv (by
      intro x hx
      simp only [List.mem_cons, List.not_mem_nil, or_false] at hx
      subst hx
      refine ⟨by rw [← hN]; exact hR, ?_, by simpa [Call.cmds] using hcd⟩
      intro c' hc'
      simp only [Call.cmds, List.mem_cons, List.not_mem_nil, or_false] at hc'
      rcases hc' with rfl | rfl
      · exact hc
      · exact hd) hm1 (by
      simp only [Measure.session, List.map_cons, List.map_nil, List.sum_cons, List.sum_nil, Measure.call, List.length_cons, List.length_nil]
      omega)
  have hm3 := hm2 _ _ _ q1
  simp only [Measure.session, List.map_cons, List.map_nil, List.sum_cons, List.sum_nil, Measure.call, List.foldl_cons, List.foldl_nil,
    Call.cmds, Nat.add_zero, List.length_cons, List.length_nil, Nat.zero_add, Nat.reduceAdd] at q3
  simp only [runSession, mapGenM] at q1
  rcases h1 : clientQuery ctx s 1 (2 ^ D) H (c p) g with _ | ⟨qa, ga⟩
  · rw [h1] at q1; cases q1
  · rw [h1] at q1
    simp only at q1
    rcases h2 : clientQuery ctx s 1 (2 ^ D) H (d p) ga with _ | ⟨qb, gb⟩
    · rw [h2] at q1; cases q1
    · rw [h2] at q1
      simp only at q1
      rcases h3 : S.processMulti R.vec R.gsw fft [qa, qb] with _ | ⟨ys, S2⟩
      · rw [h3] at q1; cases q1
      · rw [h3] at q1
        simp only [Spec.session, Call.cmds, List.map_cons, List.map_nil, Option.some.injEq, Prod.mk.injEq, List.cons.injEq, and_true] at q1
        obtain ⟨hy, rfl, rfl⟩ := q1
        obtain ⟨y1, ys, rfl, e1, hy⟩ := List.map_eq_cons_iff.mp hy
        obtain ⟨y2, ys, rfl, e2, hy⟩ := List.map_eq_cons_iff.mp hy
        rw [List.map_eq_nil_iff] at hy
        subst hy
        rw [hN]
        exact ⟨qa, ga, qb, gb, y1, y2, S2, h1, h2, h3, e1, e2, q2, by rw [← hN]; exact q3, hm3⟩

/-- C94 (`test_oram`): the test passes, for every secret key, randomness, shuffle, Fourier transform and scheduling of the reductions for which the errors of
the three accesses fit. -/
theorem C94_oram {t : Scalar} {E : OramTest n} {B : Nat} (hE : E.Fair t 16 B) {m : Measure} {V : Nat}
    (hm : ScriptWithin E 4 B m V (oramScript E))
    (hb : 2 * (B + 3 * (m.op + m.sel) + 2 ^ 4 * m.sel) < 2 ^ 64 / t.toNat) :
    testOram E = some () := by
  obtain ⟨H, hnew⟩ := hash_new_one E.shuffle 1 16 (by decide)
  have hc := hE.good
  obtain ⟨S, pts, g1, hset, hlen, hg1, hinv⟩ := setup_oneInv hc.codec E.sk_binary E.shuffle hE.perm hnew (D := 4) (by decide) hc.bl hc.lv
    hc.lt hc.nbl hc.nlv hc.nlt hE.gen
  have hm := hm H S pts g1 hnew hset
  rw [show (2 : Nat) ^ 4 = 16 from rfl] at hset
  obtain ⟨q, g2, y, S1, a1, a2, a3, a4, a5, a6⟩ := one_step_of hc hE.perm hnew (D := 4) (by decide) (by decide) rfl
    (le_refl B) hg1 hinv (hE.red 0) (c := fun _ => .read 1) (by show 1 < 16; decide) hm (by omega)
  obtain ⟨x, hx⟩ := noise_decoded_some hc.codec E.sk y
  have hval : (Cmd.write 1 (genBinaryPt g2).1 : Cmd n).Valid 16 t := ⟨by decide, genBinaryPt_encodable hc.codec g2⟩
  obtain ⟨w, g3, yw, S2, b1, b2, _, b4, b5, b6⟩ := one_step_of hc hE.perm hnew (D := 4) (by decide) (by decide) rfl
    (by omega) (genBinary_bounded a4) a5 (hE.red 1) (c := fun p => .write 1 p) hval a6 (by omega)
  obtain ⟨q2, g4, y2, S3, c1, c2, c3, c4, c5, c6⟩ := one_step_of hc hE.perm hnew (D := 4) (by decide) (by decide) rfl
    (by omega) b4 b5 (hE.red 2) (c := fun _ => .read 1) (by show 1 < 16; decide) b6 (by omega)
  simp only [clientQuery] at a1 b1 c1
  simp only [Cmd.index] at a3 c3
  have hp : pts[1]? = some (decryptDecodeRlwe E.ctx E.sk y) := by rw [a3]; exact pts_getD (by omega)
  have hn : (genBinaryPt g2).1 = decryptDecodeRlwe E.ctx E.sk y2 := by rw [c3]; simp [Spec.apply]
  unfold testOram
  simp only [hnew, hset, hlen, a1, a2, b1, b2, c1, c2, hp, hx, ← hn, Option.bind_eq_bind, Option.bind_some, assertT, if_true]

/-- C94 (`test_oram_multi`): the test passes if the errors of its three calls of `process_multi` with two queries each fit. -/
theorem C94_oram_multi {t : Scalar} {E : OramTest n} {B : Nat} (hE : E.Fair t 16 B) {m : Measure} {V : Nat}
    (hm : ScriptWithin E 4 B m V (oramMultiScript E)) (hb : 2 * (B + 3 * (m.op + 2 * m.sel + V) + 2 ^ 4 * m.sel) < 2 ^ 64 / t.toNat) :
    testOramMulti E = some () := by
  obtain ⟨H, hnew⟩ := hash_new_one E.shuffle 1 16 (by decide)
  have hc := hE.good
  obtain ⟨S, pts, g1, hset, hlen, hg1, hinv⟩ := setup_oneInv hc.codec E.sk_binary E.shuffle hE.perm hnew (D := 4) (by decide) hc.bl hc.lv
    hc.lt hc.nbl hc.nlv hc.nlt hE.gen
  have hm := hm H S pts g1 hnew hset
  rw [show (2 : Nat) ^ 4 = 16 from rfl] at hset
  obtain ⟨qa, g2, qb, g3, ya, yb, S1, a1, a2, a3, a4, a5, a6, a7, a8⟩ := multi_step_of hc hE.perm hnew (D := 4)
    (by decide) (by decide) rfl (le_refl B) hg1 hinv (hE.red 0) (c := fun _ => .read 1) (d := fun _ => .read 2) (by show 1 < 16; decide)
    (by show 2 < 16; decide) (by show 1 ≠ 2; decide) hm (by omega)
  obtain ⟨x, hx⟩ := noise_decoded_some hc.codec E.sk ya
  have hval : ∀ i, i < 16 → (Cmd.write i (genBinaryPt g3).1 : Cmd n).Valid 16 t := fun i hi => ⟨hi, genBinaryPt_encodable hc.codec g3⟩
  obtain ⟨wa, g4, wb, g5, za, zb, S2, b1, b2, b3, _, _, b6, b7, b8⟩ := multi_step_of hc hE.perm hnew (D := 4)
    (by decide) (by decide) rfl (by omega) (genBinary_bounded a6) a7 (hE.red 1) (c := fun p => .write 1 p) (d := fun p => .write 2 p) (hval 1 (by decide)) (hval 2 (by decide))
    (by show 1 ≠ 2; decide) a8 (by omega)
  obtain ⟨ra, g6, rb, g7, ua, ub, S3, c1, c2, c3, c4, c5, _, _, _⟩ := multi_step_of hc hE.perm hnew (D := 4)
    (by decide) (by decide) rfl (by omega) b6 b7 (hE.red 2) (c := fun _ => .read 1) (d := fun _ => .read 2) (by show 1 < 16; decide)
    (by show 2 < 16; decide) (by show 1 ≠ 2; decide) b8 (by omega)
  obtain ⟨x', hx'⟩ := noise_decoded_some hc.codec E.sk ua
  simp only [clientQuery] at a1 a2 b1 b2 c1 c2
  simp only [Cmd.index, Spec.apply] at a4 a5 c4 c5
  have hp : pts[1]? = some (decryptDecodeRlwe E.ctx E.sk ya) := by rw [a4]; exact pts_getD (by omega)
  have hp2 : pts[2]? = some (decryptDecodeRlwe E.ctx E.sk yb) := by rw [a5]; exact pts_getD (by omega)
  have hn1 : (genBinaryPt g3).1 = decryptDecodeRlwe E.ctx E.sk ua := by rw [c4]; simp [Function.update]
  have hn2 : (genBinaryPt g3).1 = decryptDecodeRlwe E.ctx E.sk ub := by rw [c5]; simp
  unfold testOramMulti
  refine bind_step hnew (bind_step hset (bind_step (assertT_pos hlen.symm) (bind_step a1 (bind_step a2 (bind_step a3
    (bind_step (a := ya) rfl (bind_step hp (bind_step (assertT_pos rfl) (bind_step hx (bind_step (a := yb) rfl (bind_step hp2
    (bind_step (assertT_pos rfl) (bind_step b1 (bind_step b2 (bind_step b3 (bind_step c1 (bind_step c2 (bind_step c3
    (bind_step (a := ua) rfl (bind_step (assertT_pos hn1) (bind_step hx' (bind_step (a := ub) rfl (assertT_pos hn2)))))))))))))))))))))))

/-- C94 (`test_oram_more`): the ignored test passes if the errors of its twenty accesses to 2048 columns fit. -/
theorem C94_oram_more {t : Scalar} {E : OramTest n} {B : Nat} (hE : E.Fair t 2048 B) {m : Measure} {V : Nat}
    (hm : ScriptWithin E 11 B m V (oramMoreScript E 0 20)) (hb : 2 * (B + 20 * (m.op + m.sel) + 2 ^ 11 * m.sel) < 2 ^ 64 / t.toNat) :
    testOramMore E = some () := by
  obtain ⟨N, hN⟩ : ∃ N, N = 2048 := ⟨_, rfl⟩
  have hN' : N = 2 ^ 11 := hN
  obtain ⟨H, hnew⟩ := hash_new_one E.shuffle 1 N (by decide)
  have hc := hE.good
  obtain ⟨S, pts, g1, hset, hlen, hg1, hinv⟩ := setup_oneInv hc.codec E.sk_binary E.shuffle hE.perm hnew (D := 11) (by omega) hc.bl hc.lv
    hc.lt hc.nbl hc.nlv hc.nlt hE.gen
  obtain ⟨dl, hdl⟩ : ∃ x, x = m.op + m.sel := ⟨_, rfl⟩
  rw [← hdl] at hb
  have hred : ∀ k, (E.red k).Valid E.ctx N := by rw [hN]; exact hE.red
  obtain ⟨st, r1, r2⟩ := forT_index (f := testOramMoreIter E H pts)
    (P := fun k st => st.2.Bounded B ∧ OneInv E.ctx E.sk H 11 N B (fun i => pts.getD i 0) (B + k * dl) st.1 ∧
      MeasuredScript E.fft E.ctx E.sk 11 H B m V (oramMoreScript E k (20 - k)) 0 st.1 st.2) 20 0 (S, g1)
    ⟨hg1, by simpa using hinv, hm H S pts g1 (by rw [← hN']; exact hnew) hset⟩ (by
      rintro i ⟨S, g⟩ _ hi ⟨p1, p2, p3⟩
      have hle : (i + 1) * dl ≤ 20 * dl := Nat.mul_le_mul_right _ (by omega)
      have hs : (i + 1) * dl = i * dl + dl := by ring
      rw [show 20 - i = (20 - (i + 1)) + 1 by omega] at p3
      rw [oramMoreScript, List.range'_succ, List.map_cons] at p3
      obtain ⟨q, g2, y, S1, a1, a2, a3, a4, a5, a6⟩ := one_step_of hc hE.perm hnew (D := 11) (by decide) (by decide)
        hN' (by omega) p1 p2 (hred i) (c := fun _ => .read 1) (by show 1 < N; omega) p3 (by rw [← hdl]; omega)
      obtain ⟨x, hx⟩ := noise_decoded_some hc.codec E.sk y
      simp only [clientQuery] at a1
      simp only [Cmd.index] at a3
      have hp : pts[1]? = some (decryptDecodeRlwe E.ctx E.sk y) := by rw [a3]; exact pts_getD (by omega)
      refine ⟨(S1, g2), ?_, a4, ?_, a6⟩
      · unfold testOramMoreIter
        rw [hN] at a1
        simp only [a1, a2, hp, hx, Option.bind_eq_bind, Option.bind_some, assertT, if_true, Option.pure_def]
      · rw [← hdl] at a5
        rw [hs, ← Nat.add_assoc]
        exact a5)
  rw [← hN', hN] at hset
  rw [hN] at hnew hlen
  unfold testOramMore
  rw [List.range_eq_range']
  simp only [hnew, hset, hlen, r1, Option.bind_eq_bind, Option.bind_some, assertT, if_true, Option.pure_def]

/-- One batch access, within measured errors. -/
theorem batch_step_of {t : Scalar} {ctx : Ctx} (hctx : ctx.Good t) {fft : Fft n} {s : Poly n}
    {shuffle : List Nat → List Nat} (hsh : ∀ l, (shuffle l).Perm l) {hc N : Nat} {H : NaiveHash}
    (hnew : NaiveHash.new shuffle hc N = some H) {D rows cols : Nat} (hD1 : 1 ≤ D) (hD : D < 64) (hcols : cols = 2 ^ D) (hpos : 0 < rows)
    (hsize : rows * cols = hc * N) {T : Nat → Nat → Nat × Nat} (L : Layout H rows cols hc N T) {B e : Nat} {v : Nat → Poly n}
    {S : Server n} {g : Gen n} (he : B ≤ e) (hg : g.Bounded B) (hinv : GridInv ctx s T rows D hc N B v e S) {c : Poly n → BatchCmd n} {p : Poly n}
    (hval : (c p).Valid N t) {m : Measure} {sts : List (BatchStep n)} (hm : MeasuredBatchScript fft ctx s rows D H B m (.batch c :: sts) p S g)
    (hb : 2 * (e + 2 ^ D * m.sel) < 2 ^ 64 / t.toNat) :
    ∃ mp qs g1 ys S1, H.hashToMapping (c p).indices cols = some mp ∧ clientBatch ctx s rows cols H (c p) g = some (qs, g1) ∧ g1.Bounded B ∧
      S.processBatch fft qs H = some (ys, S1) ∧
      (∀ r col i, mp r = some (col, i) → ∃ y, ys[r]? = some y ∧ decryptDecodeRlwe ctx s y = v i) ∧
      GridInv ctx s T rows D hc N B (Spec.applyBatch H cols v (c p)) (e + (2 * hc - 1) * (m.op + m.sel)) S1 ∧
      MeasuredBatchScript fft ctx s rows D H B m sts p S1 g1 := by
  obtain ⟨rfl, h2, h3, h4⟩ := hinv
  subst hcols
  obtain ⟨hm1, hm2⟩ := hm
  have hcpos : 0 < hc := by
    rcases Nat.eq_zero_or_pos hc with h0 | h0
    · have := (C09_new_panics shuffle hc N).mpr h0
      rw [hnew] at this; cases this
    · exact h0
  obtain ⟨mp, qs, g1, ys, S1, a1, a2, a3, a4, a5, a6, a7, a8, a9, _⟩ := batch_access_of (fft := fft) hctx.codec h2 shuffle hsh hnew hD
    hsize L h4 hval hg (er := e + 2 ^ D * m.sel) (en := max e B + (2 * hc - 1) * (m.op + m.sel))
    (fun specs qs g' M hcl hq hlen hM huniq => measuredBatch_ok h2 hD1 hq hcpos L hpos hsize hlen h3 hM huniq (hm1 qs g' hcl).1)
  refine ⟨mp, qs, g1, ys, S1, a1, a2, a3, a4, ?_, ⟨a6, by rw [a5]; exact h2, a7, ?_⟩, hm2 [ys.map (decryptDecodeRlwe S.ctx s)] S1 g1 ?_⟩
  · intro r col i hr
    obtain ⟨y, enc, y1, y2, y3⟩ := a8 r col i hr
    exact ⟨y, y1, decryptDecode_of_enc hctx.codec y2 y3 hb⟩
  · rw [max_eq_left he] at a9
    exact a9
  · simp only [runBatches, a2, a4]

/-- The reading block of the batch tests passes within measured errors, for any requested items that are their own positions in the request (as `[0, 1]`). -/
theorem batchReadBlock_of {t : Scalar} {E : OramTest n} {B rows cols D hc N : Nat} (hctx : E.ctx.Good t) (hsh : ∀ l, (E.shuffle l).Perm l) (hord : ∀ m r, r ∈ E.order m → (m r).isSome) {H : NaiveHash}
    (hnew : NaiveHash.new E.shuffle hc N = some H) (hD1 : 1 ≤ D) (hD : D < 64) (hcols : cols = 2 ^ D) (hpos : 0 < rows)
    (hsize : rows * cols = hc * N) {T : Nat → Nat → Nat × Nat} (L : Layout H rows cols hc N T) {e : Nat} {pts : List (Poly n)}
    {S : Server n} {g : Gen n} (he : B ≤ e) (hg : g.Bounded B)
    (hinv : GridInv E.ctx E.sk T rows D hc N B (fun i => pts.getD i 0) e S) (hlen : pts.length = N) {indices : List Nat}
    (hnd : indices.Nodup) (hlt : ∀ i ∈ indices, i < N) (hid : ∀ i ∈ indices, indices[i]? = some i)
    {ms : Measure} {p : Poly n} {sts : List (BatchStep n)}
    (hm : MeasuredBatchScript E.fft E.ctx E.sk rows D H B ms (.batch (fun _ => .read indices) :: sts) p S g)
    (hb : 2 * (e + 2 ^ D * ms.sel) < 2 ^ 64 / t.toNat) :
    ∃ S1 g1, batchReadBlock E rows cols H pts indices S g = some (S1, g1) ∧ g1.Bounded B ∧
      GridInv E.ctx E.sk T rows D hc N B (fun i => pts.getD i 0) (e + (2 * hc - 1) * (ms.op + ms.sel)) S1 ∧
      MeasuredBatchScript E.fft E.ctx E.sk rows D H B ms sts p S1 g1 := by
  obtain ⟨m, qs, g1, ys, S1, a1, a2, a3, a4, a5, a6, a7⟩ := batch_step_of hctx hsh hnew hD1 hD hcols hpos hsize L he hg hinv
    (c := fun _ => .read indices) ⟨hnd, hlt⟩ hm hb
  have hsound := (C11_mapping_sound E.shuffle hsh hc N H hnew indices cols (by rw [hcols]; positivity) hlt m a1).1
  obtain ⟨b, e1, _⟩ := forT_inv (f := batchReadCheck E m pts indices ys) (P := fun _ => True) (E.order m) (fun r hr x _ => by
    obtain ⟨⟨c, i⟩, hm⟩ := Option.isSome_iff_exists.mp (hord m r hr)
    obtain ⟨y, y1, y2⟩ := a5 r c i hm
    have hi := (hsound r c i hm).1
    obtain ⟨z, hz⟩ := noise_decoded_some hctx.codec E.sk y
    have hp : pts[i]? = some (decryptDecodeRlwe E.ctx E.sk y) := by rw [y2]; exact pts_getD (by rw [hlen]; exact hlt i hi)
    refine ⟨true, ?_, trivial⟩
    unfold batchReadCheck
    cases x <;>
    simp only [hm, y1, hid i hi, hp, hz, Option.bind_eq_bind, Option.bind_some, assertT, if_true, Option.pure_def]) false trivial
  refine ⟨S1, g1, ?_, a3, a6, a7⟩
  unfold batchReadBlock
  simp only [BatchCmd.indices, clientBatch] at a1 a2
  simp only [a1, a2, a4, e1, Option.bind_eq_bind, Option.bind_some, Option.pure_def]

/-- C94 (`test_oram_batch`, exactly when it passes): the test always gets as far as its writing block, and then passes if and only if the copies of item 2
do not all lie in the row in which `hash_to_mapping` placed item 1 -- otherwise item 2 is silently not written -- or the random new data happens
to equal the random old content of item 2. -/
theorem C94_oram_batch_iff {t : Scalar} {E : OramTest n} {B : Nat} (hE : E.Fair t 8 B) {m : Measure}
    (hm : BatchScriptWithin E 8 3 4 16 B m (oramBatchScript n)) (hb : 2 * (B + 3 * (7 * (m.op + m.sel)) + 2 ^ 3 * m.sel) < 2 ^ 64 / t.toNat) :
    ∃ H S pts g1 S1 g2, NaiveHash.new E.shuffle 4 16 = some H ∧ setupRandomOram E.ctx E.sk 8 8 H E.g = some (S, pts, g1) ∧
      batchReadBlock E 8 8 H pts [0, 1] S g1 = some (S1, g2) ∧
      (testOramBatch E = some () ↔ NotAllInRow H 8 ∨ pts[2]? = some (genBinaryPt g2).1) := by
  obtain ⟨H, hnew⟩ := hash_new_one E.shuffle 4 16 (by decide)
  have hc := hE.good
  obtain ⟨T, L⟩ := layout_of_hash E.shuffle hE.perm hnew (rows := 8) (cols := 8) (by decide) (by decide)
  obtain ⟨S, pts, g1, hset, hlen, hg1, hSc, hkeys, hshape, hcons⟩ := setup_consistent hc.codec E.sk_binary E.shuffle hE.perm hnew (D := 3)
    (rows := 8) (by decide) L hc.bl hc.lv hc.lt hc.nbl hc.nlv hc.nlt hE.gen
  obtain ⟨X, hX'⟩ : ∃ X, X = 7 * (m.op + m.sel) := ⟨_, rfl⟩
  have hX : (2 * 4 - 1) * (m.op + m.sel) = X := hX'.symm
  rw [← hX'] at hb
  have hm := hm H S pts g1 hnew hset
  obtain ⟨S1, g2, hread, hg2, hinv1, hm1⟩ := batchReadBlock_of hc hE.perm hE.order hnew (D := 3) (rows := 8) (cols := 8)
    (by decide) (by decide) rfl (by decide) (by decide) L (le_refl B) hg1 ⟨hSc, hkeys, hshape, hcons⟩ hlen (indices := [0, 1])
    (by decide) (by decide) (by decide) hm (by omega)
  rw [hX] at hinv1
  refine ⟨H, S, pts, g1, S1, g2, hnew, hset, hread, ?_⟩
  have hgb := genBinary_bounded hg2
  obtain ⟨newData, hnd⟩ : ∃ x, x = (genBinaryPt g2).1 := ⟨_, rfl⟩
  have henc : Spec.Encodable t newData := by rw [hnd]; exact genBinaryPt_encodable hc.codec g2
  rw [MeasuredBatchScript, ← hnd] at hm1
  obtain ⟨mp, wq, g3, yw, S2, a1, a2, a3, a4, a5, a6, a7⟩ := batch_step_of hc hE.perm hnew (D := 3) (by decide)
    (by decide) (cols := 8) rfl (rows := 8) (by decide) (by decide) L (by omega) hgb hinv1 (c := fun p => .write [1, 2] p) ⟨by decide, henc⟩
    hm1 (by omega)
  rw [hX] at a6
  obtain ⟨mp', rq, g4, ys, S3, b1, b2, b3, b4, b5, b6, _⟩ := batch_step_of hc hE.perm hnew (D := 3) (by decide)
    (by decide) (cols := 8) rfl (rows := 8) (by decide) (by decide) L (by omega) a3 a6 (c := fun _ => .read [1, 2]) ⟨by decide, by decide⟩
    a7 (by omega)
  rw [hX] at b6
  simp only [BatchCmd.indices] at a1 b1
  rw [a1] at b1
  cases b1
  simp only [clientBatch] at a2 b2
  obtain ⟨hs1, hs2⟩ := served_one_two hE.perm (by decide) hnew L
  -- the responses of the final read
  have hresp : forT (fun r _ => batchWriteCheck E newData ys r) (E.order mp) () = some () := by
    refine forT_unit fun r hr => ?_
    obtain ⟨⟨c, i⟩, hm⟩ := Option.isSome_iff_exists.mp (hE.order mp r hr)
    obtain ⟨y, y1, y2⟩ := b5 r c i hm
    have : Spec.applyBatch H 8 (fun i => pts.getD i 0) (.write [1, 2] newData) i = newData := if_pos ⟨mp, r, c, a1, hm⟩
    rw [this] at y2
    unfold batchWriteCheck
    simp only [y1, y2, Option.bind_eq_bind, Option.bind_some, assertT, if_true]
  -- the copies
  have hcopy : ∀ i h, i < 16 → h < 4 → (batchCopyCheck E 8 H newData S3 i h = some () ↔
      newData = Spec.applyBatch H 8 (fun i => pts.getD i 0) (.write [1, 2] newData) i) := by
    intro i h hi hh
    obtain ⟨ct, enc, c1, c2, c3⟩ := b6.items h i hh hi
    have hdec : decryptDecodeRlwe E.ctx E.sk ct = Spec.applyBatch H 8 (fun i => pts.getD i 0) (.write [1, 2] newData) i :=
      decryptDecode_of_enc hc.codec c2 c3 (by omega)
    unfold batchCopyCheck
    simp only [L.tuple h i hh hi, c1, hdec, Option.bind_eq_bind, Option.bind_some, assertT_iff]
  have hwr : batchWriteBlock E 8 8 H [1, 2] S1 g2 = some () ↔
      ∀ i ∈ [1, 2], ∀ h ∈ List.range 4, batchCopyCheck E 8 H newData S3 i h = some () := by
    have : batchWriteBlock E 8 8 H [1, 2] S1 g2
        = forT (fun i _ => forT (fun h _ => batchCopyCheck E 8 H newData S3 i h) (List.range 4) ()) [1, 2] () := by
      unfold batchWriteBlock
      dsimp only
      rw [← hnd]
      exact bind_step a1 (bind_step a2 (bind_step a4 (bind_step b2 (bind_step b4 (bind_step hresp rfl)))))
    rw [this, forT_unit_iff]
    simp only [forT_unit_iff]
  have htest : testOramBatch E = batchWriteBlock E 8 8 H [1, 2] S1 g2 := by
    unfold testOramBatch
    exact bind_step hnew (bind_step hset (bind_step (assertT_pos hlen.symm) (bind_step hread rfl)))
  rw [htest, hwr]
  have hp2 : pts[2]? = some (pts.getD 2 0) := pts_getD (by omega)
  rw [hp2, ← hnd, ← hs2]
  have v1 : Spec.applyBatch H 8 (fun i => pts.getD i 0) (.write [1, 2] newData) 1 = newData := if_pos hs1
  by_cases hs : Served H 8 [1, 2] 2
  · have v2 : Spec.applyBatch H 8 (fun i => pts.getD i 0) (.write [1, 2] newData) 2 = newData := if_pos hs
    refine ⟨fun _ => Or.inl hs, fun _ i hi h hh => ?_⟩
    rw [List.mem_range] at hh
    simp only [List.mem_cons, List.not_mem_nil, or_false] at hi
    rcases hi with rfl | rfl
    · exact (hcopy 1 h (by decide) hh).mpr v1.symm
    · exact (hcopy 2 h (by decide) hh).mpr v2.symm
  · have v2 : Spec.applyBatch H 8 (fun i => pts.getD i 0) (.write [1, 2] newData) 2 = pts.getD 2 0 := if_neg hs
    constructor
    · intro hall
      have := (hcopy 2 0 (by decide) (by decide)).mp (hall 2 (by simp) 0 (by simp))
      rw [v2] at this
      exact Or.inr (by rw [← this])
    · rintro (h | h)
      · exact absurd h hs
      · rw [Option.some.injEq] at h
        intro i hi h' hh
        rw [List.mem_range] at hh
        simp only [List.mem_cons, List.not_mem_nil, or_false] at hi
        rcases hi with rfl | rfl
        · exact (hcopy 1 h' (by decide) hh).mpr v1.symm
        · exact (hcopy 2 h' (by decide) hh).mpr (by rw [v2, h])

/-- C94 (`test_oram_batch` passes) unless all four copies of item 2 lie in the row of the first copy of item 1. -/
theorem C94_oram_batch {t : Scalar} {E : OramTest n} {B : Nat} (hE : E.Fair t 8 B) {m : Measure}
    (hm : BatchScriptWithin E 8 3 4 16 B m (oramBatchScript n)) (hb : 2 * (B + 3 * (7 * (m.op + m.sel)) + 2 ^ 3 * m.sel) < 2 ^ 64 / t.toNat)
    {H : NaiveHash} (hH : NaiveHash.new E.shuffle 4 16 = some H) (hrow : NotAllInRow H 8) : testOramBatch E = some () := by
  obtain ⟨H', S, pts, g1, S1, g2, h1, _, _, h4⟩ := C94_oram_batch_iff hE hm hb
  rw [hH] at h1
  cases h1
  exact h4.mpr (Or.inl hrow)

/-- C94 (`test_oram_batch` can fail): whenever the shuffle puts all four copies of item 2 into the row of the first copy of item 1 and no item of the
database is a binary polynomial (as is overwhelmingly likely for 2048 random coefficients), the test panics: whatever the key, the noise
and the scheduling. -/
theorem C94_oram_batch_fails {t : Scalar} {E : OramTest n} {B : Nat} (hE : E.Fair t 8 B) {m : Measure}
    (hm : BatchScriptWithin E 8 3 4 16 B m (oramBatchScript n)) (hb : 2 * (B + 3 * (7 * (m.op + m.sel)) + 2 ^ 3 * m.sel) < 2 ^ 64 / t.toNat)
    {H : NaiveHash} (hH : NaiveHash.new E.shuffle 4 16 = some H) (hrow : ¬ NotAllInRow H 8)
    (hpl : ∀ i, ∃ k, 2 ≤ (E.g.plains i k).toNat % t.toNat) : testOramBatch E = none := by
  obtain ⟨H', S, pts, g1, S1, g2, h1, h2, _, h4⟩ := C94_oram_batch_iff hE hm hb
  rw [hH] at h1
  cases h1
  have hcnt : H.hCount = 4 := by obtain ⟨_, _, h⟩ := NaiveHash.new_wf hE.perm hH; omega
  cases hres : testOramBatch E with
  | none => rfl
  | some u =>
    exfalso
    rcases h4.mp hres with h | h
    · exact hrow h
    · obtain ⟨i, hi⟩ := setup_plains h2 (by rw [hcnt]; decide) _ (List.mem_of_getElem? h)
      obtain ⟨k, hk⟩ := hpl i
      have hb2 := genBinary_values g2 k
      have e1 : (genBinaryPt g2).1 k = E.g.plains i k % E.ctx.codec.ptModulus := by rw [hi]
      have ht : E.ctx.codec.ptModulus.toNat = t.toNat := by
        obtain ⟨wf, ht⟩ := Codec.new_wf hE.codec
        rw [wf.ptModulus_toNat, ht]
      rw [e1] at hb2
      have : (E.g.plains i k % E.ctx.codec.ptModulus).toNat = (E.g.plains i k).toNat % t.toNat := by rw [BitVec.toNat_umod, ht]
      rcases hb2 with h0 | h0 <;> rw [h0] at this <;> simp at this <;> omega

/-- C94 (`test_oram_batch_more`): the ignored test, which only reads, passes for every shuffle if the errors of its twenty batches fit. -/
theorem C94_oram_batch_more {t : Scalar} {E : OramTest n} {B : Nat} (hE : E.Fair t 1024 B) {m : Measure}
    (hm : BatchScriptWithin E 3 10 3 1024 B m (oramBatchMoreScript n 20)) (hb : 2 * (B + 20 * (5 * (m.op + m.sel)) + 2 ^ 10 * m.sel) < 2 ^ 64 / t.toNat) :
    testOramBatchMore E = some () := by
  obtain ⟨N, hN⟩ : ∃ N, N = 1024 := ⟨_, rfl⟩
  have hN' : N = 2 ^ 10 := hN
  obtain ⟨H, hnew⟩ := hash_new_one E.shuffle 3 N (by decide)
  have hc := hE.good
  obtain ⟨T, L⟩ := layout_of_hash E.shuffle hE.perm hnew (rows := 3) (cols := N) (by omega) rfl
  obtain ⟨S, pts, g1, hset, hlen, hg1, hSc, hkeys, hshape, hcons⟩ := setup_consistent hc.codec E.sk_binary E.shuffle hE.perm hnew (D := 10)
    (rows := 3) (by rw [← hN']) (by rw [← hN']; exact L) hc.bl hc.lv hc.lt hc.nbl hc.nlv hc.nlt hE.gen
  obtain ⟨X, hX'⟩ : ∃ X, X = 5 * (m.op + m.sel) := ⟨_, rfl⟩
  have hX : (2 * 3 - 1) * (m.op + m.sel) = X := hX'.symm
  rw [← hX'] at hb
  have hm := hm H S pts g1 (by rw [← hN]; exact hnew) hset
  obtain ⟨st, r1, _⟩ := forT_index (f := fun _ (x : Server n × Gen n) => batchReadBlock E 3 N H pts [0, 1] x.1 x.2)
    (P := fun k st => st.2.Bounded B ∧ GridInv E.ctx E.sk T 3 10 3 N B (fun i => pts.getD i 0) (B + k * X) st.1 ∧
      MeasuredBatchScript E.fft E.ctx E.sk 3 10 H B m (oramBatchMoreScript n (20 - k)) 0 st.1 st.2) 20 0 (S, g1)
    ⟨hg1, by simpa using ⟨hSc, hkeys, hshape, hcons⟩, hm⟩ (by
      rintro i ⟨S, g⟩ _ hi ⟨p1, p2, p3⟩
      have hle : (i + 1) * X ≤ 20 * X := Nat.mul_le_mul_right _ (by omega)
      have hs : (i + 1) * X = i * X + X := by ring
      rw [show 20 - i = (20 - (i + 1)) + 1 by omega] at p3
      rw [oramBatchMoreScript, List.replicate_succ] at p3
      obtain ⟨S1, g2, a1, a2, a3, a4⟩ := batchReadBlock_of hc hE.perm hE.order hnew (D := 10) (rows := 3) (cols := N)
        (by decide) (by decide) hN' (by decide) rfl L (by omega) p1 p2 hlen (indices := [0, 1]) (by decide)
        (by intro j hj; simp at hj; omega) (by decide) p3 (by omega)
      refine ⟨(S1, g2), a1, a2, ?_, a4⟩
      rw [hs, ← Nat.add_assoc]
      rw [hX] at a3
      exact a3)
  rw [← hN', hN] at hset
  rw [hN] at hnew hlen r1
  unfold testOramBatchMore
  rw [List.range_eq_range']
  exact bind_step hnew (bind_step hset (bind_step (assertT_pos hlen.symm) (bind_step r1 rfl)))

/-! ### Default parameters -/

/-- C94 (default parameters): the four tests of `cargo test` on the ORAM pass at the ring size and plaintext modulus of `TFHEParameters::default()` if the noise is at most `2^15` and the external
products of the run are off by at most `2^46` for the READ/WRITE flag, `2^49` for selectors and `2^51` for summed selectors; `test_oram_batch` only if its
shuffle does not put all copies of item 2 into the row of the first copy of item 1; the two ignored tests need `2^43` for the selectors. -/
theorem C94_default {E : OramTest 2048} {B : Nat} (hB : B ≤ 2 ^ 15) {m : Measure} {V : Nat} (hop : m.op ≤ 2 ^ 46) (hsel : m.sel ≤ 2 ^ 49)
    (hV : V ≤ 2 ^ 51) :
    (E.Fair 256 16 B → ScriptWithin E 4 B m V (oramScript E) → testOram E = some ()) ∧
    (E.Fair 256 16 B → ScriptWithin E 4 B m V (oramMultiScript E) → testOramMulti E = some ()) ∧
    (E.Fair 256 8 B → BatchScriptWithin E 8 3 4 16 B m (oramBatchScript 2048) → ∀ H, NaiveHash.new E.shuffle 4 16 = some H →
      NotAllInRow H 8 → testOramBatch E = some ()) ∧
    (m.sel ≤ 2 ^ 43 → E.Fair 256 2048 B → ScriptWithin E 11 B m V (oramMoreScript E 0 20) → testOramMore E = some ()) ∧
    (m.sel ≤ 2 ^ 43 → E.Fair 256 1024 B → BatchScriptWithin E 3 10 3 1024 B m (oramBatchMoreScript 2048 20) →
      testOramBatchMore E = some ()) := by
  have hdiv : 2 ^ 64 / (256 : Scalar).toNat = 2 ^ 56 := by decide
  refine ⟨fun h1 h2 => C94_oram h1 h2 ?_, fun h1 h2 => C94_oram_multi h1 h2 ?_, fun h1 h2 H h3 h4 => C94_oram_batch h1 h2 ?_ h3 h4,
    fun h0 h1 h2 => C94_oram_more h1 h2 ?_, fun h0 h1 h2 => C94_oram_batch_more h1 h2 ?_⟩ <;> rw [hdiv] <;> omega

theorem runSession_negS {fft : Fft n} {ctx : Ctx} {s : Poly n} {cols : Nat} {H : NaiveHash} {R : Reducer n} {c : Call n} {S S' : Server n} {g g' : Gen n}
    {yss : List (List (Poly n))} (h : runSession fft ctx s cols H [(R, c)] S g = some (yss, S', g')) : S'.negS = S.negS := by
  cases c with
  | one c =>
    simp only [runSession] at h
    split at h
    · cases h
    · split at h
      · cases h
      · rename_i hS'
        cases h
        unfold Server.processOne at hS'
        split at hS'
        · cases hS'
        · split at hS'
          · cases hS'
          · cases hS'; rfl
  | multi cs =>
    simp only [runSession] at h
    split at h
    · cases h
    · split at h
      · cases h
      · rename_i hS'
        cases h
        unfold Server.processMulti at hS'
        dsimp only at hS'
        split at hS'
        · cases hS'
        · split at hS'
          · cases hS'
          · cases hS'; rfl

theorem runBatches_negS {fft : Fft n} {ctx : Ctx} {s : Poly n} {rows cols : Nat} {H : NaiveHash} {c : BatchCmd n} {S S' : Server n} {g g' : Gen n}
    {yss : List (List (Poly n))} (h : runBatches fft ctx s rows cols H [c] S g = some (yss, S', g')) : S'.ctx = S.ctx ∧ S'.negS = S.negS := by
  simp only [runBatches] at h
  split at h
  · cases h
  · split at h
    · cases h
    · rename_i hS'
      cases h
      unfold Server.processBatch at hS'
      dsimp only at hS'
      split at hS'
      · split at hS'
        · cases hS'
        · split at hS'
          · cases hS'
          · split at hS'
            · cases hS'
            · split at hS'
              · cases hS'
              · cases hS'
                exact ⟨rfl, rfl⟩
      · cases hS'

/-- Scripts with at most `K` queries per call stay within the measure given by the weight of the key. -/
theorem sparse_script {fft : Fft n} {phi : Nat} (hf : fft.Bounded phi) {s : Poly n} (hs : Binary s) {h : Nat} (hh : l1 s ≤ h) {ctx : Ctx}
    {D K : Nat} {H : NaiveHash} {B : Nat} : ∀ (sts : List (TestStep n)) (p : Poly n) (S : Server n) (g : Gen n), S.negS.WF →
      S.negS.baseLog = ctx.negsBaseLog → S.negS.levelCount = ctx.negsLevelCount → (∀ R c, .call R c ∈ sts → ∀ p, (c p).cmds.length ≤ K) →
      MeasuredScript fft ctx s D H B (sparseMeasure ctx n h B phi D) (sparseSum ctx n h B phi D K) sts p S g
  | [], _, _, _, _, _, _, _ => trivial
  | .draw :: sts, p, S, g, h1, h2, h3, h4 => sparse_script hf hs hh sts _ S _ h1 h2 h3 fun R c hc => h4 R c (by simp [hc])
  | .call R c :: sts, p, S, g, h1, h2, h3, h4 => by
    refine ⟨C73_sparse_session hf hs hh _ S g h1 h2 h3 (by
      intro st hst
      rw [List.mem_singleton] at hst
      subst hst
      exact h4 R c (by simp) p), fun yss S' g' hr => ?_⟩
    have hk := runSession_negS hr
    exact sparse_script hf hs hh sts p S' g' (by rw [hk]; exact h1) (by rw [hk]; exact h2) (by rw [hk]; exact h3) fun R c hc => h4 R c (by simp [hc])

theorem sparse_batch_script {fft : Fft n} {phi : Nat} (hf : fft.Bounded phi) {s : Poly n} (hs : Binary s) {h : Nat} (hh : l1 s ≤ h) {ctx : Ctx}
    {rows D : Nat} {H : NaiveHash} {B : Nat} : ∀ (sts : List (BatchStep n)) (p : Poly n) (S : Server n) (g : Gen n), S.ctx = ctx → S.negS.WF →
      S.negS.baseLog = ctx.negsBaseLog → S.negS.levelCount = ctx.negsLevelCount →
      MeasuredBatchScript fft ctx s rows D H B (sparseMeasure ctx n h B phi D) sts p S g
  | [], _, _, _, _, _, _, _ => trivial
  | .draw :: sts, p, S, g, h0, h1, h2, h3 => sparse_batch_script hf hs hh sts _ S _ h0 h1 h2 h3
  | .batch c :: sts, p, S, g, h0, h1, h2, h3 => by
    refine ⟨C70_sparse_batches hf hs hh _ S g h0 h1 h2 h3, fun yss S' g' hr => ?_⟩
    obtain ⟨k0, hk⟩ := runBatches_negS hr
    exact sparse_batch_script hf hs hh sts p S' g' (by rw [k0]; exact h0) (by rw [hk]; exact h1) (by rw [hk]; exact h2) (by rw [hk]; exact h3)

/-- Any script on the one-row database set up with a sparse key stays within the measure given by the weight of the key. -/
theorem sparse_script_within {E : OramTest n} {t : Scalar} {phi h B D K : Nat} (hf : E.fft.Bounded phi) (hE : E.Fair t (2 ^ D) B)
    (hh : l1 E.sk ≤ h) (sts : List (TestStep n)) (hK : ∀ R c, .call R c ∈ sts → ∀ p, (c p).cmds.length ≤ K) :
    ScriptWithin E D B (sparseMeasure E.ctx n h B phi D) (sparseSum E.ctx n h B phi D K) sts := by
  intro H S pts g hnew hset
  have hc := hE.good
  obtain ⟨S', pts', g1, hset', _, _, hinv⟩ := setup_oneInv hc.codec E.sk_binary E.shuffle hE.perm hnew (D := D) (by omega) hc.bl hc.lv
    hc.lt hc.nbl hc.nlv hc.nlt hE.gen
  rw [hset] at hset'
  cases hset'
  exact sparse_script hf E.sk_binary hh sts 0 S g hinv.keys.negWF hinv.keys.negBl hinv.keys.negLv hK

/-- ... and any script of batches on the database with `hc` copies of `N` items. -/
theorem sparse_batch_script_within {E : OramTest n} {t : Scalar} {phi h B rows D hc N : Nat} (hf : E.fft.Bounded phi) (hE : E.Fair t (2 ^ D) B)
    (hh : l1 E.sk ≤ h) (hsize : rows * 2 ^ D = hc * N) (sts : List (BatchStep n)) :
    BatchScriptWithin E rows D hc N B (sparseMeasure E.ctx n h B phi D) sts := by
  intro H S pts g hnew hset
  have hg := hE.good
  obtain ⟨T, L⟩ := layout_of_hash E.shuffle hE.perm hnew (rows := rows) (cols := 2 ^ D) (by positivity) hsize
  obtain ⟨S', pts', g1, hset', _, _, hSc, hkeys, _, _⟩ := setup_consistent hg.codec E.sk_binary E.shuffle hE.perm hnew (D := D)
    (rows := rows) hsize L hg.bl hg.lv hg.lt hg.nbl hg.nlv hg.nlt hE.gen
  rw [hset] at hset'
  cases hset'
  exact sparse_batch_script hf E.sk_binary hh _ 0 S g hSc hkeys.negWF hkeys.negBl hkeys.negLv

theorem oramScript_le (E : OramTest n) : ∀ R c, .call R c ∈ oramScript E → ∀ p, (c p).cmds.length ≤ 2 := by
  intro R c hc p
  simp only [oramScript, List.mem_cons, List.not_mem_nil, or_false, reduceCtorEq, false_or, TestStep.call.injEq] at hc
  rcases hc with ⟨_, rfl⟩ | ⟨_, rfl⟩ | ⟨_, rfl⟩ <;> simp [Call.cmds]

theorem oramMultiScript_le (E : OramTest n) : ∀ R c, .call R c ∈ oramMultiScript E → ∀ p, (c p).cmds.length ≤ 2 := by
  intro R c hc p
  simp only [oramMultiScript, List.mem_cons, List.not_mem_nil, or_false, reduceCtorEq, false_or, TestStep.call.injEq] at hc
  rcases hc with ⟨_, rfl⟩ | ⟨_, rfl⟩ | ⟨_, rfl⟩ <;> simp [Call.cmds]

theorem oramMoreScript_le (E : OramTest n) (i k : Nat) : ∀ R c, .call R c ∈ oramMoreScript E i k → ∀ p, (c p).cmds.length ≤ 1 := by
  intro R c hc p
  simp only [oramMoreScript, List.mem_map, TestStep.call.injEq] at hc
  obtain ⟨_, _, _, rfl⟩ := hc
  simp [Call.cmds]

/-- C94 (no assumption on the run): with the default parameters, a key with at most 16 ones, noise and rounding of at most 8 per coefficient, the tests
pass, for every shuffle, every such key and noise and every scheduling. -/
theorem C94_default_sparse {E : OramTest 2048} (hctx : E.ctx = defaultCtx) (hf : E.fft.Bounded 8) (hh : l1 E.sk ≤ 16) :
    (E.Fair 256 16 8 → testOram E = some () ∧ testOramMulti E = some ()) ∧
    (E.Fair 256 8 8 → ∀ H, NaiveHash.new E.shuffle 4 16 = some H → NotAllInRow H 8 → testOramBatch E = some ()) := by
  refine ⟨fun hE => ⟨C94_oram hE (sparse_script_within (D := 4) hf hE hh _ (oramScript_le E)) ?_,
    C94_oram_multi hE (sparse_script_within (D := 4) hf hE hh _ (oramMultiScript_le E)) ?_⟩,
    fun hE H hnew hrow => C94_oram_batch hE (sparse_batch_script_within (D := 3) hf hE hh (by decide) _) ?_ hnew hrow⟩ <;> rw [hctx] <;> decide

/-- C94 (no assumption on the run): with the default parameters, a key with at most one 1, noise of at most 1 and exact Fourier products, the two ignored
tests pass, for every shuffle, every such key and noise and every scheduling. -/
theorem C94_ignored_sparse {E : OramTest 2048} (hctx : E.ctx = defaultCtx) (hf : E.fft.Bounded 0) (hh : l1 E.sk ≤ 1) :
    (E.Fair 256 2048 1 → testOramMore E = some ()) ∧ (E.Fair 256 1024 1 → testOramBatchMore E = some ()) := by
  refine ⟨fun hE => C94_oram_more hE (sparse_script_within (D := 11) hf hE hh _ (oramMoreScript_le E 0 20)) ?_,
    fun hE => C94_oram_batch_more hE (sparse_batch_script_within (D := 10) hf hE hh (by decide) _) ?_⟩ <;> rw [hctx] <;> decide

/-- A run of the tests at the default parameters: pseudo-random masks, noise and rounding, a secret generator whose first 16 words are odd. -/
def bigOramTest (shuffle : List Nat → List Nat) (cols : Nat) : OramTest 2048 :=
  ⟨defaultCtx, bigFft, ⟨fun i => if i < 16 then 2 * BitVec.ofNat 64 i + 1 else 2 * BitVec.ofNat 64 i, 0⟩, bigGen, shuffle, fun _ => foldReducer 2048 defaultCtx cols,
    fun m => (List.range 64).filter fun r => (m r).isSome⟩

theorem bigOramTest_fair {shuffle : List Nat → List Nat} (hs : ∀ l, (shuffle l).Perm l) (cols : Nat) : (bigOramTest shuffle cols).Fair 256 cols 8 :=
  ⟨defaultCtx_good.bl, defaultCtx_good.lv, defaultCtx_good.lt, rfl, defaultCtx_good.nlv, defaultCtx_good.nlt, defaultCtx_good.codec, bigGen_bounded, hs, fun _ => foldReducer_valid _ _, fun m r h => by
    simp only [bigOramTest, List.mem_filter] at h; exact h.2⟩

theorem bigOramTest_sk (shuffle : List Nat → List Nat) (cols : Nat) : (bigOramTest shuffle cols).sk = sparseKey := by
  refine Poly.ext (funext fun k => ?_)
  show (if 0 + k.val < 16 then 2 * BitVec.ofNat 64 (0 + k.val) + 1 else 2 * BitVec.ofNat 64 (0 + k.val)) % 2 = if k.val < 16 then 1 else 0
  rw [Nat.zero_add]
  have h0 : ∀ x : Scalar, (2 * x) % 2 = 0 := fun x => by
    refine BitVec.eq_of_toNat_eq ?_
    rw [BitVec.toNat_umod, BitVec.toNat_mul]
    show (2 * x.toNat % 2 ^ 64) % 2 = 0
    omega
  have h1 : ∀ x : Scalar, (2 * x + 1) % 2 = 1 := fun x => by
    refine BitVec.eq_of_toNat_eq ?_
    rw [BitVec.toNat_umod, BitVec.toNat_add, BitVec.toNat_mul]
    show ((2 * x.toNat % 2 ^ 64 + 1) % 2 ^ 64) % 2 = 1
    omega
  split
  · exact h1 _
  · exact h0 _

/-- The hypotheses of C94 hold for concrete runs at the default ring size. -/
theorem C94_witness : testOram (bigOramTest List.reverse 16) = some () ∧ testOramMulti (bigOramTest List.reverse 16) = some () ∧
    testOramBatch (bigOramTest List.reverse 8) = some () := by
  have hr : ∀ l : List Nat, l.reverse.Perm l := fun l => List.reverse_perm l
  obtain ⟨h1, h2⟩ := (C94_default_sparse (E := bigOramTest List.reverse 16) rfl bigFft_bounded (by rw [bigOramTest_sk]; exact sparseKey_l1)).1
    (bigOramTest_fair hr 16)
  refine ⟨h1, h2, (C94_default_sparse (E := bigOramTest List.reverse 8) rfl bigFft_bounded (by rw [bigOramTest_sk]; exact sparseKey_l1)).2
    (bigOramTest_fair hr 8) ⟨(List.range 64).reverse, 4, 16⟩ rfl ⟨0, by decide, by decide⟩⟩

/-- The hypotheses of `C94_default` hold for those runs. -/
example : testOram (bigOramTest List.reverse 16) = some () :=
  (C94_default (E := bigOramTest List.reverse 16) (B := 8) (by decide) (m := sparseMeasure defaultCtx 2048 16 8 8 4)
    (V := sparseSum defaultCtx 2048 16 8 8 4 2) (by decide) (by decide) (by decide)).1 (bigOramTest_fair (fun l => List.reverse_perm l) 16)
    (sparse_script_within (D := 4) bigFft_bounded (bigOramTest_fair (fun l => List.reverse_perm l) 16)
      (by rw [bigOramTest_sk]; exact sparseKey_l1) _ (oramScript_le _))

end Panacea
