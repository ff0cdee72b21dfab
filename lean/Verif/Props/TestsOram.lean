import Verif.Model.TestsOram
import Verif.Props.TestsMore
import Verif.Props.Main

/-!
# C84: the crate's own tests of the ORAM
-/

namespace Panacea
variable {n : Nat}

/-- What is assumed about a run of a test: usable parameters, bounded noise and rounding, a shuffle that permutes, reductions that are reductions,
and iterations over hash maps that visit only keys of the map. -/
structure OramTest.OK (E : OramTest n) (t : Scalar) (cols B phi : Nat) : Prop where
  ctx : E.ctx.Good t
  ring : 0 < n
  fft : E.fft.Bounded phi
  gen : E.g.Bounded B
  perm : ∀ l, (E.shuffle l).Perm l
  red : ∀ k, (E.red k).Valid E.ctx cols
  order : ∀ m r, r ∈ E.order m → (m r).isSome

theorem OramTest.sk_binary (E : OramTest n) : Binary E.sk := benchSk_binary E.sg

theorem bind_step {α β : Type} {o : Option α} {a : α} {f : α → Option β} {r : Option β} (h : o = some a) (h2 : f a = r) :
    (o >>= f) = r := by rw [h]; exact h2

/-- Measuring the noise against the decoded value of the ciphertext itself never panics (C77). -/
theorem noise_decoded_some {t : Scalar} {ctx : Ctx} (hc : Codec.new t = some ctx.codec) (s : Poly n) (c : RLWE n) :
    ∃ x, computeNoiseEncodedMax ctx.codec s c (decryptDecodeRlwe ctx s c) = some x := by
  obtain ⟨wf, ht⟩ := Codec.new_wf hc
  obtain ⟨v, hv, _⟩ := C77_decoded_report exF64_exact.ok hc s c (l := ctx.codec.baseLog) (by rw [ht])
  unfold computeNoiseEncoded at hv
  unfold computeNoiseEncodedMax
  split at hv
  · cases hv
  · rename_i enc henc
    rw [henc]
    unfold computeNoise at hv
    cases hz : computeNoiseMax s c enc with
    | none => rw [hz] at hv; cases hv
    | some z => exact ⟨z, hz⟩

/-- One single access. -/
theorem one_step {t : Scalar} {ctx : Ctx} (hctx : ctx.Good t) (hn : 0 < n) {fft : Fft n} {phi : Nat} (hf : fft.Bounded phi) {s : Poly n}
    (hs : Binary s) {shuffle : List Nat → List Nat} (hsh : ∀ l, (shuffle l).Perm l) {N : Nat} {H : NaiveHash}
    (hnew : NaiveHash.new shuffle 1 N = some H) {D : Nat} (hD1 : 1 ≤ D) (hD : D < 64) (hN : N = 2 ^ D) {B e : Nat} {v : Nat → Poly n}
    {S : Server n} {g : Gen n} (he : B ≤ e) (hg : g.Bounded B) (hinv : OneInv ctx s H D N B v e S) {R : Reducer n} (hR : R.Valid ctx N)
    {c : Cmd n} (hc : c.Valid N t)
    (hb : 2 * (e + (deltaOp ctx n B phi + deltaSel ctx n B phi D) + 2 ^ D * deltaSel ctx n B phi D) < 2 ^ 64 / t.toNat) :
    ∃ q g1 y S1, clientQuery ctx s 1 N H c g = some (q, g1) ∧ S.processOne R.one fft q = some (y, S1) ∧
      decryptDecodeRlwe ctx s y = v c.index ∧ g1.Bounded B ∧
      OneInv ctx s H D N B (Spec.apply v c) (e + (deltaOp ctx n B phi + deltaSel ctx n B phi D)) S1 := by
  obtain ⟨S', g', q1, q2, q3⟩ := C54_session hctx.codec hn hf hs shuffle hsh hnew hD1 hD (by omega)
    [(R, .one c)] v e S g he hg hinv (by
      intro x hx
      simp only [List.mem_cons, List.not_mem_nil, or_false] at hx
      subst hx
      refine ⟨by rw [← hN]; exact hR, ?_, by simp [Call.cmds]⟩
      intro c' hc'
      simp only [Call.cmds, List.mem_cons, List.not_mem_nil, or_false] at hc'
      subst hc'
      exact hc) (by
      simp only [sessionNoise, List.map_cons, List.map_nil, List.sum_cons, List.sum_nil, callNoise]
      omega)
  simp only [sessionNoise, List.map_cons, List.map_nil, List.sum_cons, List.sum_nil, callNoise, List.foldl_cons, List.foldl_nil,
    Call.cmds, Nat.add_zero] at q3
  simp only [runSession] at q1
  rcases h1 : clientQuery ctx s 1 (2 ^ D) H c g with _ | ⟨q, g2⟩
  · rw [h1] at q1; cases q1
  · rw [h1] at q1
    simp only at q1
    rcases h2 : S.processOne R.one fft q with _ | ⟨y, S2⟩
    · rw [h2] at q1; cases q1
    · rw [h2] at q1
      simp only [Spec.session, Call.cmds, List.map_cons, List.map_nil, Option.some.injEq, Prod.mk.injEq, List.cons.injEq, and_true] at q1
      obtain ⟨hy, rfl, rfl⟩ := q1
      exact ⟨q, g2, y, S2, by rw [hN]; exact h1, h2, hy, q2, q3⟩

/-- Two accesses in one call of `process_multi`. -/
theorem multi_step {t : Scalar} {ctx : Ctx} (hctx : ctx.Good t) (hn : 0 < n) {fft : Fft n} {phi : Nat} (hf : fft.Bounded phi) {s : Poly n}
    (hs : Binary s) {shuffle : List Nat → List Nat} (hsh : ∀ l, (shuffle l).Perm l) {N : Nat} {H : NaiveHash}
    (hnew : NaiveHash.new shuffle 1 N = some H) {D : Nat} (hD1 : 1 ≤ D) (hD : D < 64) (hN : N = 2 ^ D) {B e : Nat} {v : Nat → Poly n}
    {S : Server n} {g : Gen n} (he : B ≤ e) (hg : g.Bounded B) (hinv : OneInv ctx s H D N B v e S) {R : Reducer n} (hR : R.Valid ctx N)
    {c d : Cmd n} (hc : c.Valid N t) (hd : d.Valid N t) (hcd : c.index ≠ d.index) {X : Nat}
    (hX : X = deltaOp ctx n B phi + 2 * deltaSel ctx n B phi D + extNoise n ctx.baseLog ctx.levelCount (2 * selNoise ctx n B phi D) phi 1)
    (hb : 2 * (e + X + 2 ^ D * deltaSel ctx n B phi D) < 2 ^ 64 / t.toNat) :
    ∃ q1 g1 q2 g2 y1 y2 S1, clientQuery ctx s 1 N H c g = some (q1, g1) ∧ clientQuery ctx s 1 N H d g1 = some (q2, g2) ∧
      S.processMulti R.vec R.gsw fft [q1, q2] = some ([y1, y2], S1) ∧
      decryptDecodeRlwe ctx s y1 = v c.index ∧ decryptDecodeRlwe ctx s y2 = v d.index ∧ g2.Bounded B ∧
      OneInv ctx s H D N B (Spec.apply (Spec.apply v c) d) (e + X) S1 := by
  obtain ⟨S', g', q1, q2, q3⟩ := C54_session hctx.codec hn hf hs shuffle hsh hnew hD1 hD (by omega)
    [(R, .multi [c, d])] v e S g he hg hinv (by
      intro x hx
      simp only [List.mem_cons, List.not_mem_nil, or_false] at hx
      subst hx
      refine ⟨by rw [← hN]; exact hR, ?_, by simpa [Call.cmds] using hcd⟩
      intro c' hc'
      simp only [Call.cmds, List.mem_cons, List.not_mem_nil, or_false] at hc'
      rcases hc' with rfl | rfl
      · exact hc
      · exact hd) (by
      simp only [sessionNoise, List.map_cons, List.map_nil, List.sum_cons, List.sum_nil, callNoise, List.length_cons, List.length_nil]
      rw [hX] at hb
      omega)
  simp only [sessionNoise, List.map_cons, List.map_nil, List.sum_cons, List.sum_nil, callNoise, List.foldl_cons, List.foldl_nil,
    Call.cmds, Nat.add_zero, List.length_cons, List.length_nil, Nat.zero_add, Nat.reduceAdd, ← hX] at q3
  simp only [runSession, mapGenM] at q1
  rcases h1 : clientQuery ctx s 1 (2 ^ D) H c g with _ | ⟨qa, ga⟩
  · rw [h1] at q1; cases q1
  · rw [h1] at q1
    simp only at q1
    rcases h2 : clientQuery ctx s 1 (2 ^ D) H d ga with _ | ⟨qb, gb⟩
    · rw [h2] at q1; cases q1
    · rw [h2] at q1
      simp only at q1
      rcases h3 : S.processMulti R.vec R.gsw fft [qa, qb] with _ | ⟨ys, S2⟩
      · rw [h3] at q1; cases q1
      · rw [h3] at q1
        simp only [Spec.session, Call.cmds, List.map_cons, List.map_nil, Option.some.injEq, Prod.mk.injEq, List.cons.injEq, and_true] at q1
        obtain ⟨hy, rfl, rfl⟩ := q1
        obtain ⟨y1, ys, rfl, e1, hy⟩ := List.map_eq_cons_iff.mp hy
        obtain ⟨y2, ys, rfl, e2, hy⟩ := List.map_eq_cons_iff.mp hy
        rw [List.map_eq_nil_iff] at hy
        subst hy
        rw [hN]
        exact ⟨qa, ga, qb, gb, y1, y2, S2, h1, h2, h3, e1, e2, q2, by rw [← hN]; exact q3⟩

/-- C84 (`test_oram`): the test passes, for every secret key, randomness, shuffle and scheduling of the reductions, within the noise budget of three
accesses to 16 columns. -/
theorem C84_oram {t : Scalar} {E : OramTest n} {B phi : Nat} (hE : E.OK t 16 B phi)
    (hb : 2 * (B + 3 * (deltaOp E.ctx n B phi + deltaSel E.ctx n B phi 4) + 2 ^ 4 * deltaSel E.ctx n B phi 4) < 2 ^ 64 / t.toNat) :
    testOram E = some () := by
  obtain ⟨H, hnew⟩ := hash_new_one E.shuffle 1 16 (by decide)
  have hc := hE.ctx
  obtain ⟨S, pts, g1, hset, hlen, hg1, hinv⟩ := setup_oneInv hc.codec E.sk_binary E.shuffle hE.perm hnew (D := 4) (by decide) hc.bl hc.lv
    hc.lt hc.nbl hc.nlv hc.nlt hE.gen
  rw [show (2 : Nat) ^ 4 = 16 from rfl] at hset
  obtain ⟨q, g2, y, S1, a1, a2, a3, a4, a5⟩ := one_step hc hE.ring hE.fft E.sk_binary hE.perm hnew (D := 4) (by decide) (by decide) rfl
    (le_refl B) hg1 hinv (hE.red 0) (c := .read 1) (by show 1 < 16; decide) (by omega)
  obtain ⟨x, hx⟩ := noise_decoded_some hc.codec E.sk y
  have hval : (Cmd.write 1 (genBinaryPt g2).1 : Cmd n).Valid 16 t := ⟨by decide, genBinaryPt_encodable hc.codec g2⟩
  obtain ⟨w, g3, yw, S2, b1, b2, _, b4, b5⟩ := one_step hc hE.ring hE.fft E.sk_binary hE.perm hnew (D := 4) (by decide) (by decide) rfl
    (by omega) (genBinary_bounded a4) a5 (hE.red 1) hval (by omega)
  obtain ⟨q2, g4, y2, S3, c1, c2, c3, c4, c5⟩ := one_step hc hE.ring hE.fft E.sk_binary hE.perm hnew (D := 4) (by decide) (by decide) rfl
    (by omega) b4 b5 (hE.red 2) (c := .read 1) (by show 1 < 16; decide) (by omega)
  simp only [clientQuery] at a1 b1 c1
  simp only [Cmd.index] at a3 c3
  have hp : pts[1]? = some (decryptDecodeRlwe E.ctx E.sk y) := by rw [a3]; exact pts_getD (by omega)
  have hn : (genBinaryPt g2).1 = decryptDecodeRlwe E.ctx E.sk y2 := by rw [c3]; simp [Spec.apply]
  unfold testOram
  simp only [hnew, hset, hlen, a1, a2, b1, b2, c1, c2, hp, hx, ← hn, Option.bind_eq_bind, Option.bind_some, assertT, if_true]

/-- C84 (`test_oram_multi`): the test passes, within the noise budget of three calls of `process_multi` with two queries each. -/
theorem C84_oram_multi {t : Scalar} {E : OramTest n} {B phi : Nat} (hE : E.OK t 16 B phi)
    (hb : 2 * (B + 3 * (deltaOp E.ctx n B phi + 2 * deltaSel E.ctx n B phi 4
        + extNoise n E.ctx.baseLog E.ctx.levelCount (2 * selNoise E.ctx n B phi 4) phi 1)
      + 2 ^ 4 * deltaSel E.ctx n B phi 4) < 2 ^ 64 / t.toNat) :
    testOramMulti E = some () := by
  obtain ⟨H, hnew⟩ := hash_new_one E.shuffle 1 16 (by decide)
  have hc := hE.ctx
  obtain ⟨S, pts, g1, hset, hlen, hg1, hinv⟩ := setup_oneInv hc.codec E.sk_binary E.shuffle hE.perm hnew (D := 4) (by decide) hc.bl hc.lv
    hc.lt hc.nbl hc.nlv hc.nlt hE.gen
  rw [show (2 : Nat) ^ 4 = 16 from rfl] at hset
  obtain ⟨X, hX⟩ : ∃ X, X = deltaOp E.ctx n B phi + 2 * deltaSel E.ctx n B phi 4
    + extNoise n E.ctx.baseLog E.ctx.levelCount (2 * selNoise E.ctx n B phi 4) phi 1 := ⟨_, rfl⟩
  rw [← hX] at hb
  obtain ⟨qa, g2, qb, g3, ya, yb, S1, a1, a2, a3, a4, a5, a6, a7⟩ := multi_step hc hE.ring hE.fft E.sk_binary hE.perm hnew (D := 4)
    (by decide) (by decide) rfl (le_refl B) hg1 hinv (hE.red 0) (c := .read 1) (d := .read 2) (by show 1 < 16; decide)
    (by show 2 < 16; decide) (by show 1 ≠ 2; decide) hX (by omega)
  obtain ⟨x, hx⟩ := noise_decoded_some hc.codec E.sk ya
  have hval : ∀ i, i < 16 → (Cmd.write i (genBinaryPt g3).1 : Cmd n).Valid 16 t := fun i hi => ⟨hi, genBinaryPt_encodable hc.codec g3⟩
  obtain ⟨wa, g4, wb, g5, za, zb, S2, b1, b2, b3, _, _, b6, b7⟩ := multi_step hc hE.ring hE.fft E.sk_binary hE.perm hnew (D := 4)
    (by decide) (by decide) rfl (by omega) (genBinary_bounded a6) a7 (hE.red 1) (hval 1 (by decide)) (hval 2 (by decide))
    (by show 1 ≠ 2; decide) hX (by omega)
  obtain ⟨ra, g6, rb, g7, ua, ub, S3, c1, c2, c3, c4, c5, _, _⟩ := multi_step hc hE.ring hE.fft E.sk_binary hE.perm hnew (D := 4)
    (by decide) (by decide) rfl (by omega) b6 b7 (hE.red 2) (c := .read 1) (d := .read 2) (by show 1 < 16; decide)
    (by show 2 < 16; decide) (by show 1 ≠ 2; decide) hX (by omega)
  obtain ⟨x', hx'⟩ := noise_decoded_some hc.codec E.sk ua
  simp only [clientQuery] at a1 a2 b1 b2 c1 c2
  simp only [Cmd.index, Spec.apply] at a4 a5 c4 c5
  have hp : pts[1]? = some (decryptDecodeRlwe E.ctx E.sk ya) := by rw [a4]; exact pts_getD (by omega)
  have hp2 : pts[2]? = some (decryptDecodeRlwe E.ctx E.sk yb) := by rw [a5]; exact pts_getD (by omega)
  have hn1 : (genBinaryPt g3).1 = decryptDecodeRlwe E.ctx E.sk ua := by rw [c4]; simp [Function.update]
  have hn2 : (genBinaryPt g3).1 = decryptDecodeRlwe E.ctx E.sk ub := by rw [c5]; simp
  unfold testOramMulti
  refine bind_step hnew (bind_step hset (bind_step (assertT_pos hlen.symm) (bind_step a1 (bind_step a2 (bind_step a3
    (bind_step (a := ya) rfl (bind_step hp (bind_step (assertT_pos rfl) (bind_step hx (bind_step (a := yb) rfl (bind_step hp2
    (bind_step (assertT_pos rfl) (bind_step b1 (bind_step b2 (bind_step b3 (bind_step c1 (bind_step c2 (bind_step c3
    (bind_step (a := ua) rfl (bind_step (assertT_pos hn1) (bind_step hx' (bind_step (a := ub) rfl (assertT_pos hn2)))))))))))))))))))))))

/-- C84 (`test_oram_more`): the ignored test passes, within the noise budget of twenty accesses to 2048 columns. -/
theorem C84_oram_more {t : Scalar} {E : OramTest n} {B phi : Nat} (hE : E.OK t 2048 B phi)
    (hb : 2 * (B + 20 * (deltaOp E.ctx n B phi + deltaSel E.ctx n B phi 11) + 2 ^ 11 * deltaSel E.ctx n B phi 11) < 2 ^ 64 / t.toNat) :
    testOramMore E = some () := by
  obtain ⟨N, hN⟩ : ∃ N, N = 2048 := ⟨_, rfl⟩
  have hN' : N = 2 ^ 11 := hN
  obtain ⟨H, hnew⟩ := hash_new_one E.shuffle 1 N (by decide)
  have hc := hE.ctx
  obtain ⟨S, pts, g1, hset, hlen, hg1, hinv⟩ := setup_oneInv hc.codec E.sk_binary E.shuffle hE.perm hnew (D := 11) (by omega) hc.bl hc.lv
    hc.lt hc.nbl hc.nlv hc.nlt hE.gen
  obtain ⟨dl, hdl⟩ : ∃ x, x = deltaOp E.ctx n B phi + deltaSel E.ctx n B phi 11 := ⟨_, rfl⟩
  rw [← hdl] at hb
  have hred : ∀ k, (E.red k).Valid E.ctx N := by rw [hN]; exact hE.red
  obtain ⟨st, r1, r2⟩ := forT_index (f := testOramMoreIter E H pts)
    (P := fun k st => st.2.Bounded B ∧ OneInv E.ctx E.sk H 11 N B (fun i => pts.getD i 0) (B + k * dl) st.1) 20 0 (S, g1)
    ⟨hg1, by simpa using hinv⟩ (by
      rintro i ⟨S, g⟩ _ hi ⟨p1, p2⟩
      have hle : (i + 1) * dl ≤ 20 * dl := Nat.mul_le_mul_right _ (by omega)
      have hs : (i + 1) * dl = i * dl + dl := by ring
      obtain ⟨q, g2, y, S1, a1, a2, a3, a4, a5⟩ := one_step hc hE.ring hE.fft E.sk_binary hE.perm hnew (D := 11) (by decide) (by decide)
        hN' (by omega) p1 p2 (hred i) (c := .read 1) (by show 1 < N; omega) (by rw [← hdl]; omega)
      obtain ⟨x, hx⟩ := noise_decoded_some hc.codec E.sk y
      simp only [clientQuery] at a1
      simp only [Cmd.index] at a3
      have hp : pts[1]? = some (decryptDecodeRlwe E.ctx E.sk y) := by rw [a3]; exact pts_getD (by omega)
      refine ⟨(S1, g2), ?_, a4, ?_⟩
      · unfold testOramMoreIter
        rw [hN] at a1
        simp only [a1, a2, hp, hx, Option.bind_eq_bind, Option.bind_some, assertT, if_true, Option.pure_def]
      · rw [← hdl] at a5
        rw [hs, ← Nat.add_assoc]
        exact a5)
  rw [← hN', hN] at hset
  rw [hN] at hnew hlen
  unfold testOramMore
  rw [List.range_eq_range']
  simp only [hnew, hset, hlen, r1, Option.bind_eq_bind, Option.bind_some, assertT, if_true, Option.pure_def]

end Panacea
