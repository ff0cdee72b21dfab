import Verif.Spec.MeasuredMixed
import Verif.Props.MixedArray
import Verif.Props.MeasuredMulti

/-!
# C100: mixed sessions, for the noise of the external products they perform
-/

namespace Panacea
variable {n : Nat}

theorem setup_mixedInv {t : Scalar} {ctx : Ctx} (hcd : Codec.new t = some ctx.codec) {s : Poly n} (hs : Binary s)
    (shuffle : List Nat → List Nat) (hshf : ∀ l, (shuffle l).Perm l) {hc N : Nat}
    {H : NaiveHash} (hnew : NaiveHash.new shuffle hc N = some H) {D rows : Nat}
    (hsize : rows * 2 ^ D = hc * N) (h1 : 1 ≤ ctx.baseLog) (h2 : 1 ≤ ctx.levelCount) (h3 : ctx.baseLog * ctx.levelCount < 64)
    (hn1 : ctx.negsBaseLog = ctx.baseLog) (hn2 : 1 ≤ ctx.negsLevelCount) (hn3 : ctx.negsBaseLog * ctx.negsLevelCount < 64)
    {g : Gen n} {B : Nat} (hg : g.Bounded B) :
    ∃ S pts g1, setupRandomOram ctx s rows (2 ^ D) H g = some (S, pts, g1) ∧ pts.length = N ∧ g1.Bounded B ∧
      MixedInv ctx s rows D B (Spec.freshGrid H (2 ^ D) pts) B S := by
  obtain ⟨T, L⟩ := layout_of_hash shuffle hshf hnew (rows := rows) (cols := 2 ^ D) (by positivity) hsize
  obtain ⟨S, pts, g1, hset, e3, e2, hc', hkeys, e4, e7⟩ := setup_consistent hcd hs shuffle hshf hnew hsize L h1 h2 h3 hn1 hn2 hn3 hg
  have hdom : H.inputDomain = N := by obtain ⟨_, rfl, rfl⟩ := NaiveHash.new_wf hshf hnew; rfl
  refine ⟨S, pts, g1, hset, e3, e2, ?_⟩
  · refine ⟨hc', hkeys, e4, fun p => (ctx.codec.polyEncode (Spec.freshGrid H (2 ^ D) pts p)).getD 0, ?_, ?_⟩
    · intro p ct hct
      obtain ⟨hr, hcl⟩ := cellAt_some_lt e4 hct
      obtain ⟨h, i, hh, hi, hp⟩ := L.surj p.1 p.2 hr hcl
      have hp : T h i = p := hp
      subst hp
      obtain ⟨ct', enc, a1, a2, a3⟩ := e7 h i hh hi
      rw [hct] at a1; cases a1
      simp only [Spec.freshGrid, itemAt_eq L hdom hh hi, a2, Option.getD_some]
      exact a3
    · intro p hr hcl
      obtain ⟨h, i, hh, hi, hp⟩ := L.surj p.1 p.2 hr hcl
      have hp : T h i = p := hp
      subst hp
      obtain ⟨ct', enc, a1, a2, a3⟩ := e7 h i hh hi
      simp only [Spec.freshGrid, itemAt_eq L hdom hh hi, a2, Option.getD_some]

/-- C100 (one call): a server storing the grid `U` answers any valid call, the errors of whose external products stay within `m` and `V`,
with the contents the grid shows, and then stores the grid `gridAfter U`. -/
theorem C100_call {t : Scalar} {ctx : Ctx} (hcd : Codec.new t = some ctx.codec) {fft : Fft n} {s : Poly n}
    (shuffle : List Nat → List Nat) (hshf : ∀ l, (shuffle l).Perm l) {hc N : Nat}
    {H : NaiveHash} (hnew : NaiveHash.new shuffle hc N = some H) {D rows : Nat} (hD1 : 1 ≤ D) (hD : D < 64) (hpos : 0 < rows)
    (hsize : rows * 2 ^ D = hc * N) {B : Nat} {R : Reducer n} (hR : R.Valid ctx (2 ^ D)) {st : MixedStep n}
    (hv : st.Valid H (2 ^ D) N t) {U : Nat × Nat → Poly n} {e : Nat} (he : B ≤ e) {S : Server n} {m : Measure} {V : Nat} (hinv : MixedInv ctx s rows D B U e S)
    {g : Gen n} (hg : g.Bounded B)
    (hm : MeasuredMixed fft ctx s rows D H B m V [(R, st)] S g) (hb : 2 * (e + 2 ^ D * m.sel) < 2 ^ 64 / t.toNat) :
    ∃ S' g', runMixed fft ctx s rows (2 ^ D) H [(R, st)] S g = some ([Spec.gridAnswer H rows (2 ^ D) U st], S', g') ∧ g'.Bounded B ∧
      MixedInv ctx s rows D B (Spec.gridAfter H (2 ^ D) U st) (e + m.step V hc st) S' := by
  have hcpos : 0 < hc := by
    rcases Nat.eq_zero_or_pos hc with h0 | h0
    · have := (C09_new_panics shuffle hc N).mpr h0
      rw [hnew] at this; cases this
    · exact h0
  obtain ⟨hctx, hk, hsh, M, hU, hM⟩ := hinv
  subst hctx
  have hmax : max e B = e := by omega
  have hdec : ∀ p y, p.1 < rows → p.2 < 2 ^ D → Enc s y (M p) (e + 2 ^ D * m.sel) → decryptDecodeRlwe S.ctx s y = U p :=
    fun p y h1 h2 hy => decryptDecode_of_enc hcd (hM p h1 h2) hy hb
  cases st with
  | one c =>
    obtain ⟨q, g1, sp, q1, q2, q3, q4⟩ := clientQuery_rows hcd hk.bl hk.lv hk.lt s shuffle hshf hnew hD hpos hsize hv hg
    obtain ⟨row, rest, hS⟩ : ∃ row rest, S.data = row :: rest := List.exists_cons_of_length_pos (by rw [hsh.1]; exact hpos)
    rw [hS] at hsh hU
    have hlen : row.length = 2 ^ D := hsh.2 row (by simp)
    have hrow : EncRow s row (fun j => M (0, j)) e := fun j c hc => hU (0, j) c (by rw [cellAt_row (row := row) rfl]; exact hc)
    obtain ⟨y, S1, row', p1, u2, u3, u4, u5, u6, p2, _⟩ := C70_process_one hcd hk hD1 q3 hS hlen hrow ((hm q g1 q1).1 row rest hS) hR.one
    rw [hmax] at u6
    have hn1 : e + m.step V hc (.one c : MixedStep n) = e + m.op + m.sel := by
      simp only [Measure.step]; omega
    refine ⟨S1, g1, ?_, q2, u4, by rw [u3]; exact hk, by rw [u2]; exact shape_row0 hsh u5,
      withRow0 M (sp.effect fun j => M (0, j)), ?_, ?_⟩
    · rw [runMixed]
      simp only [q1, p1, runMixed]
      rw [hdec (0, sp.i) y hpos q3.addr.lt p2]
      simp only [Spec.gridAnswer, q4.1]
    · rw [hn1, u2]
      exact encDb_row0 hU (by omega) u6
    · exact gridOne_holds (v := fun j => M (0, j)) (by rw [withRow0_self]; exact hM) q4
  | multi cs =>
    obtain ⟨hcs, hnd⟩ := hv
    obtain ⟨qs, g1, sps, q1, q2, q3, q4⟩ := clientQueries_rows hcd hk.bl hk.lv hk.lt s shuffle hshf hnew hD hpos hsize cs hcs hg
    obtain ⟨row, rest, hS⟩ : ∃ row rest, S.data = row :: rest := List.exists_cons_of_length_pos (by rw [hsh.1]; exact hpos)
    rw [hS] at hsh hU
    have hlen : row.length = 2 ^ D := hsh.2 row (by simp)
    have hrow : EncRow s row (fun j => M (0, j)) e := fun j c hc => hU (0, j) c (by rw [cellAt_row (row := row) rfl]; exact hc)
    obtain ⟨ys, S1, row', h1, h2, h3, h4, h5, h6, h7⟩ := C73_process_multi hk hD1 q3 (carriesOne_nodup q4 hnd) hS hlen hrow hR
      ((hm qs g1 q1).1 row rest hS)
    have hlen2 : sps.length = cs.length := q4.length_eq.symm
    rw [hmax, hlen2] at h7
    have hn1 : e + m.step V hc (.multi cs : MixedStep n) = e + m.op + cs.length * m.sel + V := by
      simp only [Measure.step]; omega
    have hy : ys.map (decryptDecodeRlwe S.ctx s) = cs.map (fun c => U (Spec.target H (2 ^ D) c)) := by
      apply List.ext_getElem?
      intro k
      rw [List.getElem?_map, List.getElem?_map]
      rcases hk2 : cs[k]? with _ | c
      · have : ys[k]? = none := List.getElem?_eq_none (by
          rw [← h6.length_eq, hlen2]; exact List.getElem?_eq_none_iff.mp hk2)
        rw [this]; rfl
      · obtain ⟨sp, hsp, hcar⟩ := forall₂_getElem_left q4 hk2
        obtain ⟨y, hy, henc⟩ := forall₂_getElem_left h6 hsp
        obtain ⟨q, _, hq⟩ := forall₂_getElem_left q3 hsp
        rw [hy, Option.map_some, Option.map_some, hdec (0, sp.i) y hpos hq.addr.lt henc, hcar.1]
    refine ⟨S1, g1, ?_, q2, h4, by rw [h3]; exact hk, by rw [h2]; exact shape_row0 hsh h5,
      withRow0 M (sps.foldl QuerySpec.effect fun j => M (0, j)), ?_, ?_⟩
    · rw [runMixed]
      simp only [q1, h1, runMixed]
      rw [hy]; rfl
    · rw [hn1, h2]
      exact encDb_row0 hU (by omega) h7
    · exact gridFold_holds (v := fun j => M (0, j)) q4 (by rw [withRow0_self]; exact hM)
  | batch c =>
    have hv : c.Valid N t := hv
    obtain ⟨T, L⟩ := layout_of_hash shuffle hshf hnew (rows := rows) (cols := 2 ^ D) (by positivity) hsize
    have hdom : H.inputDomain = N := by obtain ⟨_, rfl, rfl⟩ := NaiveHash.new_wf hshf hnew; rfl
    obtain ⟨mapping, qs, specs, g', w, msg, c1, c2, c3, c4, c5, c6, c7⟩ :=
      clientBatch_spec hcd hk.bl hk.lv hk.lt s shuffle hshf hnew hD hsize hv.nodup.2 hv.enc hg
    obtain ⟨hsound, hinj⟩ := C11_mapping_sound shuffle hshf hc N H hnew c.indices (2 ^ D) (by positivity) hv.nodup.2 mapping c1
    have hw := fun h i (hh : h < hc) (hi : i < N) => writes_client L hsound hv.nodup.2 c5 c7 hh hi
    have huniq : ∀ i h h', i < N → h < hc → h' < hc → (Spec.writes specs (T h i)).isSome → (Spec.writes specs (T h' i)).isSome → h = h' := by
      intro i h h' hi hh hh' hs1 hs2
      rw [hw h i hh hi] at hs1
      rw [hw h' i hh' hi] at hs2
      have a1 : w = true ∧ mapping (T h i).1 = some ((T h i).2, i) := by
        by_contra hne; rw [if_neg hne] at hs1; cases hs1
      have a2 : w = true ∧ mapping (T h' i).1 = some ((T h' i).2, i) := by
        by_contra hne; rw [if_neg hne] at hs2; cases hs2
      have hr := hinj hv.nodup.1 _ _ _ _ i a1.2 a2.2
      have hc' : (T h i).2 = (T h' i).2 := by
        have := a1.2
        rw [hr, a2.2] at this
        simpa using this.symm
      exact (L.inj h i h' i hh hi hh' hi (Prod.ext hr hc')).1
    obtain ⟨k, rfl⟩ := Nat.exists_eq_succ_of_ne_zero (Nat.pos_iff_ne_zero.mp hcpos)
    obtain ⟨ys, S', b1, b2, b3, b4, b5, b6, b7⟩ := batch_grid_of c4.length_eq L hpos hsize c5 hsh hU huniq (E := m.rows D)
      (er := e + 2 ^ D * m.sel) (eu := max e B + m.op + m.sel) (δ := m.op + m.sel) (fun r sp q row hsp hqr hrow v hv => by
        obtain ⟨q', hq', hqq⟩ := forall₂_getElem_left c4 hsp
        rw [hqr] at hq'; cases hq'
        exact process_row_of hk hD1 hqq (hsh.2 row (List.mem_of_getElem? hrow)) hv ((hm qs g' c2).1.rows r q row hqr hrow))
      (fun rs hrs hls => flagSel_of_gates c4 c5 hls (fun p v q ls l hP hqr hlr hl => by
        obtain ⟨h, i, hh, hi, rfl, hv⟩ := hP
        exact (hm qs g' c2).1.fix rs hrs i _ (T 0 i) (T h i) v q ls l (itemPositions_some L hi) (by simp [List.range_succ_eq_map])
          (List.mem_map.mpr ⟨h, List.mem_range.mpr hh, rfl⟩) hv hqr hlr hl))
    have hn1 : e + m.step V (k + 1) (.batch c : MixedStep n) = (e + m.op + m.sel)
        + k * (2 * (m.op + m.sel)) := by
      simp only [Measure.step]
      rw [show 2 * (k + 1) - 1 = 2 * k + 1 by omega]
      ring
    rw [hmax] at b7
    have hMi : ∀ i, i < N → S.ctx.codec.polyEncode (U (Spec.firstCell H (2 ^ D) i)) = some (M (T 0 i)) := fun i hi => by
      rw [firstCell_eq L hcpos hi]
      exact hM _ (L.row_lt 0 i hcpos hi) (L.col_lt 0 i hcpos hi)
    refine ⟨S', g', ?_, c3, b3, by rw [b2]; exact hk, b4,
      fun p => match Spec.itemAt H (2 ^ D) p with
        | none => M p
        | some i => Spec.batch specs (k + 1) T (fun i => M (T 0 i)) i, ?_, ?_⟩
    · rw [runMixed]
      simp only [c2, b1, runMixed]
      have hy : ys.map (decryptDecodeRlwe S.ctx s) = Spec.gridAnswer H rows (2 ^ D) U (.batch c) := by
        unfold Spec.gridAnswer
        apply List.ext_getElem?
        intro r
        rw [List.getElem?_map, List.getElem?_map]
        by_cases hr : r < rows
        · have hsp : specs[r]? = some specs[r] := List.getElem?_eq_getElem (by omega)
          obtain ⟨y, y1, y2⟩ := b6 r specs[r] hsp
          obtain ⟨q, _, hq⟩ := forall₂_getElem_left c4 hsp
          rw [y1, List.getElem?_range hr, Option.map_some, Option.map_some, rowCell_eq c1 (c7 r _ hsp),
            hdec (r, specs[r].i) y hr hq.addr.lt y2]
        · rw [List.getElem?_eq_none (by omega), List.getElem?_eq_none (by simp; omega)]; rfl
      rw [hy]
    · intro p ct hct
      obtain ⟨hr, hc'⟩ := cellAt_some_lt b4 hct
      obtain ⟨h, i, hh, hi, hp⟩ := L.surj p.1 p.2 hr hc'
      have hp : T h i = p := hp
      subst hp
      beta_reduce
      rw [itemAt_eq L hdom hh hi, hn1]
      obtain ⟨V, v1, v2⟩ := b7 i h hi hh
      rw [hct] at v1; cases v1
      exact v2
    · intro p hr hc'
      obtain ⟨h, i, hh, hi, hp⟩ := L.surj p.1 p.2 hr hc'
      have hp : T h i = p := hp
      subst hp
      show S.ctx.codec.polyEncode (Spec.gridBatch H (2 ^ D) U c (T h i)) = _
      unfold Spec.gridBatch
      beta_reduce
      rw [itemAt_eq L hdom hh hi]
      exact batch_encodes L hv c1 hsound c5 c6 c7 hMi hi

theorem measuredMixed_cons {fft : Fft n} {ctx : Ctx} {s : Poly n} {rows D : Nat} {H : NaiveHash} {B : Nat} {m : Measure} {V : Nat}
    {x : Reducer n × MixedStep n} {sts : List (Reducer n × MixedStep n)} {S : Server n} {g : Gen n}
    (h : MeasuredMixed fft ctx s rows D H B m V (x :: sts) S g) :
    MeasuredMixed fft ctx s rows D H B m V [x] S g ∧
    ∀ ys S' g', runMixed fft ctx s rows (2 ^ D) H [x] S g = some (ys, S', g') → MeasuredMixed fft ctx s rows D H B m V sts S' g' := by
  obtain ⟨R, st⟩ := x
  cases st <;>
  · refine ⟨fun q g' hq => ⟨(h q g' hq).1, fun _ _ _ => trivial⟩, fun ys S' g' hr => ?_⟩
    rw [runMixed] at hr
    split at hr
    · cases hr
    · rename_i q g3 e1
      split at hr
      · cases hr
      · rename_i z S3 e2
        simp only [runMixed, Option.some.injEq, Prod.mk.injEq] at hr
        obtain ⟨_, rfl, rfl⟩ := hr
        exact (h q g3 e1).2 z S3 e2

/-- C100: any sequence of valid single, multi-query and batch calls, on a server of any number of rows storing the grid `U`, in which the
errors of the external products stay within `m` and `V`: no call panics, the decoded answers are those of the grid of plain contents, and
the server stores the final grid -- while the accumulated measured errors fit.  Keys, FFT and parameters are arbitrary. -/
theorem C100_sessions {t : Scalar} {ctx : Ctx} (hcd : Codec.new t = some ctx.codec) {fft : Fft n} {s : Poly n}
    (shuffle : List Nat → List Nat) (hshf : ∀ l, (shuffle l).Perm l) {hc N : Nat}
    {H : NaiveHash} (hnew : NaiveHash.new shuffle hc N = some H) {D rows : Nat} (hD1 : 1 ≤ D) (hD : D < 64) (hpos : 0 < rows)
    (hsize : rows * 2 ^ D = hc * N) {B : Nat} {m : Measure} {V : Nat} :
    ∀ (sts : List (Reducer n × MixedStep n)) (U : Nat × Nat → Poly n) (e : Nat) (S : Server n)
      (g : Gen n), B ≤ e → g.Bounded B → MixedInv ctx s rows D B U e S →
      (∀ st ∈ sts, st.1.Valid ctx (2 ^ D) ∧ st.2.Valid H (2 ^ D) N t) →
      MeasuredMixed fft ctx s rows D H B m V sts S g →
      2 * (e + m.mixed V hc (sts.map Prod.snd) + 2 ^ D * m.sel) < 2 ^ 64 / t.toNat →
      ∃ S' g', runMixed fft ctx s rows (2 ^ D) H sts S g = some (Spec.mixed H rows (2 ^ D) U (sts.map Prod.snd), S', g') ∧ g'.Bounded B ∧
        MixedInv ctx s rows D B ((sts.map Prod.snd).foldl (Spec.gridAfter H (2 ^ D)) U)
          (e + m.mixed V hc (sts.map Prod.snd)) S' := by
  intro sts
  induction sts with
  | nil =>
    intro U e S g _ hg hinv _ _ _
    exact ⟨S, g, rfl, hg, by simpa [Measure.mixed] using hinv⟩
  | cons st sts ih =>
    intro U e S g he hg hinv hval hm hb
    obtain ⟨R, st⟩ := st
    obtain ⟨hred, hv⟩ := hval (R, st) (by simp)
    have hnoise : m.mixed V hc (((R, st) :: sts).map Prod.snd)
        = m.step V hc st + m.mixed V hc (sts.map Prod.snd) := by simp [Measure.mixed]
    rw [hnoise] at hb ⊢
    obtain ⟨S1, g1, a1, a2, a3⟩ := C100_call hcd shuffle hshf hnew hD1 hD hpos hsize hred hv he hinv hg
      (measuredMixed_cons hm).1 (by omega)
    obtain ⟨S', g', i1, i2, i3⟩ := ih _ (e + m.step V hc st) S1 g1 (by omega) a2 a3 (fun x hx => hval x (by simp [hx]))
      ((measuredMixed_cons hm).2 _ _ _ a1) (by omega)
    refine ⟨S', g', runMixed_cons a1 i1, i2, ?_⟩
    rw [← Nat.add_assoc]; exact i3

/-- C100 (end to end): from `setup_random_oram`, starting with the plaintexts it returns. -/
theorem C100_from_setup {t : Scalar} {ctx : Ctx} (hcd : Codec.new t = some ctx.codec) {fft : Fft n} {s : Poly n} (hs : Binary s)
    (shuffle : List Nat → List Nat) (hshf : ∀ l, (shuffle l).Perm l) {hc N : Nat}
    {H : NaiveHash} (hnew : NaiveHash.new shuffle hc N = some H) {D rows : Nat} (hD1 : 1 ≤ D) (hD : D < 64) (hpos : 0 < rows)
    (hsize : rows * 2 ^ D = hc * N) (h1 : 1 ≤ ctx.baseLog) (h2 : 1 ≤ ctx.levelCount) (h3 : ctx.baseLog * ctx.levelCount < 64)
    (hn1 : ctx.negsBaseLog = ctx.baseLog) (hn2 : 1 ≤ ctx.negsLevelCount) (hn3 : ctx.negsBaseLog * ctx.negsLevelCount < 64)
    {g : Gen n} {B : Nat} (hg : g.Bounded B) (sts : List (Reducer n × MixedStep n))
    (hval : ∀ st ∈ sts, st.1.Valid ctx (2 ^ D) ∧ st.2.Valid H (2 ^ D) N t)
    {m : Measure} {V : Nat}
    (hmeas : ∀ S pts g1, setupRandomOram ctx s rows (2 ^ D) H g = some (S, pts, g1) → MeasuredMixed fft ctx s rows D H B m V sts S g1)
    (hb : 2 * (B + m.mixed V hc (sts.map Prod.snd) + 2 ^ D * m.sel) < 2 ^ 64 / t.toNat) :
    ∃ S pts g1 S' g', setupRandomOram ctx s rows (2 ^ D) H g = some (S, pts, g1) ∧ pts.length = N ∧
      runMixed fft ctx s rows (2 ^ D) H sts S g1
        = some (Spec.mixed H rows (2 ^ D) (Spec.freshGrid H (2 ^ D) pts) (sts.map Prod.snd), S', g') ∧
      ∀ p, p.1 < rows → p.2 < 2 ^ D → ∃ ct, cellAt S'.data p = some ct ∧
        decryptDecodeRlwe ctx s ct = (sts.map Prod.snd).foldl (Spec.gridAfter H (2 ^ D)) (Spec.freshGrid H (2 ^ D) pts) p := by
  obtain ⟨S, pts, g1, hset, e3, e2, hinv⟩ := setup_mixedInv hcd hs shuffle hshf hnew hsize h1 h2 h3 hn1 hn2 hn3 hg
  obtain ⟨S', g', r1, _, r3⟩ := C100_sessions hcd shuffle hshf hnew hD1 hD hpos hsize sts _ B S g1 (le_refl B) e2 hinv hval
    (hmeas S pts g1 hset) hb
  refine ⟨S, pts, g1, S', g', hset, e3, r1, fun p hr hcl => ?_⟩
  obtain ⟨hctx, _, hsh, M, m1, m2⟩ := r3
  obtain ⟨ct, hct⟩ := cellAt_isSome hsh hr hcl
  exact ⟨ct, hct, decryptDecode_of_enc hcd (m2 p hr hcl) (m1 p ct hct) (by omega)⟩

/-! ### Sparse keys -/

/-- C100 (sparse keys): every mixed session with at most `K` queries per `process_multi` call stays within the measure given by the weight
of the key. -/
theorem C100_sparse {fft : Fft n} {phi : Nat} (hf : fft.Bounded phi) {s : Poly n} (hs : Binary s) {h : Nat} (hh : l1 s ≤ h) {ctx : Ctx}
    {rows D K : Nat} {H : NaiveHash} {B : Nat} : ∀ (sts : List (Reducer n × MixedStep n)) (S : Server n) (g : Gen n), S.ctx = ctx →
      S.negS.WF → S.negS.baseLog = ctx.negsBaseLog → S.negS.levelCount = ctx.negsLevelCount → (∀ st ∈ sts, st.2.AtMost K) →
      MeasuredMixed fft ctx s rows D H B (sparseMeasure ctx n h B phi D) (sparseSum ctx n h B phi D K) sts S g
  | [], _, _, _, _, _, _, _ => trivial
  | (R, .one c) :: sts, S, g, hc, hN, hbl, hlv, hK => by
    intro q g' _
    refine ⟨fun row rest _ => C70_sparse_row hf hs hh hN hbl hlv q row D, fun y S' hS' => ?_⟩
    have hk : S'.ctx = S.ctx ∧ S'.negS = S.negS := by
      unfold Server.processOne at hS'
      split at hS'
      · cases hS'
      · split at hS'
        · cases hS'
        · cases hS'; exact ⟨rfl, rfl⟩
    exact C100_sparse hf hs hh sts S' g' (hk.1.trans hc) (by rw [hk.2]; exact hN) (by rw [hk.2]; exact hbl) (by rw [hk.2]; exact hlv)
      (fun st hst => hK st (by simp [hst]))
  | (R, .multi cs) :: sts, S, g, hc, hN, hbl, hlv, hK => by
    intro qs g' hqs
    have hlen : qs.length ≤ K := le_trans (le_of_eq (mapGenM_forall (Q := fun _ => True) (fun _ _ _ _ => trivial) hqs).1) (hK (R, .multi cs) (by simp))
    refine ⟨fun row rest _ => ⟨fun q _ => C70_sparse_row hf hs hh hN hbl hlv q row D, fun q _ y ls _ j l c _ _ => gateOk_sparse hf hs.small hh _ _ _ _ _,
      fun rs _ j L T c _ _ _ => (gateOk_sparse hf hs.small hh _ _ _ _ _).mono (sparseGate_mono (Nat.mul_le_mul_right _ hlen))⟩, fun ys S' hS' => ?_⟩
    have hk : S'.ctx = S.ctx ∧ S'.negS = S.negS := by
      unfold Server.processMulti at hS'
      dsimp only at hS'
      split at hS'
      · cases hS'
      · split at hS'
        · cases hS'
        · cases hS'; exact ⟨rfl, rfl⟩
    exact C100_sparse hf hs hh sts S' g' (hk.1.trans hc) (by rw [hk.2]; exact hN) (by rw [hk.2]; exact hbl) (by rw [hk.2]; exact hlv)
      (fun st hst => hK st (by simp [hst]))
  | (_, .batch c) :: sts, S, g, hc, hN, hbl, hlv, hK => by
    subst hc
    intro qs g' _
    refine ⟨⟨fun r q row _ _ => C70_sparse_row hf hs hh hN hbl hlv q row D, fun rs _ i ps first p v q ls l _ _ _ _ _ _ _ =>
      ⟨gateOk_sparse hf hs.small hh _ _ _ _ _, gateOk_sparse hf hs.small hh _ _ _ _ _⟩⟩, fun ys S' hS' => ?_⟩
    have hk : S'.ctx = S.ctx ∧ S'.negS = S.negS := by
      unfold Server.processBatch at hS'
      dsimp only at hS'
      split at hS'
      · split at hS'
        · cases hS'
        · split at hS'
          · cases hS'
          · split at hS'
            · cases hS'
            · split at hS'
              · cases hS'
              · cases hS'
                exact ⟨rfl, rfl⟩
      · cases hS'
    exact C100_sparse hf hs hh sts S' g' hk.1 (by rw [hk.2]; exact hN) (by rw [hk.2]; exact hbl) (by rw [hk.2]; exact hlv)
      (fun st hst => hK st (by simp [hst]))

/-! ### The default parameters -/

theorem mixed_le {m : Measure} {V K hc : Nat} (hK1 : 1 ≤ K) (hc1 : 1 ≤ hc) : ∀ {sts : List (MixedStep n)}, (∀ st ∈ sts, st.AtMost K) →
    m.mixed V hc sts ≤ sts.length * max ((2 * hc - 1) * (m.op + m.sel)) (m.op + K * m.sel + V)
  | [], _ => by simp [Measure.mixed]
  | st :: sts, h => by
    have ih := mixed_le (m := m) (V := V) (hc := hc) hK1 hc1 (sts := sts) fun st hst => h st (by simp [hst])
    have h0 : m.op + m.sel ≤ (2 * hc - 1) * (m.op + m.sel) := Nat.le_mul_of_pos_left _ (by omega)
    have h1 : m.step V hc st ≤ max ((2 * hc - 1) * (m.op + m.sel)) (m.op + K * m.sel + V) := by
      cases st with
      | one c => simp only [Measure.step]; omega
      | multi cs =>
        have : cs.length * m.sel ≤ K * m.sel := Nat.mul_le_mul_right _ (h (.multi cs) (by simp))
        simp only [Measure.step]; omega
      | batch c => simp only [Measure.step]; omega
    have h2 : m.mixed V hc (st :: sts) = m.step V hc st + m.mixed V hc sts := by simp [Measure.mixed]
    rw [h2, List.length_cons, Nat.add_mul, Nat.one_mul]
    omega

/-- C100 (default parameters): degree 2048, 384 x 16 cells, 3 hash functions, 2048 items, plaintext modulus 256.  For every key, every
floating-point behaviour, every generator with noise at most `2^15`, and every mixed session of up to eight calls, with up to four queries in
each `process_multi`, in which no product with a READ/WRITE flag is off by more than `2^46`, none with a selector by more than `2^48` and
none with summed selectors by more than `2^51`, all answers are correct. -/
theorem C100_default_params {fft : Fft 2048} {s : Poly 2048} (hs : Binary s) (shuffle : List Nat → List Nat) (hshf : ∀ l, (shuffle l).Perm l)
    {H : NaiveHash} (hnew : NaiveHash.new shuffle 3 2048 = some H) {g : Gen 2048} {B : Nat} (hB : B ≤ 2 ^ 15) (hg : g.Bounded B)
    (sts : List (Reducer 2048 × MixedStep 2048)) (hlen : sts.length ≤ 8) (hcalls : ∀ st ∈ sts, st.2.AtMost 4)
    (hval : ∀ st ∈ sts, st.1.Valid defaultCtx 16 ∧ st.2.Valid H 16 2048 256) {m : Measure} {V : Nat} (hop : m.op ≤ 2 ^ 46)
    (hsel : m.sel ≤ 2 ^ 48) (hV : V ≤ 2 ^ 51)
    (hmeas : ∀ S pts g1, setupRandomOram defaultCtx s 384 16 H g = some (S, pts, g1) →
      MeasuredMixed fft defaultCtx s 384 4 H B m V sts S g1) :
    ∃ S pts g1 S' g', setupRandomOram defaultCtx s 384 16 H g = some (S, pts, g1) ∧ pts.length = 2048 ∧
      runMixed fft defaultCtx s 384 16 H sts S g1
        = some (Spec.mixed H 384 16 (Spec.freshGrid H 16 pts) (sts.map Prod.snd), S', g') := by
  obtain ⟨S, pts, g1, S', g', r1, r2, r3, _⟩ := C100_from_setup (t := 256) (ctx := defaultCtx) (D := 4) (rows := 384) (by decide) hs shuffle
    hshf hnew (by decide) (by decide) (by decide) (by decide) (by decide) (by decide) (by decide) rfl (by decide) (by decide) hg sts hval
    hmeas (by
      have h0 := mixed_le (m := m) (V := V) (K := 4) (hc := 3) (by decide) (by decide) (sts := sts.map Prod.snd) (by
        intro st hst
        obtain ⟨x, hx, rfl⟩ := List.mem_map.mp hst
        exact hcalls x hx)
      rw [List.length_map] at h0
      have h1 : sts.length * max ((2 * 3 - 1) * (m.op + m.sel)) (m.op + 4 * m.sel + V) ≤ 8 * (2 ^ 46 + 4 * 2 ^ 48 + 2 ^ 51) :=
        Nat.mul_le_mul hlen (by omega)
      have h2 : 2 ^ 64 / (256 : Scalar).toNat = 2 ^ 56 := by decide
      rw [h2]
      omega)
  exact ⟨S, pts, g1, S', g', r1, r2, r3⟩

/-- C100 (default parameters, unconditionally): with a key of at most 16 ones, encryption noise at most 8 and relative FFT error at most 8,
every mixed session of up to six calls, with up to four queries in each `process_multi`, is answered from the grid. -/
theorem C100_default_sparse {fft : Fft 2048} (hf : fft.Bounded 8) {s : Poly 2048} (hs : Binary s) (hh : l1 s ≤ 16)
    (shuffle : List Nat → List Nat) (hshf : ∀ l, (shuffle l).Perm l)
    {H : NaiveHash} (hnew : NaiveHash.new shuffle 3 2048 = some H) {g : Gen 2048} (hg : g.Bounded 8)
    (sts : List (Reducer 2048 × MixedStep 2048)) (hlen : sts.length ≤ 6) (hcalls : ∀ st ∈ sts, st.2.AtMost 4)
    (hval : ∀ st ∈ sts, st.1.Valid defaultCtx 16 ∧ st.2.Valid H 16 2048 256) :
    ∃ S pts g1 S' g', setupRandomOram defaultCtx s 384 16 H g = some (S, pts, g1) ∧ pts.length = 2048 ∧
      runMixed fft defaultCtx s 384 16 H sts S g1
        = some (Spec.mixed H 384 16 (Spec.freshGrid H 16 pts) (sts.map Prod.snd), S', g') := by
  obtain ⟨S, pts, g1, hset, e3, e2, hinv⟩ := setup_mixedInv (t := 256) (ctx := defaultCtx) (D := 4) (rows := 384) (by decide) hs shuffle hshf
    hnew (by decide) (by decide) (by decide) (by decide) rfl (by decide) (by decide) hg
  have hmeas := C100_sparse (fft := fft) (ctx := defaultCtx) (rows := 384) (D := 4) (H := H) (B := 8) hf hs hh sts S g1 hinv.ctx_eq
    hinv.keys.negWF hinv.keys.negBl hinv.keys.negLv hcalls
  have h0 := mixed_le (m := sparseMeasure defaultCtx 2048 16 8 8 4) (V := sparseSum defaultCtx 2048 16 8 8 4 4) (K := 4) (hc := 3) (by decide)
    (by decide) (sts := sts.map Prod.snd) (by
      intro st hst
      obtain ⟨x, hx, rfl⟩ := List.mem_map.mp hst
      exact hcalls x hx)
  rw [List.length_map] at h0
  obtain ⟨S', g', r1, _⟩ := C100_sessions (t := 256) (ctx := defaultCtx) (D := 4) (rows := 384) (by decide) shuffle hshf hnew (by decide)
    (by decide) (by decide) (by decide) sts _ 8 S g1 (le_refl 8) e2 hinv hval hmeas (by
      have h1 : ∀ x, sts.length * x ≤ 6 * x := fun x => Nat.mul_le_mul_right _ hlen
      refine lt_of_le_of_lt (Nat.mul_le_mul_left 2 (Nat.add_le_add_right (Nat.add_le_add_left (le_trans h0 (h1 _)) _) _)) ?_
      decide)
  exact ⟨S, pts, g1, S', g', hset, e3, r1⟩

/-! A concrete session at the default parameters: finding C99 at the sizes the repository uses. -/

/-- The identity permutation as hash table. -/
def bigHash : NaiveHash := ⟨List.range (3 * 2048), 3, 2048⟩

theorem bigHash_new : NaiveHash.new id 3 2048 = some bigHash := by
  unfold NaiveHash.new
  rw [if_pos (by decide)]
  simp only [bigHash, id]

/-- Write item 5 (single query), READ items 0 and 5 in a batch, the same again. -/
def bigStale : List (Reducer 2048 × MixedStep 2048) :=
  [(foldReducer 2048 defaultCtx 16, .one (.write 5 ⟨fun k => BitVec.ofNat 64 (k.val % 256)⟩)),
    (foldReducer 2048 defaultCtx 16, .batch (.read [0, 5])), (foldReducer 2048 defaultCtx 16, .batch (.read [0, 5]))]

theorem bigStale_valid : ∀ st ∈ bigStale, st.1.Valid defaultCtx 16 ∧ st.2.Valid bigHash 16 2048 256 := by
  intro st hst
  simp only [bigStale, List.mem_cons, List.not_mem_nil, or_false] at hst
  rcases hst with rfl | rfl | rfl
  · refine ⟨foldReducer_valid _ _, (by decide : 5 < 2048), fun k => ?_⟩
    show (BitVec.ofNat 64 (k.val % 256)).toNat < _
    have h : k.val % 256 < 256 := Nat.mod_lt _ (by decide)
    rw [BitVec.toNat_ofNat, Nat.mod_eq_of_lt (by omega)]
    exact h
  · exact ⟨foldReducer_valid _ _, (by decide : [0, 5].Nodup ∧ ∀ i ∈ [0, 5], i < 2048)⟩
  · exact ⟨foldReducer_valid _ _, (by decide : [0, 5].Nodup ∧ ∀ i ∈ [0, 5], i < 2048)⟩

/-- C100 (finding C99 at the default parameters, all API calls): after a single WRITE of item 5, a batch READ of the items 0 and 5 answers
row 1, which serves item 5, with the content item 5 had at set up; the same batch READ once more answers the written data. -/
theorem C100_witness : ∃ S pts g1 y0 y1 y2 S' g', setupRandomOram defaultCtx sparseKey 384 16 bigHash bigGen = some (S, pts, g1) ∧
    pts.length = 2048 ∧ (bigHash.hashToMapping [0, 5] 16).bind (fun m => m 1) = some (0, 5) ∧
    runMixed bigFft defaultCtx sparseKey 384 16 bigHash bigStale S g1 = some ([y0, y1, y2], S', g') ∧
    y1[1]? = some (pts.getD 5 0) ∧ y2[1]? = some ⟨fun k => BitVec.ofNat 64 (k.val % 256)⟩ := by
  obtain ⟨T, L⟩ := layout_of_hash id (fun l => List.Perm.refl l) bigHash_new (rows := 384) (cols := 16) (by decide) (by decide)
  obtain ⟨S, pts, g1, S', g', a1, a2, a3⟩ := C100_default_sparse bigFft_bounded sparseKey_binary sparseKey_l1 id (fun l => List.Perm.refl l)
    bigHash_new bigGen_bounded bigStale (by decide) (by
      intro st hst
      simp only [bigStale, List.mem_cons, List.not_mem_nil, or_false] at hst
      rcases hst with rfl | rfl | rfl <;> exact trivial) bigStale_valid
  have hfresh : ∀ h i, h < 3 → i < 2048 → Spec.freshGrid bigHash 16 pts (T h i) = pts.getD i 0 := fun h i hh hi => by
    unfold Spec.freshGrid
    rw [itemAt_eq L rfl hh hi]
  have hmap : (bigHash.hashToMapping [0, 5] 16).bind (fun m => m 1) = some (0, 5) := by decide +kernel
  obtain ⟨m, hm, hm1⟩ := Option.bind_eq_some_iff.mp hmap
  obtain ⟨y0, y1, y2, e, e1, e2⟩ := C99_stale id (fun l => List.Perm.refl l) bigHash_new (cols := 16) (rows := 384) (by decide) (by decide) L
    (v := fun i => pts.getD i 0) hfresh (i := 5) (col0 := 15) (by decide +kernel) (⟨fun k => BitVec.ofNat 64 (k.val % 256)⟩ : Poly 2048)
    (is := [0, 5]) (by decide) hm hm1 (by decide)
  have e' : Spec.mixed bigHash 384 16 (Spec.freshGrid bigHash 16 pts) (bigStale.map Prod.snd) = [y0, y1, y2] := e
  exact ⟨S, pts, g1, y0, y1, y2, S', g', a1, a2, hmap, by rw [← e']; exact a3, e1, e2⟩

/-- The hypotheses of `C100_default_params` hold for that session with a key of 8 ones. -/
example : ∃ S pts g1 S' g', setupRandomOram defaultCtx lightKey 384 16 bigHash bigGen = some (S, pts, g1) ∧ pts.length = 2048 ∧
    runMixed bigFft defaultCtx lightKey 384 16 bigHash bigStale S g1
      = some (Spec.mixed bigHash 384 16 (Spec.freshGrid bigHash 16 pts) (bigStale.map Prod.snd), S', g') := by
  have hK : ∀ st ∈ bigStale, st.2.AtMost 4 := by
    intro st hst
    simp only [bigStale, List.mem_cons, List.not_mem_nil, or_false] at hst
    rcases hst with rfl | rfl | rfl <;> exact trivial
  refine C100_default_params lightKey_binary id (fun l => List.Perm.refl l) bigHash_new (B := 8) (by decide) bigGen_bounded bigStale (by decide)
    hK bigStale_valid (m := sparseMeasure defaultCtx 2048 8 8 8 4) (V := sparseSum defaultCtx 2048 8 8 8 4 4) (by decide) (by decide) (by decide)
    fun S pts g1 h => ?_
  obtain ⟨S', pts', g1', hset, _, _, hinv⟩ := setup_mixedInv (t := 256) (ctx := defaultCtx) (D := 4) (rows := 384) (by decide) lightKey_binary id
    (fun l => List.Perm.refl l) bigHash_new (by decide) (by decide) (by decide) (by decide) rfl (by decide) (by decide) bigGen_bounded
  cases h.symm.trans hset
  exact C100_sparse bigFft_bounded lightKey_binary lightKey_l1 bigStale S g1 hinv.ctx_eq hinv.keys.negWF hinv.keys.negBl hinv.keys.negLv hK

end Panacea
