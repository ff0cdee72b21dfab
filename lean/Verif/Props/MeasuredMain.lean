import Verif.Spec.MeasuredMain
import Verif.Props.MeasuredMulti
import Verif.Props.Main
import Verif.Props.JsonText

/-!
# C93: the benchmark binary with the shipped parameters

C55 - C58 assume a worst-case noise budget that the default parameters do not meet.  Here the modes of the binary complete whenever the external products
performed by the run at hand have errors within bounds that fit the plaintext modulus (C70, C73).
-/

namespace Panacea
open Spec JsonText
variable {n : Nat}

/-- What `single_query` does is the session `singleCalls`. -/
theorem single_of_session {E : Env n} {ctx : Ctx} {cols : Nat} {H : NaiveHash} {pts : List (Poly n)} {p : Poly n} (hp : pts[0]? = some p) :
    ∀ (ks : List Nat) (S : Server n) (g : Gen n) (c : Nat) {S' : Server n} {g' : Gen n},
      runSession E.fft ctx E.s cols H (singleCalls E ks) S g = some (ks.map fun _ => [p], S', g') →
      iterM (singleIter E ctx cols H pts) ks (S, g, c) = some (S', g', c + ks.length)
  | [], S, g, c, S', g', h => by
    simp only [singleCalls, List.map_nil, runSession, Option.some.injEq, Prod.mk.injEq, true_and] at h
    obtain ⟨rfl, rfl⟩ := h
    rfl
  | k :: ks, S, g, c, S', g', h => by
    simp only [singleCalls, List.map_cons, runSession, clientQuery] at h
    simp only [iterM, singleIter]
    rcases h1 : genReadQueryOne ctx E.s 1 cols H 0 g with _ | ⟨q, g2⟩
    · rw [h1] at h; cases h
    · rw [h1] at h
      simp only at h ⊢
      rcases h2 : S.processOne (E.red k).one E.fft q with _ | ⟨y, S2⟩
      · rw [h2] at h; cases h
      · rw [h2] at h
        simp only at h ⊢
        rcases h3 : runSession E.fft ctx E.s cols H (List.map (fun k => (E.red k, Call.one (Cmd.read 0))) ks) S2 g2 with _ | ⟨ys, S3, g3⟩
        · rw [h3] at h; cases h
        · rw [h3] at h
          simp only [Option.some.injEq, Prod.mk.injEq, List.cons.injEq, and_true] at h
          obtain ⟨⟨hy, rfl⟩, rfl, rfl⟩ := h
          rw [hp]
          simp only
          rw [if_pos hy.symm]
          simp only
          have := single_of_session hp ks S2 g2 (c + 1) h3
          rw [this, List.length_cons]
          congr 3
          omega

/-- What `multi_query` does is the session `multiCalls`. -/
theorem multi_of_session {E : Env n} {ctx : Ctx} {cols qc : Nat} {H : NaiveHash} {pts : List (Poly n)} (hp : qc < pts.length) :
    ∀ (ks : List Nat) (S : Server n) (g : Gen n) (c : Nat) {S' : Server n} {g' : Gen n},
      runSession E.fft ctx E.s cols H (multiCalls E qc ks) S g = some (ks.map fun _ => (List.range qc).map fun i => pts.getD (i + 1) 0, S', g') →
      iterM (multiIter E ctx cols qc H pts) ks (S, g, c) = some (S', g', c + ks.length)
  | [], S, g, c, S', g', h => by
    simp only [multiCalls, List.map_nil, runSession, Option.some.injEq, Prod.mk.injEq, true_and] at h
    obtain ⟨rfl, rfl⟩ := h
    rfl
  | k :: ks, S, g, c, S', g', h => by
    simp only [multiCalls, List.map_cons, runSession] at h
    have hmm : mapGenM (clientQuery ctx E.s 1 cols H) ((List.range qc).map fun i => (Cmd.read (i + 1) : Cmd n)) g
        = mapGenM (fun i => genReadQueryOne ctx E.s 1 cols H (i + 1)) (List.range qc) g :=
      mapGenM_map (clientQuery ctx E.s 1 cols H) (fun i => (Cmd.read (i + 1) : Cmd n)) (List.range qc) g
    rw [hmm] at h
    simp only [iterM, multiIter]
    rcases h1 : mapGenM (fun i => genReadQueryOne ctx E.s 1 cols H (i + 1)) (List.range qc) g with _ | ⟨qs, g2⟩
    · rw [h1] at h; cases h
    · rw [h1] at h
      simp only at h ⊢
      rcases h2 : S.processMulti (E.red k).vec (E.red k).gsw E.fft qs with _ | ⟨y, S2⟩
      · rw [h2] at h; cases h
      · rw [h2] at h
        simp only at h ⊢
        rcases h3 : runSession E.fft ctx E.s cols H
            (List.map (fun k => (E.red k, Call.multi (List.map (fun i => Cmd.read (i + 1)) (List.range qc)))) ks) S2 g2 with _ | ⟨ys, S3, g3⟩
        · rw [h3] at h; cases h
        · rw [h3] at h
          simp only [Option.some.injEq, Prod.mk.injEq, List.cons.injEq] at h
          obtain ⟨⟨hy, rfl⟩, rfl, rfl⟩ := h
          rw [if_pos]
          · simp only
            have := multi_of_session hp ks S2 g2 (c + 1) h3
            rw [this, List.length_cons]
            congr 3
            omega
          · rw [List.all_eq_true]
            intro i hi
            rw [List.mem_range] at hi
            have hyi : (y.map (decryptDecodeRlwe ctx E.s))[i]? = some (pts.getD (i + 1) 0) := by
              rw [hy, List.getElem?_map, List.getElem?_range hi]
              rfl
            rw [List.getElem?_map] at hyi
            rcases hyy : y[i]? with _ | z
            · rw [hyy] at hyi; cases hyi
            · rw [hyy] at hyi
              simp only [Option.map_some, Option.some.injEq] at hyi
              unfold multiCheck
              rw [hyy, pts_getD (d := 0) (show i + 1 < pts.length by omega)]
              simp only [hyi, decide_true]

/-- What `batch_query` does are the batches `batchCalls`. -/
theorem batch_of_batches {E : Env n} {ctx : Ctx} {rows cols N : Nat} {H : NaiveHash} (hperm : ∀ l, (E.shuffle l).Perm l)
    (hnew : NaiveHash.new E.shuffle 3 N = some H) (hN : 2 ≤ N) (hcols : 0 < cols) {pts : List (Poly n)} (hp : pts.length = N) :
    ∀ (ks : List Nat) (S : Server n) (g : Gen n) (c : Nat) {yss : List (List (Poly n))} {S' : Server n} {g' : Gen n},
      runBatches E.fft ctx E.s rows cols H (batchCalls n ks) S g = some (yss, S', g') →
      Spec.batchOk H cols (fun i => pts.getD i 0) (batchCalls n ks) yss →
      iterM (fun _ => batchIter E ctx rows cols H pts) ks (S, g, c) = some (S', g', c + ks.length)
  | [], S, g, c, yss, S', g', h, _ => by
    simp only [batchCalls, List.map_nil, runBatches, Option.some.injEq, Prod.mk.injEq] at h
    obtain ⟨_, rfl, rfl⟩ := h
    rfl
  | k :: ks, S, g, c, yss, S', g', h, hok => by
    simp only [batchCalls, List.map_cons, runBatches, clientBatch] at h
    simp only [iterM, batchIter]
    rcases h1 : genReadQueryBatch ctx E.s rows cols H [0, 1] g with _ | ⟨qs, g2⟩
    · rw [h1] at h; cases h
    · rw [h1] at h
      simp only at h ⊢
      rcases h2 : S.processBatch E.fft qs H with _ | ⟨y, S2⟩
      · rw [h2] at h; cases h
      · rw [h2] at h
        simp only at h ⊢
        rcases h3 : runBatches E.fft ctx E.s rows cols H (List.map (fun _ => BatchCmd.read [0, 1]) ks) S2 g2 with _ | ⟨ys, S3, g3⟩
        · rw [h3] at h; cases h
        · rw [h3] at h
          simp only [Option.some.injEq, Prod.mk.injEq] at h
          obtain ⟨rfl, rfl, rfl⟩ := h
          simp only [batchCalls, List.map_cons, Spec.batchOk] at hok
          obtain ⟨hy, hok⟩ := hok
          have hin : ∀ i ∈ [0, 1], i < N := by
            intro i hi
            simp only [List.mem_cons, List.not_mem_nil, or_false] at hi
            omega
          have hmap : ∃ mp, H.hashToMapping [0, 1] cols = some mp := by
            unfold genReadQueryBatch at h1
            rcases hm : H.hashToMapping [0, 1] cols with _ | mp
            · rw [hm] at h1; cases h1
            · exact ⟨mp, rfl⟩
          obtain ⟨mp, hm⟩ := hmap
          rw [hm]
          simp only
          rw [if_pos]
          · simp only
            have := batch_of_batches hperm hnew hN hcols hp ks S2 g2 (c + 1) h3 hok
            rw [this, List.length_cons]
            congr 3
            omega
          · intro r col i hr
            have hyr := hy mp r col i hm hr
            obtain ⟨hsound, _⟩ := C11_mapping_sound E.shuffle hperm 3 N H hnew [0, 1] cols hcols hin mp hm
            obtain ⟨hmem, _⟩ := hsound r col i hr
            simp only [List.mem_cons, List.not_mem_nil, or_false] at hmem
            have hi2 : i < pts.length := by omega
            rw [List.getElem?_map] at hyr
            rcases hyy : y[r]? with _ | z
            · rw [hyy] at hyr; cases hyr
            · rw [hyy] at hyr
              simp only [Option.map_some, Option.some.injEq] at hyr
              refine ⟨z, i, pts.getD i 0, rfl, ?_, pts_getD hi2, hyr.symm⟩
              rcases hmem with rfl | rfl <;> rfl

theorem session_reads (v : Nat → Poly n) (st : Call n) (h : st.cmds.foldl Spec.apply v = v) (R : Nat → Reducer n) : ∀ ks : List Nat,
    Spec.session v ((ks.map fun k => (R k, st)).map Prod.snd) = ks.map fun _ => st.cmds.map fun c => v c.index
  | [] => rfl
  | k :: ks => by
    simp only [List.map_cons, Spec.session, h]
    rw [session_reads v st h R ks]

theorem reads_apply (v : Nat → Poly n) : ∀ l : List Nat, (l.map fun i => (Cmd.read (i + 1) : Cmd n)).foldl Spec.apply v = v
  | [] => rfl
  | a :: l => by
    rw [List.map_cons, List.foldl_cons]
    exact reads_apply v l

theorem measure_session (m : Measure) (V : Nat) (st : Call n) (R : Nat → Reducer n) : ∀ ks : List Nat,
    m.session V ((ks.map fun k => (R k, st)).map Prod.snd) = ks.length * m.call V st
  | [] => by simp [Measure.session]
  | k :: ks => by
    have ih := measure_session m V st R ks
    unfold Measure.session at ih ⊢
    rw [List.map_cons, List.map_cons, List.map_cons, List.sum_cons, ih, List.length_cons, Nat.succ_mul, Nat.add_comm]

/-- C93: `single_query` completes, all its assertions hold, if the errors of the external products of its run stay within `m` and fit the plaintext
modulus. -/
theorem C93_single {t : Scalar} {ctx : Ctx} (hctx : ctx.Good t) {E : Env n} {D B : Nat} (hD1 : 1 ≤ D) (hD : D < 64) (hE : E.Fair ctx (2 ^ D) B)
    {iterations : Nat} (hit : 0 < iterations) {m : Measure} {V : Nat} (hm : SessionWithin E ctx D B m V (singleCalls E (List.range iterations)))
    (hb : 2 * (B + iterations * (m.op + m.sel) + 2 ^ D * m.sel) < 2 ^ 64 / t.toNat) :
    singleQuery E (some ctx) (2 ^ D) iterations false = some iterations := by
  obtain ⟨H, hnew⟩ := hash_new_one E.shuffle 1 (2 ^ D) (by decide)
  have h2D : 0 < 2 ^ D := by positivity
  obtain ⟨S, pts, g1, S', g', hset, hlen, hrun⟩ := C73_from_setup (fft := E.fft) hctx.codec hE.key E.shuffle hE.perm hnew hD1 hD (by omega) hctx.bl hctx.lv
    hctx.lt hctx.nbl hctx.nlv hctx.nlt hE.gen (singleCalls E (List.range iterations)) (by
      intro st hst
      simp only [singleCalls, List.mem_map, List.mem_range] at hst
      obtain ⟨k, _, rfl⟩ := hst
      refine ⟨hE.red k, ?_, by simp [Call.cmds]⟩
      intro c hc
      simp only [Call.cmds, List.mem_cons, List.not_mem_nil, or_false] at hc
      subst hc
      exact h2D) (m := m) (V := V) (fun S pts g1 h => hm H S pts g1 hnew h) (by
      have := measure_session m V (.one (.read 0) : Call n) E.red (List.range iterations)
      unfold singleCalls
      rw [this, List.length_range]
      exact hb)
  have hs := session_reads (fun i => pts.getD i 0) (.one (.read 0) : Call n) rfl E.red (List.range iterations)
  rw [show Spec.session (fun i => pts.getD i 0) ((singleCalls E (List.range iterations)).map Prod.snd) = _ from hs] at hrun
  have hr := single_of_session (pts := pts) (p := pts.getD 0 0) (pts_getD (by omega)) (List.range iterations) S g1 0 hrun
  unfold singleQuery
  rw [if_pos hit, log2_pow hD]
  simp only [Bool.false_eq_true, if_false, hnew, hset, hr, List.length_range, Nat.zero_add]

/-- C93: `multi_query` completes, all its assertions hold, if the errors of the external products of its run stay within `m` and `V` and fit the plaintext
modulus. -/
theorem C93_multi {t : Scalar} {ctx : Ctx} (hctx : ctx.Good t) {E : Env n} {D B : Nat} (hD1 : 1 ≤ D) (hD : D < 64) (hE : E.Fair ctx (2 ^ D) B)
    {queryCount iterations : Nat} (hq : queryCount < 2 ^ D) (hit : 0 < iterations) {m : Measure} {V : Nat}
    (hm : SessionWithin E ctx D B m V (multiCalls E queryCount (List.range iterations)))
    (hb : 2 * (B + iterations * (m.op + queryCount * m.sel + V) + 2 ^ D * m.sel) < 2 ^ 64 / t.toNat) :
    multiQuery E (some ctx) (2 ^ D) queryCount iterations false = some iterations := by
  obtain ⟨H, hnew⟩ := hash_new_one E.shuffle 1 (2 ^ D) (by decide)
  obtain ⟨S, pts, g1, S', g', hset, hlen, hrun⟩ := C73_from_setup (fft := E.fft) hctx.codec hE.key E.shuffle hE.perm hnew hD1 hD (by omega) hctx.bl hctx.lv
    hctx.lt hctx.nbl hctx.nlv hctx.nlt hE.gen (multiCalls E queryCount (List.range iterations)) (by
      intro st hst
      simp only [multiCalls, List.mem_map, List.mem_range] at hst
      obtain ⟨k, _, rfl⟩ := hst
      refine ⟨hE.red k, ?_, ?_⟩
      · intro c hc
        simp only [Call.cmds, List.mem_map, List.mem_range] at hc
        obtain ⟨i, hi, rfl⟩ := hc
        show i + 1 < 2 ^ D
        omega
      · simp only [Call.cmds, List.map_map]
        refine List.Nodup.map (fun a b hab => ?_) List.nodup_range
        simpa [Cmd.index] using hab) (m := m) (V := V) (fun S pts g1 h => hm H S pts g1 hnew h) (by
      have := measure_session m V (.multi ((List.range queryCount).map fun i => .read (i + 1)) : Call n) E.red (List.range iterations)
      unfold multiCalls
      rw [this, List.length_range]
      simp only [Measure.call, List.length_map, List.length_range]
      exact hb)
  have hs := session_reads (fun i => pts.getD i 0) (.multi ((List.range queryCount).map fun i => .read (i + 1)) : Call n)
    (reads_apply _ _) E.red (List.range iterations)
  rw [show Spec.session (fun i => pts.getD i 0) ((multiCalls E queryCount (List.range iterations)).map Prod.snd) = _ from hs] at hrun
  simp only [Call.cmds, List.map_map] at hrun
  have hr := multi_of_session (pts := pts) (qc := queryCount) (by omega) (List.range iterations) S g1 0 hrun
  unfold multiQuery
  rw [if_pos hit, log2_pow hD]
  simp only [Bool.false_eq_true, if_false, hnew, hset]
  rw [if_pos hlen.symm, hr]
  simp only [List.length_range, Nat.zero_add]

/-- C93: `batch_query` completes, all its assertions hold, if the errors of the external products of its run stay within `m` and fit the plaintext
modulus. -/
theorem C93_batch {t : Scalar} {ctx : Ctx} (hctx : ctx.Good t) {E : Env n} {D B rows N : Nat} (hD1 : 1 ≤ D) (hD : D < 64) (hE : E.Fair ctx (2 ^ D) B)
    (hsize : rows * 2 ^ D = 3 * N) (hN : 2 ≤ N) (hN64 : N < 2 ^ 64) {iterations : Nat} (hit : 0 < iterations) {m : Measure}
    (hm : BatchesWithin E ctx rows N D B m (batchCalls n (List.range iterations)))
    (hb : 2 * (B + iterations * (5 * (m.op + m.sel)) + 2 ^ D * m.sel) < 2 ^ 64 / t.toNat) :
    batchQuery E (some ctx) rows (2 ^ D) iterations false = some iterations := by
  obtain ⟨H, hnew⟩ := hash_new_one E.shuffle 3 N (by decide)
  have hrows : 0 < rows := by
    rcases Nat.eq_zero_or_pos rows with h | h
    · subst h; omega
    · exact h
  obtain ⟨S, pts, g1, yss, S', g', hset, hlen, hrun, hok⟩ := C70_from_setup (fft := E.fft) hctx.codec hE.key E.shuffle hE.perm hnew hD1 hD hrows hsize
    hctx.bl hctx.lv hctx.lt hctx.nbl hctx.nlv hctx.nlt hE.gen (batchCalls n (List.range iterations)) (by
      intro c hc
      simp only [batchCalls, List.mem_map] at hc
      obtain ⟨_, _, rfl⟩ := hc
      refine ⟨by decide, ?_⟩
      intro i hi
      simp only [List.mem_cons, List.not_mem_nil, or_false] at hi
      omega) (m := m) (fun S pts g1 h => hm H S pts g1 hnew h) (by
      rw [show (batchCalls n (List.range iterations)).length = iterations by simp [batchCalls]]
      exact hb)
  have hr := batch_of_batches hE.perm hnew hN (by positivity) hlen (List.range iterations) S g1 0 hrun hok
  unfold batchQuery
  rw [if_pos hit]
  simp only
  rw [hsize, Nat.mul_div_cancel_left _ (by decide), log2_eq (by omega) hN64]
  simp only [Bool.false_eq_true, if_false, hnew, hset]
  simp only [hr, List.length_range, Nat.zero_add]

/-- C93: a run of the binary for one parameter set completes, with one result line per iteration and all assertions holding, if its parameters and sizes
are usable and the accumulated errors of the external products it performs are below half of `2^64 / t`. -/
theorem C93_run {F : Type} {E : (n : Nat) → Env n} {p : ServerParams F} {ctx : Ctx} {t : Scalar} {B : Nat} {m : Measure} {V : Nat}
    (hof : Ctx.ofParams p.tfhe = some ctx) (hctx : ctx.Good t) (hpt : 0 < p.tfhe.plaintextModulus ∧ p.tfhe.plaintextModulus < 2 ^ 64)
    (hfit : p.oram.Fits) (hE : (E p.tfhe.polynomialSize).Fair ctx p.oram.columns B) (hm : ProductsWithin (E p.tfhe.polynomialSize) ctx B m V p.oram)
    (hb : 2 * m.accumulated B V p.oram < 2 ^ 64 / t.toNat) : runParams E false p = some p.oram.iterations := by
  unfold runParams
  rw [log2_eq hpt.1 hpt.2]
  simp only
  rw [hof]
  rcases ho : p.oram with ⟨ic, it⟩ | ⟨ic, qc, it⟩ | ⟨rows, cols, it⟩
  · rw [ho] at hfit hE hm hb
    obtain ⟨⟨D, h1, h2, rfl⟩, hit⟩ := hfit
    simp only [ProductsWithin, Nat.log2_two_pow] at hm
    exact C93_single hctx h1 h2 hE hit hm hb
  · rw [ho] at hfit hE hm hb
    obtain ⟨⟨D, h1, h2, rfl⟩, hq, hit⟩ := hfit
    simp only [ProductsWithin, Nat.log2_two_pow] at hm
    exact C93_multi hctx h1 h2 hE hq hit hm hb
  · rw [ho] at hfit hE hm hb
    obtain ⟨⟨D, h1, h2, rfl⟩, ⟨N, hN⟩, h6, h64, hit⟩ := hfit
    simp only [ProductsWithin, Nat.log2_two_pow, hN, Nat.mul_div_cancel_left _ (show 0 < 3 by decide)] at hm
    exact C93_batch hctx h1 h2 hE hN (by omega) (by omega) hit hm hb

/-- C93: `main` on parameter sets that each run like this completes and prints as many result lines as there are iterations in total. -/
theorem C93_main {F : Type} : ∀ (xs : List (((n : Nat) → Env n) × ServerParams F)),
    (∀ x ∈ xs, ∃ ctx t B m V, Ctx.ofParams x.2.tfhe = some ctx ∧ ctx.Good t ∧ (0 < x.2.tfhe.plaintextModulus ∧ x.2.tfhe.plaintextModulus < 2 ^ 64) ∧
      x.2.oram.Fits ∧ (x.1 x.2.tfhe.polynomialSize).Fair ctx x.2.oram.columns B ∧ ProductsWithin (x.1 x.2.tfhe.polynomialSize) ctx B m V x.2.oram ∧
      2 * m.accumulated B V x.2.oram < 2 ^ 64 / t.toNat) →
    runAll false xs = some ((xs.map fun x => x.2.oram.iterations).sum)
  | [], _ => rfl
  | x :: xs, h => by
    obtain ⟨ctx, t, B, m, V, h1, h2, h3, h4, h5, h6, h7⟩ := h x (by simp)
    rw [runAll, C93_run h1 h2 h3 h4 h5 h6 h7]
    simp only
    rw [C93_main xs (fun y hy => h y (by simp [hy]))]
    simp

theorem defaultCtx_good : defaultCtx.Good 256 := ⟨by decide, by decide, by decide, by decide, rfl, by decide, by decide⟩

theorem defaultCtx_ofParams {F : Type} (m55 : F) : Ctx.ofParams (TFHEParameters.default' m55) = some defaultCtx := by
  have h : Codec.new (BitVec.ofNat 64 256) = some ⟨8, 2 ^ 56⟩ := by decide
  unfold Ctx.ofParams
  rw [show (TFHEParameters.default' m55).plaintextModulus = 256 from rfl, h]
  rfl

/-- C93 (the repository's params.json): the seven runs it describes, up to 4096 columns, all complete if their noise is at most `2^15` and no external
product is off by more than `2^46` for the READ/WRITE flag, `121 * 2^36` (almost `2^43`) for selectors, `2^50` for summed selectors: seven result
lines. -/
theorem C93_params_json {F : Type} (mk : List Char → Option F) (ofInt : Int → F) (m55 : F) (cli : Cli F) (hmk : mk ['-', '5', '5', '.', '0'] = some m55)
    (xs : List (((n : Nat) → Env n) × ServerParams F)) (hxs : xs.map Prod.snd = textParams mk ofInt m55 cli (some repoParamsText))
    (h : ∀ x ∈ xs, ∃ (B : Nat) (m : Measure) (V : Nat), B ≤ 2 ^ 15 ∧ m.op ≤ 2 ^ 46 ∧ m.sel ≤ 121 * 2 ^ 36 ∧ V ≤ 2 ^ 50 ∧
      (x.1 2048).Fair defaultCtx x.2.oram.columns B ∧ ProductsWithin (x.1 2048) defaultCtx B m V x.2.oram) :
    runAll false xs = some 7 := by
  have hrepo := (C87_repo_params mk ofInt m55 cli hmk).2
  rw [hrepo] at hxs
  have hmem : ∀ x ∈ xs, ∃ o, o ∈ [ORAMParameters.singleQuery 4096 1, .multiQuery 4096 36 1, .batched 384 32 1, .batched 384 128 1, .batched 384 512 1,
      .batched 384 2048 1, .batched 384 4096 1] ∧ x.2 = ⟨o, TFHEParameters.default' m55⟩ := by
    intro x hx
    have hin := List.mem_map_of_mem (f := Prod.snd) hx
    rw [hxs, List.mem_map] at hin
    obtain ⟨o, ho, e⟩ := hin
    exact ⟨o, ho, e.symm⟩
  rw [C93_main xs (by
    rintro ⟨E, p⟩ hx
    obtain ⟨o, ho, e⟩ := hmem _ hx
    obtain ⟨B, m, V, hB, hop, hsel, hV, h1, h2⟩ := h _ hx
    simp only at e
    subst e
    have hdiv : 2 ^ 64 / (256 : Scalar).toNat = 2 ^ 56 := by decide
    refine ⟨defaultCtx, 256, B, m, V, defaultCtx_ofParams m55, defaultCtx_good, (show 0 < 256 ∧ 256 < 2 ^ 64 by decide), ?_, h1, h2, ?_⟩
    · clear h1 h2 hx
      simp only [List.mem_cons, List.not_mem_nil, or_false] at ho
      rcases ho with rfl | rfl | rfl | rfl | rfl | rfl | rfl
      · exact ⟨⟨12, by decide⟩, by decide⟩
      · exact ⟨⟨12, by decide⟩, by decide⟩
      · exact ⟨⟨5, by decide⟩, by decide⟩
      · exact ⟨⟨7, by decide⟩, by decide⟩
      · exact ⟨⟨9, by decide⟩, by decide⟩
      · exact ⟨⟨11, by decide⟩, by decide⟩
      · exact ⟨⟨12, by decide⟩, by decide⟩
    · rw [hdiv]
      clear h1 h2 hx
      simp only [List.mem_cons, List.not_mem_nil, or_false] at ho
      rcases ho with rfl | rfl | rfl | rfl | rfl | rfl | rfl <;> simp only [Measure.accumulated] <;> omega)]
  have : (xs.map fun x => x.2.oram.iterations) = (xs.map Prod.snd).map fun p => p.oram.iterations := by rw [List.map_map]; rfl
  rw [this, hxs]
  rfl

/-- Any batches on the database set up with a sparse key stay within the measure given by the weight of the key. -/
theorem sparse_batches_within {ctx : Ctx} {t : Scalar} (hctx : ctx.Good t) {E : Env n} {phi h B rows N D : Nat} (hf : E.fft.Bounded phi) (hE : E.Fair ctx (2 ^ D) B)
    (hh : l1 E.s ≤ h) (hsize : rows * 2 ^ D = 3 * N) (cmds : List (BatchCmd n)) :
    BatchesWithin E ctx rows N D B (sparseMeasure ctx n h B phi D) cmds := by
  intro H S pts g1 hnew hset
  obtain ⟨T, L⟩ := layout_of_hash E.shuffle hE.perm hnew (rows := rows) (cols := 2 ^ D) (by positivity) hsize
  obtain ⟨S', pts', g1', hset', _, _, hc1, hk1, _, _⟩ := setup_consistent hctx.codec hE.key E.shuffle hE.perm hnew hsize L
    hctx.bl hctx.lv hctx.lt hctx.nbl hctx.nlv hctx.nlt hE.gen
  rw [hset] at hset'
  simp only [Option.some.injEq, Prod.mk.injEq] at hset'
  obtain ⟨rfl, rfl, rfl⟩ := hset'
  exact C70_sparse_batches hf hE.key hh cmds S g1 hc1 hk1.negWF hk1.negBl hk1.negLv

/-- Any session on the one-row database set up with a sparse key stays within the measure given by the weight of the key. -/
theorem sparse_session_within {ctx : Ctx} {t : Scalar} (hctx : ctx.Good t) {E : Env n} {phi h B D K : Nat} (hf : E.fft.Bounded phi)
    (hE : E.Fair ctx (2 ^ D) B) (hh : l1 E.s ≤ h) (sts : List (Reducer n × Call n)) (hK : ∀ st ∈ sts, st.2.cmds.length ≤ K) :
    SessionWithin E ctx D B (sparseMeasure ctx n h B phi D) (sparseSum ctx n h B phi D K) sts := by
  intro H S pts g1 hnew hset
  obtain ⟨S', pts', g1', hset', _, _, hinv⟩ := setup_oneInv hctx.codec hE.key E.shuffle hE.perm hnew (D := D) (by omega)
    hctx.bl hctx.lv hctx.lt hctx.nbl hctx.nlv hctx.nlt hE.gen
  rw [hset] at hset'
  simp only [Option.some.injEq, Prod.mk.injEq] at hset'
  obtain ⟨rfl, rfl, rfl⟩ := hset'
  exact C73_sparse_session hf hE.key hh sts S g1 hinv.keys.negWF hinv.keys.negBl hinv.keys.negLv hK

/-- C93 (the repository's params.json, no assumption on the run): with a key of at most one 1, noise of at most 1 per coefficient and exact Fourier
products, all seven runs complete, for every shuffle, masks and scheduling. -/
theorem C93_params_json_sparse {F : Type} (mk : List Char → Option F) (ofInt : Int → F) (m55 : F) (cli : Cli F)
    (hmk : mk ['-', '5', '5', '.', '0'] = some m55) (xs : List (((n : Nat) → Env n) × ServerParams F))
    (hxs : xs.map Prod.snd = textParams mk ofInt m55 cli (some repoParamsText))
    (h : ∀ x ∈ xs, (x.1 2048).Fair defaultCtx x.2.oram.columns 1 ∧ l1 (x.1 2048).s ≤ 1 ∧ (x.1 2048).fft.Bounded 0) : runAll false xs = some 7 := by
  refine C93_params_json mk ofInt m55 cli hmk xs hxs fun x hx => ?_
  have hrepo := (C87_repo_params mk ofInt m55 cli hmk).2
  obtain ⟨hE, hh, hf⟩ := h x hx
  have hin := List.mem_map_of_mem (f := Prod.snd) hx
  rw [hxs, hrepo, List.mem_map] at hin
  obtain ⟨o, ho, e⟩ := hin
  rw [← e] at hE ⊢
  simp only [List.mem_cons, List.not_mem_nil, or_false] at ho
  have batch : ∀ D, (x.1 2048).Fair defaultCtx (2 ^ D) 1 → BatchesWithin (x.1 2048) defaultCtx 384 (2 ^ D * 128) D 1
      (sparseMeasure defaultCtx 2048 1 1 0 D) (batchCalls 2048 (List.range 1)) := fun D hE' =>
    sparse_batches_within defaultCtx_good hf hE' hh (by omega) _
  rcases ho with rfl | rfl | rfl | rfl | rfl | rfl | rfl
  · refine ⟨1, sparseMeasure defaultCtx 2048 1 1 0 12, sparseSum defaultCtx 2048 1 1 0 12 36, by decide, by decide, by decide, by decide, hE, ?_⟩
    exact sparse_session_within (D := 12) defaultCtx_good hf hE hh _ (by
      intro st hst
      simp only [singleCalls, List.mem_map] at hst
      obtain ⟨k, _, rfl⟩ := hst
      simp [Call.cmds])
  · refine ⟨1, sparseMeasure defaultCtx 2048 1 1 0 12, sparseSum defaultCtx 2048 1 1 0 12 36, by decide, by decide, by decide, by decide, hE, ?_⟩
    exact sparse_session_within (D := 12) defaultCtx_good hf hE hh _ (by
      intro st hst
      simp only [multiCalls, List.mem_map] at hst
      obtain ⟨k, _, rfl⟩ := hst
      simp [Call.cmds])
  · exact ⟨1, _, 0, by decide, by decide, by decide, by decide, hE, batch 5 hE⟩
  · exact ⟨1, _, 0, by decide, by decide, by decide, by decide, hE, batch 7 hE⟩
  · exact ⟨1, _, 0, by decide, by decide, by decide, by decide, hE, batch 9 hE⟩
  · exact ⟨1, _, 0, by decide, by decide, by decide, by decide, hE, batch 11 hE⟩
  · exact ⟨1, _, 0, by decide, by decide, by decide, by decide, hE, batch 12 hE⟩

/-- C93 (no assumption on the run): with the default parameters, noise and rounding of at most 8 per coefficient and a sparse key (at most 16 ones,
respectively 8), the program completes both when its parameter file cannot be used (the fallback, 384 x 16 cells) and for 96 x 64 cells, for every shuffle,
every such key and noise and every scheduling. -/
theorem C93_default_sparse {F : Type} (m55 : F) {E : (n : Nat) → Env n} (hf : (E 2048).fft.Bounded 8) :
    (l1 (E 2048).s ≤ 16 → (E 2048).Fair defaultCtx 16 8 → runAll false [(E, fallback m55)] = some 1) ∧
    (l1 (E 2048).s ≤ 8 → (E 2048).Fair defaultCtx 64 8 →
      runAll false [(E, (⟨.batched 96 64 1, TFHEParameters.default' m55⟩ : ServerParams F))] = some 1) := by
  constructor
  · intro hh hE
    refine C93_main [(E, fallback m55)] ?_
    intro x hx
    rw [List.mem_singleton] at hx
    subst hx
    refine ⟨defaultCtx, 256, 8, sparseMeasure defaultCtx 2048 16 8 8 4, 0, defaultCtx_ofParams m55, defaultCtx_good, (show 0 < 256 ∧ 256 < 2 ^ 64 by decide),
      ⟨⟨4, by decide⟩, by decide⟩, hE, ?_, ?_⟩
    · exact sparse_batches_within (D := 4) defaultCtx_good hf hE hh (by decide) _
    · show 2 * Measure.accumulated _ 8 0 (.batched 384 16 1) < _
      decide
  · intro hh hE
    refine C93_main [(E, ⟨.batched 96 64 1, TFHEParameters.default' m55⟩)] ?_
    intro x hx
    rw [List.mem_singleton] at hx
    subst hx
    refine ⟨defaultCtx, 256, 8, sparseMeasure defaultCtx 2048 8 8 8 6, 0, defaultCtx_ofParams m55, defaultCtx_good, (show 0 < 256 ∧ 256 < 2 ^ 64 by decide),
      ⟨⟨6, by decide⟩, by decide⟩, hE, ?_, ?_⟩
    · exact sparse_batches_within (D := 6) defaultCtx_good hf hE hh (by decide) _
    · show 2 * Measure.accumulated _ 8 0 (.batched 96 64 1) < _
      decide

/-- Pseudo-random masks, noise and rounding at the default ring size (`bigGen`, `bigFft`), a key with 16 ones; other ring sizes are not used. -/
def bigEnv : (n : Nat) → Env n := fun n =>
  if h : n = 2048 then h ▸ ⟨List.reverse, sparseKey, bigGen, bigFft, fun _ => foldReducer 2048 defaultCtx 16⟩
  else ⟨id, 0, ⟨fun _ => 0, fun _ => 0, fun _ => 0, 0⟩, ⟨fun _ => 0⟩, fun _ => foldReducer n defaultCtx 16⟩

theorem bigEnv_2048 : bigEnv 2048 = ⟨List.reverse, sparseKey, bigGen, bigFft, fun _ => foldReducer 2048 defaultCtx 16⟩ := by
  unfold bigEnv
  rw [dif_pos rfl]

theorem bigEnv_fair : (bigEnv 2048).Fair defaultCtx 16 8 := by
  rw [bigEnv_2048]
  exact ⟨fun l => List.reverse_perm l, sparseKey_binary, bigGen_bounded, fun _ => foldReducer_valid defaultCtx 16⟩

/-- The hypotheses of C93 hold for a concrete run at the default ring size. -/
theorem C93_witness {F : Type} (m55 : F) : (bigEnv 2048).Fair defaultCtx 16 8 ∧ runAll false [(bigEnv, fallback m55)] = some 1 := by
  refine ⟨bigEnv_fair, (C93_default_sparse m55 ?_).1 ?_ bigEnv_fair⟩
  · rw [bigEnv_2048]; exact bigFft_bounded
  · rw [bigEnv_2048]; exact sparseKey_l1

/-- The key `X`: a single 1. -/
def oneKey : Poly 2048 := ⟨fun k => if k.val = 1 then 1 else 0⟩

/-- Pseudo-random masks and noise between -1 and 1 (ring size 2048). -/
def smallGen : Gen 2048 := ⟨fun i => ⟨fun k => BitVec.ofNat 64 (7919 * i + 104729 * k.val + 13)⟩,
  fun i => ⟨fun k => BitVec.ofInt 64 (((i + k.val) % 3 : Nat) - 1 : Int)⟩, fun i => ⟨fun k => BitVec.ofNat 64 (i + k.val)⟩, 0⟩

/-- The environment of a run on `cols` columns with the key `oneKey` and exact Fourier products. -/
def smallEnv (cols : Nat) : (n : Nat) → Env n := fun n =>
  if h : n = 2048 then h ▸ ⟨List.reverse, oneKey, smallGen, ⟨fun _ => 0⟩, fun _ => foldReducer 2048 defaultCtx cols⟩
  else ⟨id, 0, ⟨fun _ => 0, fun _ => 0, fun _ => 0, 0⟩, ⟨fun _ => 0⟩, fun _ => foldReducer n defaultCtx cols⟩

theorem oneKey_binary : Binary oneKey := fun k => by
  by_cases hk : k.val = 1
  · exact Or.inr (if_pos hk)
  · exact Or.inl (if_neg hk)

theorem smallGen_bounded : smallGen.Bounded 1 := fun i k => by
  have h : (i + k.val) % 3 < 3 := Nat.mod_lt _ (by decide)
  unfold smallGen
  simp only
  generalize (i + k.val) % 3 = r at h
  revert h; revert r; decide

theorem oneKey_l1 : l1 oneKey ≤ 1 := by
  have h : ∀ k : Fin 2048, nrm (oneKey k) = if k.val = 1 then 1 else 0 := fun k => by
    by_cases h : k.val = 1
    · rw [if_pos h, show oneKey k = 1 from if_pos h]; decide
    · rw [if_neg h, show oneKey k = 0 from if_neg h]; decide
  unfold l1
  rw [Finset.sum_congr rfl fun k _ => h k, Fin.sum_univ_eq_sum_range (fun k => if k = 1 then 1 else 0) 2048]
  decide +kernel

/-- The hypotheses of `C93_params_json` (and of its sparse form) hold for concrete runs of the repository's params.json: each of its seven parameter
sets completes. -/
theorem C93_params_json_witness {F : Type} (mk : List Char → Option F) (ofInt : Int → F) (m55 : F) (cli : Cli F)
    (hmk : mk ['-', '5', '5', '.', '0'] = some m55) :
    runAll false ((textParams mk ofInt m55 cli (some repoParamsText)).map fun p => (smallEnv p.oram.columns, p)) = some 7 := by
  refine C93_params_json_sparse mk ofInt m55 cli hmk _ ?_ ?_
  · rw [List.map_map]
    exact List.map_id _
  · intro x hx
    obtain ⟨p, _, rfl⟩ := List.mem_map.mp hx
    have e : smallEnv p.oram.columns 2048
        = ⟨List.reverse, oneKey, smallGen, ⟨fun _ => 0⟩, fun _ => foldReducer 2048 defaultCtx p.oram.columns⟩ := by
      unfold smallEnv
      rw [dif_pos rfl]
    simp only
    rw [e]
    refine ⟨⟨fun l => List.reverse_perm l, oneKey_binary, smallGen_bounded, fun _ => foldReducer_valid defaultCtx _⟩, oneKey_l1, fun ts _ k => ?_⟩
    · show (BitVec.toInt (0 : Scalar)).natAbs ≤ _
      simp

/-! The hypotheses of `C70_default_params` and `C73_default_params` hold for the runs of `C70_witness` and, with a key of 8 ones, `C73_witness`. -/

/-- The environment of the examples. -/
def lightEnv (s : Poly 2048) : Env 2048 := ⟨id, s, bigGen, bigFft, fun _ => foldReducer 2048 defaultCtx 16⟩

theorem lightEnv_fair {s : Poly 2048} (hs : Binary s) : (lightEnv s).Fair defaultCtx (2 ^ 4) 8 :=
  ⟨fun l => List.Perm.refl l, hs, bigGen_bounded, fun _ => foldReducer_valid defaultCtx 16⟩

example {H : NaiveHash} (hnew : NaiveHash.new id 3 2048 = some H) :
    ∃ S pts g1 yss S' g', setupRandomOram defaultCtx sparseKey 384 16 H bigGen = some (S, pts, g1) ∧ pts.length = 2048 ∧
      runBatches bigFft defaultCtx sparseKey 384 16 H bigRun S g1 = some (yss, S', g') ∧ Spec.batchOk H 16 (fun i => pts.getD i 0) bigRun yss :=
  C70_default_params sparseKey_binary id (fun l => List.Perm.refl l) hnew (B := 8) (by decide) bigGen_bounded bigRun (by decide) bigRun_valid
    (m := sparseMeasure defaultCtx 2048 16 8 8 4) (by decide) (by decide) fun S pts g1 h =>
      sparse_batches_within (D := 4) (rows := 384) (N := 2048) (E := lightEnv sparseKey) defaultCtx_good bigFft_bounded
        (lightEnv_fair sparseKey_binary) sparseKey_l1 (by decide) bigRun H S pts g1 hnew h

example {H : NaiveHash} (hnew : NaiveHash.new id 1 16 = some H) :
    ∃ S pts g1 S' g', setupRandomOram defaultCtx lightKey 1 16 H bigGen = some (S, pts, g1) ∧ pts.length = 16 ∧
      runSession bigFft defaultCtx lightKey 16 H bigSession S g1
        = some (Spec.session (fun i => pts.getD i 0) (bigSession.map Prod.snd), S', g') :=
  C73_default_params lightKey_binary id (fun l => List.Perm.refl l) hnew (B := 8) (by decide) bigGen_bounded bigSession (by decide) (by decide)
    bigSession_valid (m := sparseMeasure defaultCtx 2048 8 8 8 4) (V := sparseSum defaultCtx 2048 8 8 8 4 4) (by decide) (by decide) (by decide)
    fun S pts g1 h => sparse_session_within (D := 4) (K := 4) (E := lightEnv lightKey) defaultCtx_good bigFft_bounded
      (lightEnv_fair lightKey_binary) lightKey_l1 bigSession (by decide) H S pts g1 hnew h

end Panacea
