import Verif.Spec.Chance
import Verif.Lemmas.Draws
import Mathlib.Probability.Moments.SubGaussian
import Mathlib.Probability.Distributions.Gaussian.Real

/-! # C78: the probability that a run goes wrong -/

namespace Panacea
open Spec
variable {n : Nat} {Ω : Type} [MeasurableSpace Ω]

/-- Union bound over the noise coefficients a function uses. -/
theorem Draws.chance {μ : MeasureTheory.Measure Ω} {α : Type} {f : Ω → Gen n → Option (α × Gen n)} {k : Nat} (hd : Draws f k) {g : Ω → Gen n}
    {p0 : Nat} (hpos : ∀ ω, (g ω).pos = p0) {B : Nat} {δ : ENNReal} (ht : NoiseTail μ g B δ) {bad : Set Ω}
    {good : Ω → Option α → Prop} (hgood : ∀ ω g', g'.Bounded B → good ω ((f ω g').map Prod.fst))
    (hbad : ∀ ω, good ω ((f ω (g ω)).map Prod.fst) → ω ∉ bad) : μ bad ≤ (k * n : Nat) * δ := by
  classical
  obtain ⟨K, P, h1, h2⟩ := hd
  have hsub : bad ⊆ ⋃ i : Fin P.length, ⋃ j : Fin n, {ω | B < nrm (((g ω).noises (p0 + P.get i)) j)} := by
    intro ω hω
    by_contra hno
    refine hbad ω ?_ hω
    have hb : ∀ p ∈ P, Small ((g ω).noises (p0 + p)) B := by
      intro p hp j
      obtain ⟨i, hi⟩ := List.get_of_mem hp
      by_contra hlt
      refine hno (Set.mem_iUnion.mpr ⟨i, Set.mem_iUnion.mpr ⟨j, ?_⟩⟩)
      rw [hi]
      exact Nat.lt_of_not_le hlt
    have e : (f ω (g ω)).map Prod.fst = (f ω ⟨(g ω).masks, fun i => if ∃ p ∈ P, i = p0 + p then (g ω).noises i else 0, (g ω).plains, p0⟩).map Prod.fst := by
      rw [← h2.loc ω (g ω).masks (g ω).noises _ (g ω).plains p0 (fun p hp => (if_pos ⟨p, hp, rfl⟩).symm), ← hpos ω]
    rw [e]
    refine hgood ω _ (fun i => ?_)
    show Small (if ∃ p ∈ P, i = p0 + p then (g ω).noises i else 0) B
    by_cases hi : ∃ p ∈ P, i = p0 + p
    · rw [if_pos hi]
      obtain ⟨p, hp, rfl⟩ := hi
      exact hb p hp
    · rw [if_neg hi]
      exact Small.zero B
  calc μ bad ≤ μ (⋃ i : Fin P.length, ⋃ j : Fin n, {ω | B < nrm (((g ω).noises (p0 + P.get i)) j)}) := MeasureTheory.measure_mono hsub
    _ ≤ ∑ i : Fin P.length, μ (⋃ j : Fin n, {ω | B < nrm (((g ω).noises (p0 + P.get i)) j)}) := MeasureTheory.measure_iUnion_fintype_le _ _
    _ ≤ ∑ _i : Fin P.length, (n : ENNReal) * δ := by
        refine Finset.sum_le_sum fun i _ => ?_
        refine (MeasureTheory.measure_iUnion_fintype_le _ _).trans ?_
        refine (Finset.sum_le_sum fun j _ => ht (p0 + P.get i) j).trans ?_
        simp
    _ = (P.length * n : Nat) * δ := by simp [mul_assoc]
    _ ≤ (k * n : Nat) * δ := by
        gcongr

/-- C78: the probability that setting up a one-row database of `N` items and running a session of read and write commands on it, single or
in `process_multi` calls, does not return all the right answers is at most the number of noise coefficients drawn times the tail
probability of one. -/
theorem C78_session (μ : MeasureTheory.Measure Ω) {t : Scalar} {ctx : Ctx} (hctx : ctx.Good t) (hn : 0 < n) {fft : Ω → Fft n} {phi : Nat}
    (hf : ∀ ω, (fft ω).Bounded phi) {s : Ω → Poly n} (hs : ∀ ω, Binary (s ω)) (shuffle : List Nat → List Nat) (hsh : ∀ l, (shuffle l).Perm l)
    {hc N : Nat} {H : NaiveHash} (hnew : NaiveHash.new shuffle hc N = some H) {D : Nat} (hD1 : 1 ≤ D) (hD : D < 64) (hsize : 2 ^ D = hc * N)
    {g : Ω → Gen n} {p0 : Nat} (hpos : ∀ ω, (g ω).pos = p0) {B : Nat} {δ : ENNReal} (ht : NoiseTail μ g B δ)
    (calls : List (Call n)) (sts : Ω → List (Reducer n × Call n)) (hsts : ∀ ω, (sts ω).map Prod.snd = calls)
    (hval : ∀ ω, ∀ st ∈ sts ω, st.1.Valid ctx (2 ^ D) ∧ st.2.Valid N t)
    (hb : 2 * (B + sessionNoise ctx n B phi D calls + 2 ^ D * deltaSel ctx n B phi D) < 2 ^ 64 / t.toNat) :
    μ {ω | ¬ SessionCorrect (fft ω) ctx (s ω) (2 ^ D) H (sts ω) (g ω)}
      ≤ ((setupEncryptions ctx N + (calls.map fun c => c.cmds.length * queryEncryptions ctx D).sum) * n : Nat) * δ := by
  have hhc : H.hCount = hc ∧ 0 < hc := by
    unfold NaiveHash.new at hnew
    split at hnew
    · cases hnew; exact ⟨rfl, by assumption⟩
    · cases hnew
  have hN : 1 * 2 ^ D / H.hCount = N := by
    rw [hhc.1, one_mul, hsize, Nat.mul_div_cancel_left _ hhc.2]
  have h1 := draws_setup ctx s 1 (2 ^ D) H
  rw [hN] at h1
  have h2 := Draws.map ((draws_session ctx H (log2_pow hD) calls fft s sts hsts).comp
    (fun x : Ω × (Server n × List (Poly n)) => (x.1, x.2.1))) (fun x ys => some (x.2.2, ys))
  refine Draws.chance (h1.bind h2) hpos ht (good := fun ω o => ∃ pts, o = some (pts, Spec.session (fun i => pts.getD i 0) calls)) ?_ ?_
  · intro ω g' hg'
    obtain ⟨S, pts, g1, S', g2, e1, _, e2⟩ := C54_from_setup hctx.codec hn (hf ω) (hs ω) shuffle hsh hnew hD1 hD hsize hctx.bl hctx.lv hctx.lt
      hctx.nbl hctx.nlv hctx.nlt hg' (sts ω) (hval ω) (by rw [hsts ω]; exact hb)
    refine ⟨pts, ?_⟩
    rw [hsts ω] at e2
    simp only [e1, e2, Option.map_some, Option.bind_some]
  · rintro ω ⟨pts, e⟩ hno
    refine hno ?_
    rcases e1 : setupRandomOram ctx (s ω) 1 (2 ^ D) H (g ω) with _ | ⟨S, pts', g1⟩
    · rw [e1] at e; simp at e
    · rw [e1] at e
      simp only [Option.map_some, Option.bind_some] at e
      rcases e2 : runSession (fft ω) ctx (s ω) (2 ^ D) H (sts ω) S g1 with _ | ⟨ys, S', g2⟩
      · rw [e2] at e; simp at e
      · rw [e2] at e
        simp only [Option.map_some, Option.bind_some, Option.some.injEq, Prod.mk.injEq] at e
        refine ⟨S, pts', g1, S', g2, e1, ?_⟩
        rw [e2, hsts ω, e.1, e.2]

/-- C78 for batched access: setting up any number of rows and running a history of read and write batches. -/
theorem C78_batches (μ : MeasureTheory.Measure Ω) {t : Scalar} {ctx : Ctx} (hctx : ctx.Good t) (hn : 0 < n) {fft : Ω → Fft n} {phi : Nat}
    (hf : ∀ ω, (fft ω).Bounded phi) {s : Ω → Poly n} (hs : ∀ ω, Binary (s ω)) (shuffle : List Nat → List Nat) (hsh : ∀ l, (shuffle l).Perm l)
    {hc N : Nat} {H : NaiveHash} (hnew : NaiveHash.new shuffle hc N = some H) {D rows : Nat} (hD1 : 1 ≤ D) (hD : D < 64) (hrows : 0 < rows)
    (hsize : rows * 2 ^ D = hc * N)
    {g : Ω → Gen n} {p0 : Nat} (hpos : ∀ ω, (g ω).pos = p0) {B : Nat} {δ : ENNReal} (ht : NoiseTail μ g B δ)
    (cmds : List (BatchCmd n)) (hval : ∀ c ∈ cmds, c.Valid N t)
    (hb : 2 * (B + cmds.length * ((2 * hc - 1) * (deltaOp ctx n B phi + deltaSel ctx n B phi D)) + 2 ^ D * deltaSel ctx n B phi D)
        < 2 ^ 64 / t.toNat) :
    μ {ω | ¬ BatchesCorrect (fft ω) ctx (s ω) rows (2 ^ D) H cmds (g ω)}
      ≤ ((setupEncryptions ctx N + cmds.length * (rows * queryEncryptions ctx D)) * n : Nat) * δ := by
  have hhc : H.hCount = hc ∧ 0 < hc := by
    unfold NaiveHash.new at hnew
    split at hnew
    · cases hnew; exact ⟨rfl, by assumption⟩
    · cases hnew
  have hN : rows * 2 ^ D / H.hCount = N := by
    rw [hhc.1, hsize, Nat.mul_div_cancel_left _ hhc.2]
  have h1 := draws_setup ctx s rows (2 ^ D) H
  rw [hN] at h1
  have h2 := Draws.map ((draws_batches ctx fft s rows (log2_pow hD) H cmds).comp
    (fun x : Ω × (Server n × List (Poly n)) => (x.1, x.2.1))) (fun x ys => some (x.2.2, ys))
  refine Draws.chance (h1.bind h2) hpos ht
    (good := fun ω o => ∃ pts yss, o = some (pts, yss) ∧ Spec.batchOk H (2 ^ D) (fun i => pts.getD i 0) cmds yss) ?_ ?_
  · intro ω g' hg'
    obtain ⟨S, pts, g1, yss, S', g2, e1, _, e2, e3⟩ := C47_from_setup hctx.codec hn (hf ω) (hs ω) shuffle hsh hnew hD1 hD hrows hsize hctx.bl hctx.lv
      hctx.lt hctx.nbl hctx.nlv hctx.nlt hg' cmds hval hb
    refine ⟨pts, yss, ?_, e3⟩
    simp only [e1, e2, Option.map_some, Option.bind_some]
  · rintro ω ⟨pts, yss, e, e3⟩ hno
    refine hno ?_
    rcases e1 : setupRandomOram ctx (s ω) rows (2 ^ D) H (g ω) with _ | ⟨S, pts', g1⟩
    · rw [e1] at e; simp at e
    · rw [e1] at e
      simp only [Option.map_some, Option.bind_some] at e
      rcases e2 : runBatches (fft ω) ctx (s ω) rows (2 ^ D) H cmds S g1 with _ | ⟨ys, S', g2⟩
      · rw [e2] at e; simp at e
      · rw [e2] at e
        simp only [Option.map_some, Option.bind_some, Option.some.injEq, Prod.mk.injEq] at e
        refine ⟨S, pts', g1, ys, S', g2, e1, e2, ?_⟩
        rw [e.1, e.2]; exact e3

/-- C78 for the benchmark binary, mode `single_query`: it completes except with this probability. -/
theorem C78_single_query (μ : MeasureTheory.Measure Ω) {t : Scalar} {ctx : Ctx} (hctx : ctx.Good t) (hn : 0 < n) {E : Ω → Env n} {D B phi : Nat}
    (hD1 : 1 ≤ D) (hD : D < 64) {shuffle : List Nat → List Nat} (hsh : ∀ l, (shuffle l).Perm l) (hshE : ∀ ω, (E ω).shuffle = shuffle)
    (hs : ∀ ω, Binary (E ω).s) (hf : ∀ ω, (E ω).fft.Bounded phi) (hred : ∀ ω k, ((E ω).red k).Valid ctx (2 ^ D))
    {p0 : Nat} (hpos : ∀ ω, (E ω).g.pos = p0) {δ : ENNReal} (ht : NoiseTail μ (fun ω => (E ω).g) B δ) {iterations : Nat} (hit : 0 < iterations)
    (hb : 2 * (B + iterations * (deltaOp ctx n B phi + deltaSel ctx n B phi D) + 2 ^ D * deltaSel ctx n B phi D) < 2 ^ 64 / t.toNat) :
    μ {ω | singleQuery (E ω) (some ctx) (2 ^ D) iterations false ≠ some iterations}
      ≤ ((setupEncryptions ctx (2 ^ D) + iterations * queryEncryptions ctx D) * n : Nat) * δ := by
  obtain ⟨H, hnew⟩ := hash_new_one shuffle 1 (2 ^ D) (by decide)
  have hhc : H.hCount = 1 := by
    unfold NaiveHash.new at hnew
    rw [if_pos (by decide)] at hnew
    cases hnew; rfl
  have h1 := draws_setup ctx (fun ω => (E ω).s) 1 (2 ^ D) H
  rw [hhc, Nat.div_one, Nat.one_mul] at h1
  have h2 := draws_iterM (ι := Ω × (Server n × List (Poly n))) (σ := Server n) (k := queryEncryptions ctx D)
    (f := fun x => singleIter (E x.1) ctx (2 ^ D) H x.2.2) (fun j => by
      have hq := draws_clientQuery ctx (fun x : (Ω × (Server n × List (Poly n))) × (Server n × Nat) => (E x.1.1).s) 1 (2 ^ D) H (.read 0)
      rw [log2_pow hD, Option.getD_some, Nat.one_mul] at hq
      have hm := Draws.map hq (fun x q => (x.2.1.processOne ((E x.1.1).red j).one (E x.1.1).fft q).bind fun y => (x.1.2.2[0]?).bind fun p =>
        if p = decryptDecodeRlwe ctx (E x.1.1).s y.1 then some (y.2, x.2.2 + 1) else none)
      refine Draws.congr hm (fun x g => ?_)
      simp only [singleIter, clientQuery]
      rcases genReadQueryOne ctx (E x.1.1).s 1 (2 ^ D) H 0 g with _ | ⟨q, g⟩
      · rfl
      · simp only [Option.bind_some]
        rcases x.2.1.processOne ((E x.1.1).red j).one (E x.1.1).fft q with _ | ⟨y, S⟩
        · rfl
        · simp only [Option.bind_some]
          rcases x.1.2.2[0]? with _ | p
          · rfl
          · simp only [Option.bind_some]
            by_cases hp : p = decryptDecodeRlwe ctx (E x.1.1).s y
            · rw [if_pos hp, if_pos hp]; rfl
            · rw [if_neg hp, if_neg hp]; rfl) (List.range iterations)
  rw [List.length_range] at h2
  have h3 := Draws.map (h2.comp (fun x : Ω × (Server n × List (Poly n)) => (x, (x.2.1, 0)))) (fun _ r => some r.2)
  have hrun : ∀ ω g, singleQuery { E ω with g := g } (some ctx) (2 ^ D) iterations false =
      ((((setupRandomOram ctx (E ω).s 1 (2 ^ D) H g).map fun r => ((r.1, r.2.1), r.2.2)).bind fun r =>
        ((iterM (singleIter (E ω) ctx (2 ^ D) H r.1.2) (List.range iterations) (r.1.1, r.2, 0)).map fun r => ((r.1, r.2.2), r.2.1)).bind fun r =>
          (some r.1.2).map fun b => (b, r.2)).map Prod.fst) := by
    intro ω g
    have hsi : ∀ pts, singleIter ⟨shuffle, (E ω).s, g, (E ω).fft, (E ω).red⟩ ctx (2 ^ D) H pts = singleIter (E ω) ctx (2 ^ D) H pts := fun pts => rfl
    simp only [singleQuery, gt_iff_lt, hit, if_true, log2_pow hD, hshE ω, hnew, Bool.false_eq_true, if_false, hsi]
    rcases setupRandomOram ctx (E ω).s 1 (2 ^ D) H g with _ | ⟨S, pts, g1⟩
    · rfl
    · simp only [Option.map_some, Option.bind_some]
      rcases iterM (singleIter (E ω) ctx (2 ^ D) H pts) (List.range iterations) (S, g1, 0) with _ | ⟨a, b, c⟩ <;> rfl
  refine Draws.chance (h1.bind h3) hpos ht (good := fun ω o => o = some iterations) ?_ ?_
  · intro ω g' hg'
    rw [← hrun]
    exact C55_single_completes hctx hn hD1 hD (E := { E ω with g := g' })
      ⟨by rw [hshE]; exact hsh, hs ω, hg', hf ω, hred ω⟩ hit hb
  · intro ω e
    rw [← hrun] at e
    exact fun hno => hno e

/-- C78 for the benchmark binary, mode `multi_query`. -/
theorem C78_multi_query (μ : MeasureTheory.Measure Ω) {t : Scalar} {ctx : Ctx} (hctx : ctx.Good t) (hn : 0 < n) {E : Ω → Env n} {D B phi : Nat}
    (hD1 : 1 ≤ D) (hD : D < 64) {shuffle : List Nat → List Nat} (hsh : ∀ l, (shuffle l).Perm l) (hshE : ∀ ω, (E ω).shuffle = shuffle)
    (hs : ∀ ω, Binary (E ω).s) (hf : ∀ ω, (E ω).fft.Bounded phi) (hred : ∀ ω k, ((E ω).red k).Valid ctx (2 ^ D))
    {p0 : Nat} (hpos : ∀ ω, (E ω).g.pos = p0) {δ : ENNReal} (ht : NoiseTail μ (fun ω => (E ω).g) B δ) {queryCount iterations : Nat}
    (hq : queryCount < 2 ^ D) (hit : 0 < iterations)
    (hb : 2 * (B + iterations * (deltaOp ctx n B phi + queryCount * deltaSel ctx n B phi D
        + extNoise n ctx.baseLog ctx.levelCount (queryCount * selNoise ctx n B phi D) phi 1)
      + 2 ^ D * deltaSel ctx n B phi D) < 2 ^ 64 / t.toNat) :
    μ {ω | multiQuery (E ω) (some ctx) (2 ^ D) queryCount iterations false ≠ some iterations}
      ≤ ((setupEncryptions ctx (2 ^ D) + iterations * (queryCount * queryEncryptions ctx D)) * n : Nat) * δ := by
  obtain ⟨H, hnew⟩ := hash_new_one shuffle 1 (2 ^ D) (by decide)
  have hhc : H.hCount = 1 := by
    unfold NaiveHash.new at hnew
    rw [if_pos (by decide)] at hnew
    cases hnew; rfl
  have h1 := draws_setup ctx (fun ω => (E ω).s) 1 (2 ^ D) H
  rw [hhc, Nat.div_one, Nat.one_mul] at h1
  have h2 := draws_iterM (ι := Ω × (Server n × List (Poly n))) (σ := Server n) (k := queryCount * queryEncryptions ctx D)
    (f := fun x => multiIter (E x.1) ctx (2 ^ D) queryCount H x.2.2) (fun j => by
      have hqs := Draws.list (l := List.range queryCount) (f := fun (x : (Ω × (Server n × List (Poly n))) × (Server n × Nat)) i =>
          genReadQueryOne ctx (E x.1.1).s 1 (2 ^ D) H (i + 1)) (k := queryEncryptions ctx D) (fun i _ => by
        have hq := draws_clientQuery ctx (fun x : (Ω × (Server n × List (Poly n))) × (Server n × Nat) => (E x.1.1).s) 1 (2 ^ D) H (.read (i + 1))
        rw [log2_pow hD, Option.getD_some, Nat.one_mul] at hq
        exact hq)
      rw [List.length_range] at hqs
      have hm := Draws.map hqs (fun x q => (x.2.1.processMulti ((E x.1.1).red j).vec ((E x.1.1).red j).gsw (E x.1.1).fft q).bind fun y =>
        if (List.range queryCount).all (multiCheck ctx (E x.1.1).s x.1.2.2 y.1) then some (y.2, x.2.2 + 1) else none)
      refine Draws.congr hm (fun x g => ?_)
      simp only [multiIter]
      rcases mapGenM (fun i => genReadQueryOne ctx (E x.1.1).s 1 (2 ^ D) H (i + 1)) (List.range queryCount) g with _ | ⟨q, g⟩
      · rfl
      · simp only [Option.bind_some]
        rcases x.2.1.processMulti ((E x.1.1).red j).vec ((E x.1.1).red j).gsw (E x.1.1).fft q with _ | ⟨y, S⟩
        · rfl
        · simp only [Option.bind_some]
          by_cases hp : (List.range queryCount).all (multiCheck ctx (E x.1.1).s x.1.2.2 y) = true
          · rw [if_pos hp, if_pos hp]; rfl
          · rw [if_neg hp, if_neg hp]; rfl) (List.range iterations)
  rw [List.length_range] at h2
  have h3 := Draws.map (h2.comp (fun x : Ω × (Server n × List (Poly n)) => (x, (x.2.1, 0)))) (fun x r => if 2 ^ D = x.2.2.length then some r.2 else none)
  have hrun : ∀ ω g, multiQuery { E ω with g := g } (some ctx) (2 ^ D) queryCount iterations false =
      ((((setupRandomOram ctx (E ω).s 1 (2 ^ D) H g).map fun r => ((r.1, r.2.1), r.2.2)).bind fun r =>
        ((iterM (multiIter (E ω) ctx (2 ^ D) queryCount H r.1.2) (List.range iterations) (r.1.1, r.2, 0)).map fun r => ((r.1, r.2.2), r.2.1)).bind
          fun r' => (if 2 ^ D = r.1.2.length then some r'.1.2 else none).map fun b => (b, r'.2)).map Prod.fst) := by
    intro ω g
    have hsi : ∀ pts, multiIter ⟨shuffle, (E ω).s, g, (E ω).fft, (E ω).red⟩ ctx (2 ^ D) queryCount H pts = multiIter (E ω) ctx (2 ^ D) queryCount H pts :=
      fun pts => rfl
    simp only [multiQuery, gt_iff_lt, hit, if_true, log2_pow hD, hshE ω, hnew, Bool.false_eq_true, if_false, hsi]
    rcases setupRandomOram ctx (E ω).s 1 (2 ^ D) H g with _ | ⟨S, pts, g1⟩
    · rfl
    · simp only [Option.map_some, Option.bind_some]
      by_cases hl : 2 ^ D = pts.length
      · simp only [if_pos hl]
        rcases iterM (multiIter (E ω) ctx (2 ^ D) queryCount H pts) (List.range iterations) (S, g1, 0) with _ | ⟨a, b, c⟩ <;> rfl
      · simp only [if_neg hl]
        rcases iterM (multiIter (E ω) ctx (2 ^ D) queryCount H pts) (List.range iterations) (S, g1, 0) with _ | ⟨a, b, c⟩ <;> rfl
  refine Draws.chance (h1.bind h3) hpos ht (good := fun ω o => o = some iterations) ?_ ?_
  · intro ω g' hg'
    rw [← hrun]
    exact C56_multi_completes hctx hn hD1 hD (E := { E ω with g := g' })
      ⟨by rw [hshE]; exact hsh, hs ω, hg', hf ω, hred ω⟩ hq hit hb
  · intro ω e
    rw [← hrun] at e
    exact fun hno => hno e

/-- C78 for private decision tree evaluation: `simulate` (keys, encrypted features, evaluation, decryption) predicts what the plain tree
says, for all feature vectors, except with this probability. -/
theorem C78_simulate (μ : MeasureTheory.Measure Ω) {t : Scalar} {ctx : Ctx} (hc : Codec.new t = some ctx.codec) {d : Nat} (hd : d < 64)
    (h1 : 1 ≤ ctx.baseLog) (hl1 : 1 ≤ ctx.levelCount)
    (h2 : ctx.baseLog * ctx.levelCount + d ≤ 64) (h2' : ctx.baseLog * ctx.levelCount < 64)
    (hk1 : 1 ≤ ctx.ksBaseLog) (hk2 : 1 ≤ ctx.ksLevelCount) (hk3 : ctx.ksBaseLog * ctx.ksLevelCount < 64)
    (hn1 : ctx.negsBaseLog = ctx.baseLog) (hn2 : 1 ≤ ctx.negsLevelCount) (hn3 : ctx.negsBaseLog * ctx.negsLevelCount < 64)
    {fft : Ω → Fft (2 ^ d)} {phi : Nat} (hf : ∀ ω, (fft ω).Bounded phi) {s : Ω → Poly (2 ^ d)} (hs : ∀ ω, Binary (s ω))
    {g : Ω → Gen (2 ^ d)} {p0 : Nat} (hpos : ∀ ω, (g ω).pos = p0) {B : Nat} {δ : ENNReal} (ht : NoiseTail μ g B δ)
    {tree : Tree} (hroot : ∃ d l r, tree = .internal d l r)
    (hnodes : ∀ nd, HasNode nd tree → nd.op = .leq ∧ nd.threshold < 2 ^ d)
    {F : F64Ops} (hF : F.Ok) (hlab : ∃ x, x ≠ 0 ∧ HasLeaf x tree) (hmax : ∀ x, HasLeaf x tree → x < 2 ^ 48)
    {features : List (List Nat)} (hfeat : ∀ f ∈ features, tree.maxFeatureIndex < f.length ∧ ∀ v ∈ f, v < 2 ^ d)
    (hb : 2 * (tree.countLeaf * (tree.countDepth *
      extNoise (2 ^ d) ctx.baseLog ctx.levelCount (compareNoise ctx (2 ^ d) B phi) phi 1)) < 2 ^ 64 / t.toNat) :
    μ {ω | ¬ SimulateCorrect (fft ω) ctx F.ceilLog2 (s ω) tree features (g ω)}
      ≤ (simulateEncryptions ctx d features * 2 ^ d : Nat) * δ := by
  obtain ⟨f, hdr, hrun⟩ := draws_simulate ctx fft F.ceilLog2 s tree features (log2_pow hd)
  refine Draws.chance hdr hpos ht
    (good := fun ω o => ∃ ys, o = some ys ∧ List.Forall₂ (fun f y => tree.eval f = some y) features ys) ?_ ?_
  · intro ω g' hg'
    rw [← hrun]
    exact C39_simulate hc hd h1 hl1 h2 h2' hk1 hk2 hk3 hn1 hn2 hn3 (hf ω) (hs ω) hg' hroot hnodes hF hlab hmax hfeat hb
  · intro ω e
    rw [← hrun] at e
    exact fun hno => hno e

/-! ### Gaussian noise -/

/-- C78 (tail): noise obtained by rounding sub-Gaussian variables of parameter `c` (e.g. Gaussians of variance `c`) to integers and reducing
modulo `2^64` exceeds `B` with probability at most `2 exp(-(B + 1/2)^2 / (2c))`. -/
theorem C78_subgaussian_tail (μ : MeasureTheory.Measure Ω) [MeasureTheory.IsFiniteMeasure μ] {g : Ω → Gen n} {X : Nat → Fin n → Ω → ℝ}
    (hX : ∀ ω i k, ((g ω).noises i) k = BitVec.ofInt 64 (round (X i k ω))) {c : NNReal}
    (hsub : ∀ i k, ProbabilityTheory.HasSubgaussianMGF (X i k) c μ) (B : Nat) :
    NoiseTail μ g B (ENNReal.ofReal (2 * Real.exp (-((B : ℝ) + 1 / 2) ^ 2 / (2 * c)))) := by
  intro i k
  have hB : (0 : ℝ) ≤ (B : ℝ) + 1 / 2 := by positivity
  have hsubset : {ω | B < nrm (((g ω).noises i) k)} ⊆ {ω | (B : ℝ) + 1 / 2 ≤ X i k ω} ∪ {ω | (B : ℝ) + 1 / 2 ≤ (-X i k) ω} := by
    intro ω hω
    have h0 : B < nrm (((g ω).noises i) k) := hω
    rw [hX ω i k] at h0
    set z := round (X i k ω) with hz
    have h1 : nrm (BitVec.ofInt 64 z) ≤ z.natAbs := natAbs_ofInt_le z
    have h2 : (B : Int) + 1 ≤ |z| := by rw [Int.abs_eq_natAbs]; omega
    have h3 : ((B : ℝ) + 1) ≤ |(z : ℝ)| := by exact_mod_cast h2
    have h4 : |X i k ω - (z : ℝ)| ≤ 1 / 2 := abs_sub_round (X i k ω)
    have h5 : (B : ℝ) + 1 / 2 ≤ |X i k ω| := by
      have := abs_sub_abs_le_abs_sub (z : ℝ) (X i k ω)
      rw [abs_sub_comm] at this
      linarith
    rcases le_abs.mp h5 with h | h
    · exact Or.inl h
    · exact Or.inr h
  have e1 := (hsub i k).measure_ge_le hB
  have e2 := (hsub i k).neg.measure_ge_le hB
  calc μ {ω | B < nrm (((g ω).noises i) k)} ≤ μ ({ω | (B : ℝ) + 1 / 2 ≤ X i k ω} ∪ {ω | (B : ℝ) + 1 / 2 ≤ (-X i k) ω}) :=
        MeasureTheory.measure_mono hsubset
    _ ≤ μ {ω | (B : ℝ) + 1 / 2 ≤ X i k ω} + μ {ω | (B : ℝ) + 1 / 2 ≤ (-X i k) ω} := MeasureTheory.measure_union_le _ _
    _ ≤ ENNReal.ofReal (Real.exp (-((B : ℝ) + 1 / 2) ^ 2 / (2 * c))) + ENNReal.ofReal (Real.exp (-((B : ℝ) + 1 / 2) ^ 2 / (2 * c))) := by
        refine add_le_add ?_ ?_
        · rw [← ENNReal.ofReal_toReal (MeasureTheory.measure_ne_top μ _)]
          exact ENNReal.ofReal_le_ofReal e1
        · rw [← ENNReal.ofReal_toReal (MeasureTheory.measure_ne_top μ _)]
          exact ENNReal.ofReal_le_ofReal e2
    _ = ENNReal.ofReal (2 * Real.exp (-((B : ℝ) + 1 / 2) ^ 2 / (2 * c))) := by
        rw [← ENNReal.ofReal_add (Real.exp_pos _).le (Real.exp_pos _).le, ← two_mul]

/-- C78 (tail): in particular for rounded Gaussians of variance `v`. -/
theorem C78_gaussian_tail (μ : MeasureTheory.Measure Ω) [MeasureTheory.IsFiniteMeasure μ] {g : Ω → Gen n} {X : Nat → Fin n → Ω → ℝ}
    (hX : ∀ ω i k, ((g ω).noises i) k = BitVec.ofInt 64 (round (X i k ω))) {v : NNReal}
    (hlaw : ∀ i k, μ.map (X i k) = ProbabilityTheory.gaussianReal 0 v) (B : Nat) :
    NoiseTail μ g B (ENNReal.ofReal (2 * Real.exp (-((B : ℝ) + 1 / 2) ^ 2 / (2 * v)))) := by
  refine C78_subgaussian_tail μ hX (fun i k => ⟨fun t => ?_, fun t => ?_⟩) B
  · have hm : AEMeasurable (X i k) μ := aemeasurable_of_map_neZero (by rw [hlaw]; infer_instance)
    have := ProbabilityTheory.integrable_exp_mul_gaussianReal (μ := 0) (v := v) t
    rw [← hlaw i k] at this
    exact this.comp_aemeasurable hm
  · rw [ProbabilityTheory.mgf_gaussianReal (hlaw i k)]
    simp

/-! ### The hypotheses are met -/

/-- A generator whose noise is one rounded Gaussian (the coefficients need not be independent). -/
noncomputable def gaussGen (x : ℝ) : Gen 4 := ⟨exGen.masks, fun _ => ⟨fun _ => BitVec.ofInt 64 (round x)⟩, exGen.plains, 0⟩

theorem gaussGen_tail : NoiseTail (ProbabilityTheory.gaussianReal 0 1) gaussGen 3
    (ENNReal.ofReal (2 * Real.exp (-((3 : Nat) + 1 / 2 : ℝ) ^ 2 / (2 * (1 : NNReal))))) :=
  C78_gaussian_tail _ (X := fun _ _ x => x) (fun _ _ _ => rfl) (fun _ _ => MeasureTheory.Measure.map_id') 3

/-- The session of `C54_from_setup`'s example, with Gaussian noise of standard deviation 1. -/
example : ProbabilityTheory.gaussianReal 0 1 {x | ¬ SessionCorrect exFft exTreeCtx exKey 4 ⟨(List.range 4).reverse, 1, 4⟩
      [(foldReducer 4 exTreeCtx 4, .multi [.read 2, .read 1]), (foldReducer 4 exTreeCtx 4, .one (.read 2))] (gaussGen x)}
    ≤ ((setupEncryptions exTreeCtx 4 + 3 * queryEncryptions exTreeCtx 2) * 4 : Nat) *
      ENNReal.ofReal (2 * Real.exp (-((3 : Nat) + 1 / 2 : ℝ) ^ 2 / (2 * (1 : NNReal)))) := by
  have h := C78_session (ProbabilityTheory.gaussianReal 0 1) (t := 16) (ctx := exTreeCtx) exTreeCtx_good (by decide) (fft := fun _ => exFft)
    (fun _ => exFft_bounded) (s := fun _ => exKey) (fun _ => exKey_binary) List.reverse (fun l => List.reverse_perm l) (hc := 1) (N := 4)
    (H := ⟨(List.range 4).reverse, 1, 4⟩) rfl (D := 2) (by decide) (by decide) (by decide) (g := gaussGen) (p0 := 0) (fun _ => rfl) gaussGen_tail
    [.multi [.read 2, .read 1], .one (.read 2)]
    (fun _ => [(foldReducer 4 exTreeCtx 4, .multi [.read 2, .read 1]), (foldReducer 4 exTreeCtx 4, .one (.read 2))]) (fun _ => rfl)
    (by
      intro _ c hc
      simp only [List.mem_cons, List.not_mem_nil, or_false] at hc
      rcases hc with rfl | rfl
      · refine ⟨foldReducer_valid _ _, ?_, by simp [Call.cmds, Cmd.index]⟩
        intro c hc
        simp only [Call.cmds, List.mem_cons, List.not_mem_nil, or_false] at hc
        rcases hc with rfl | rfl
        · show _ < _; decide
        · show _ < _; decide
      · refine ⟨foldReducer_valid _ _, ?_, by simp [Call.cmds, Cmd.index]⟩
        intro c hc
        simp only [Call.cmds, List.mem_cons, List.not_mem_nil, or_false] at hc
        subst hc
        show _ < _; decide) (by decide)
  exact h

/-- The batches of `C47_from_setup`'s example. -/
example : ProbabilityTheory.gaussianReal 0 1 {x | ¬ BatchesCorrect exFft exTreeCtx exKey 3 4 exHash
      [.write [2, 0] ⟨fun _ => 7⟩, .read [0, 1]] (gaussGen x)}
    ≤ ((setupEncryptions exTreeCtx 4 + 2 * (3 * queryEncryptions exTreeCtx 2)) * 4 : Nat) *
      ENNReal.ofReal (2 * Real.exp (-((3 : Nat) + 1 / 2 : ℝ) ^ 2 / (2 * (1 : NNReal)))) :=
  C78_batches (ProbabilityTheory.gaussianReal 0 1) (t := 16) (ctx := exTreeCtx) exTreeCtx_good (by decide) (fft := fun _ => exFft)
    (fun _ => exFft_bounded) (s := fun _ => exKey) (fun _ => exKey_binary) exShuffle exShuffle_perm exHash_new (D := 2) (rows := 3)
    (by decide) (by decide) (by decide) (by decide) (g := gaussGen) (p0 := 0) (fun _ => rfl) gaussGen_tail
    [.write [2, 0] ⟨fun _ => 7⟩, .read [0, 1]] (by
      intro c hc
      simp only [List.mem_cons, List.not_mem_nil, or_false] at hc
      rcases hc with rfl | rfl
      · exact ⟨by decide, fun k => by show (7 : Scalar).toNat < _; decide⟩
      · exact (by decide : [0, 1].Nodup ∧ ∀ i ∈ [0, 1], i < 4)) (by decide)

/-- The benchmark with Gaussian noise: four items, three iterations. -/
example : ProbabilityTheory.gaussianReal 0 1 {x | singleQuery { exEnv with g := gaussGen x } (some exTreeCtx) 4 3 false ≠ some 3}
      ≤ ((setupEncryptions exTreeCtx 4 + 3 * queryEncryptions exTreeCtx 2) * 4 : Nat) *
        ENNReal.ofReal (2 * Real.exp (-((3 : Nat) + 1 / 2 : ℝ) ^ 2 / (2 * (1 : NNReal)))) ∧
    ProbabilityTheory.gaussianReal 0 1 {x | multiQuery { exEnv with g := gaussGen x } (some exTreeCtx) 4 3 3 false ≠ some 3}
      ≤ ((setupEncryptions exTreeCtx 4 + 3 * (3 * queryEncryptions exTreeCtx 2)) * 4 : Nat) *
        ENNReal.ofReal (2 * Real.exp (-((3 : Nat) + 1 / 2 : ℝ) ^ 2 / (2 * (1 : NNReal)))) :=
  ⟨C78_single_query _ (D := 2) (phi := 5) exTreeCtx_good (by decide) (E := fun x => { exEnv with g := gaussGen x }) (by decide) (by decide)
      (shuffle := id) (fun l => List.Perm.refl l) (fun _ => rfl) (fun _ => exKey_binary) (fun _ => exFft_bounded)
      (fun _ _ => foldReducer_valid _ _) (p0 := 0) (fun _ => rfl) gaussGen_tail (by decide) (by decide),
    C78_multi_query _ (D := 2) (phi := 5) exTreeCtx_good (by decide) (E := fun x => { exEnv with g := gaussGen x }) (by decide) (by decide)
      (shuffle := id) (fun l => List.Perm.refl l) (fun _ => rfl) (fun _ => exKey_binary) (fun _ => exFft_bounded)
      (fun _ _ => foldReducer_valid _ _) (p0 := 0) (fun _ => rfl) gaussGen_tail (by decide) (by decide) (by decide)⟩

/-- The tree of `C39_simulate`'s example. -/
example : ProbabilityTheory.gaussianReal 0 1 {x | ¬ SimulateCorrect exFft exTreeCtx exF64.ceilLog2 exKey exTree [[1, 3], [3, 0]] (gaussGen x)}
    ≤ (simulateEncryptions exTreeCtx 2 [[1, 3], [3, 0]] * 2 ^ 2 : Nat) *
      ENNReal.ofReal (2 * Real.exp (-((3 : Nat) + 1 / 2 : ℝ) ^ 2 / (2 * (1 : NNReal)))) := by
  refine C78_simulate (ProbabilityTheory.gaussianReal 0 1) (t := 16) (d := 2) (ctx := exTreeCtx) (by decide) (by decide) (by decide) (by decide)
    (by decide) (by decide) (by decide) (by decide) (by decide) rfl (by decide) (by decide) (fft := fun _ => exFft) (fun _ => exFft_bounded)
    (s := fun _ => exKey) (fun _ => exKey_binary) (g := gaussGen) (p0 := 0) (fun _ => rfl) gaussGen_tail ⟨_, _, _, rfl⟩ ?_
    exF64_exact.ok ⟨2, by decide, .left _ _ _ (.left _ _ _ .here)⟩ ?_ (by decide) (by decide)
  · intro nd h
    cases h with
    | here => decide
    | left _ _ _ h => cases h with
      | here => decide
      | left _ _ _ h => cases h
      | right _ _ _ h => cases h
    | right _ _ _ h => cases h
  · intro x h
    cases h with
    | left _ _ _ h => cases h with
      | left _ _ _ h => cases h; decide
      | right _ _ _ h => cases h; decide
    | right _ _ _ h => cases h; decide

end Panacea
