import Verif.Props.Shuffle
import Verif.Props.Chance
import Verif.Props.TestsOramBatch

/-!
# C89: histories of batches, the crate's batch test, and whole runs
-/

namespace Panacea
open Spec NaiveHash Finset Equiv
variable {n : Nat}

theorem chance_mono {M : Nat} {P Q : Rolls M → Prop} (h : ∀ d, P d → Q d) : chance P ≤ chance Q := by
  classical
  unfold chance
  refine div_le_div_of_nonneg_right ?_ (by positivity)
  refine Nat.cast_le.mpr (Finset.card_le_card fun d hd => ?_)
  simp only [mem_filter, mem_univ, true_and] at hd ⊢
  exact h d hd

theorem chance_or {M : Nat} {P Q : Rolls M → Prop} : chance (fun d => P d ∨ Q d) ≤ chance P + chance Q := by
  classical
  unfold chance
  rw [← add_div]
  gcongr
  have : (univ.filter fun d => P d ∨ Q d) = univ.filter P ∪ univ.filter Q := by ext d; simp
  have h2 : (univ.filter fun d => P d ∨ Q d).card ≤ (univ.filter P).card + (univ.filter Q).card := by
    rw [this]; exact Finset.card_union_le _ _
  rw [← Nat.cast_add]
  refine Nat.cast_le.mpr ?_
  convert h2

theorem chance_false {M : Nat} : chance (fun _ : Rolls M => False) = 0 := by
  unfold chance
  simp

/-- C89 (history): for any list of requests made with one hash function, the probability that any of them is not served completely is at most the sum
of their bounds. -/
theorem C89_history {hc N cols : Nat} (hh : 0 < hc) (hcols : 0 < cols) : ∀ (iss : List (List Nat)), (∀ is ∈ iss, is.Nodup ∧ ∀ i ∈ is, i < N) →
    chance (fun d => ∃ is ∈ iss, Drops hc N cols is d) ≤ (iss.map fun is => ∑ t ∈ Finset.range is.length,
      ((t * (cols - 1)).descFactorial hc : ℚ) / ((hc * N - hc * t).descFactorial hc : ℚ)).sum
  | [], _ => by
    simp only [List.not_mem_nil, false_and, exists_false, List.map_nil, List.sum_nil]
    rw [chance_false]
  | is :: iss, h => by
    rw [List.map_cons, List.sum_cons]
    have e : (fun d => ∃ is' ∈ is :: iss, Drops hc N cols is' d) = fun d => Drops hc N cols is d ∨ ∃ is' ∈ iss, Drops hc N cols is' d := by
      funext d; simp
    rw [e]
    exact chance_or.trans (add_le_add (C89_batch hh hcols (h is (by simp)).1 (h is (by simp)).2)
      (C89_history hh hcols iss fun is' h' => h is' (by simp [h'])))

/-- C89 (overload): a request for more items than the database has rows is never served completely, whatever the hash function. -/
theorem C89_overload (shuffle : List Nat → List Nat) (hs : ∀ l, (shuffle l).Perm l) {hc N : Nat} {H : NaiveHash} (hnew : NaiveHash.new shuffle hc N = some H)
    {rows cols : Nat} (hcols : 0 < cols) (hsize : rows * cols = hc * N) {is : List Nat} (hnd : is.Nodup) (hin : ∀ i ∈ is, i < N)
    (hlen : rows < is.length) : ¬ Complete H cols is := by
  rintro ⟨m, hm, hall⟩
  have hsound := C11_mapping_sound shuffle hs hc N H hnew is cols hcols hin m hm
  have hb := C10_tuple_bijection shuffle hs hc N H hnew rows cols hcols hsize
  choose f g hf using fun i : {i // i ∈ is} => hall i.1 i.2
  have hinj : Function.Injective f := by
    intro a b e
    have h1 := hf a
    have h2 := hf b
    rw [e, h2] at h1
    exact Subtype.ext (by simpa using (congrArg Prod.snd (Option.some.inj h1)).symm)
  have hlt : ∀ i, f i < rows := by
    intro i
    obtain ⟨_, h, hlt, ht⟩ := hsound.1 _ _ _ (hf i)
    obtain ⟨r, c, e, hr, _, _⟩ := hb.1 h i.1 hlt (hin i.1 i.2)
    rw [ht] at e
    simp only [Option.some.injEq, Prod.mk.injEq] at e
    rw [e.1]; exact hr
  have := Finset.card_le_card_of_injOn (s := is.toFinset.attach) (t := Finset.range rows) (fun i => f ⟨i.1, List.mem_toFinset.mp i.2⟩)
    (fun i _ => Finset.mem_coe.mpr (Finset.mem_range.mpr (hlt _))) (fun a _ b _ e => Subtype.ext (by simpa using hinj e))
  rw [Finset.card_attach, Finset.card_range, List.toFinset_card_of_nodup hnd] at this
  omega

/-- C89 (`test_oram_batch`): within the noise budget the crate's batch test fails with probability exactly 1/17019 over the shuffle (unless the random
data happens to coincide), whatever the key, the noise and the scheduling. -/
theorem C89_test_oram_batch {t : Scalar} {E : OramTest n} {B phi : Nat} (hE : E.OK t 8 B phi)
    (hb : 2 * (B + 3 * (7 * (deltaOp E.ctx n B phi + deltaSel E.ctx n B phi 3)) + 2 ^ 3 * deltaSel E.ctx n B phi 3) < 2 ^ 64 / t.toNat)
    (hpl : ∀ i, ∃ k, 2 ≤ (E.g.plains i k).toNat % t.toNat) :
    chance (fun d : Rolls (4 * 16) => testOramBatch { E with shuffle := shuffleWith d.at } = none) = 1 / 17019 := by
  have h2 := C89_two (hc := 4) (N := 16) (rows := 8) (cols := 8) (by decide) (by decide) (by decide) (i := 1) (j := 2) (by decide) (by decide) (by decide)
  rw [show ((8 - 1 : Nat).descFactorial 4 : ℚ) / ((4 * 16 - 1 : Nat).descFactorial 4 : ℚ) = 1 / 17019 by
    rw [show (8 - 1 : Nat).descFactorial 4 = 840 by decide, show (4 * 16 - 1 : Nat).descFactorial 4 = 14295960 by decide]
    norm_num] at h2
  rw [← h2]
  congr 1
  funext d
  have hperm := shuffleWith_perm d.at_le
  have hE' : ({ E with shuffle := shuffleWith d.at } : OramTest n).OK t 8 B phi := ⟨hE.ctx, hE.ring, hE.fft, hE.gen, hperm, hE.red, hE.order⟩
  obtain ⟨H, hnew⟩ := hash_new_one (shuffleWith d.at) 4 16 (by decide)
  have hdr : drawnHash 4 16 d = some H := hnew
  obtain ⟨T, L⟩ := layout_of_hash _ hperm hnew (rows := 8) (cols := 8) (by decide) (by decide)
  obtain ⟨s1, s2⟩ := served_one_two hperm (by decide) hnew L
  have hD : Drops 4 16 8 [1, 2] d ↔ ¬ NotAllInRow H 8 := by
    unfold Drops
    rw [hdr]
    simp only [Option.some.injEq, forall_eq']
    rw [← s2]
    apply not_congr
    constructor
    · rintro ⟨m, hm, hall⟩
      obtain ⟨r, c, h⟩ := hall 2 (by simp)
      exact ⟨m, r, c, hm, h⟩
    · rintro ⟨m, r, c, hm, h⟩
      refine ⟨m, hm, fun i hi => ?_⟩
      simp only [List.mem_cons, List.not_mem_nil, or_false] at hi
      rcases hi with rfl | rfl
      · obtain ⟨m', r', c', hm', h'⟩ := s1
        rw [hm] at hm'
        cases hm'
        exact ⟨r', c', h'⟩
      · exact ⟨r, c, h⟩
  rw [hD]
  by_cases hrow : NotAllInRow H 8
  · have := C84_oram_batch hE' hb hnew hrow
    simp [this, hrow]
  · have := C84_oram_batch_fails hE' hb hnew hrow hpl
    simp [this, hrow]

/-! ### Whole runs -/

/-- Served completely, a correct history is that of a plain array. -/
theorem batchOk_all {H : NaiveHash} {cols : Nat} : ∀ {cmds : List (BatchCmd n)} {v : Nat → Poly n} {yss : List (List (Poly n))},
    (∀ c ∈ cmds, Complete H cols c.indices) → (∀ c ∈ cmds, ∀ m r col i, H.hashToMapping c.indices cols = some m → m r = some (col, i) → i ∈ c.indices) →
    Spec.batchOk H cols v cmds yss → AllAnswered H cols v cmds yss
  | [], _, [], _, _, _ => trivial
  | [], _, _ :: _, _, _, h => by simp [Spec.batchOk] at h
  | _ :: _, _, [], _, _, h => by simp [Spec.batchOk] at h
  | c :: cs, v, y :: ys, hc, hm, h => by
    obtain ⟨h1, h2⟩ := h
    obtain ⟨m, e, hall⟩ := hc c (by simp)
    refine ⟨fun i hi => ?_, ?_⟩
    · obtain ⟨r, col, hr⟩ := hall i hi
      exact ⟨m, r, col, e, hr, h1 m r col i e hr⟩
    · have hv : Spec.applyBatch H cols v c = plainBatch v c := by
        cases c with
        | read is => rfl
        | write is a =>
          funext i
          unfold Spec.applyBatch plainBatch
          have : Served H cols is i ↔ i ∈ is := by
            constructor
            · rintro ⟨m', r, col, e', hr⟩
              exact hm (.write is a) (by simp) m' r col i e' hr
            · intro hi
              obtain ⟨r, col, hr⟩ := hall i hi
              exact ⟨m, r, col, e, hr⟩
          simp only [this]
      rw [← hv]
      exact batchOk_all (fun c' h' => hc c' (by simp [h'])) (fun c' h' => hm c' (by simp [h'])) h2

/-- C89 (whole runs): with a random hash function and random encryption noise, independent of each other, setting up a database and running a history of
read and write batches on it answers *every* requested item of every batch like a plain array, except with probability at most the number of noise
coefficients drawn times the tail probability of one, plus the bound for a dropped item. -/
theorem C89_run {Ω : Type} [MeasurableSpace Ω] (μ : MeasureTheory.Measure Ω) [MeasureTheory.IsProbabilityMeasure μ] {t : Scalar} {ctx : Ctx}
    (hctx : ctx.Good t) (hn : 0 < n) {fft : Ω → Fft n} {phi : Nat} (hf : ∀ ω, (fft ω).Bounded phi) {s : Ω → Poly n} (hs : ∀ ω, Binary (s ω))
    {hc N D rows : Nat} (hhc : 0 < hc) (hD1 : 1 ≤ D) (hD : D < 64) (hrows : 0 < rows) (hsize : rows * 2 ^ D = hc * N)
    {g : Ω → Gen n} {p0 : Nat} (hpos : ∀ ω, (g ω).pos = p0) {B : Nat} {δ : ENNReal} (ht : NoiseTail μ g B δ)
    (cmds : List (BatchCmd n)) (hval : ∀ c ∈ cmds, c.Valid N t)
    (hb : 2 * (B + cmds.length * ((2 * hc - 1) * (deltaOp ctx n B phi + deltaSel ctx n B phi D)) + 2 ^ D * deltaSel ctx n B phi D)
        < 2 ^ 64 / t.toNat) :
    (∑ d : Rolls (hc * N), μ {ω | ∀ H, drawnHash hc N d = some H → ¬ RunAnswersAll (fft ω) ctx (s ω) rows (2 ^ D) H cmds (g ω)})
        / (Fintype.card (Rolls (hc * N)) : ENNReal)
      ≤ ((setupEncryptions ctx N + cmds.length * (rows * queryEncryptions ctx D)) * n : Nat) * δ
        + ENNReal.ofReal ((cmds.map fun c => ∑ t ∈ Finset.range c.indices.length,
          ((t * (2 ^ D - 1)).descFactorial hc : ℚ) / ((hc * N - hc * t).descFactorial hc : ℚ)).sum : ℚ) := by
  classical
  obtain ⟨noise, hnoise⟩ : ∃ x : ENNReal, x = ((setupEncryptions ctx N + cmds.length * (rows * queryEncryptions ctx D)) * n : Nat) * δ := ⟨_, rfl⟩
  rw [← hnoise]
  have hcols : 0 < 2 ^ D := by positivity
  let bad : Rolls (hc * N) → Prop := fun d => ∃ is ∈ cmds.map BatchCmd.indices, Drops hc N (2 ^ D) is d
  have hone : ∀ d : Rolls (hc * N), μ {ω | ∀ H, drawnHash hc N d = some H → ¬ RunAnswersAll (fft ω) ctx (s ω) rows (2 ^ D) H cmds (g ω)}
      ≤ noise + if bad d then 1 else 0 := by
    intro d
    by_cases hbad : bad d
    · rw [if_pos hbad]
      exact MeasureTheory.prob_le_one.trans le_add_self
    · rw [if_neg hbad, add_zero]
      obtain ⟨H, hnew⟩ := hash_new_one (shuffleWith d.at) hc N hhc
      have hdr : drawnHash hc N d = some H := hnew
      have hperm := shuffleWith_perm d.at_le
      have hC := C78_batches μ hctx hn hf hs (shuffleWith d.at) hperm hnew hD1 hD hrows hsize hpos ht cmds hval hb
      rw [← hnoise] at hC
      refine (MeasureTheory.measure_mono ?_).trans hC
      intro ω hω hcorr
      refine hω H hdr ?_
      obtain ⟨S, pts, g1, yss, S', g', e1, e2, e3⟩ := hcorr
      refine ⟨S, pts, g1, yss, S', g', e1, e2, batchOk_all ?_ ?_ e3⟩
      · intro c hc'
        by_contra hno
        refine hbad ⟨c.indices, List.mem_map.mpr ⟨c, hc', rfl⟩, ?_⟩
        intro H' h'
        rw [hdr] at h'
        cases h'
        exact hno
      · intro c hc' m r col i hm hr
        exact ((C11_mapping_sound _ hperm hc N H hnew c.indices (2 ^ D) hcols (hval c hc').nodup.2 m hm).1 r col i hr).1
  have hhist := C89_history (cols := 2 ^ D) hhc hcols (cmds.map BatchCmd.indices) (by
    intro is his
    obtain ⟨c, hc', rfl⟩ := List.mem_map.mp his
    exact (hval c hc').nodup)
  rw [List.map_map] at hhist
  obtain ⟨bd, hbd⟩ : ∃ x : ℚ, x = (cmds.map fun c => ∑ t ∈ Finset.range c.indices.length,
          ((t * (2 ^ D - 1)).descFactorial hc : ℚ) / ((hc * N - hc * t).descFactorial hc : ℚ)).sum := ⟨_, rfl⟩
  have hh : chance bad ≤ bd := by rw [hbd]; exact hhist
  rw [← hbd]
  clear hhist hbd
  have hcard0 : (Fintype.card (Rolls (hc * N)) : ENNReal) ≠ 0 := by
    have : Nonempty (Rolls (hc * N)) := ⟨fun i => ⟨0, Nat.succ_pos _⟩⟩
    exact_mod_cast Fintype.card_ne_zero
  have hcardT : (Fintype.card (Rolls (hc * N)) : ENNReal) ≠ ⊤ := ENNReal.natCast_ne_top _
  have hsum : (∑ d : Rolls (hc * N), μ {ω | ∀ H, drawnHash hc N d = some H → ¬ RunAnswersAll (fft ω) ctx (s ω) rows (2 ^ D) H cmds (g ω)})
      ≤ (Fintype.card (Rolls (hc * N)) : ENNReal) * noise + ((Finset.univ.filter bad).card : ENNReal) := by
    refine (Finset.sum_le_sum fun d _ => hone d).trans ?_
    rw [Finset.sum_add_distrib, Finset.sum_const, Finset.card_univ, nsmul_eq_mul, Finset.sum_ite, Finset.sum_const_zero, add_zero, Finset.sum_const,
      nsmul_eq_mul, mul_one]
  refine (ENNReal.div_le_div_right hsum _).trans ?_
  rw [ENNReal.add_div, mul_comm, ENNReal.mul_div_cancel_right hcard0 hcardT]
  refine add_le_add (le_refl _) ?_
  have hreal : (((Finset.univ.filter bad).card : ENNReal) / (Fintype.card (Rolls (hc * N)) : ENNReal)) = ENNReal.ofReal ((chance bad : ℚ) : ℝ) := by
    unfold chance
    have hp : (0 : ℝ) < (Fintype.card (Rolls (hc * N)) : ℝ) := by
      have : Nonempty (Rolls (hc * N)) := ⟨fun i => ⟨0, Nat.succ_pos _⟩⟩
      exact_mod_cast Fintype.card_pos
    rw [Rat.cast_div, Rat.cast_natCast, Rat.cast_natCast, ENNReal.ofReal_div_of_pos hp, ENNReal.ofReal_natCast, ENNReal.ofReal_natCast]
    congr 2
    congr 1
    ext d
    simp only [mem_filter, mem_univ, true_and]
  rw [hreal]
  exact ENNReal.ofReal_le_ofReal (by exact_mod_cast hh)

/-! ### Concrete geometries -/

/-- `batch_query` requests two items.  Without arguments (96 x 64 cells, 3 copies of 2048 items) one in 972,450 hash functions drops the second one; in the
fallback geometry (384 x 16) one in 84 million. -/
example : chance (Drops 3 2048 64 [0, 1]) = 63 * 62 * 61 / (6143 * 6142 * 6141) ∧ chance (Drops 3 2048 16 [0, 1]) = 15 * 14 * 13 / (6143 * 6142 * 6141) := by
  constructor
  · rw [C89_two (rows := 96) (by decide) (by decide) (by decide) (by decide) (by decide) (by decide)]
    simp [Nat.descFactorial]
    norm_num
  · rw [C89_two (rows := 384) (by decide) (by decide) (by decide) (by decide) (by decide) (by decide)]
    simp [Nat.descFactorial]
    norm_num

/-- A batch of 32 items in 96 x 64 cells is served completely with probability at least 7/10. -/
example (is : List Nat) (hnd : is.Nodup) (hlen : is.length = 32) (hin : ∀ i ∈ is, i < 2048) : chance (Drops 3 2048 64 is) ≤ 3 / 10 := by
  refine (C89_batch (by decide) (by decide) hnd hin).trans ?_
  rw [hlen]
  simp only [Finset.sum_range_succ, Finset.sum_range_zero, Nat.descFactorial]
  norm_num

/-- The hypotheses of `C89_test_oram_batch` are met. -/
example : chance (fun d : Rolls (4 * 16) => testOramBatch { exOramTest id 8 with shuffle := shuffleWith d.at } = none) = 1 / 17019 :=
  C89_test_oram_batch (exOramTest_ok (fun l => List.Perm.refl l) 8) (by decide +kernel)
    (fun _ => ⟨0, by show 2 ≤ (5 : Scalar).toNat % (16 : Scalar).toNat; decide⟩)

/-- The hypotheses of `C89_run` are met: a write and a read batch on 3 x 4 cells (3 copies of 4 items), with Gaussian noise. -/
example : (∑ d : Rolls (3 * 4), ProbabilityTheory.gaussianReal 0 1 {x | ∀ H, drawnHash 3 4 d = some H →
        ¬ RunAnswersAll exFft exTreeCtx exKey 3 (2 ^ 2) H [.write [2, 0] ⟨fun _ => 7⟩, .read [0, 1]] (gaussGen x)}) / (Fintype.card (Rolls (3 * 4)) : ENNReal)
    ≤ ((setupEncryptions exTreeCtx 4 + 2 * (3 * queryEncryptions exTreeCtx 2)) * 4 : Nat) *
        ENNReal.ofReal (2 * Real.exp (-((3 : Nat) + 1 / 2 : ℝ) ^ 2 / (2 * (1 : NNReal)))) + ENNReal.ofReal ((1 / 42 : ℚ) : ℝ) := by
  have h := C89_run (ProbabilityTheory.gaussianReal 0 1) (t := 16) (ctx := exTreeCtx) exTreeCtx_good (by decide) (fft := fun _ => exFft)
    (fun _ => exFft_bounded) (s := fun _ => exKey) (fun _ => exKey_binary) (hc := 3) (N := 4) (D := 2) (rows := 3)
    (by decide) (by decide) (by decide) (by decide) (by decide) (g := gaussGen) (p0 := 0) (fun _ => rfl) gaussGen_tail
    [.write [2, 0] ⟨fun _ => 7⟩, .read [0, 1]] (by
      intro c hc
      simp only [List.mem_cons, List.not_mem_nil, or_false] at hc
      rcases hc with rfl | rfl
      · exact ⟨by decide, fun k => by show (7 : Scalar).toNat < _; decide⟩
      · exact (by decide : [0, 1].Nodup ∧ ∀ i ∈ [0, 1], i < 4)) (by decide)
  refine h.trans (le_of_eq ?_)
  congr 3
  simp [BatchCmd.indices, Finset.sum_range_succ, Nat.descFactorial]
  norm_num

end Panacea
