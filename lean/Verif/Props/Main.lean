import Verif.Model.Main
import Verif.Props.Session
import Verif.Props.OramShape
import Verif.Props.Params

/-!
# C55 - C58: the benchmark binary
-/

namespace Panacea
variable {n : Nat}

/-- Usable TFHE parameters for plaintext modulus `t`. -/
structure Ctx.Good (ctx : Ctx) (t : Scalar) : Prop where
  codec : Codec.new t = some ctx.codec
  bl : 1 ≤ ctx.baseLog
  lv : 1 ≤ ctx.levelCount
  lt : ctx.baseLog * ctx.levelCount < 64
  nbl : ctx.negsBaseLog = ctx.baseLog
  nlv : 1 ≤ ctx.negsLevelCount
  nlt : ctx.negsBaseLog * ctx.negsLevelCount < 64

/-- What is assumed about the randomness, the Fourier transform and the scheduler: the shuffle permutes, the key is binary, noise and
rounding are bounded, the reductions are reductions. -/
structure Env.OK (E : Env n) (ctx : Ctx) (cols B phi : Nat) : Prop where
  perm : ∀ l, (E.shuffle l).Perm l
  key : Binary E.s
  gen : E.g.Bounded B
  fft : E.fft.Bounded phi
  red : ∀ k, (E.red k).Valid ctx cols

theorem Ctx.Good.params {ctx : Ctx} {t : Scalar} (h : ctx.Good t) : ParamsOK ctx := ⟨h.bl, h.lv, by have := h.lt; omega⟩

theorem hash_new_one (shuffle : List Nat → List Nat) (hc N : Nat) (h : 0 < hc) :
    ∃ H, NaiveHash.new shuffle hc N = some H := ⟨_, by unfold NaiveHash.new; rw [if_pos h]⟩

/-- Iterating a step that preserves an invariant indexed by the remaining budget. -/
theorem iterM_inv {σ : Type} {f : Nat → σ → Option σ} {P : Nat → σ → Prop} (h : ∀ j k st, P (j + 1) st → ∃ st', f k st = some st' ∧ P j st') :
    ∀ (ks : List Nat) (st : σ), P ks.length st → ∃ st', iterM f ks st = some st' ∧ P 0 st'
  | [], st, hp => ⟨st, rfl, hp⟩
  | k :: ks, st, hp => by
    obtain ⟨st1, e1, p1⟩ := h ks.length k st hp
    obtain ⟨st2, e2, p2⟩ := iterM_inv h ks st1 p1
    exact ⟨st2, by rw [iterM, e1]; exact e2, p2⟩

theorem iterM_none {σ : Type} {f : Nat → σ → Option σ} {ks : List Nat} {st : σ} (hk : ks ≠ []) (h : ∀ k, f k st = none) :
    iterM f ks st = none := by
  cases ks with
  | nil => exact absurd rfl hk
  | cons k ks => rw [iterM, h k]

theorem pts_getD {α : Type} {l : List α} {i : Nat} {d : α} (h : i < l.length) : l[i]? = some (l.getD i d) := by
  rw [List.getD_eq_getElem?_getD, List.getElem?_eq_getElem h]; rfl

/-! ## C55: single_query -/

/-- C55: `single_query` with `item_count = 2^D` (`1 ≤ D < 64`) and at least one iteration completes -- no panic, in particular every
`assert_eq!` on the decrypted answer holds -- and prints one line per iteration, for every key, shuffle, noise, and scheduling within the
noise budget for that many iterations. -/
theorem C55_single_completes {t : Scalar} {ctx : Ctx} (hctx : ctx.Good t) (hn : 0 < n) {E : Env n} {D B phi : Nat} (hD1 : 1 ≤ D) (hD : D < 64)
    (hE : E.OK ctx (2 ^ D) B phi) {iterations : Nat} (hit : 0 < iterations)
    (hb : 2 * (B + iterations * (deltaOp ctx n B phi + deltaSel ctx n B phi D) + 2 ^ D * deltaSel ctx n B phi D) < 2 ^ 64 / t.toNat) :
    singleQuery E (some ctx) (2 ^ D) iterations false = some iterations := by
  obtain ⟨H, hnew⟩ := hash_new_one E.shuffle 1 (2 ^ D) (by decide)
  obtain ⟨S, pts, g1, hset, hlen, hg1, hinv⟩ := setup_oneInv hctx.codec hE.key E.shuffle hE.perm hnew (D := D) (by omega) hctx.bl hctx.lv
    hctx.lt hctx.nbl hctx.nlv hctx.nlt hE.gen
  have h2D : 0 < 2 ^ D := by positivity
  set dl := deltaOp ctx n B phi + deltaSel ctx n B phi D with hdl
  obtain ⟨st', r1, r2⟩ := iterM_inv (f := singleIter E ctx (2 ^ D) H pts)
    (P := fun j st => st.2.1.Bounded B ∧ j ≤ iterations ∧ st.2.2 = iterations - j ∧
      OneInv ctx E.s H D (2 ^ D) B (fun i => pts.getD i 0) (B + (iterations - j) * dl) st.1) (by
    rintro j k ⟨S, g, c⟩ ⟨p1, p2, p3, p4⟩
    have hmul : (iterations - (j + 1)) * dl + dl = (iterations - j) * dl := by
      rw [← Nat.succ_mul]; congr 1; omega
    have hle : (iterations - j) * dl ≤ iterations * dl := Nat.mul_le_mul_right _ (by omega)
    obtain ⟨S', g', q1, q2, q3⟩ := C54_session hctx.codec hn hE.fft hE.key E.shuffle hE.perm hnew hD1 hD (by omega)
      [(E.red k, .one (.read 0))] _ _ S g (by omega) p1 p4 (by
        intro x hx
        simp only [List.mem_cons, List.not_mem_nil, or_false] at hx
        subst hx
        refine ⟨hE.red k, ?_, by simp [Call.cmds]⟩
        intro c hc
        simp only [Call.cmds, List.mem_cons, List.not_mem_nil, or_false] at hc
        subst hc
        exact h2D) (by
        simp only [sessionNoise, List.map_cons, List.map_nil, List.sum_cons, List.sum_nil, callNoise]
        omega)
    refine ⟨(S', g', c + 1), ?_, q2, by omega, by simp only at p3 ⊢; omega, ?_⟩
    · simp only [runSession, clientQuery] at q1
      simp only [singleIter]
      rcases h1 : genReadQueryOne ctx E.s 1 (2 ^ D) H 0 g with _ | ⟨q, g2⟩
      · rw [h1] at q1; cases q1
      · rw [h1] at q1
        simp only at q1 ⊢
        rcases h2 : S.processOne (E.red k).one E.fft q with _ | ⟨y, S2⟩
        · rw [h2] at q1; cases q1
        · rw [h2] at q1
          simp only [Spec.session, Call.cmds, List.map_cons, List.map_nil, Option.some.injEq, Prod.mk.injEq, List.cons.injEq, and_true,
            Cmd.index] at q1
          obtain ⟨hy, rfl, rfl⟩ := q1
          simp only
          rw [pts_getD (d := 0) (show 0 < pts.length by omega)]
          simp only
          rw [if_pos hy.symm]
    · simp only [sessionNoise, List.map_cons, List.map_nil, List.sum_cons, List.sum_nil, callNoise, List.foldl_cons, List.foldl_nil,
        Call.cmds, Spec.apply] at q3
      rw [show B + (iterations - j) * dl = B + (iterations - (j + 1)) * dl + (dl + 0) by omega]
      exact q3) (List.range iterations) (S, g1, 0) ⟨hg1, by simp, by simp, by simpa using hinv⟩
  unfold singleQuery
  rw [if_pos hit, log2_pow hD]
  simp only [Bool.false_eq_true, if_false, hnew, hset, r1, r2.2.2.1, Nat.sub_zero]

/-- The shape of the database after the setup, for any geometry. -/
theorem setup_shape {t : Scalar} {ctx : Ctx} (hctx : ctx.Good t) {s : Poly n} (hs : Binary s) (shuffle : List Nat → List Nat)
    (hsh : ∀ l, (shuffle l).Perm l) {hc N : Nat} {H : NaiveHash} (hnew : NaiveHash.new shuffle hc N = some H) {rows cols : Nat}
    (hcols : 0 < cols) (hsize : rows * cols = hc * N) {g : Gen n} {B : Nat} (hg : g.Bounded B) :
    ∃ S pts g1, setupRandomOram ctx s rows cols H g = some (S, pts, g1) ∧ pts.length = N ∧ S.ctx = ctx ∧ S.data.length = rows ∧
      ∀ row ∈ S.data, row.length = cols := by
  obtain ⟨T, L⟩ := layout_of_hash shuffle hsh hnew hcols hsize
  have hN : H.inputDomain = N := by obtain ⟨_, rfl, rfl⟩ := NaiveHash.new_wf hsh hnew; rfl
  obtain ⟨⟨negS, g0⟩, k1, _, _, _, k5⟩ := C21_neg_gsw hctx.nbl hs hg
  obtain ⟨pts, db, g1, e1, _, e3, e4, e5, _⟩ := C48_dummy_database hctx.codec s shuffle hsh hnew hcols hsize k5
  refine ⟨Server.new db negS ctx, pts, g1, ?_, e3, rfl, e4, e5⟩
  unfold setupRandomOram
  rw [if_pos (by rw [hN, L.count, Nat.mul_comm N hc]; omega)]
  simp only [k1, e1]

theorem genReadQueryOne_addr {ctx : Ctx} {s : Poly n} {rows cols i : Nat} {H : NaiveHash} {g : Gen n} {r : ClientQuery n × Gen n}
    (h : genReadQueryOne ctx s rows cols H i g = some r) (h0 : 0 < cols) (h1 : cols < 2 ^ 64) : r.1.a.length = Nat.log2 cols := by
  unfold genReadQueryOne removeFirst at h
  split at h
  · rename_i q rest g' hb
    cases h
    unfold genReadQueryBatch at hb
    split at hb
    · cases hb
    · rename_i mapping _
      rcases rows with _ | rows
      · simp [mapGenM] at hb
      · rw [List.range_succ_eq_map, mapGenM] at hb
        split at hb
        · cases hb
        · rename_i b g2 hr
          split at hb
          · cases hb
          · simp only [Option.some.injEq, Prod.mk.injEq, List.cons.injEq] at hb
            obtain ⟨⟨rfl, _⟩, _⟩ := hb
            unfold readQueryRow at hr
            split at hr
            · exact read_query_addr (r := (b, g2)) hr h0 h1
            · exact read_query_addr (r := (b, g2)) hr h0 h1
  · cases h

/-- C55 (panics): without iterations, or with an `item_count` that is not `2^D` with `D ≥ 1`, `single_query` panics: whatever the
randomness and the scheduling. -/
theorem C55_single_panics {t : Scalar} {ctx : Ctx} (hctx : ctx.Good t) {E : Env n} {itemCount B phi : Nat}
    (hE : E.OK ctx itemCount B phi) (hi : itemCount < 2 ^ 64) (iterations : Nat)
    (h : iterations = 0 ∨ ¬ ∃ D, 1 ≤ D ∧ itemCount = 2 ^ D) : singleQuery E (some ctx) itemCount iterations false = none := by
  unfold singleQuery
  by_cases hit : iterations > 0
  · rw [if_pos hit]
    have h : ¬ ∃ D, 1 ≤ D ∧ itemCount = 2 ^ D := by
      rcases h with h | h
      · omega
      · exact h
    rcases Nat.eq_zero_or_pos itemCount with h0 | h0
    · subst h0; rw [log2_zero]
    · rw [log2_eq h0 hi]
      simp only [Bool.false_eq_true, if_false]
      obtain ⟨H, hnew⟩ := hash_new_one E.shuffle 1 itemCount (by decide)
      obtain ⟨S, pts, g1, e1, e2, e3, e4, e5⟩ := setup_shape hctx hE.key E.shuffle hE.perm hnew (rows := 1) (cols := itemCount) h0 rfl hE.gen
      obtain ⟨row, hrow⟩ := List.length_eq_one_iff.mp e4
      have hrl : row.length = itemCount := e5 row (by rw [hrow]; simp)
      simp only [hnew, e1]
      rw [iterM_none (by simp; omega)]
      intro k
      unfold singleIter
      split
      · rfl
      · rename_i q g hq
        have ha := genReadQueryOne_addr hq h0 hi
        have := (C52_process_one_panics_iff (hE.red k).one E.fft (S := S) (by rw [e3]; exact hctx.params) q (row := row) (rest := []) hrow).mpr
          (by rw [hrl]; exact (geometry_iff ha h0).mpr h)
        rw [this]
  · rw [if_neg hit]

/-! ## C56: multi_query -/

theorem mapGenM_map {α β γ : Type} (f : β → Gen n → Option (γ × Gen n)) (h : α → β) : ∀ (l : List α) (g : Gen n),
    mapGenM f (l.map h) g = mapGenM (fun a => f (h a)) l g
  | [], _ => rfl
  | a :: l, g => by
    simp only [List.map_cons, mapGenM]
    rcases f (h a) g with _ | ⟨b, g1⟩
    · rfl
    · simp only
      rw [mapGenM_map f h l]

theorem mapGenM_none {α β : Type} {f : α → Gen n → Option (β × Gen n)} {a : α} : ∀ {l : List α} {g : Gen n}, a ∈ l → (∀ g, f a g = none) →
    mapGenM f l g = none
  | [], _, h, _ => absurd h (by simp)
  | b :: l, g, h, hf => by
    rw [mapGenM]
    rcases List.mem_cons.mp h with rfl | h
    · rw [hf]
    · split
      · rfl
      · rw [mapGenM_none h hf]

/-- C56: `multi_query` with `item_count = 2^D` (`1 ≤ D < 64`), fewer queries than items and at least one iteration completes: every
`assert_eq!` holds, one line per iteration. -/
theorem C56_multi_completes {t : Scalar} {ctx : Ctx} (hctx : ctx.Good t) (hn : 0 < n) {E : Env n} {D B phi : Nat} (hD1 : 1 ≤ D) (hD : D < 64)
    (hE : E.OK ctx (2 ^ D) B phi) {queryCount iterations : Nat} (hq : queryCount < 2 ^ D) (hit : 0 < iterations)
    (hb : 2 * (B + iterations * (deltaOp ctx n B phi + queryCount * deltaSel ctx n B phi D
        + extNoise n ctx.baseLog ctx.levelCount (queryCount * selNoise ctx n B phi D) phi 1)
      + 2 ^ D * deltaSel ctx n B phi D) < 2 ^ 64 / t.toNat) :
    multiQuery E (some ctx) (2 ^ D) queryCount iterations false = some iterations := by
  obtain ⟨H, hnew⟩ := hash_new_one E.shuffle 1 (2 ^ D) (by decide)
  obtain ⟨S, pts, g1, hset, hlen, hg1, hinv⟩ := setup_oneInv hctx.codec hE.key E.shuffle hE.perm hnew (D := D) (by omega) hctx.bl hctx.lv
    hctx.lt hctx.nbl hctx.nlv hctx.nlt hE.gen
  set dl := deltaOp ctx n B phi + queryCount * deltaSel ctx n B phi D
        + extNoise n ctx.baseLog ctx.levelCount (queryCount * selNoise ctx n B phi D) phi 1 with hdl
  let cs : List (Cmd n) := (List.range queryCount).map fun i => .read (i + 1)
  have hread : ∀ v : Nat → Poly n, cs.foldl Spec.apply v = v := by
    have : ∀ (l : List Nat) (v : Nat → Poly n), (l.map fun i => (Cmd.read (i + 1) : Cmd n)).foldl Spec.apply v = v := by
      intro l
      induction l with
      | nil => intro v; rfl
      | cons a l ih => intro v; rw [List.map_cons, List.foldl_cons]; exact ih v
    exact this _
  obtain ⟨st', r1, r2⟩ := iterM_inv (f := multiIter E ctx (2 ^ D) queryCount H pts)
    (P := fun j st => st.2.1.Bounded B ∧ j ≤ iterations ∧ st.2.2 = iterations - j ∧
      OneInv ctx E.s H D (2 ^ D) B (fun i => pts.getD i 0) (B + (iterations - j) * dl) st.1) (by
    rintro j k ⟨S, g, c⟩ ⟨p1, p2, p3, p4⟩
    have hmul : (iterations - (j + 1)) * dl + dl = (iterations - j) * dl := by
      rw [← Nat.succ_mul]; congr 1; omega
    have hle : (iterations - j) * dl ≤ iterations * dl := Nat.mul_le_mul_right _ (by omega)
    have hcl : cs.length = queryCount := by simp [cs]
    obtain ⟨S', g', q1, q2, q3⟩ := C54_session hctx.codec hn hE.fft hE.key E.shuffle hE.perm hnew hD1 hD (by omega)
      [(E.red k, .multi cs)] _ _ S g (by omega) p1 p4 (by
        intro x hx
        simp only [List.mem_cons, List.not_mem_nil, or_false] at hx
        subst hx
        refine ⟨hE.red k, ?_, ?_⟩
        · intro c hc
          simp only [Call.cmds, cs, List.mem_map, List.mem_range] at hc
          obtain ⟨i, hi, rfl⟩ := hc
          show i + 1 < 2 ^ D
          omega
        · simp only [Call.cmds, cs, List.map_map]
          refine List.Nodup.map (fun a b hab => ?_) List.nodup_range
          simpa [Cmd.index] using hab) (by
        simp only [sessionNoise, List.map_cons, List.map_nil, List.sum_cons, List.sum_nil, callNoise, hcl]
        rw [← hdl]
        omega)
    refine ⟨(S', g', c + 1), ?_, q2, by omega, by simp only at p3 ⊢; omega, ?_⟩
    · simp only [runSession] at q1
      simp only [multiIter]
      have hmm : mapGenM (clientQuery ctx E.s 1 (2 ^ D) H) cs g
          = mapGenM (fun i => genReadQueryOne ctx E.s 1 (2 ^ D) H (i + 1)) (List.range queryCount) g :=
        mapGenM_map (clientQuery ctx E.s 1 (2 ^ D) H) (fun i => (Cmd.read (i + 1) : Cmd n)) (List.range queryCount) g
      rw [← hmm]
      rcases h1 : mapGenM (clientQuery ctx E.s 1 (2 ^ D) H) cs g with _ | ⟨qs, g2⟩
      · rw [h1] at q1; cases q1
      · rw [h1] at q1
        simp only at q1 ⊢
        rcases h2 : S.processMulti (E.red k).vec (E.red k).gsw E.fft qs with _ | ⟨ys, S2⟩
        · rw [h2] at q1; cases q1
        · rw [h2] at q1
          simp only [Spec.session, Call.cmds, List.map_cons, List.map_nil, Option.some.injEq, Prod.mk.injEq, List.cons.injEq, and_true] at q1
          obtain ⟨hy, rfl, rfl⟩ := q1
          simp only
          rw [if_pos]
          rw [List.all_eq_true]
          intro i hi
          rw [List.mem_range] at hi
          have hyi : (ys.map (decryptDecodeRlwe ctx E.s))[i]? = some (pts.getD (i + 1) 0) := by
            rw [hy]
            simp only [cs, List.map_map]
            rw [List.getElem?_map, List.getElem?_range hi]
            rfl
          rw [List.getElem?_map] at hyi
          rcases hyy : ys[i]? with _ | y
          · rw [hyy] at hyi; cases hyi
          · rw [hyy] at hyi
            simp only [Option.map_some, Option.some.injEq] at hyi
            unfold multiCheck
            rw [hyy, pts_getD (d := 0) (show i + 1 < pts.length by omega)]
            simp only [hyi, decide_true]
    · simp only [sessionNoise, List.map_cons, List.map_nil, List.sum_cons, List.sum_nil, callNoise, List.foldl_cons, List.foldl_nil,
        Call.cmds, hread, hcl] at q3
      rw [← hdl] at q3
      rw [show B + (iterations - j) * dl = B + (iterations - (j + 1)) * dl + (dl + 0) by omega]
      exact q3) (List.range iterations) (S, g1, 0) ⟨hg1, by simp, by simp, by simpa using hinv⟩
  unfold multiQuery
  rw [if_pos hit, log2_pow hD]
  simp only [Bool.false_eq_true, if_false, hnew, hset]
  rw [if_pos hlen.symm, r1]
  simp only [r2.2.2.1, Nat.sub_zero]

theorem hash_oob {shuffle : List Nat → List Nat} (hsh : ∀ l, (shuffle l).Perm l) {hc N : Nat} {H : NaiveHash}
    (hnew : NaiveHash.new shuffle hc N = some H) {i : Nat} (hi : N ≤ i) (h d : Nat) : H.hashToTuple h i d = none := by
  unfold NaiveHash.new at hnew
  split at hnew
  · cases hnew
    unfold NaiveHash.hashToTuple NaiveHash.hash
    have : (shuffle (List.range (hc * N)))[hc * i + h]? = none := by
      rw [List.getElem?_eq_none_iff, (hsh _).length_eq, List.length_range]
      have := Nat.mul_le_mul_left hc hi
      omega
    simp only [this]
  · cases hnew

/-- A request with an item that does not exist has no mapping: `hash_to_mapping` panics. -/
theorem mapping_oob {shuffle : List Nat → List Nat} (hsh : ∀ l, (shuffle l).Perm l) {hc N : Nat} {H : NaiveHash}
    (hnew : NaiveHash.new shuffle hc N = some H) {i d : Nat} (hi : N ≤ i) : ∀ {is : List Nat}, i ∈ is → H.hashToMapping is d = none := by
  have hpos : 0 < H.hCount := by
    unfold NaiveHash.new at hnew
    split at hnew
    · cases hnew; assumption
    · cases hnew
  have hone : ∀ out, H.mapOne d i (List.range H.hCount) out = none := fun out => by
    obtain ⟨k, hk⟩ := Nat.exists_eq_succ_of_ne_zero (Nat.pos_iff_ne_zero.mp hpos)
    rw [hk, List.range_succ_eq_map]
    unfold NaiveHash.mapOne
    rw [hash_oob hsh hnew hi]
  have hall : ∀ (is : List Nat) (out : NaiveHash.Mapping), i ∈ is → H.mapAll d is out = none := by
    intro is
    induction is with
    | nil => intro out h; cases h
    | cons a is ih =>
      intro out h
      rw [NaiveHash.mapAll]
      rcases List.mem_cons.mp h with rfl | h
      · rw [hone]
      · split
        · rfl
        · exact ih _ h
  intro is h
  exact hall is _ h

/-- C56 (panics): without iterations or items; or, with at least one query, with an `item_count` that is not `2^D` (`D ≥ 1`) or that does not
exceed the number of queries (the queries are for the items 1, .., `query_count`), `multi_query` panics. -/
theorem C56_multi_panics {t : Scalar} {ctx : Ctx} (hctx : ctx.Good t) {E : Env n} {itemCount B phi : Nat}
    (hE : E.OK ctx itemCount B phi) (hi : itemCount < 2 ^ 64) (queryCount iterations : Nat)
    (h : iterations = 0 ∨ itemCount = 0 ∨ (0 < queryCount ∧ (itemCount ≤ queryCount ∨ ¬ ∃ D, 1 ≤ D ∧ itemCount = 2 ^ D))) :
    multiQuery E (some ctx) itemCount queryCount iterations false = none := by
  unfold multiQuery
  by_cases hit : iterations > 0
  swap
  · rw [if_neg hit]
  rw [if_pos hit]
  rcases Nat.eq_zero_or_pos itemCount with h0 | h0
  · subst h0; rw [log2_zero]
  obtain ⟨hq0, h⟩ : 0 < queryCount ∧ (itemCount ≤ queryCount ∨ ¬ ∃ D, 1 ≤ D ∧ itemCount = 2 ^ D) := by
    rcases h with h | h | h
    · omega
    · omega
    · exact h
  rw [log2_eq h0 hi]
  simp only [Bool.false_eq_true, if_false]
  obtain ⟨H, hnew⟩ := hash_new_one E.shuffle 1 itemCount (by decide)
  obtain ⟨S, pts, g1, e1, e2, e3, e4, e5⟩ := setup_shape hctx hE.key E.shuffle hE.perm hnew (rows := 1) (cols := itemCount) h0 rfl hE.gen
  obtain ⟨row, hrow⟩ := List.length_eq_one_iff.mp e4
  have hrl : row.length = itemCount := e5 row (by rw [hrow]; simp)
  simp only [hnew, e1]
  rw [if_pos e2.symm, iterM_none (by simp; omega)]
  intro k
  unfold multiIter
  by_cases hle : itemCount ≤ queryCount
  · rw [mapGenM_none (a := queryCount - 1) (List.mem_range.mpr (by omega))]
    intro g
    unfold genReadQueryOne genReadQueryBatch
    rw [mapping_oob hE.perm hnew (i := queryCount - 1 + 1) (by omega) (by simp)]
    rfl
  · have hnp : ¬ ∃ D, 1 ≤ D ∧ itemCount = 2 ^ D := by
      rcases h with h | h
      · omega
      · exact h
    split
    · rfl
    · rename_i qs g hqs
      obtain ⟨m, rfl⟩ := Nat.exists_eq_succ_of_ne_zero (Nat.pos_iff_ne_zero.mp hq0)
      rw [List.range_succ_eq_map, mapGenM] at hqs
      split at hqs
      · cases hqs
      · rename_i q g2 hq
        split at hqs
        · cases hqs
        · simp only [Option.some.injEq, Prod.mk.injEq] at hqs
          obtain ⟨rfl, _⟩ := hqs
          have ha := genReadQueryOne_addr hq h0 hi
          have hno := (processOneSt_shape E.fft (ctx := S.ctx) (by rw [e3]; exact hctx.params) q row S.negS).1.mpr
            (by rw [hrl]; exact (geometry_iff ha h0).mpr hnp)
          have : S.processMulti (E.red k).vec (E.red k).gsw E.fft (q :: ‹List (ClientQuery n)›) = none := by
            unfold Server.processMulti
            simp only [hrow]
            rw [mapOption_none (a := q) (by simp) hno]
          rw [this]

/-- C56 (no queries): with `query_count = 0` nothing is asked and `multi_query` completes for every positive `item_count`, power of two or
not. -/
theorem C56_multi_no_queries {t : Scalar} {ctx : Ctx} (hctx : ctx.Good t) {E : Env n} {itemCount B phi : Nat}
    (hE : E.OK ctx itemCount B phi) (h0 : 0 < itemCount) (hi : itemCount < 2 ^ 64) {iterations : Nat} (hit : 0 < iterations) :
    multiQuery E (some ctx) itemCount 0 iterations false = some iterations := by
  unfold multiQuery
  rw [if_pos hit, log2_eq h0 hi]
  simp only [Bool.false_eq_true, if_false]
  obtain ⟨H, hnew⟩ := hash_new_one E.shuffle 1 itemCount (by decide)
  obtain ⟨S, pts, g1, e1, e2, e3, e4, e5⟩ := setup_shape hctx hE.key E.shuffle hE.perm hnew (rows := 1) (cols := itemCount) h0 rfl hE.gen
  simp only [hnew, e1]
  obtain ⟨st', r1, r2⟩ := iterM_inv (f := multiIter E ctx itemCount 0 H pts)
    (P := fun j st => j ≤ iterations ∧ st.2.2 = iterations - j ∧ st.1.data ≠ []) (by
      rintro j k ⟨S, g, c⟩ ⟨p1, p2, p3⟩
      rcases hS : S.data with _ | ⟨row, rest⟩
      · exact absurd hS p3
      refine ⟨(_, g, c + 1), by
        unfold multiIter
        simp only [List.range_zero, mapGenM, Server.processMulti, hS, mapOption]
        rfl, by omega, by simp only at p2 ⊢; omega, by simp⟩) (List.range iterations) (S, g1, 0) ⟨by simp, by simp, by
        intro h; rw [h] at e4; cases e4⟩
  rw [if_pos e2.symm, r1]
  simp only [r2.2.1, Nat.sub_zero]

/-! ## C57: batch_query -/

/-- C57: `batch_query` on `rows x 2^D` columns (`rows ≥ 1`, `1 ≤ D < 64`) with `rows * cols = 3 * N` for some `N ≥ 2` and at least one iteration
completes: both items are read correctly from whichever rows the hash assigns to them, in every iteration. -/
theorem C57_batch_completes {t : Scalar} {ctx : Ctx} (hctx : ctx.Good t) (hn : 0 < n) {E : Env n} {D B phi rows N : Nat} (hD1 : 1 ≤ D)
    (hD : D < 64) (hE : E.OK ctx (2 ^ D) B phi) (hsize : rows * 2 ^ D = 3 * N) (hN : 2 ≤ N) (hN64 : N < 2 ^ 64) {iterations : Nat}
    (hit : 0 < iterations)
    (hb : 2 * (B + iterations * (5 * (deltaOp ctx n B phi + deltaSel ctx n B phi D)) + 2 ^ D * deltaSel ctx n B phi D)
      < 2 ^ 64 / t.toNat) :
    batchQuery E (some ctx) rows (2 ^ D) iterations false = some iterations := by
  obtain ⟨H, hnew⟩ := hash_new_one E.shuffle 3 N (by decide)
  have hrows : 0 < rows := by
    rcases Nat.eq_zero_or_pos rows with h | h
    · subst h; omega
    · exact h
  obtain ⟨T, L⟩ := layout_of_hash E.shuffle hE.perm hnew (rows := rows) (cols := 2 ^ D) (by positivity) hsize
  obtain ⟨S, pts, g1, hset, hlen, hg1, hc1, hk1, hsh1, hcons⟩ := setup_consistent hctx.codec hE.key E.shuffle hE.perm hnew hsize L
    hctx.bl hctx.lv hctx.lt hctx.nbl hctx.nlv hctx.nlt hE.gen
  set dl := 5 * (deltaOp ctx n B phi + deltaSel ctx n B phi D) with hdl
  obtain ⟨st', r1, r2⟩ := iterM_inv (f := fun _ => batchIter E ctx rows (2 ^ D) H pts)
    (P := fun j st => st.2.1.Bounded B ∧ j ≤ iterations ∧ st.2.2 = iterations - j ∧ st.1.ctx = ctx ∧ ServerKeys ctx E.s st.1.negS B ∧
      DbShape rows (2 ^ D) st.1.data ∧ Consistent ctx E.s 3 N T st.1.data (fun i => pts.getD i 0) (B + (iterations - j) * dl)) (by
    rintro j k ⟨S, g, c⟩ ⟨p1, p2, p3, p4, p5, p6, p7⟩
    simp only at p1 p3 p4 p5 p6 p7
    have hmul : (iterations - (j + 1)) * dl + dl = (iterations - j) * dl := by
      rw [← Nat.succ_mul]; congr 1; omega
    have hle : (iterations - j) * dl ≤ iterations * dl := Nat.mul_le_mul_right _ (by omega)
    have hval : (BatchCmd.read [0, 1] : BatchCmd n).Valid N t := by
      refine ⟨by decide, ?_⟩
      intro i hi
      simp only [List.mem_cons, List.not_mem_nil, or_false] at hi
      omega
    obtain ⟨mapping, qs, g', ys, S', m1, m2, m3, m4, m5, m6, m7, m8, m9, _⟩ := C46_batch_access (t := t) hn hE.fft hE.key (S := S)
      (by rw [p4]; exact hctx.codec) (by rw [p4]; exact p5) E.shuffle hE.perm hnew hD1 hD hrows hsize L p6 (by rw [p4]; exact p7) hval p1
    rw [p4] at m2 m8 m9
    refine ⟨(S', g', c + 1), ?_, m3, by omega, by simp only; omega, by simp only; rw [m6, p4], by simp only; rw [m5]; exact p5, m7, ?_⟩
    · have m2 : genReadQueryBatch ctx E.s rows (2 ^ D) H [0, 1] g = some (qs, g') := m2
      have m1 : H.hashToMapping [0, 1] (2 ^ D) = some mapping := m1
      unfold batchIter
      simp only [m2, m4, m1]
      rw [if_pos]
      intro r col i hm
      obtain ⟨y, enc, y1, y2, y3⟩ := m8 r col i hm
      obtain ⟨hsound, _⟩ := C11_mapping_sound E.shuffle hE.perm 3 N H hnew [0, 1] (2 ^ D) (by positivity) (by
        intro i hi
        simp only [List.mem_cons, List.not_mem_nil, or_false] at hi
        omega) mapping m1
      obtain ⟨hmem, _⟩ := hsound r col i hm
      simp only [List.mem_cons, List.not_mem_nil, or_false] at hmem
      have hi2 : i < pts.length := by omega
      refine ⟨y, i, pts.getD i 0, y1, ?_, pts_getD hi2, ?_⟩
      · rcases hmem with rfl | rfl <;> rfl
      · exact (decryptDecode_of_enc hctx.codec y2 y3 (by omega)).symm
    · have he : batchNoise ctx n B phi D 3 (B + (iterations - (j + 1)) * dl) = B + (iterations - j) * dl := by
        unfold batchNoise
        rw [show 2 * 3 - 1 = 5 from rfl, ← hdl]
        omega
      rw [he] at m9
      exact m9) (List.range iterations) (S, g1, 0) ⟨hg1, by simp, by simp, hc1, hk1, hsh1, by simpa using hcons⟩
  unfold batchQuery
  rw [if_pos hit]
  simp only
  rw [hsize, Nat.mul_div_cancel_left _ (by decide), log2_eq (by omega) hN64]
  simp only [Bool.false_eq_true, if_false, hnew, hset]
  simp only [r1, r2.2.2.1, Nat.sub_zero]

/-- C57 (panics): without iterations; with a number of cells not divisible by 3 or below 6; or with a column count that is not `2^D`
(`D ≥ 1`), `batch_query` panics. -/
theorem C57_batch_panics {t : Scalar} {ctx : Ctx} (hctx : ctx.Good t) {E : Env n} {rows cols B phi : Nat}
    (hE : E.OK ctx cols B phi) (hi : rows * cols / 3 < 2 ^ 64) (hcols : cols < 2 ^ 64) (iterations : Nat)
    (h : iterations = 0 ∨ ¬ 3 ∣ rows * cols ∨ rows * cols < 6 ∨ ¬ ∃ D, 1 ≤ D ∧ cols = 2 ^ D) :
    batchQuery E (some ctx) rows cols iterations false = none := by
  unfold batchQuery
  by_cases hit : iterations > 0
  swap
  · rw [if_neg hit]
  rw [if_pos hit]
  simp only
  rcases Nat.eq_zero_or_pos (rows * cols / 3) with h0 | h0
  · rw [h0, log2_zero]
  rw [log2_eq h0 hi]
  simp only [Bool.false_eq_true, if_false]
  obtain ⟨H, hnew⟩ := hash_new_one E.shuffle 3 (rows * cols / 3) (by decide)
  have hH : H.inputDomain = rows * cols / 3 ∧ H.hCount = 3 := by
    obtain ⟨_, h1, h2⟩ := NaiveHash.new_wf hE.perm hnew
    exact ⟨h2, h1⟩
  simp only [hnew]
  by_cases h3 : 3 ∣ rows * cols
  swap
  · have : setupRandomOram ctx E.s rows cols H E.g = none := by
      refine C48_setup_size_panics _ _ _ _ _ _ fun heq => h3 ?_
      rw [hH.1, hH.2] at heq
      exact ⟨rows * cols / 3, by omega⟩
    rw [this]
  have hsize : rows * cols = 3 * (rows * cols / 3) := by omega
  have hc0 : 0 < cols := by
    rcases Nat.eq_zero_or_pos cols with hc | hc
    · subst hc; simp at h0
    · exact hc
  have hr0 : 0 < rows := by
    rcases Nat.eq_zero_or_pos rows with hc | hc
    · subst hc; simp at h0
    · exact hc
  obtain ⟨S, pts, g1, e1, e2, e3, e4, e5⟩ := setup_shape hctx hE.key E.shuffle hE.perm hnew (rows := rows) (cols := cols) hc0 hsize hE.gen
  simp only [e1]
  rw [iterM_none (by simp; omega)]
  intro k
  unfold batchIter
  by_cases h6 : rows * cols < 6
  · have : genReadQueryBatch ctx E.s rows cols H [0, 1] g1 = none := by
      unfold genReadQueryBatch
      rw [mapping_oob hE.perm hnew (i := 1) (by omega) (by simp)]
    simp only [this]
  · have hnp : ¬ ∃ D, 1 ≤ D ∧ cols = 2 ^ D := by
      rcases h with h | h | h | h
      · omega
      · exact absurd h3 h
      · exact absurd h h6
      · exact h
    rcases hq : genReadQueryBatch ctx E.s rows cols H [0, 1] g1 with _ | ⟨qs, g⟩
    · simp only [hq]
    · simp only [hq]
      have hno : S.processBatch E.fft qs H = none := by
        rw [(C52_batch_panics_iff E.fft (by rw [e3]; exact hctx.params) E.shuffle hE.perm hnew hr0 hc0 hsize e4 e5 qs).1]
        by_cases hql : qs.length = rows
        · right
          unfold genReadQueryBatch at hq
          split at hq
          · cases hq
          · obtain ⟨rr, rfl⟩ := Nat.exists_eq_succ_of_ne_zero (Nat.pos_iff_ne_zero.mp hr0)
            rw [List.range_succ_eq_map, mapGenM] at hq
            split at hq
            · cases hq
            · rename_i b g2 hr
              split at hq
              · cases hq
              · simp only [Option.some.injEq, Prod.mk.injEq] at hq
                obtain ⟨rfl, _⟩ := hq
                refine ⟨b, by simp, ?_⟩
                refine (geometry_iff ?_ hc0).mpr hnp
                unfold readQueryRow at hr
                split at hr
                · exact read_query_addr (r := (b, g2)) hr hc0 hcols
                · exact read_query_addr (r := (b, g2)) hr hc0 hcols
        · left; exact hql
      rw [hno]

/-! ## C58: main -/

/-- The iterations of a mode. -/
def ORAMParameters.iterations : ORAMParameters → Nat
  | .singleQuery _ it => it
  | .multiQuery _ _ it => it
  | .batched _ _ it => it

/-- The items of a mode. -/
def ORAMParameters.items : ORAMParameters → Nat
  | .singleQuery ic _ => ic
  | .multiQuery ic _ _ => ic
  | .batched rows cols _ => rows * cols / 3

/-- A parameter set a user may run, with the noise `B`, rounding `phi` and `D` address bits: good TFHE parameters, a geometry with `2^D`
columns, at least one iteration, and the noise budget of the mode. -/
structure Runnable {F : Type} (E : (n : Nat) → Env n) (p : ServerParams F) (ctx : Ctx) (t : Scalar) (D B phi : Nat) : Prop where
  ofParams : Ctx.ofParams p.tfhe = some ctx
  good : ctx.Good t
  size : 0 < p.tfhe.polynomialSize
  pt : p.tfhe.plaintextModulus < 2 ^ 64
  addr : 1 ≤ D ∧ D < 64
  env : (E p.tfhe.polynomialSize).OK ctx (2 ^ D) B phi
  it : 0 < p.oram.iterations
  mode : match p.oram with
    | .singleQuery ic it => ic = 2 ^ D ∧
      2 * (B + it * (deltaOp ctx p.tfhe.polynomialSize B phi + deltaSel ctx p.tfhe.polynomialSize B phi D)
        + 2 ^ D * deltaSel ctx p.tfhe.polynomialSize B phi D) < 2 ^ 64 / t.toNat
    | .multiQuery ic qc it => ic = 2 ^ D ∧ qc < 2 ^ D ∧
      2 * (B + it * (deltaOp ctx p.tfhe.polynomialSize B phi + qc * deltaSel ctx p.tfhe.polynomialSize B phi D
        + extNoise p.tfhe.polynomialSize ctx.baseLog ctx.levelCount (qc * selNoise ctx p.tfhe.polynomialSize B phi D) phi 1)
        + 2 ^ D * deltaSel ctx p.tfhe.polynomialSize B phi D) < 2 ^ 64 / t.toNat
    | .batched rows cols it => cols = 2 ^ D ∧ (∃ N, rows * 2 ^ D = 3 * N ∧ 2 ≤ N ∧ N < 2 ^ 64) ∧
      2 * (B + it * (5 * (deltaOp ctx p.tfhe.polynomialSize B phi + deltaSel ctx p.tfhe.polynomialSize B phi D))
        + 2 ^ D * deltaSel ctx p.tfhe.polynomialSize B phi D) < 2 ^ 64 / t.toNat

/-- `Context::new` keeps all parameters, and panics iff the plaintext modulus is not a power of two between 2 and `2^63`. -/
theorem C58_context {F : Type} (p : TFHEParameters F) (hp : p.plaintextModulus < 2 ^ 64) :
    (Ctx.ofParams p = none ↔ ¬ ∃ k, 1 ≤ k ∧ k ≤ 63 ∧ p.plaintextModulus = 2 ^ k) ∧
    ∀ ctx, Ctx.ofParams p = some ctx → ctx.baseLog = p.baseLog ∧ ctx.levelCount = p.levelCount ∧ ctx.ksBaseLog = p.keySwitchBaseLog ∧
      ctx.ksLevelCount = p.keySwitchLevelCount ∧ ctx.negsBaseLog = p.negsBaseLog ∧ ctx.negsLevelCount = p.negsLevelCount ∧
      Codec.new (BitVec.ofNat 64 p.plaintextModulus) = some ctx.codec := by
  have hnat : (BitVec.ofNat 64 p.plaintextModulus).toNat = p.plaintextModulus := by
    rw [BitVec.toNat_ofNat]; exact Nat.mod_eq_of_lt hp
  have hiff := C02_new_isSome_iff (BitVec.ofNat 64 p.plaintextModulus)
  rw [hnat] at hiff
  unfold Ctx.ofParams
  rcases hc : Codec.new (BitVec.ofNat 64 p.plaintextModulus) with _ | c
  · rw [hc] at hiff
    refine ⟨by simp only [true_iff]; intro h; exact absurd (hiff.mpr h) (by simp), by simp⟩
  · rw [hc] at hiff
    refine ⟨by simp only [reduceCtorEq, false_iff, not_not]; exact hiff.mp rfl, ?_⟩
    intro ctx h
    simp only [Option.some.injEq] at h
    subst h
    exact ⟨rfl, rfl, rfl, rfl, rfl, rfl, rfl⟩

theorem runnable_completes {F : Type} {E : (n : Nat) → Env n} {p : ServerParams F} {ctx : Ctx} {t : Scalar} {D B phi : Nat}
    (h : Runnable E p ctx t D B phi) : runParams E false p = some p.oram.iterations := by
  have hpos : 0 < p.tfhe.plaintextModulus := by
    rcases Nat.eq_zero_or_pos p.tfhe.plaintextModulus with h0 | h0
    · have := (C58_context p.tfhe h.pt).1.mpr (by
        rw [h0]; rintro ⟨k, _, _, hk⟩
        have : 0 < 2 ^ k := by positivity
        omega)
      rw [h.ofParams] at this; cases this
    · exact h0
  unfold runParams
  rw [log2_eq hpos h.pt]
  simp only
  rw [h.ofParams]
  have hm := h.mode
  have hit := h.it
  rcases ho : p.oram with ⟨ic, it⟩ | ⟨ic, qc, it⟩ | ⟨rows, cols, it⟩
  · rw [ho] at hm hit
    obtain ⟨rfl, hb⟩ := hm
    exact C55_single_completes h.good h.size h.addr.1 h.addr.2 h.env hit hb
  · rw [ho] at hm hit
    obtain ⟨rfl, hq, hb⟩ := hm
    exact C56_multi_completes h.good h.size h.addr.1 h.addr.2 h.env hq hit hb
  · rw [ho] at hm hit
    obtain ⟨rfl, ⟨N, h1, h2, h3⟩, hb⟩ := hm
    exact C57_batch_completes h.good h.size h.addr.1 h.addr.2 h.env h1 h2 h3 hit hb

/-- C58: `main` on a list of runnable parameter sets -- any number, any mix of modes, fresh randomness and scheduling in each -- completes,
printing as many result lines as there are iterations in total. -/
theorem C58_main_completes {F : Type} : ∀ (xs : List (((n : Nat) → Env n) × ServerParams F)),
    (∀ x ∈ xs, ∃ ctx t D B phi, Runnable x.1 x.2 ctx t D B phi) →
    runAll false xs = some ((xs.map fun x => x.2.oram.iterations).sum)
  | [], _ => rfl
  | x :: xs, h => by
    obtain ⟨ctx, t, D, B, phi, hx⟩ := h x (by simp)
    rw [runAll, runnable_completes hx]
    simp only
    rw [C58_main_completes xs (fun y hy => h y (by simp [hy]))]
    simp

/-- C58 (dry run): with `--dryrun` nothing is executed: for every environment, `main` completes iff every set has a positive plaintext
modulus, at least one iteration and at least one item; it prints one line per set. -/
theorem C58_dryrun {F : Type} : ∀ (xs : List (((n : Nat) → Env n) × ServerParams F)),
    (∀ x ∈ xs, x.2.tfhe.plaintextModulus < 2 ^ 64 ∧ x.2.oram.items < 2 ^ 64) →
    runAll true xs = if ∀ x ∈ xs, 0 < x.2.tfhe.plaintextModulus ∧ 0 < x.2.oram.iterations ∧ 0 < x.2.oram.items then some xs.length else none
  | [], _ => by simp [runAll]
  | x :: xs, h => by
    obtain ⟨hp, hi⟩ := h x (by simp)
    have ih := C58_dryrun xs (fun y hy => h y (by simp [hy]))
    have hrun : runParams x.1 true x.2
        = if 0 < x.2.tfhe.plaintextModulus ∧ 0 < x.2.oram.iterations ∧ 0 < x.2.oram.items then some 1 else none := by
      unfold runParams
      rcases Nat.eq_zero_or_pos x.2.tfhe.plaintextModulus with h0 | h0
      · rw [h0, log2_zero]; simp
      rw [log2_eq h0 hp]
      simp only
      have aux : ∀ (it k : Nat), k < 2 ^ 64 →
          (if it > 0 then (match log2 k with | none => none | some _ => some 1) else none)
            = if 0 < x.2.tfhe.plaintextModulus ∧ 0 < it ∧ 0 < k then some 1 else none := by
        intro it k hk
        by_cases hit : 0 < it
        · rcases Nat.eq_zero_or_pos k with h1 | h1
          · subst h1; rw [log2_zero, if_pos hit, if_neg (fun h => by omega)]
          · rw [log2_eq h1 hk, if_pos hit, if_pos ⟨h0, hit, h1⟩]
        · rw [if_neg hit, if_neg (fun h => hit h.2.1)]
      rcases ho : x.2.oram with ⟨ic, it⟩ | ⟨ic, qc, it⟩ | ⟨rows, cols, it⟩
      · rw [ho] at hi; exact aux it ic hi
      · rw [ho] at hi; exact aux it ic hi
      · rw [ho] at hi; exact aux it (rows * cols / 3) hi
    rw [runAll, hrun, ih]
    by_cases hx : 0 < x.2.tfhe.plaintextModulus ∧ 0 < x.2.oram.iterations ∧ 0 < x.2.oram.items
    · rw [if_pos hx]
      simp only
      by_cases hxs : ∀ x ∈ xs, 0 < x.2.tfhe.plaintextModulus ∧ 0 < x.2.oram.iterations ∧ 0 < x.2.oram.items
      · rw [if_pos hxs, if_pos (by
          intro y hy
          rcases List.mem_cons.mp hy with rfl | hy
          · exact hx
          · exact hxs y hy)]
        simp only [List.length_cons, Option.some.injEq]
        omega
      · rw [if_neg hxs, if_neg (fun h => hxs fun y hy => h y (by simp [hy]))]
    · rw [if_neg hx]
      simp only
      rw [if_neg (fun h => hx (h x List.mem_cons_self))]

/-- C58 (defaults): the default parameter list (used when the parameter file is malformed) is one batched run with good TFHE parameters and
a geometry that fits (`3 * 2048` cells, a power of two columns, one iteration): only the noise can make it panic. -/
theorem C58_defaults {F : Type} (m55 : F) :
    ∃ rows cols it p ctx, fromInputParamsList (InputParamsList.default' m55) = [⟨.batched rows cols it, p⟩] ∧ 0 < it ∧
      rows * cols = 3 * 2048 ∧ cols = 2 ^ 4 ∧ Ctx.ofParams p = some ctx ∧ ctx.Good 256 := by
  have hc : Codec.new 256 = some ⟨8, 2 ^ 56⟩ := by decide +kernel
  have hc' : Codec.new (BitVec.ofNat 64 (TFHEParameters.default' m55).plaintextModulus) = some ⟨8, 2 ^ 56⟩ := hc
  refine ⟨384, 16, 1, TFHEParameters.default' m55, ⟨5, 9, 5, 11, 5, 11, ⟨8, 2 ^ 56⟩⟩, rfl, by decide, by decide, by decide, ?_,
    ⟨hc, by decide, by decide, by decide, rfl, by decide, by decide⟩⟩
  unfold Ctx.ofParams
  rw [hc']
  rfl

/-! ### The hypotheses are met -/

/-- A deterministic environment for the example key and generators. -/
def exEnv : Env 4 := ⟨id, exKey, exGen, exFft, fun _ => foldReducer 4 exTreeCtx 4⟩

theorem exEnv_ok : exEnv.OK exTreeCtx 4 3 5 := ⟨fun l => List.Perm.refl l, exKey_binary, exGen_bounded, exFft_bounded,
  fun _ => foldReducer_valid _ _⟩

theorem exTreeCtx_good : exTreeCtx.Good 16 := ⟨by decide, by decide, by decide, by decide, rfl, by decide, by decide⟩

/-- Four items, three iterations of each mode (three queries in the multi mode; 3 x 4 cells in the batch mode). -/
example : singleQuery exEnv (some exTreeCtx) 4 3 false = some 3 ∧ multiQuery exEnv (some exTreeCtx) 4 3 3 false = some 3 ∧
    batchQuery exEnv (some exTreeCtx) 3 4 3 false = some 3 ∧ multiQuery exEnv (some exTreeCtx) 4 4 3 false = none := by
  refine ⟨C55_single_completes (D := 2) exTreeCtx_good (by decide) (by decide) (by decide) exEnv_ok (by decide) (by decide),
    C56_multi_completes (D := 2) exTreeCtx_good (by decide) (by decide) (by decide) exEnv_ok (by decide) (by decide) (by decide),
    C57_batch_completes (D := 2) (N := 4) exTreeCtx_good (by decide) (by decide) (by decide) exEnv_ok (by decide) (by decide) (by decide)
      (by decide) (by decide),
    C56_multi_panics exTreeCtx_good exEnv_ok (by decide) 4 3 (by right; right; exact ⟨by decide, Or.inl (by decide)⟩)⟩

end Panacea
