import Verif.Spec.MeasuredMulti
import Verif.Props.Session
import Verif.Props.Measured
import Verif.Props.Oblivious

/-!
# C73: `process_multi` and mixed sessions for the noise of the run at hand
-/

namespace Panacea
variable {n : Nat}

theorem multi_phase1_of {fft : Fft n} {s : Poly n} {ctx : Ctx}
    {negS : RGSW n} {B : Nat} (hk : ServerKeys ctx s negS B) {D : Nat} (hD : 1 ≤ D) {row : List (RLWE n)} (hlen : row.length = 2 ^ D)
    {v : Nat → Poly n} {e : Nat} (hrow : EncRow s row v e) {ms : Measure} : ∀ {specs : List (QuerySpec n)} {qs : List (ClientQuery n)},
    IsQueries ctx s D B specs qs → (∀ q ∈ qs, MeasuredRow fft s ctx negS q row D B ms) →
    (∀ q ∈ qs, ∀ y ls, processOneSt fft ctx q row negS = some (y, ls) → ∀ (j : Nat) l c, ls[j]? = some l → row[j]? = some c →
      GateOk fft s ctx.baseLog ctx.levelCount (ms.rows D) ms.sel l (rw fft q.op q.data c)) →
    ∃ rs, mapOption (fun q => processOneSt fft ctx q row negS) qs = some rs ∧
      List.Forall₂ (fun (sp : QuerySpec n) r => Enc s r.1 (v sp.i) (e + 2 ^ D * ms.sel) ∧ r.2.length = 2 ^ D ∧
        ∀ j l, r.2[j]? = some l → EncBit s l (decide (sp.i = j)) ctx.baseLog ctx.levelCount (ms.rows D)) specs rs ∧
      List.Forall₂ (fun (sp : QuerySpec n) tmps => tmps.length = 2 ^ D ∧ ∀ j c, tmps[j]? = some c →
        Enc s c (if decide (sp.i = j) then (if sp.w then sp.m else v j) else 0)
          ((if decide (sp.i = j) then max e B + ms.op else 0) + ms.sel))
        specs (List.zipWith (multiTmps fft row) qs (rs.map Prod.snd))
  | _, _, .nil, _, _ => ⟨[], rfl, .nil, .nil⟩
  | _, _, .cons (a := sp) (b := q) hq hqs, hm, ht => by
    obtain ⟨rs, h1, h2, h3⟩ := multi_phase1_of hk hD hlen hrow hqs (fun q h => hm q (by simp [h])) (fun q h => ht q (by simp [h]))
    obtain ⟨y, ls, p1, p2, p3, p4, _⟩ := process_row_of hk hD hq hlen hrow (hm q (by simp))
    have hsel : ∀ j l, ls[j]? = some l → EncBit s l (decide (sp.i = j)) ctx.baseLog ctx.levelCount (ms.rows D) := by
      intro j l hl
      have := p3 j l hl
      rwa [show decide (j = sp.i) = decide (sp.i = j) from decide_eq_decide.mpr eq_comm] at this
    refine ⟨(y, ls) :: rs, by rw [mapOption]; simp only [p1, h1], .cons ⟨p4, p2, hsel⟩ h2, .cons ⟨by simp [multiTmps, p2, hlen], ?_⟩ h3⟩
    intro j c hc
    simp only [multiTmps, List.getElem?_zipWith] at hc
    split at hc
    · rename_i l cell hl hcell
      cases hc
      have hrw := cmux_of hq.op ((hm q (by simp)).op cell (List.mem_of_getElem? hcell)) (hrow j cell hcell) hq.data 0
      refine ((gate_msg (ht q (by simp) y ls p1 j l cell hl hcell) (hsel j l hl) hrw).1).mono ?_
      have : (if sp.w then B else e) ≤ max e B := by split <;> omega
      split <;> omega
    · cases hc

/-- C73 (one call): `process_multi` with queries for pairwise distinct columns, for the errors of the external products of this call: every
response encrypts the old content of its column, and the new contents are those of executing the queries on a plain array. -/
theorem C73_process_multi {fft : Fft n} {s : Poly n} {S : Server n}
    {B : Nat} (hk : ServerKeys S.ctx s S.negS B) {D : Nat} (hD : 1 ≤ D) {specs : List (QuerySpec n)} {qs : List (ClientQuery n)}
    (hq : IsQueries S.ctx s D B specs qs) (hd : (specs.map QuerySpec.i).Nodup)
    {row : List (RLWE n)} {rest : List (List (RLWE n))} (hS : S.data = row :: rest)
    (hlen : row.length = 2 ^ D) {v : Nat → Poly n} {e : Nat} (hrow : EncRow s row v e) {R : Reducer n}
    (hR : R.Valid S.ctx (2 ^ D)) {m : Measure} {V : Nat} (hm : MeasuredMulti fft s S.ctx S.negS R qs row D B m V) :
    ∃ ys S' row', S.processMulti R.vec R.gsw fft qs = some (ys, S') ∧ S'.data = row' :: rest ∧ S'.negS = S.negS ∧ S'.ctx = S.ctx ∧
      row'.length = 2 ^ D ∧
      List.Forall₂ (fun (sp : QuerySpec n) y => Enc s y (v sp.i) (e + 2 ^ D * m.sel)) specs ys ∧
      EncRow s row' (specs.foldl QuerySpec.effect v) (max e B + m.op + specs.length * m.sel + V) := by
  obtain ⟨rs, h1, h2, h3⟩ := multi_phase1_of hk hD hlen hrow hq hm.rows hm.tmp
  have hls := forall₂_map_right (f := Prod.snd) (Q := fun (sp : QuerySpec n) (ls : List (RGSW n)) => ls.length = 2 ^ D ∧
    ∀ j l, ls[j]? = some l → EncBit s l (decide (sp.i = j)) S.ctx.baseLog S.ctx.levelCount (m.rows D))
    (h2.imp fun sp r hr => hr.2)
  obtain ⟨g1, g2⟩ := multi_selectors hls ⟨hk.bl, hk.lv, hk.lt⟩ (hR.gsw (rs.map Prod.snd))
  obtain ⟨v1, v2⟩ := parReduce_vec (hR.vec (List.zipWith (multiTmps fft row) qs (rs.map Prod.snd))) (fun x hx => by
    obtain ⟨i, hi⟩ := List.mem_iff_getElem?.mp hx
    obtain ⟨sp, _, h1, _⟩ := forall₂_getElem h3 hi
    exact h1)
  refine ⟨rs.map Prod.fst, { S with data := (List.zipWith (fun cell (x : RGSW n × RLWE n) => cmux fft x.1 0 cell x.2) row
      ((R.gsw (rs.map Prod.snd)).zip (R.vec (List.zipWith (multiTmps fft row) qs (rs.map Prod.snd))))) :: rest }, _, ?_, rfl, rfl, rfl,
      by simp [hlen, g1, v1], forall₂_map_right (f := Prod.fst) (h2.imp fun sp r hr => hr.1), ?_⟩
  · unfold Server.processMulti
    simp only [hS, h1]
  · intro j c hc
    rw [List.getElem?_zipWith] at hc
    split at hc
    · rename_i cell x hcell hx
      cases hc
      rw [zip_getElem] at hx
      obtain ⟨w1, w2, w3, w4⟩ := g2 j x.1 hx.1
      have hj : j < 2 ^ D := by rw [← hlen]; exact (List.getElem?_eq_some_iff.mp hcell).1
      have hT := forall₂_getD_sum (s := s) (cols := 2 ^ D) hj
        (m := fun sp => if decide (sp.i = j) then (if sp.w then sp.m else v j) else 0)
        (e := fun sp => (if decide (sp.i = j) then max e B + m.op else 0) + m.sel)
        (h3.imp fun sp x hx => ⟨hx.1, fun c hc => hx.2 j c hc⟩)
      rw [← v2 j x.2 hx.2, sum_map_ite (fun sp : QuerySpec n => decide (sp.i = j)), List.sum_map_add, hits_sum_nat, sum_map_const_nat] at hT
      have hlq : qs.length = specs.length := hq.length_eq.symm
      have hgate := hm.sum rs h1 j x.1 x.2 cell hx.1 hx.2 hcell
      rw [hlq] at hgate
      rcases hits_of_nodup hd j v with ⟨k0, hv⟩ | ⟨k1, hv⟩
      · rw [k0] at w4
        have hbit : EncBit s x.1 false S.ctx.baseLog S.ctx.levelCount (specs.length * m.rows D) := ⟨w1, w2, w3, by simpa using w4⟩
        have := cmux_of hbit hgate (hrow j cell hcell) hT 0
        simp only [Bool.false_eq_true, if_false] at this
        rw [hv]
        exact this.mono (by omega)
      · rw [k1] at w4
        have hbit : EncBit s x.1 true S.ctx.baseLog S.ctx.levelCount (specs.length * m.rows D) := ⟨w1, w2, w3, by simpa using w4⟩
        have := cmux_of hbit hgate (hrow j cell hcell) hT 0
        simp only [if_true] at this
        rw [k1] at this
        rw [hv]
        exact this.mono (by omega)
    · cases hc

/-- C73: a session of `process_one` and `process_multi` calls, any number of either, in any order, every call with pairwise distinct items,
whatever the parallel reductions do: if the errors of the external products it performs stay within `m` and `V`, it never panics and every
decoded response is the content its item had before the call in the plain array semantics, while the accumulated errors fit. -/
theorem C73_session {t : Scalar} {ctx : Ctx} (hcd : Codec.new t = some ctx.codec) {fft : Fft n} {s : Poly n}
    (shuffle : List Nat → List Nat) (hsh : ∀ l, (shuffle l).Perm l) {hc N : Nat}
    {H : NaiveHash} (hnew : NaiveHash.new shuffle hc N = some H) {D : Nat} (hD1 : 1 ≤ D) (hD : D < 64) (hsize : 2 ^ D = hc * N) {B : Nat}
    {m : Measure} {V : Nat} :
    ∀ (sts : List (Reducer n × Call n)) (v : Nat → Poly n) (e : Nat) (S : Server n) (g : Gen n),
      B ≤ e → g.Bounded B → OneInv ctx s H D N B v e S →
      (∀ st ∈ sts, st.1.Valid ctx (2 ^ D) ∧ st.2.Valid N t) →
      MeasuredSession fft ctx s D H B m V sts S g →
      2 * (e + m.session V (sts.map Prod.snd) + 2 ^ D * m.sel) < 2 ^ 64 / t.toNat →
      ∃ S' g', runSession fft ctx s (2 ^ D) H sts S g = some (Spec.session v (sts.map Prod.snd), S', g') ∧ g'.Bounded B ∧
        OneInv ctx s H D N B ((sts.map Prod.snd).foldl (fun v st => st.cmds.foldl Spec.apply v) v)
          (e + m.session V (sts.map Prod.snd)) S' := by
  obtain ⟨b1, b2, _⟩ := C10_tuple_bijection shuffle hsh hc N H hnew 1 (2 ^ D) (by positivity) (by omega)
  have hcpos : 0 < hc := by
    rcases Nat.eq_zero_or_pos hc with h0 | h0
    · have : 0 < 2 ^ D := by positivity
      rw [hsize, h0] at this; omega
    · exact h0
  have htup : ∀ i, i < N → ∃ c, H.hashToTuple 0 i (2 ^ D) = some (0, c) := fun i hi => by
    obtain ⟨r, c, ht, hr, _⟩ := b1 0 i hcpos hi
    have : r = 0 := by omega
    subst this; exact ⟨c, ht⟩
  have hinj : ∀ i j c, i < N → j < N → H.hashToTuple 0 i (2 ^ D) = some (0, c) → H.hashToTuple 0 j (2 ^ D) = some (0, c) → i = j :=
    fun i j c hi hj h1 h2 => (b2 0 i 0 j (0, c) hcpos hi hcpos hj h1 h2).2
  intro sts
  induction sts with
  | nil =>
    intro v e S g _ hg hinv _ _ _
    exact ⟨S, g, rfl, hg, by simpa [Measure.session] using hinv⟩
  | cons st sts ih =>
    intro v e S g he hg hinv hval hmeas hb
    obtain ⟨hred, hcs, hnd⟩ := hval st (by simp)
    obtain ⟨R, st⟩ := st
    have hk := hinv.keys
    have hnoise : m.session V (((R, st) :: sts).map Prod.snd) = m.call V st + m.session V (sts.map Prod.snd) := by simp [Measure.session]
    rw [hnoise] at hb ⊢
    simp only at hred hcs hnd
    -- the step
    have hstep : ∃ y S1 g1, g1.Bounded B ∧ OneInv ctx s H D N B (st.cmds.foldl Spec.apply v) (e + m.call V st) S1 ∧
        y = st.cmds.map (fun c => v c.index) ∧ MeasuredSession fft ctx s D H B m V sts S1 g1 ∧
        ∀ r, runSession fft ctx s (2 ^ D) H sts S1 g1 = some r →
          runSession fft ctx s (2 ^ D) H ((R, st) :: sts) S g = some (y :: r.1, r.2) := by
      cases st with
      | one c =>
        have hc1 : c.Valid N t := hcs c (by simp [Call.cmds])
        simp only [Measure.call] at hb
        obtain ⟨col, ht⟩ := htup c.index hc1.lt
        obtain ⟨q, g1, w, msg, q1, q2, _⟩ := clientQuery_one hcd hk.bl hk.lv hk.lt s shuffle hsh hnew hD hc1 ht hg
        obtain ⟨hm1, hm2⟩ := hmeas q g1 q1
        obtain ⟨S1, g1', r1, r2⟩ := C70_history hcd (m := m) shuffle hsh hnew hD1 hD hsize [(R.one, c)] v e S g he hg hinv
          (by intro x hx; simp only [List.mem_cons, List.not_mem_nil, or_false] at hx; subst hx; exact ⟨hred.one, hc1⟩)
          (by
            intro q' g2 hq'
            rw [q1] at hq'; cases hq'
            exact ⟨hm1, fun _ _ _ => trivial⟩)
          (by simp only [List.length_cons, List.length_nil]; omega)
        have hg1 : g1' = g1 ∧ ∃ y, S.processOne R.one fft q = some (y, S1) ∧ decryptDecodeRlwe ctx s y = v c.index := by
          unfold runHistory at r1
          simp only [q1] at r1
          split at r1
          · cases r1
          · rename_i y S2 hp
            simp only [runHistory] at r1
            simp only [List.map_cons, List.map_nil, Spec.run, Option.some.injEq, Prod.mk.injEq, List.cons.injEq, and_true] at r1
            obtain ⟨hy, rfl, rfl⟩ := r1
            exact ⟨rfl, y, hp, hy⟩
        obtain ⟨rfl, y, q5, q3⟩ := hg1
        refine ⟨_, S1, g1', q2, by simpa [Call.cmds, Measure.call] using r2, rfl, hm2 y S1 q5, fun r hr => ?_⟩
        rw [runSession]
        simp only [q1, q5, hr, q3, Call.cmds, List.map_cons, List.map_nil]
      | multi cs =>
        obtain ⟨row, hS, hlen, vc, hrow, hitems⟩ := hinv.shape
        obtain ⟨qs, specs, g1, q1, q2, q3, q4⟩ := clientQueries hcd hk.bl hk.lv hk.lt s shuffle hsh hnew hD htup cs hcs hg
        obtain ⟨hm1, hm2⟩ := hmeas qs g1 q1
        have hctx := hinv.ctx_eq
        subst hctx
        have hlt : ∀ c ∈ cs, c.index < N := fun c hc => (hcs c hc).lt
        have hsn : (specs.map QuerySpec.i).Nodup := carries_nodup hinj q4 hlt hnd
        obtain ⟨ys, S1, row', h1, h2, h3, h4, h5, h6, h7⟩ := C73_process_multi hk hD1 q3 hsn hS hlen hrow hred (hm1 row [] hS)
        have hlen2 : specs.length = cs.length := q4.length_eq.symm
        have hmax : max e B = e := by omega
        rw [hmax, hlen2] at h7
        have hy : ys.map (decryptDecodeRlwe S.ctx s) = cs.map (fun c => v c.index) := by
          apply List.ext_getElem?
          intro k
          rw [List.getElem?_map, List.getElem?_map]
          rcases hk2 : cs[k]? with _ | c
          · have : ys[k]? = none := List.getElem?_eq_none (by
              rw [← h6.length_eq, hlen2]; exact List.getElem?_eq_none_iff.mp hk2)
            rw [this]; rfl
          · obtain ⟨sp, hsp, hcar⟩ := forall₂_getElem_left q4 hk2
            obtain ⟨y, hy, henc⟩ := forall₂_getElem_left h6 hsp
            rw [hy, Option.map_some, Option.map_some]
            rw [decryptDecode_of_enc hcd (hitems c.index sp.i (hlt c (List.mem_of_getElem? hk2)) hcar.1) henc (by omega)]
        refine ⟨cs.map (fun c => v c.index), S1, g1, q2, ⟨h4, by rw [h3]; exact hk, row', by rw [h2], h5, specs.foldl QuerySpec.effect vc, ?_, ?_⟩,
          rfl, hm2 ys S1 h1, fun r hr => ?_⟩
        · show EncRow s row' (specs.foldl QuerySpec.effect vc) _
          simpa only [Measure.call, Nat.add_assoc] using h7
        · exact stores_fold hinj q4 hlt hitems
        · rw [runSession]
          simp only [q1, h1, hr, hy]
    obtain ⟨y, S1, g1, t1, t2, t3, t5, t4⟩ := hstep
    obtain ⟨S', g', i1, i2, i3⟩ := ih _ (e + m.call V st) S1 g1 (by omega) t1 t2 (fun x hx => hval x (by simp [hx])) t5 (by omega)
    refine ⟨S', g', ?_, i2, ?_⟩
    · rw [t4 _ i1, t3]; rfl
    · rw [← Nat.add_assoc]; exact i3

/-- C73 (end to end): the same from `setup_random_oram`, starting with the plaintexts it returns. -/
theorem C73_from_setup {t : Scalar} {ctx : Ctx} (hcd : Codec.new t = some ctx.codec) {fft : Fft n}
    {s : Poly n} (hs : Binary s) (shuffle : List Nat → List Nat) (hsh : ∀ l, (shuffle l).Perm l) {hc N : Nat}
    {H : NaiveHash} (hnew : NaiveHash.new shuffle hc N = some H) {D : Nat} (hD1 : 1 ≤ D) (hD : D < 64) (hsize : 2 ^ D = hc * N)
    (h1 : 1 ≤ ctx.baseLog) (h2 : 1 ≤ ctx.levelCount) (h3 : ctx.baseLog * ctx.levelCount < 64)
    (hn1 : ctx.negsBaseLog = ctx.baseLog) (hn2 : 1 ≤ ctx.negsLevelCount) (hn3 : ctx.negsBaseLog * ctx.negsLevelCount < 64)
    {g : Gen n} {B : Nat} (hg : g.Bounded B) (sts : List (Reducer n × Call n))
    (hval : ∀ st ∈ sts, st.1.Valid ctx (2 ^ D) ∧ st.2.Valid N t) {m : Measure} {V : Nat}
    (hmeas : ∀ S pts g1, setupRandomOram ctx s 1 (2 ^ D) H g = some (S, pts, g1) → MeasuredSession fft ctx s D H B m V sts S g1)
    (hb : 2 * (B + m.session V (sts.map Prod.snd) + 2 ^ D * m.sel) < 2 ^ 64 / t.toNat) :
    ∃ S pts g1 S' g', setupRandomOram ctx s 1 (2 ^ D) H g = some (S, pts, g1) ∧ pts.length = N ∧
      runSession fft ctx s (2 ^ D) H sts S g1 = some (Spec.session (fun i => pts.getD i 0) (sts.map Prod.snd), S', g') := by
  obtain ⟨S, pts, g1, hset, e3, e2, hinv⟩ := setup_oneInv hcd hs shuffle hsh hnew hsize h1 h2 h3 hn1 hn2 hn3 hg
  obtain ⟨S', g', r1, _⟩ := C73_session hcd shuffle hsh hnew hD1 hD hsize sts _ B _ g1 (le_refl B) e2 hinv hval (hmeas S pts g1 hset) hb
  exact ⟨_, pts, g1, S', g', hset, e3, r1⟩

/-! ### Sparse keys -/

/-- The error of the products with the sum of at most `K` selectors. -/
def sparseSum (ctx : Ctx) (n h B phi D K : Nat) : Nat :=
  sparseGate n h ctx.baseLog ctx.levelCount (K * (sparseMeasure ctx n h B phi D).rows D) phi 1

theorem GateOk.mono {fft : Fft n} {s : Poly n} {bl lv E V V' : Nat} {C : RGSW n} {d : RLWE n} (h : GateOk fft s bl lv E V C d) (hV : V ≤ V') :
    GateOk fft s bl lv E V' C d := fun b hb => (h b hb).mono hV

theorem sparseGate_mono {n h bl lv E E' phi K : Nat} (hE : E ≤ E') : sparseGate n h bl lv E phi K ≤ sparseGate n h bl lv E' phi K := by
  unfold sparseGate
  have : 2 * lv * (n * 2 ^ (bl - 1) * E) ≤ 2 * lv * (n * 2 ^ (bl - 1) * E') := Nat.mul_le_mul_left _ (Nat.mul_le_mul_left _ hE)
  omega

/-- C73 (sparse keys): every session with at most `K` queries per call stays within the measure given by the weight of the key. -/
theorem C73_sparse_session {fft : Fft n} {phi : Nat} (hf : fft.Bounded phi) {s : Poly n} (hs : Binary s) {h : Nat} (hh : l1 s ≤ h) {ctx : Ctx}
    {D K : Nat} {H : NaiveHash} {B : Nat} : ∀ (sts : List (Reducer n × Call n)) (S : Server n) (g : Gen n), S.negS.WF →
      S.negS.baseLog = ctx.negsBaseLog → S.negS.levelCount = ctx.negsLevelCount → (∀ st ∈ sts, st.2.cmds.length ≤ K) →
      MeasuredSession fft ctx s D H B (sparseMeasure ctx n h B phi D) (sparseSum ctx n h B phi D K) sts S g
  | [], _, _, _, _, _, _ => trivial
  | (R, .one c) :: sts, S, g, hN, hbl, hlv, hK => by
    intro q g' _
    refine ⟨fun row rest _ => C70_sparse_row hf hs hh hN hbl hlv q row D, fun y S' hS' => ?_⟩
    have hk : S'.negS = S.negS := by
      unfold Server.processOne at hS'
      split at hS'
      · cases hS'
      · split at hS'
        · cases hS'
        · cases hS'; rfl
    exact C73_sparse_session hf hs hh sts S' g' (by rw [hk]; exact hN) (by rw [hk]; exact hbl) (by rw [hk]; exact hlv)
      (fun st hst => hK st (by simp [hst]))
  | (R, .multi cs) :: sts, S, g, hN, hbl, hlv, hK => by
    intro qs g' hqs
    have hlen : qs.length ≤ K := le_trans (le_of_eq (mapGenM_forall (Q := fun _ => True) (fun _ _ _ _ => trivial) hqs).1) (hK (R, .multi cs) (by simp))
    refine ⟨fun row rest _ => ⟨fun q _ => C70_sparse_row hf hs hh hN hbl hlv q row D, fun q _ y ls _ j l c _ _ => gateOk_sparse hf hs.small hh _ _ _ _ _,
      fun rs _ j L T c _ _ _ => (gateOk_sparse hf hs.small hh _ _ _ _ _).mono (sparseGate_mono (Nat.mul_le_mul_right _ hlen))⟩, fun ys S' hS' => ?_⟩
    have hk : S'.negS = S.negS := by
      unfold Server.processMulti at hS'
      dsimp only at hS'
      split at hS'
      · cases hS'
      · split at hS'
        · cases hS'
        · cases hS'; rfl
    exact C73_sparse_session hf hs hh sts S' g' (by rw [hk]; exact hN) (by rw [hk]; exact hbl) (by rw [hk]; exact hlv)
      (fun st hst => hK st (by simp [hst]))

theorem session_le {m : Measure} {V K : Nat} (hK1 : 1 ≤ K) : ∀ {sts : List (Call n)}, (∀ st ∈ sts, st.cmds.length ≤ K) →
    m.session V sts ≤ sts.length * (m.op + K * m.sel + V)
  | [], _ => by simp [Measure.session]
  | st :: sts, h => by
    have ih := session_le (m := m) (V := V) hK1 (sts := sts) fun st hst => h st (by simp [hst])
    have h1 : m.call V st ≤ m.op + K * m.sel + V := by
      cases st with
      | one c =>
        have : m.sel ≤ K * m.sel := Nat.le_mul_of_pos_left _ hK1
        simp only [Measure.call]; omega
      | multi cs =>
        have : cs.length * m.sel ≤ K * m.sel := Nat.mul_le_mul_right _ (h (.multi cs) (by simp))
        simp only [Measure.call]; omega
    have h2 : m.session V (st :: sts) = m.call V st + m.session V sts := by simp [Measure.session]
    rw [h2, List.length_cons, Nat.add_mul, Nat.one_mul]
    omega

/-- C73 (default parameters): degree 2048, one row of 16 cells, plaintext modulus 256.  For every key, every floating-point behaviour, every
generator with noise at most `2^15`, and every session of up to six calls with up to four queries each, in which no product with a
READ/WRITE flag is off by more than `2^46`, none with a selector by more than `2^48` and none with summed selectors by more than `2^51`, all
responses are correct. -/
theorem C73_default_params {fft : Fft 2048} {s : Poly 2048} (hs : Binary s) (shuffle : List Nat → List Nat) (hshf : ∀ l, (shuffle l).Perm l)
    {H : NaiveHash} (hnew : NaiveHash.new shuffle 1 16 = some H) {g : Gen 2048} {B : Nat} (hB : B ≤ 2 ^ 15) (hg : g.Bounded B) (sts : List (Reducer 2048 × Call 2048))
    (hlen : sts.length ≤ 6) (hcalls : ∀ st ∈ sts, st.2.cmds.length ≤ 4)
    (hval : ∀ st ∈ sts, st.1.Valid defaultCtx 16 ∧ st.2.Valid 16 256) {m : Measure} {V : Nat} (hop : m.op ≤ 2 ^ 46) (hsel : m.sel ≤ 2 ^ 48)
    (hV : V ≤ 2 ^ 51)
    (hmeas : ∀ S pts g1, setupRandomOram defaultCtx s 1 16 H g = some (S, pts, g1) →
      MeasuredSession fft defaultCtx s 4 H B m V sts S g1) :
    ∃ S pts g1 S' g', setupRandomOram defaultCtx s 1 16 H g = some (S, pts, g1) ∧ pts.length = 16 ∧
      runSession fft defaultCtx s 16 H sts S g1 = some (Spec.session (fun i => pts.getD i 0) (sts.map Prod.snd), S', g') := by
  refine C73_from_setup (t := 256) (ctx := defaultCtx) (D := 4) (by decide) hs shuffle hshf hnew (by decide) (by decide) (by decide)
    (by decide) (by decide) (by decide) rfl (by decide) (by decide) hg sts hval hmeas ?_
  have h0 := session_le (m := m) (V := V) (K := 4) (by decide) (sts := sts.map Prod.snd) (by
    intro st hst
    obtain ⟨x, hx, rfl⟩ := List.mem_map.mp hst
    exact hcalls x hx)
  rw [List.length_map] at h0
  have h1 : sts.length * (m.op + 4 * m.sel + V) ≤ 6 * (2 ^ 46 + 4 * 2 ^ 48 + 2 ^ 51) := Nat.mul_le_mul hlen (by omega)
  have h2 : 2 ^ 64 / (256 : Scalar).toNat = 2 ^ 56 := by decide
  rw [h2]
  omega

/-- C73 (default parameters, unconditionally): with a key of at most 16 ones, encryption noise at most 8 and relative FFT error at most 8,
every session of up to six calls with up to four queries each on one row of 16 cells is correct. -/
theorem C73_default_sparse {fft : Fft 2048} (hf : fft.Bounded 8) {s : Poly 2048} (hs : Binary s) (hh : l1 s ≤ 16)
    (shuffle : List Nat → List Nat) (hshf : ∀ l, (shuffle l).Perm l)
    {H : NaiveHash} (hnew : NaiveHash.new shuffle 1 16 = some H) {g : Gen 2048} (hg : g.Bounded 8) (sts : List (Reducer 2048 × Call 2048))
    (hlen : sts.length ≤ 6) (hcalls : ∀ st ∈ sts, st.2.cmds.length ≤ 4)
    (hval : ∀ st ∈ sts, st.1.Valid defaultCtx 16 ∧ st.2.Valid 16 256) :
    ∃ S pts g1 S' g', setupRandomOram defaultCtx s 1 16 H g = some (S, pts, g1) ∧ pts.length = 16 ∧
      runSession fft defaultCtx s 16 H sts S g1 = some (Spec.session (fun i => pts.getD i 0) (sts.map Prod.snd), S', g') := by
  obtain ⟨S, pts, g1, hset, e3, e2, hinv⟩ := setup_oneInv (t := 256) (ctx := defaultCtx) (D := 4) (by decide) hs shuffle hshf hnew (by decide)
    (by decide) (by decide) (by decide) rfl (by decide) (by decide) hg
  have hmeas := C73_sparse_session (fft := fft) (ctx := defaultCtx) (D := 4) (H := H) (B := 8) hf hs hh sts S g1 hinv.keys.negWF hinv.keys.negBl
    hinv.keys.negLv hcalls
  have h0 := session_le (m := sparseMeasure defaultCtx 2048 16 8 8 4) (V := sparseSum defaultCtx 2048 16 8 8 4 4) (K := 4) (by decide)
    (sts := sts.map Prod.snd) (by
      intro st hst
      obtain ⟨x, hx, rfl⟩ := List.mem_map.mp hst
      exact hcalls x hx)
  rw [List.length_map] at h0
  obtain ⟨S', g', r1, _⟩ := C73_session (t := 256) (ctx := defaultCtx) (D := 4) (by decide) shuffle hshf hnew (by decide) (by decide) (by decide) sts
    _ 8 _ g1 (le_refl 8) e2 hinv hval hmeas (by
      have h1 : ∀ x, sts.length * x ≤ 6 * x := fun x => Nat.mul_le_mul_right _ hlen
      refine lt_of_le_of_lt (Nat.mul_le_mul_left 2 (Nat.add_le_add_right (Nat.add_le_add_left (le_trans h0 (h1 _)) _) _)) ?_
      decide)
  exact ⟨_, pts, g1, S', g', hset, e3, r1⟩

/-! A concrete session at the default parameters. -/

/-- Write items 2 and 3 and read item 15; read item 2; read items 3 and 2. -/
def bigSession : List (Reducer 2048 × Call 2048) :=
  [(foldReducer 2048 defaultCtx 16, .multi [.write 2 ⟨fun k => BitVec.ofNat 64 (k.val % 256)⟩, .read 15, .write 3 ⟨fun _ => 255⟩]),
   (foldReducer 2048 defaultCtx 16, .one (.read 2)), (foldReducer 2048 defaultCtx 16, .multi [.read 3, .read 2])]

theorem bigSession_valid : ∀ st ∈ bigSession, st.1.Valid defaultCtx 16 ∧ st.2.Valid 16 256 := by
  intro st hst
  simp only [bigSession, List.mem_cons, List.not_mem_nil, or_false] at hst
  rcases hst with rfl | rfl | rfl
  · refine ⟨foldReducer_valid _ _, ?_, by simp [Call.cmds, Cmd.index]⟩
    intro c hc
    simp only [Call.cmds, List.mem_cons, List.not_mem_nil, or_false] at hc
    rcases hc with rfl | rfl | rfl
    · refine ⟨by decide, fun k => ?_⟩
      show (BitVec.ofNat 64 (k.val % 256)).toNat < _
      have h : k.val % 256 < 256 := Nat.mod_lt _ (by decide)
      rw [BitVec.toNat_ofNat, Nat.mod_eq_of_lt (by omega)]
      exact h
    · show 15 < 16; decide
    · exact ⟨by decide, fun k => by show (255 : Scalar).toNat < _; decide⟩
  · refine ⟨foldReducer_valid _ _, ?_, by simp [Call.cmds]⟩
    intro c hc
    simp only [Call.cmds, List.mem_cons, List.not_mem_nil, or_false] at hc
    subst hc
    show 2 < 16; decide
  · refine ⟨foldReducer_valid _ _, ?_, by simp [Call.cmds, Cmd.index]⟩
    intro c hc
    simp only [Call.cmds, List.mem_cons, List.not_mem_nil, or_false] at hc
    rcases hc with rfl | rfl
    · show 3 < 16; decide
    · show 2 < 16; decide

/-- The session returns what a plain array does. -/
theorem C73_witness : ∃ H S pts g1 S' g', NaiveHash.new id 1 16 = some H ∧ setupRandomOram defaultCtx sparseKey 1 16 H bigGen = some (S, pts, g1) ∧
    runSession bigFft defaultCtx sparseKey 16 H bigSession S g1
      = some ([[pts.getD 2 0, pts.getD 15 0, pts.getD 3 0], [⟨fun k => BitVec.ofNat 64 (k.val % 256)⟩],
          [⟨fun _ => 255⟩, ⟨fun k => BitVec.ofNat 64 (k.val % 256)⟩]], S', g') := by
  have hnew : NaiveHash.new id 1 16 = some (((NaiveHash.new id 1 16).getD ⟨[], 0, 0⟩)) := by
    unfold NaiveHash.new
    rw [if_pos (by decide)]
    rfl
  obtain ⟨S, pts, g1, S', g', h1, _, h3⟩ := C73_default_sparse bigFft_bounded sparseKey_binary sparseKey_l1 id (fun l => List.Perm.refl l)
    hnew bigGen_bounded bigSession (by decide) (by decide) bigSession_valid
  refine ⟨_, S, pts, g1, S', g', hnew, h1, ?_⟩
  rw [h3]
  simp [bigSession, Spec.session, Call.cmds, Cmd.index, Spec.apply]

end Panacea
