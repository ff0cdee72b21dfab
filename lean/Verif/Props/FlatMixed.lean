import Verif.Spec.FlatMixed
import Verif.Props.FlatOram
import Verif.Props.MeasuredMixed

/-!
# C86 for mixed sessions: the program on word vectors is answered from one grid of plain contents
-/

namespace Panacea
namespace Flat
variable {n : Nat}

theorem runMixed_out1 (hn : 0 < n) (fft : Fft n) (ctx : Ctx) (s : Poly n) (rows cols : Nat) (H : NaiveHash) {R : FlatReducer}
    {R' : Panacea.Reducer n} (hR : R.Valid n ctx cols) (hR' : R'.Valid ctx cols) (st : MixedStep n) (S : Panacea.Server n) (g : Gen n)
    (hcols : S.cols = some cols) (hctx : S.ctx = ctx) :
    runMixed fft ctx s rows cols H [(R, st)] (outServer S) g
      = (Panacea.runMixed fft ctx s rows cols H [(R', st)] S g).map fun x => (x.1.map (List.map out), outServer x.2.1, x.2.2) := by
  have hk : ∀ k, S.cols = some k → k = cols := fun k hk => by rw [hcols] at hk; exact (Option.some.inj hk).symm
  cases st with
  | one c =>
    rw [runMixed, Panacea.runMixed, clientQuery_out]
    cases Panacea.clientQuery ctx s rows cols H c g with
    | none => rfl
    | some x =>
      obtain ⟨q, g1⟩ := x
      simp only [Option.map_some]
      rw [processOne_out hn hR.one hR'.one fft S q]
      cases S.processOne R'.one fft q with
      | none => rfl
      | some y => simp only [Option.map_some, runMixed, Panacea.runMixed, List.map_cons, List.map_nil, reveal_out]
  | multi cs =>
    rw [runMixed, Panacea.runMixed,
      collect_eq_mapGenM (eb := outQuery) (F := Panacea.clientQuery ctx s rows cols H) (fun c g => clientQuery_out ctx s rows cols H c g)]
    cases mapGenM (Panacea.clientQuery ctx s rows cols H) cs g with
    | none => rfl
    | some x =>
      obtain ⟨qs, g1⟩ := x
      simp only [Option.map_some]
      rw [processMulti_out hn (reduceV := R.vec) (reduceG := R.gsw) (reduceV' := R'.vec) (reduceG' := R'.gsw) S
        (fun k h => by rw [hk k h]; exact hR.vec) (fun k h => by rw [hk k h, hctx]; exact hR.gsw)
        (fun k h => by rw [hk k h]; exact hR'.vec) (fun k h => by rw [hk k h, hctx]; exact hR'.gsw) fft qs]
      cases S.processMulti R'.vec R'.gsw fft qs with
      | none => rfl
      | some y =>
        simp only [Option.map_some, runMixed, Panacea.runMixed, List.map_cons, List.map_nil, List.map_map]
        rw [show List.map (reveal ctx s ∘ outRlwe) y.1 = List.map (out ∘ Panacea.decryptDecodeRlwe ctx s) y.1 from
          List.map_congr_left fun c _ => reveal_out ctx s c]
  | batch c =>
    rw [runMixed, Panacea.runMixed, clientBatch_out]
    cases Panacea.clientBatch ctx s rows cols H c g with
    | none => rfl
    | some x =>
      obtain ⟨qs, g1⟩ := x
      simp only [Option.map_some]
      rw [processBatch_out hn]
      cases S.processBatch fft qs H with
      | none => rfl
      | some y =>
        simp only [Option.map_some, runMixed, Panacea.runMixed, List.map_cons, List.map_nil, List.map_map]
        rw [show List.map (reveal ctx s ∘ outRlwe) y.1 = List.map (out ∘ Panacea.decryptDecodeRlwe ctx s) y.1 from
          List.map_congr_left fun c _ => reveal_out ctx s c]

theorem runMixed_cons {fft : Fft n} {ctx : Ctx} {s : Poly n} {rows cols : Nat} {H : NaiveHash} {x : FlatReducer × MixedStep n}
    {sts : List (FlatReducer × MixedStep n)} {S S1 S2 : Server} {g g1 g2 : Gen n} {y : List Words} {ys : List (List Words)}
    (h1 : runMixed fft ctx s rows cols H [x] S g = some ([y], S1, g1))
    (h2 : runMixed fft ctx s rows cols H sts S1 g1 = some (ys, S2, g2)) :
    runMixed fft ctx s rows cols H (x :: sts) S g = some (y :: ys, S2, g2) := by
  obtain ⟨R, st⟩ := x
  cases st <;>
  · rw [runMixed] at h1 ⊢
    split at h1
    · cases h1
    · rename_i q g3 e1
      split at h1
      · cases h1
      · rename_i z S3 e2
        simp only [runMixed, Option.some.injEq, Prod.mk.injEq, List.cons.injEq, and_true] at h1
        obtain ⟨rfl, rfl, rfl⟩ := h1
        simp only [e1, e2, h2]

theorem mixedInv_cols {ctx : Ctx} {s : Poly n} {rows D B e : Nat} {U : Nat × Nat → Poly n} {S : Panacea.Server n} (hpos : 0 < rows)
    (h : MixedInv ctx s rows D B U e S) : S.cols = some (2 ^ D) := by
  unfold Panacea.Server.cols
  rcases hd : S.data with _ | ⟨row, rest⟩
  · have := h.shape.1; rw [hd] at this; simp at this; omega
  · have := h.shape.2 row (by rw [hd]; simp)
    simp [this]

/-- **C86** (mixed sessions, end to end) The program in memory, set up on any number of rows, serves any sequence of single, multi-query and
batch calls, with any outcome of the parallel reductions on word vectors, from one grid of plain contents (C98), as words. -/
theorem C86_mixed {t : Scalar} {ctx : Ctx} (hcd : Codec.new t = some ctx.codec) (hn : 0 < n) {fft : Fft n} {phi : Nat}
    (hf : fft.Bounded phi) {s : Poly n} (hs : Binary s) (shuffle : List Nat → List Nat) (hshf : ∀ l, (shuffle l).Perm l) {hc N : Nat}
    {H : NaiveHash} (hnew : NaiveHash.new shuffle hc N = some H) {D rows : Nat} (hD1 : 1 ≤ D) (hD : D < 64) (hpos : 0 < rows)
    (hsize : rows * 2 ^ D = hc * N) (h1 : 1 ≤ ctx.baseLog) (h2 : 1 ≤ ctx.levelCount) (h3 : ctx.baseLog * ctx.levelCount < 64)
    (hn1 : ctx.negsBaseLog = ctx.baseLog) (hn2 : 1 ≤ ctx.negsLevelCount) (hn3 : ctx.negsBaseLog * ctx.negsLevelCount < 64)
    {g : Gen n} {B : Nat} (hg : g.Bounded B) (sts : List (FlatReducer × MixedStep n))
    (hval : ∀ st ∈ sts, st.1.Valid n ctx (2 ^ D) ∧ st.2.Valid H (2 ^ D) N t)
    (hb : 2 * (B + mixedNoise ctx n B phi D hc (sts.map Prod.snd) + 2 ^ D * deltaSel ctx n B phi D) < 2 ^ 64 / t.toNat) :
    ∃ (T : Server) (pts : List (Poly n)) (g1 : Gen n) (T' : Server) (g' : Gen n),
      setupRandomOram ctx (out s) rows (2 ^ D) H g = some (T, pts.map out, g1) ∧ pts.length = N ∧
      runMixed fft ctx s rows (2 ^ D) H sts T g1
        = some ((Spec.mixed H rows (2 ^ D) (Spec.freshGrid H (2 ^ D) pts) (sts.map Prod.snd)).map (List.map out), T', g') := by
  obtain ⟨S, pts, g1, hset, e3, e2, hinv⟩ := setup_mixedInv hcd hs shuffle hshf hnew hsize h1 h2 h3 hn1 hn2 hn3 hg
  have hout := setup_out hn ctx s rows (2 ^ D) H g (by omega) (by rw [← hn1]; omega)
  rw [hset, Option.map_some] at hout
  have key : ∀ (sts : List (FlatReducer × MixedStep n)) (U : Nat × Nat → Poly n) (e : Nat) (S : Panacea.Server n) (g : Gen n),
      B ≤ e → g.Bounded B → MixedInv ctx s rows D B U e S →
      (∀ st ∈ sts, st.1.Valid n ctx (2 ^ D) ∧ st.2.Valid H (2 ^ D) N t) →
      2 * (e + mixedNoise ctx n B phi D hc (sts.map Prod.snd) + 2 ^ D * deltaSel ctx n B phi D) < 2 ^ 64 / t.toNat →
      ∃ (T' : Server) (g' : Gen n), runMixed fft ctx s rows (2 ^ D) H sts (outServer S) g
        = some ((Spec.mixed H rows (2 ^ D) U (sts.map Prod.snd)).map (List.map out), T', g') := by
    intro sts
    induction sts with
    | nil => intro U e S g _ _ _ _ _; exact ⟨_, _, rfl⟩
    | cons st sts ih =>
      intro U e S g he hg hinv hval hb
      obtain ⟨R, st⟩ := st
      obtain ⟨hred, hv⟩ := hval (R, st) (by simp)
      have hnoise : mixedNoise ctx n B phi D hc (((R, st) :: sts).map Prod.snd)
          = stepNoise ctx n B phi D hc st + mixedNoise ctx n B phi D hc (sts.map Prod.snd) := by simp [mixedNoise]
      rw [hnoise] at hb
      obtain ⟨S1, g1, a1, a2, a3⟩ := C98_call hcd hn hf hs shuffle hshf hnew hD1 hD hpos hsize (foldReducer_valid ctx (2 ^ D)) hv he hinv hg
        (by omega)
      have hstep := runMixed_out1 hn fft ctx s rows (2 ^ D) H hred (foldReducer_valid ctx (2 ^ D)) st S g (mixedInv_cols hpos hinv) hinv.ctx_eq
      rw [a1] at hstep
      obtain ⟨T', g', i1⟩ := ih _ (e + stepNoise ctx n B phi D hc st) S1 g1 (by omega) a2 a3 (fun x hx => hval x (by simp [hx])) (by omega)
      exact ⟨T', g', runMixed_cons hstep i1⟩
  obtain ⟨T', g', hrun⟩ := key sts _ B S g1 (le_refl B) e2 hinv hval hb
  exact ⟨_, pts, g1, T', g', hout, e3, hrun⟩

/-- The stale batch READ of C99, in memory: three rows of four columns; the words answered after a single WRITE of 7 to item 1. -/
example : ∃ (T : Server) (pts : List (Poly 4)) (g1 : Gen 4) (T' : Server) (g' : Gen 4),
    setupRandomOram exTreeCtx (out exKey) 3 4 exHash exGen = some (T, pts.map out, g1) ∧
    runMixed exFft exTreeCtx exKey 3 4 exHash (staleSession.map fun x => (foldFlat 4 exTreeCtx 4, x.2)) T g1
      = some ((Spec.mixed exHash 3 4 (Spec.freshGrid exHash 4 pts) (staleSession.map Prod.snd)).map (List.map out), T', g') := by
  obtain ⟨T, pts, g1, T', g', h1, _, h2⟩ := C86_mixed (t := 16) (ctx := exTreeCtx) (by decide) (by decide) exFft_bounded
    exKey_binary exShuffle exShuffle_perm exHash_new (D := 2) (rows := 3) (by decide) (by decide) (by decide) (by decide) (by decide)
    (by decide) (by decide) rfl (by decide) (by decide) exGen_bounded (staleSession.map fun x => (foldFlat 4 exTreeCtx 4, x.2)) (by
      intro st hst
      obtain ⟨x, hx, rfl⟩ := List.mem_map.mp hst
      exact ⟨foldFlat_valid _ _, (staleSession_valid x hx).2⟩) (by decide)
  exact ⟨T, pts, g1, T', g', h1, h2⟩

end Flat
end Panacea
