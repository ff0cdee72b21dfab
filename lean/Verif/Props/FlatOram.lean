import Verif.Lemmas.FlatOram
import Verif.Props.Session
import Verif.Props.Batch

/-! # C86: the ORAM client and server in memory -/

namespace Panacea
namespace Flat
variable {n : Nat}

theorem storesQueries {Qs : List ClientQuery} {qs : List (Panacea.ClientQuery n)} : StoresAll StoresQuery Qs qs ↔ Qs = qs.map outQuery :=
  storesAll_iff (f := outQuery) (fun _ _ => storesQuery_iff)

theorem storesPolys {ws : List Words} {ps : List (Poly n)} : StoresAll StoresPoly ws ps ↔ ws = ps.map out :=
  storesAll_iff (f := out) (fun _ _ => storesPoly_iff)

/-- **C86** (`process_one`) On a server and a query in memory, with any outcome of the parallel reduction on word vectors, the response and the
new state are the memory images of those of the other model, and both panic in the same cases. -/
theorem C86_process_one (hn : 0 < n) (fft : Fft n) {T : Server} {S : Panacea.Server n} (hS : StoresServer T S) {Q : ClientQuery}
    {q : Panacea.ClientQuery n} (hq : StoresQuery Q q) {ctx : Ctx} {cols cols' : Nat} {R : FlatReducer} (hR : R.Valid n ctx cols) {R' : Panacea.Reducer n}
    (hR' : R'.Valid ctx cols') :
    Agree (fun a b => StoresRlwe a.1 b.1 ∧ StoresServer a.2 b.2) (T.processOne R.one fft Q) (S.processOne R'.one fft q) := by
  rw [storesServer_iff] at hS; rw [storesQuery_iff] at hq
  subst hS hq
  exact agree_of_eq (processOne_out hn hR.one hR'.one fft S q) fun _ => ⟨storesRlwe_iff.2 rfl, storesServer_iff.2 rfl⟩

/-- **C86** (`process_multi`) The same with the index loops over shared result vectors; the combining functions of the two reductions index
both vectors and never run out of bounds. -/
theorem C86_process_multi (hn : 0 < n) (fft : Fft n) {T : Server} {S : Panacea.Server n} (hS : StoresServer T S) {Qs : List ClientQuery}
    {qs : List (Panacea.ClientQuery n)} (hq : StoresAll StoresQuery Qs qs) {R : FlatReducer}
    (hR : ∀ cols, S.cols = some cols → R.Valid n S.ctx cols) {R' : Panacea.Reducer n} (hR' : ∀ cols, S.cols = some cols → R'.Valid S.ctx cols) :
    Agree (fun a b => StoresAll StoresRlwe a.1 b.1 ∧ StoresServer a.2 b.2) (T.processMulti R.vec R.gsw fft Qs)
      (S.processMulti R'.vec R'.gsw fft qs) := by
  rw [storesServer_iff] at hS; rw [storesQueries] at hq
  subst hS hq
  exact agree_of_eq (processMulti_out hn S (fun c h => (hR c h).vec) (fun c h => (hR c h).gsw) (fun c h => (hR' c h).vec)
    (fun c h => (hR' c h).gsw) fft qs) fun _ => ⟨storesRlwes.2 rfl, storesServer_iff.2 rfl⟩

/-- **C86** (`process_batch`) Rows, selectors, flags and positions are indexed, cells are overwritten in place: same responses, same new state,
same panics, for every hash table. -/
theorem C86_process_batch (hn : 0 < n) (fft : Fft n) {T : Server} {S : Panacea.Server n} (hS : StoresServer T S) {Qs : List ClientQuery}
    {qs : List (Panacea.ClientQuery n)} (hq : StoresAll StoresQuery Qs qs) (H : NaiveHash) :
    Agree (fun a b => StoresAll StoresRlwe a.1 b.1 ∧ StoresServer a.2 b.2) (T.processBatch fft Qs H) (S.processBatch fft qs H) := by
  rw [storesServer_iff] at hS; rw [storesQueries] at hq
  subst hS hq
  exact agree_of_eq (processBatch_out hn fft S qs H) fun _ => ⟨storesRlwes.2 rfl, storesServer_iff.2 rfl⟩

/-- **C86** (`decrypt_db`) The debugging view reads the same numbers from the database in memory. -/
theorem C86_decrypt_db {T : Server} {S : Panacea.Server n} (hS : StoresServer T S) (s : Poly n) : T.decryptDb s = S.decryptDb s := by
  rw [storesServer_iff] at hS
  subst hS
  exact decryptDb_out S s

/-- **C86** (client) The query generators, with buffers encrypted in place and plaintexts given by their words, produce the memory images of the
queries of the other model, leave the random streams at the same position, and panic in the same cases. -/
theorem C86_queries (ctx : Ctx) (s : Poly n) (rows cols : Nat) (H : NaiveHash) (indices : List Nat) (i : Nat) {w : Words} {alpha : Poly n}
    (hw : StoresPoly w alpha) (g : Gen n) :
    Agree (fun a b => StoresAll StoresQuery a.1 b.1 ∧ a.2 = b.2) (genReadQueryBatch ctx s rows cols H indices g)
      (Panacea.genReadQueryBatch ctx s rows cols H indices g) ∧
    Agree (fun a b => StoresAll StoresQuery a.1 b.1 ∧ a.2 = b.2) (genWriteQueryBatch ctx s rows cols H indices w g)
      (Panacea.genWriteQueryBatch ctx s rows cols H indices alpha g) ∧
    Agree (fun a b => StoresQuery a.1 b.1 ∧ a.2 = b.2) (genReadQueryOne ctx s rows cols H i g)
      (Panacea.genReadQueryOne ctx s rows cols H i g) ∧
    Agree (fun a b => StoresQuery a.1 b.1 ∧ a.2 = b.2) (genWriteQueryOne ctx s rows cols H i w g)
      (Panacea.genWriteQueryOne ctx s rows cols H i alpha g) := by
  rw [storesPoly_iff] at hw
  subst hw
  exact ⟨agree_of_eq (genReadQueryBatch_out ctx s rows cols H indices g) fun _ => ⟨storesQueries.2 rfl, rfl⟩,
    agree_of_eq (genWriteQueryBatch_out ctx s rows cols H indices alpha g) fun _ => ⟨storesQueries.2 rfl, rfl⟩,
    agree_of_eq (clientQuery_out ctx s rows cols H (.read i) g) fun _ => ⟨storesQuery_iff.2 rfl, rfl⟩,
    agree_of_eq (clientQuery_out ctx s rows cols H (.write i alpha) g) fun _ => ⟨storesQuery_iff.2 rfl, rfl⟩⟩

/-- **C86** (setup) `setup_random_oram` in memory: cells encrypted in place, copies made cell by cell.  (The shift of the key encryption must be
below the word size, as at the default parameters.) -/
theorem C86_setup (hn : 0 < n) (ctx : Ctx) {sw : Words} {s : Poly n} (hs : StoresPoly sw s) (rows cols : Nat) (H : NaiveHash) (g : Gen n)
    (h0 : 0 < ctx.baseLog) (hneg : ctx.baseLog * ctx.negsLevelCount ≤ 64) :
    Agree (fun a b => StoresServer a.1 b.1 ∧ StoresAll StoresPoly a.2.1 b.2.1 ∧ a.2.2 = b.2.2) (setupRandomOram ctx sw rows cols H g)
      (Panacea.setupRandomOram ctx s rows cols H g) := by
  rw [storesPoly_iff] at hs
  subst hs
  exact agree_of_eq (setup_out hn ctx s rows cols H g h0 hneg) fun _ => ⟨storesServer_iff.2 rfl, storesPolys.2 rfl, rfl⟩

/-- **C86** (session, end to end) The program in memory behaves like an array: set up a database of one row, run any sequence of `process_one` and
`process_multi` calls with any outcome of the parallel reductions on word vectors, and the words decrypted at every step are those of the
contents of the items before the step. -/
theorem C86_session {t : Scalar} {ctx : Ctx} (hcd : Codec.new t = some ctx.codec) (hn : 0 < n) {fft : Fft n} {phi : Nat}
    (hf : fft.Bounded phi) {s : Poly n} (hs : Binary s) (shuffle : List Nat → List Nat) (hsh : ∀ l, (shuffle l).Perm l) {hc N : Nat}
    {H : NaiveHash} (hnew : NaiveHash.new shuffle hc N = some H) {D : Nat} (hD1 : 1 ≤ D) (hD : D < 64) (hsize : 2 ^ D = hc * N)
    (h1 : 1 ≤ ctx.baseLog) (h2 : 1 ≤ ctx.levelCount) (h3 : ctx.baseLog * ctx.levelCount < 64)
    (hn1 : ctx.negsBaseLog = ctx.baseLog) (hn2 : 1 ≤ ctx.negsLevelCount) (hn3 : ctx.negsBaseLog * ctx.negsLevelCount < 64)
    {g : Gen n} {B : Nat} (hg : g.Bounded B) (sts : List (FlatReducer × Call n))
    (hval : ∀ st ∈ sts, st.1.Valid n ctx (2 ^ D) ∧ st.2.Valid N t)
    (hb : 2 * (B + sessionNoise ctx n B phi D (sts.map Prod.snd) + 2 ^ D * deltaSel ctx n B phi D) < 2 ^ 64 / t.toNat) :
    ∃ (T : Server) (pts : List (Poly n)) (g1 : Gen n) (T' : Server) (g' : Gen n), setupRandomOram ctx (out s) 1 (2 ^ D) H g = some (T, pts.map out, g1) ∧ pts.length = N ∧
      runSession fft ctx s (2 ^ D) H sts T g1
        = some ((Spec.session (fun i => pts.getD i 0) (sts.map Prod.snd)).map (List.map out), T', g') := by
  obtain ⟨S, pts, g1, hset, e3, e2, hinv⟩ := setup_oneInv hcd hs shuffle hsh hnew hsize h1 h2 h3 hn1 hn2 hn3 hg
  let sts' : List (FlatReducer × Panacea.Reducer n × Call n) := sts.map fun st => (st.1, foldReducer n ctx (2 ^ D), st.2)
  have hm1 : sts'.map (fun x => (x.1, x.2.2)) = sts := by
    simp only [sts', List.map_map]; exact List.map_id sts
  have hm2 : (sts'.map Prod.snd).map Prod.snd = sts.map Prod.snd := by
    simp only [sts', List.map_map]; rfl
  obtain ⟨S', g', r1, _⟩ := C54_session hcd hn hf hs shuffle hsh hnew hD1 hD hsize (sts'.map Prod.snd) _ B _ g1 (le_refl B) e2 hinv (by
    intro st hst
    simp only [sts', List.map_map, List.mem_map] at hst
    obtain ⟨x, hx, rfl⟩ := hst
    exact ⟨foldReducer_valid _ _, (hval x hx).2⟩) (by rw [hm2]; exact hb)
  have hout := setup_out hn ctx s 1 (2 ^ D) H g (by omega) (by rw [← hn1]; omega)
  rw [hset, Option.map_some] at hout
  obtain ⟨row, hrow, hlen, _⟩ := hinv.shape
  have hrun := runSession_out hn fft ctx s (2 ^ D) H sts' S g1 (by
    intro x hx
    simp only [sts', List.mem_map] at hx
    obtain ⟨y, hy, rfl⟩ := hx
    exact ⟨(hval y hy).1, foldReducer_valid _ _⟩) (by simp [outServer, colsOf, hrow, hlen]) hinv.ctx_eq
  rw [hm1, r1, Option.map_some, hm2] at hrun
  exact ⟨_, pts, g1, _, g', hout, e3, hrun⟩

/-- **C86** (batches, end to end) Any sequence of batch accesses in memory, from setup: every response row that serves an item holds the words of
the content of that item before the batch. -/
theorem C86_batches {t : Scalar} {ctx : Ctx} (hcd : Codec.new t = some ctx.codec) (hn : 0 < n) {fft : Fft n} {phi : Nat}
    (hf : fft.Bounded phi) {s : Poly n} (hs : Binary s) (shuffle : List Nat → List Nat) (hshf : ∀ l, (shuffle l).Perm l) {hc N : Nat}
    {H : NaiveHash} (hnew : NaiveHash.new shuffle hc N = some H) {D rows : Nat} (hD1 : 1 ≤ D) (hD : D < 64) (hpos : 0 < rows)
    (hsize : rows * 2 ^ D = hc * N) (h1 : 1 ≤ ctx.baseLog) (h2 : 1 ≤ ctx.levelCount) (h3 : ctx.baseLog * ctx.levelCount < 64)
    (hn1 : ctx.negsBaseLog = ctx.baseLog) (hn2 : 1 ≤ ctx.negsLevelCount) (hn3 : ctx.negsBaseLog * ctx.negsLevelCount < 64)
    {g : Gen n} {B : Nat} (hg : g.Bounded B) (cmds : List (BatchCmd n)) (hval : ∀ c ∈ cmds, c.Valid N t)
    (hb : 2 * (B + cmds.length * ((2 * hc - 1) * (deltaOp ctx n B phi + deltaSel ctx n B phi D)) + 2 ^ D * deltaSel ctx n B phi D)
        < 2 ^ 64 / t.toNat) :
    ∃ (T : Server) (pts : List (Poly n)) (g1 : Gen n) (yss : List (List (Poly n))) (T' : Server) (g' : Gen n), setupRandomOram ctx (out s) rows (2 ^ D) H g = some (T, pts.map out, g1) ∧ pts.length = N ∧
      runBatches fft ctx s rows (2 ^ D) H cmds T g1 = some (yss.map (List.map out), T', g') ∧
      Spec.batchOk H (2 ^ D) (fun i => pts.getD i 0) cmds yss := by
  obtain ⟨S, pts, g1, yss, S', g', hset, e3, hrun, hok⟩ := C47_from_setup hcd hn hf hs shuffle hshf hnew hD1 hD hpos hsize h1 h2 h3 hn1 hn2 hn3 hg
    cmds hval hb
  have hout := setup_out hn ctx s rows (2 ^ D) H g (by omega) (by rw [← hn1]; omega)
  rw [hset, Option.map_some] at hout
  have hr := runBatches_out hn fft ctx s rows (2 ^ D) H cmds S g1
  rw [hrun, Option.map_some] at hr
  exact ⟨_, pts, g1, yss, _, g', hout, e3, hr, hok⟩

/-! ## Non-vacuity -/

/-- The sequential reductions on word vectors. -/
def foldFlat (n : Nat) (ctx : Ctx) (cols : Nat) : FlatReducer :=
  ⟨fun xs => xs.foldlM (fun a b => some (updateWithAdd n a b)) (allocate n), fun xs => xs.foldlM (addVec n) (List.replicate cols (allocate n)),
    fun xs => xs.foldlM addGswVec (List.replicate cols (ggswAllocate n ctx.baseLog ctx.levelCount))⟩

theorem foldFlat_valid (ctx : Ctx) (cols : Nat) : (foldFlat n ctx cols).Valid n ctx cols :=
  ⟨fun xs => .fold xs, fun xs => .fold xs, fun xs => .fold xs⟩

/-- The session of C54 in memory: 4 items, a multi call writing items 2 and 3 and reading item 1, a read of 2, a multi read of 3 and 2. -/
example : ∃ (T : Server) (pts : List (Poly 4)) (g1 : Gen 4) (T' : Server) (g' : Gen 4), setupRandomOram exTreeCtx (out exKey) 1 4 ⟨(List.range 4).reverse, 1, 4⟩ exGen = some (T, pts.map out, g1) ∧
    runSession exFft exTreeCtx exKey 4 ⟨(List.range 4).reverse, 1, 4⟩
      [(foldFlat 4 exTreeCtx 4, .multi [.write 2 ⟨fun _ => 7⟩, .read 1, .write 3 ⟨fun _ => 9⟩]),
       (foldFlat 4 exTreeCtx 4, .one (.read 2)), (foldFlat 4 exTreeCtx 4, .multi [.read 3, .read 2])] T g1
      = some ([[out (pts.getD 2 0), out (pts.getD 1 0), out (pts.getD 3 0)], [[7, 7, 7, 7]], [[9, 9, 9, 9], [7, 7, 7, 7]]], T', g') := by
  obtain ⟨S, pts, g1, S', g', h1, _, h2⟩ := C86_session (t := 16) (ctx := exTreeCtx) (by decide) (by decide) exFft_bounded exKey_binary
    List.reverse (fun l => List.reverse_perm l) (hc := 1) (N := 4) (H := ⟨(List.range 4).reverse, 1, 4⟩) rfl (D := 2) (by decide)
    (by decide) (by decide) (by decide) (by decide) (by decide) rfl (by decide) (by decide) exGen_bounded
    [(foldFlat 4 exTreeCtx 4, .multi [.write 2 ⟨fun _ => 7⟩, .read 1, .write 3 ⟨fun _ => 9⟩]),
       (foldFlat 4 exTreeCtx 4, .one (.read 2)), (foldFlat 4 exTreeCtx 4, .multi [.read 3, .read 2])]
    (by
      have h7 : Spec.Encodable (16 : Scalar) (⟨fun _ => 7⟩ : Poly 4) := fun k => by show (7 : Scalar).toNat < _; decide
      have h9 : Spec.Encodable (16 : Scalar) (⟨fun _ => 9⟩ : Poly 4) := fun k => by show (9 : Scalar).toNat < _; decide
      intro c hc
      simp only [List.mem_cons, List.not_mem_nil, or_false] at hc
      rcases hc with rfl | rfl | rfl
      · refine ⟨foldFlat_valid _ _, ?_, by simp [Call.cmds, Cmd.index]⟩
        intro c hc
        simp only [Call.cmds, List.mem_cons, List.not_mem_nil, or_false] at hc
        rcases hc with rfl | rfl | rfl
        · exact ⟨by decide, h7⟩
        · show _ < _; decide
        · exact ⟨by decide, h9⟩
      · refine ⟨foldFlat_valid _ _, ?_, by simp [Call.cmds, Cmd.index]⟩
        intro c hc
        simp only [Call.cmds, List.mem_cons, List.not_mem_nil, or_false] at hc
        subst hc
        show _ < _; decide
      · refine ⟨foldFlat_valid _ _, ?_, by simp [Call.cmds, Cmd.index]⟩
        intro c hc
        simp only [Call.cmds, List.mem_cons, List.not_mem_nil, or_false] at hc
        rcases hc with rfl | rfl
        · show _ < _; decide
        · show _ < _; decide) (by decide)
  exact ⟨S, pts, g1, S', g', h1, h2⟩

/-- The combining function indexes the second vector: a shorter one is a panic, and a split reduction of three vectors. -/
example : addVec 1 [[1, 2], [3, 4]] [[5, 6]] = none := by decide
example : addVec 1 [[1, 2], [3, 4]] [[5, 6], [7, 8]] = some [[6, 8], [10, 12]] := by decide
example : ParReduceM (addVec 1) [[0, 0]] [[[1, 2]], [[3, 4]], [[5, 6]]] (some [[9, 12]]) :=
  ParReduceM.split (ParReduceM.fold [[[1, 2]]]) (ParReduceM.fold [[[3, 4]], [[5, 6]]])
example : put2 [[1, 2], [3]] 1 0 9 = some [[1, 2], [9]] := by decide
example : put2 [[1, 2], [3]] 1 1 9 = none := by decide

end Flat
end Panacea
