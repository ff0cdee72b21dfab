import Verif.Spec.Session
import Verif.Props.OramSetup
import Verif.Props.Multi
import Verif.Props.Batch

/-!
# C54: sessions mixing `process_one` and `process_multi`
-/

namespace Panacea
variable {n : Nat}

/-- The columns hold the encoded items. -/
def Stores (ctx : Ctx) (H : NaiveHash) (D N : Nat) (v vc : Nat → Poly n) : Prop :=
  ∀ i c, i < N → H.hashToTuple 0 i (2 ^ D) = some (0, c) → ctx.codec.polyEncode (v i) = some (vc c)

/-- The query `sp` carries the command `cmd`. -/
def Carries (ctx : Ctx) (H : NaiveHash) (D : Nat) (cmd : Cmd n) (sp : QuerySpec n) : Prop :=
  H.hashToTuple 0 cmd.index (2 ^ D) = some (0, sp.i) ∧ CmdKind ctx cmd sp.w sp.m

theorem stores_apply {ctx : Ctx} {H : NaiveHash} {D N : Nat}
    (hinj : ∀ i j c, i < N → j < N → H.hashToTuple 0 i (2 ^ D) = some (0, c) → H.hashToTuple 0 j (2 ^ D) = some (0, c) → i = j)
    {v vc : Nat → Poly n} (h : Stores ctx H D N v vc) {cmd : Cmd n} {sp : QuerySpec n} (hlt : cmd.index < N)
    (hc : Carries ctx H D cmd sp) : Stores ctx H D N (Spec.apply v cmd) (sp.effect vc) := by
  obtain ⟨ht, hk⟩ := hc
  intro i c hi hti
  cases cmd with
  | read j =>
    have hk : sp.w = false := hk
    simp only [Spec.apply, QuerySpec.effect, hk, Bool.false_eq_true, if_false]
    exact h i c hi hti
  | write j a =>
    obtain ⟨hk, hm⟩ := hk
    simp only [Cmd.index] at ht hlt
    simp only [Spec.apply, QuerySpec.effect, hk, if_true]
    by_cases hij : i = j
    · subst hij
      rw [hti] at ht
      simp only [Option.some.injEq, Prod.mk.injEq, true_and] at ht
      subst ht
      simp only [Function.update_self]
      exact hm
    · have : c ≠ sp.i := fun hcs => hij (hinj i j c hi hlt hti (by rw [hcs]; exact ht))
      simp only [Function.update_of_ne hij, Function.update_of_ne this]
      exact h i c hi hti

theorem stores_fold {ctx : Ctx} {H : NaiveHash} {D N : Nat}
    (hinj : ∀ i j c, i < N → j < N → H.hashToTuple 0 i (2 ^ D) = some (0, c) → H.hashToTuple 0 j (2 ^ D) = some (0, c) → i = j) :
    ∀ {cs : List (Cmd n)} {sps : List (QuerySpec n)}, List.Forall₂ (Carries ctx H D) cs sps → (∀ c ∈ cs, c.index < N) →
    ∀ {v vc : Nat → Poly n}, Stores ctx H D N v vc → Stores ctx H D N (cs.foldl Spec.apply v) (sps.foldl QuerySpec.effect vc)
  | _, _, .nil, _, _, _, h => h
  | _, _, .cons hc hcs, hlt, _, _, h =>
    stores_fold hinj hcs (fun c hc' => hlt c (by simp [hc'])) (stores_apply hinj h (hlt _ (by simp)) hc)

theorem carries_nodup {ctx : Ctx} {H : NaiveHash} {D N : Nat}
    (hinj : ∀ i j c, i < N → j < N → H.hashToTuple 0 i (2 ^ D) = some (0, c) → H.hashToTuple 0 j (2 ^ D) = some (0, c) → i = j)
    {cs : List (Cmd n)} {sps : List (QuerySpec n)} (h : List.Forall₂ (Carries ctx H D) cs sps) (hlt : ∀ c ∈ cs, c.index < N)
    (hnd : (cs.map Cmd.index).Nodup) : (sps.map QuerySpec.i).Nodup := by
  induction h with
  | nil => simp
  | @cons c sp cs sps hc hcs ih =>
    rw [List.map_cons, List.nodup_cons] at hnd ⊢
    refine ⟨fun hmem => ?_, ih (fun c hc => hlt c (by simp [hc])) hnd.2⟩
    obtain ⟨sp', hsp, heq⟩ := List.mem_map.mp hmem
    obtain ⟨k, hk⟩ := List.mem_iff_getElem?.mp hsp
    obtain ⟨c', hc', hcar⟩ := forall₂_getElem hcs hk
    have := hinj c.index c'.index sp.i (hlt c (by simp)) (hlt c' (by simp [List.mem_of_getElem? hc'])) hc.1
      (by rw [← heq]; exact hcar.1)
    exact hnd.1 (by rw [this]; exact List.mem_map_of_mem (List.mem_of_getElem? hc'))

/-- The client's queries for a list of commands. -/
theorem clientQueries {t : Scalar} {ctx : Ctx} (hcd : Codec.new t = some ctx.codec) (h1 : 1 ≤ ctx.baseLog) (h2 : 1 ≤ ctx.levelCount)
    (h3 : ctx.baseLog * ctx.levelCount < 64) (s : Poly n) (shuffle : List Nat → List Nat) (hsh : ∀ l, (shuffle l).Perm l) {hc N : Nat}
    {H : NaiveHash} (hnew : NaiveHash.new shuffle hc N = some H) {D : Nat} (hD : D < 64)
    (htup : ∀ i, i < N → ∃ c, H.hashToTuple 0 i (2 ^ D) = some (0, c)) {B : Nat} : ∀ (cs : List (Cmd n)), (∀ c ∈ cs, c.Valid N t) →
    ∀ {g : Gen n}, g.Bounded B →
    ∃ qs specs g', mapGenM (clientQuery ctx s 1 (2 ^ D) H) cs g = some (qs, g') ∧ g'.Bounded B ∧ IsQueries ctx s D B specs qs ∧
      List.Forall₂ (Carries ctx H D) cs specs
  | [], _, g, hg => ⟨[], [], g, rfl, hg, .nil, .nil⟩
  | c :: cs, hv, g, hg => by
    obtain ⟨col, ht⟩ := htup c.index (hv c (by simp)).lt
    obtain ⟨q, g1, w, m, q1, q2, q3, q4⟩ := clientQuery_one hcd h1 h2 h3 s shuffle hsh hnew hD (hv c (by simp)) ht hg
    obtain ⟨qs, specs, g', r1, r2, r3, r4⟩ := clientQueries hcd h1 h2 h3 s shuffle hsh hnew hD htup cs (fun c hc => hv c (by simp [hc])) q2
    exact ⟨q :: qs, ⟨col, w, m⟩ :: specs, g', by simp only [mapGenM, q1, r1], r2, .cons q3 r3, .cons ⟨ht, q4⟩ r4⟩

/-- C54: a session of `process_one` and `process_multi` calls -- any number of either, in any order, every call with pairwise distinct items,
whatever the parallel reductions do -- never panics and every decoded response is the content its item had before the call in the plain
array semantics, within the (linear) noise budget. -/
theorem C54_session {t : Scalar} {ctx : Ctx} (hcd : Codec.new t = some ctx.codec) (hn : 0 < n) {fft : Fft n} {phi : Nat}
    (hf : fft.Bounded phi) {s : Poly n} (hs : Binary s) (shuffle : List Nat → List Nat) (hsh : ∀ l, (shuffle l).Perm l) {hc N : Nat}
    {H : NaiveHash} (hnew : NaiveHash.new shuffle hc N = some H) {D : Nat} (hD1 : 1 ≤ D) (hD : D < 64) (hsize : 2 ^ D = hc * N) {B : Nat} :
    ∀ (sts : List (Reducer n × Call n)) (v : Nat → Poly n) (e : Nat) (S : Server n) (g : Gen n),
      B ≤ e → g.Bounded B → OneInv ctx s H D N B v e S →
      (∀ st ∈ sts, st.1.Valid ctx (2 ^ D) ∧ st.2.Valid N t) →
      2 * (e + sessionNoise ctx n B phi D (sts.map Prod.snd) + 2 ^ D * deltaSel ctx n B phi D) < 2 ^ 64 / t.toNat →
      ∃ S' g', runSession fft ctx s (2 ^ D) H sts S g = some (Spec.session v (sts.map Prod.snd), S', g') ∧ g'.Bounded B ∧
        OneInv ctx s H D N B ((sts.map Prod.snd).foldl (fun v st => st.cmds.foldl Spec.apply v) v)
          (e + sessionNoise ctx n B phi D (sts.map Prod.snd)) S' := by
  obtain ⟨b1, b2, _⟩ := C10_tuple_bijection shuffle hsh hc N H hnew 1 (2 ^ D) (by positivity) (by omega)
  have hcpos : 0 < hc := by
    rcases Nat.eq_zero_or_pos hc with h0 | h0
    · have : 0 < 2 ^ D := by positivity
      rw [hsize, h0] at this; omega
    · exact h0
  have htup : ∀ i, i < N → ∃ c, H.hashToTuple 0 i (2 ^ D) = some (0, c) := fun i hi => by
    obtain ⟨r, c, ht, hr, _⟩ := b1 0 i hcpos hi
    have : r = 0 := by omega
    subst this; exact ⟨c, ht⟩
  have hinj : ∀ i j c, i < N → j < N → H.hashToTuple 0 i (2 ^ D) = some (0, c) → H.hashToTuple 0 j (2 ^ D) = some (0, c) → i = j :=
    fun i j c hi hj h1 h2 => (b2 0 i 0 j (0, c) hcpos hi hcpos hj h1 h2).2
  intro sts
  induction sts with
  | nil =>
    intro v e S g _ hg hinv _ _
    exact ⟨S, g, rfl, hg, by simpa [sessionNoise] using hinv⟩
  | cons st sts ih =>
    intro v e S g he hg hinv hval hb
    obtain ⟨hred, hcs, hnd⟩ := hval st (by simp)
    obtain ⟨R, st⟩ := st
    have hk := hinv.keys
    have hnoise : sessionNoise ctx n B phi D (((R, st) :: sts).map Prod.snd)
        = callNoise ctx n B phi D st + sessionNoise ctx n B phi D (sts.map Prod.snd) := by simp [sessionNoise]
    rw [hnoise] at hb ⊢
    simp only at hred hcs hnd
    -- the step
    have hstep : ∃ y S1 g1, g1.Bounded B ∧ OneInv ctx s H D N B (st.cmds.foldl Spec.apply v) (e + callNoise ctx n B phi D st) S1 ∧
        y = st.cmds.map (fun c => v c.index) ∧
        ∀ r, runSession fft ctx s (2 ^ D) H sts S1 g1 = some r →
          runSession fft ctx s (2 ^ D) H ((R, st) :: sts) S g = some (y :: r.1, r.2) := by
      cases st with
      | one c =>
        have hc1 : c.Valid N t := hcs c (by simp [Call.cmds])
        obtain ⟨S1, g1, r1, r2⟩ := C43_history hcd hn hf hs shuffle hsh hnew hD1 hD hsize [(R.one, c)] v e S g he hg hinv
          (by intro x hx; simp only [List.mem_cons, List.not_mem_nil, or_false] at hx; subst hx; exact ⟨hred.one, hc1⟩)
          (by
            simp only [callNoise] at hb
            simp only [List.length_cons, List.length_nil]
            omega)
        have hg1 : ∃ q, clientQuery ctx s 1 (2 ^ D) H c g = some (q, g1) ∧ ∃ y, S.processOne R.one fft q = some (y, S1) ∧
            decryptDecodeRlwe ctx s y = v c.index := by
          unfold runHistory at r1
          split at r1
          · cases r1
          · rename_i q g2 hq
            split at r1
            · cases r1
            · rename_i y S2 hp
              simp only [runHistory] at r1
              simp only [List.map_cons, List.map_nil, Spec.run, Option.some.injEq, Prod.mk.injEq, List.cons.injEq, and_true] at r1
              obtain ⟨hy, rfl, rfl⟩ := r1
              exact ⟨q, hq, y, hp, hy⟩
        obtain ⟨q, q1, y, q2, q3⟩ := hg1
        obtain ⟨col, ht⟩ := htup c.index hc1.lt
        obtain ⟨q', g', w, m, p1, p2, _⟩ := clientQuery_one hcd hk.bl hk.lv hk.lt s shuffle hsh hnew hD hc1 ht hg
        rw [q1] at p1
        cases p1
        refine ⟨_, S1, g1, p2, by simpa [Call.cmds, callNoise] using r2, rfl, fun r hr => ?_⟩
        rw [runSession]
        simp only [q1, q2, hr, q3, Call.cmds, List.map_cons, List.map_nil]
      | multi cs =>
        obtain ⟨row, hS, hlen, vc, hrow, hitems⟩ := hinv.shape
        obtain ⟨qs, specs, g1, q1, q2, q3, q4⟩ := clientQueries hcd hk.bl hk.lv hk.lt s shuffle hsh hnew hD htup cs hcs hg
        have hk' : ServerKeys S.ctx s S.negS B := by rw [hinv.ctx_eq]; exact hk
        have hq' : IsQueries S.ctx s D B specs qs := by rw [hinv.ctx_eq]; exact q3
        have hlt : ∀ c ∈ cs, c.index < N := fun c hc => (hcs c hc).lt
        have hsn : (specs.map QuerySpec.i).Nodup := carries_nodup hinj q4 hlt hnd
        obtain ⟨ys, S1, row', h1, h2, h3, h4, h5, h6, h7⟩ := C44_distinct hn hf hs hk' hD1 hq' hsn hS hlen hrow hred.vec
          (by rw [hinv.ctx_eq]; exact hred.gsw)
        rw [hinv.ctx_eq] at h4 h6 h7
        have hlen2 : specs.length = cs.length := q4.length_eq.symm
        have hmax : max e B = e := by omega
        rw [hmax, hlen2] at h7
        have hy : ys.map (decryptDecodeRlwe ctx s) = cs.map (fun c => v c.index) := by
          apply List.ext_getElem?
          intro k
          rw [List.getElem?_map, List.getElem?_map]
          rcases hk2 : cs[k]? with _ | c
          · have : ys[k]? = none := List.getElem?_eq_none (by
              rw [← h6.length_eq, hlen2]; exact List.getElem?_eq_none_iff.mp hk2)
            rw [this]; rfl
          · obtain ⟨sp, hsp, hcar⟩ := forall₂_getElem_left q4 hk2
            obtain ⟨y, hy, henc⟩ := forall₂_getElem_left h6 hsp
            rw [hy, Option.map_some, Option.map_some]
            rw [decryptDecode_of_enc hcd (hitems c.index sp.i (hlt c (List.mem_of_getElem? hk2)) hcar.1) henc (by omega)]
        refine ⟨cs.map (fun c => v c.index), S1, g1, q2, ⟨h4, by rw [h3]; exact hk, row', by rw [h2], h5, specs.foldl QuerySpec.effect vc, ?_, ?_⟩, rfl, fun r hr => ?_⟩
        · show EncRow s row' (specs.foldl QuerySpec.effect vc) _
          simpa only [callNoise, Nat.add_assoc] using h7
        · exact stores_fold hinj q4 hlt hitems
        · rw [runSession]
          simp only [q1, h1, hr, hy]
    obtain ⟨y, S1, g1, t1, t2, t3, t4⟩ := hstep
    obtain ⟨S', g', i1, i2, i3⟩ := ih _ (e + callNoise ctx n B phi D st) S1 g1 (by omega) t1 t2 (fun x hx => hval x (by simp [hx])) (by omega)
    refine ⟨S', g', ?_, i2, ?_⟩
    · rw [t4 _ i1, t3]; rfl
    · rw [← Nat.add_assoc]; exact i3

/-- C54 (end to end): the same from `setup_random_oram`, starting with the plaintexts it returns. -/
theorem C54_from_setup {t : Scalar} {ctx : Ctx} (hcd : Codec.new t = some ctx.codec) (hn : 0 < n) {fft : Fft n} {phi : Nat}
    (hf : fft.Bounded phi) {s : Poly n} (hs : Binary s) (shuffle : List Nat → List Nat) (hsh : ∀ l, (shuffle l).Perm l) {hc N : Nat}
    {H : NaiveHash} (hnew : NaiveHash.new shuffle hc N = some H) {D : Nat} (hD1 : 1 ≤ D) (hD : D < 64) (hsize : 2 ^ D = hc * N)
    (h1 : 1 ≤ ctx.baseLog) (h2 : 1 ≤ ctx.levelCount) (h3 : ctx.baseLog * ctx.levelCount < 64)
    (hn1 : ctx.negsBaseLog = ctx.baseLog) (hn2 : 1 ≤ ctx.negsLevelCount) (hn3 : ctx.negsBaseLog * ctx.negsLevelCount < 64)
    {g : Gen n} {B : Nat} (hg : g.Bounded B) (sts : List (Reducer n × Call n))
    (hval : ∀ st ∈ sts, st.1.Valid ctx (2 ^ D) ∧ st.2.Valid N t)
    (hb : 2 * (B + sessionNoise ctx n B phi D (sts.map Prod.snd) + 2 ^ D * deltaSel ctx n B phi D) < 2 ^ 64 / t.toNat) :
    ∃ S pts g1 S' g', setupRandomOram ctx s 1 (2 ^ D) H g = some (S, pts, g1) ∧ pts.length = N ∧
      runSession fft ctx s (2 ^ D) H sts S g1 = some (Spec.session (fun i => pts.getD i 0) (sts.map Prod.snd), S', g') := by
  obtain ⟨S, pts, g1, hset, e3, e2, hinv⟩ := setup_oneInv hcd hs shuffle hsh hnew hsize h1 h2 h3 hn1 hn2 hn3 hg
  obtain ⟨S', g', r1, _⟩ := C54_session hcd hn hf hs shuffle hsh hnew hD1 hD hsize sts _ B _ g1 (le_refl B) e2 hinv hval hb
  exact ⟨_, pts, g1, S', g', hset, e3, r1⟩

/-- The sequential reductions. -/
def foldReducer (n : Nat) (ctx : Ctx) (cols : Nat) : Reducer n :=
  ⟨fun xs => xs.foldl (· + ·) 0, fun xs => xs.foldl addVec (List.replicate cols 0),
    fun xs => xs.foldl addGswVec (List.replicate cols (RGSW.allocate n ctx.baseLog ctx.levelCount))⟩

theorem foldReducer_valid (ctx : Ctx) (cols : Nat) : (foldReducer n ctx cols).Valid ctx cols :=
  ⟨fun xs => .fold xs, fun xs => .fold xs, fun xs => .fold xs⟩

/-- The hypotheses are met: 4 items; a multi call writing items 2 and 3 and reading item 1, a single read of 2, a multi read of 3 and 2. -/
example : ∃ S pts g1 S' g', setupRandomOram exTreeCtx exKey 1 4 ⟨(List.range 4).reverse, 1, 4⟩ exGen = some (S, pts, g1) ∧
    runSession exFft exTreeCtx exKey 4 ⟨(List.range 4).reverse, 1, 4⟩
      [(foldReducer 4 exTreeCtx 4, .multi [.write 2 ⟨fun _ => 7⟩, .read 1, .write 3 ⟨fun _ => 9⟩]),
       (foldReducer 4 exTreeCtx 4, .one (.read 2)), (foldReducer 4 exTreeCtx 4, .multi [.read 3, .read 2])] S g1
      = some ([[pts.getD 2 0, pts.getD 1 0, pts.getD 3 0], [⟨fun _ => 7⟩], [⟨fun _ => 9⟩, ⟨fun _ => 7⟩]], S', g') := by
  obtain ⟨S, pts, g1, S', g', h1, _, h2⟩ := C54_from_setup (t := 16) (ctx := exTreeCtx) (by decide) (by decide) exFft_bounded exKey_binary
    List.reverse (fun l => List.reverse_perm l) (hc := 1) (N := 4) (H := ⟨(List.range 4).reverse, 1, 4⟩) rfl (D := 2) (by decide)
    (by decide) (by decide) (by decide) (by decide) (by decide) rfl (by decide) (by decide) exGen_bounded
    [(foldReducer 4 exTreeCtx 4, .multi [.write 2 ⟨fun _ => 7⟩, .read 1, .write 3 ⟨fun _ => 9⟩]),
       (foldReducer 4 exTreeCtx 4, .one (.read 2)), (foldReducer 4 exTreeCtx 4, .multi [.read 3, .read 2])]
    (by
      have h7 : Spec.Encodable (16 : Scalar) (⟨fun _ => 7⟩ : Poly 4) := fun k => by show (7 : Scalar).toNat < _; decide
      have h9 : Spec.Encodable (16 : Scalar) (⟨fun _ => 9⟩ : Poly 4) := fun k => by show (9 : Scalar).toNat < _; decide
      intro c hc
      simp only [List.mem_cons, List.not_mem_nil, or_false] at hc
      rcases hc with rfl | rfl | rfl
      · refine ⟨foldReducer_valid _ _, ?_, by simp [Call.cmds, Cmd.index]⟩
        intro c hc
        simp only [Call.cmds, List.mem_cons, List.not_mem_nil, or_false] at hc
        rcases hc with rfl | rfl | rfl
        · exact ⟨by decide, h7⟩
        · show _ < _; decide
        · exact ⟨by decide, h9⟩
      · refine ⟨foldReducer_valid _ _, ?_, by simp [Call.cmds, Cmd.index]⟩
        intro c hc
        simp only [Call.cmds, List.mem_cons, List.not_mem_nil, or_false] at hc
        subst hc
        show _ < _; decide
      · refine ⟨foldReducer_valid _ _, ?_, by simp [Call.cmds, Cmd.index]⟩
        intro c hc
        simp only [Call.cmds, List.mem_cons, List.not_mem_nil, or_false] at hc
        rcases hc with rfl | rfl
        · show _ < _; decide
        · show _ < _; decide) (by decide)
  exact ⟨S, pts, g1, S', g', h1, h2⟩

end Panacea
