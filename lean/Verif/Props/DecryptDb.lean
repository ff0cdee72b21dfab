import Verif.Props.Batch
import Verif.Props.Utils
import Verif.Props.OramShape
import Verif.Props.Sched

/-!
# C59: the debugging view `Server::decrypt_db`
-/

namespace Panacea
variable {n : Nat}

/-- The plaintext coefficients of `p` as a list, as `PlaintextList` iterates them. -/
theorem mem_take_coeffs {p : Poly n} {x : Scalar} : x ∈ ((List.finRange n).map fun k => p k).take 64 ↔ ∃ k : Fin n, k.val < 64 ∧ p k = x := by
  rw [List.mem_iff_getElem?]
  constructor
  · rintro ⟨i, hi⟩
    rw [List.getElem?_take] at hi
    split at hi
    · rename_i h64
      rw [List.getElem?_map, Option.map_eq_some_iff] at hi
      obtain ⟨k, hk, rfl⟩ := hi
      rw [List.getElem?_eq_some_iff] at hk
      obtain ⟨h1, h2⟩ := hk
      refine ⟨k, ?_, rfl⟩
      rw [← h2, List.getElem_finRange]
      simpa using h64
    · cases hi
  · rintro ⟨k, hk, rfl⟩
    refine ⟨k.val, ?_⟩
    rw [List.getElem?_take, if_pos hk, List.getElem?_map, List.getElem?_eq_getElem (by simp)]
    simp

/-- What `decrypt_db` shows for a cell with content `p`: bit `b` (`b < 64`) is coefficient `b`. -/
def Spec.Shows (w : Nat) (p : Poly n) : Prop := w < 2 ^ 64 ∧ ∀ b, w.testBit b = true ↔ b < 64 ∧ ∃ k : Fin n, k.val = b ∧ p k = 1

/-- The first 64 coefficients of `p` are bits. -/
def Spec.BinaryHead (p : Poly n) : Prop := ∀ k : Fin n, k.val < 64 → p k = 0 ∨ p k = 1

theorem lossy_coeffs (p : Poly n) :
    (ptToLossyU64 ((List.finRange n).map fun k => p k) = none ↔ ¬ Spec.BinaryHead p) ∧
    ∀ w, ptToLossyU64 ((List.finRange n).map fun k => p k) = some w → Spec.Shows w p := by
  have hnone : ptToLossyU64 ((List.finRange n).map fun k => p k) = none ↔ ¬ Spec.BinaryHead p := by
    rw [C08_lossy_panics]
    unfold Spec.BinaryHead
    constructor
    · rintro ⟨x, hx, hb⟩ h
      obtain ⟨k, hk, rfl⟩ := mem_take_coeffs.mp hx
      exact hb (h k hk)
    · intro h
      rw [not_forall] at h
      obtain ⟨k, hk⟩ := h
      rw [Classical.not_imp] at hk
      exact ⟨p k, mem_take_coeffs.mpr ⟨k, hk.1, rfl⟩, hk.2⟩
  refine ⟨hnone, fun w hw => ?_⟩
  have hb : Spec.BinaryHead p := by
    by_contra h
    rw [hnone.mpr h] at hw; cases hw
  obtain ⟨r, h1, h2, h3⟩ := C08_lossy_bits ((List.finRange n).map fun k => p k) (fun x hx => by
    obtain ⟨k, hk, rfl⟩ := mem_take_coeffs.mp hx
    exact hb k hk)
  rw [hw] at h1
  cases h1
  refine ⟨h2, fun b => ?_⟩
  rw [h3 b]
  refine and_congr_right fun _ => ?_
  rw [List.getElem?_map, Option.map_eq_some_iff]
  constructor
  · rintro ⟨k, hk, hv⟩
    rw [List.getElem?_eq_some_iff] at hk
    obtain ⟨a, hk⟩ := hk
    refine ⟨k, ?_, hv⟩
    rw [← hk, List.getElem_finRange]; rfl
  · rintro ⟨k, rfl, hv⟩
    refine ⟨k, ?_, hv⟩
    rw [List.getElem?_eq_getElem (by simp)]
    simp

theorem mapOption_eq_none {α β : Type} {f : α → Option β} : ∀ {l : List α}, mapOption f l = none → ∃ a ∈ l, f a = none
  | [], h => by simp [mapOption] at h
  | a :: as, h => by
    rw [mapOption] at h
    rcases hf : f a with _ | b
    · exact ⟨a, by simp, hf⟩
    · rw [hf] at h
      rcases hr : mapOption f as with _ | bs
      · obtain ⟨a', h1, h2⟩ := mapOption_eq_none hr
        exact ⟨a', by simp [h1], h2⟩
      · rw [hr] at h; cases h

theorem mapOption_getElem? {α β : Type} {f : α → Option β} : ∀ {l : List α} {bs : List β}, mapOption f l = some bs →
    ∀ (i : Nat) (b : β), bs[i]? = some b → ∃ a, l[i]? = some a ∧ f a = some b
  | [], bs, h, i, b, hb => by
    simp only [mapOption, Option.some.injEq] at h
    subst h; simp at hb
  | a :: as, bs, h, i, b, hb => by
    rw [mapOption] at h
    rcases hf : f a with _ | b0
    · rw [hf] at h; cases h
    rw [hf] at h
    rcases hr : mapOption f as with _ | bs0
    · rw [hr] at h; cases h
    rw [hr] at h
    simp only [Option.some.injEq] at h
    subst h
    cases i with
    | zero =>
      simp only [List.getElem?_cons_zero, Option.some.injEq] at hb
      subst hb
      exact ⟨a, rfl, hf⟩
    | succ i =>
      rw [List.getElem?_cons_succ] at hb
      obtain ⟨a', h1, h2⟩ := mapOption_getElem? hr i b hb
      exact ⟨a', by rw [List.getElem?_cons_succ]; exact h1, h2⟩

/-- C59: for a `rows x cols` database whose cells encrypt (encodings of) the plaintexts `U` with noise below half the encoding step,
`decrypt_db` panics iff some cell has a coefficient other than 0 and 1 among its first 64; otherwise it returns a `rows x cols` table showing
exactly the first 64 coefficients of every cell. -/
theorem C59_decrypt_db {t : Scalar} {S : Server n} (hcd : Codec.new t = some S.ctx.codec) {s : Poly n} {rows cols : Nat}
    (hsh : DbShape rows cols S.data) {U : Nat × Nat → Poly n} {e : Nat}
    (hU : ∀ p c, cellAt S.data p = some c → ∃ enc, S.ctx.codec.polyEncode (U p) = some enc ∧ Enc s c enc e)
    (he : 2 * e < 2 ^ 64 / t.toNat) :
    (S.decryptDb s = none ↔ ∃ r c, r < rows ∧ c < cols ∧ ¬ Spec.BinaryHead (U (r, c))) ∧
    ∀ out, S.decryptDb s = some out → out.length = rows ∧ ∀ (r : Nat) (row : List Nat), out[r]? = some row →
      row.length = cols ∧ ∀ (c w : Nat), row[c]? = some w → Spec.Shows w (U (r, c)) := by
  have hdec : ∀ p c, cellAt S.data p = some c → decryptDecodeRlwe S.ctx s c = U p := fun p c h => by
    obtain ⟨enc, h1, h2⟩ := hU p c h
    exact decryptDecode_of_enc hcd h1 h2 he
  constructor
  · constructor
    · intro h
      obtain ⟨row, h1, h2⟩ := mapOption_eq_none h
      obtain ⟨v, h3, h4⟩ := mapOption_eq_none h2
      obtain ⟨r, hr⟩ := List.mem_iff_getElem?.mp h1
      obtain ⟨c, hc⟩ := List.mem_iff_getElem?.mp h3
      have hcell : cellAt S.data (r, c) = some v := by rw [cellAt_row hr]; exact hc
      have hlt := cellAt_some_lt hsh hcell
      refine ⟨r, c, hlt.1, hlt.2, ?_⟩
      rw [hdec _ _ hcell] at h4
      exact (lossy_coeffs (U (r, c))).1.mp h4
    · rintro ⟨r, c, hr, hc, hb⟩
      obtain ⟨v, hv⟩ := cellAt_isSome hsh (p := (r, c)) hr hc
      have hv' := hv
      unfold cellAt at hv'
      split at hv'
      · cases hv'
      rename_i row hrow
      refine mapOption_none (a := row) (List.mem_of_getElem? hrow) (mapOption_none (a := v) (List.mem_of_getElem? hv') ?_)
      rw [hdec _ _ hv]
      exact (lossy_coeffs (U (r, c))).1.mpr hb
  · intro out hout
    unfold Server.decryptDb at hout
    refine ⟨?_, fun r row hrow => ?_⟩
    · have := mapOption_length hout
      rw [this, hsh.1]
    obtain ⟨crow, h1, h2⟩ := mapOption_getElem? hout r row hrow
    refine ⟨?_, fun c w hw => ?_⟩
    · have := mapOption_length h2
      rw [this]
      exact hsh.2 crow (List.mem_of_getElem? h1)
    obtain ⟨v, h3, h4⟩ := mapOption_getElem? h2 c w hw
    have hcell : cellAt S.data (r, c) = some v := by rw [cellAt_row h1]; exact h3
    rw [hdec _ _ hcell] at h4
    exact (lossy_coeffs (U (r, c))).2 w h4

theorem processBatch_ctx {fft : Fft n} {S S' : Server n} {qs : List (ClientQuery n)} {H : NaiveHash} {ys : List (RLWE n)}
    (h : S.processBatch fft qs H = some (ys, S')) : S'.ctx = S.ctx := by
  unfold Server.processBatch at h
  split at h
  · split at h
    · cases h
    · simp only at h
      split at h
      · cases h
      · split at h
        · cases h
        · split at h
          · cases h
          · cases h; rfl
  · cases h

theorem runBatches_ctx {fft : Fft n} {ctx : Ctx} {s : Poly n} {rows cols : Nat} {H : NaiveHash} : ∀ {cmds : List (BatchCmd n)}
    {S S' : Server n} {g g' : Gen n} {yss : List (List (Poly n))},
    runBatches fft ctx s rows cols H cmds S g = some (yss, S', g') → S'.ctx = S.ctx
  | [], S, S', g, g', yss, h => by
    simp only [runBatches, Option.some.injEq, Prod.mk.injEq] at h
    rw [h.2.1]
  | c :: cs, S, S', g, g', yss, h => by
    rw [runBatches] at h
    split at h
    · cases h
    · split at h
      · cases h
      · rename_i hp
        split at h
        · cases h
        · rename_i hr
          simp only [Option.some.injEq, Prod.mk.injEq] at h
          rw [← h.2.1, runBatches_ctx hr, processBatch_ctx hp]

/-- C59 (after a history): set up a random ORAM, run any history of valid batch commands within the noise budget, then call `decrypt_db`: it
panics iff the current content of some item has a non-bit among its first 64 coefficients; otherwise cell `hash_to_tuple(h, i)` shows the
current content of item `i`, for every hash function `h`. -/
theorem C59_after_batches {t : Scalar} {ctx : Ctx} (hcd : Codec.new t = some ctx.codec) (hn : 0 < n) {fft : Fft n} {phi : Nat}
    (hf : fft.Bounded phi) {s : Poly n} (hs : Binary s) (shuffle : List Nat → List Nat) (hshf : ∀ l, (shuffle l).Perm l) {hc N : Nat}
    {H : NaiveHash} (hnew : NaiveHash.new shuffle hc N = some H) {D rows : Nat} (hD1 : 1 ≤ D) (hD : D < 64) (hpos : 0 < rows)
    (hsize : rows * 2 ^ D = hc * N) (h1 : 1 ≤ ctx.baseLog) (h2 : 1 ≤ ctx.levelCount) (h3 : ctx.baseLog * ctx.levelCount < 64)
    (hn1 : ctx.negsBaseLog = ctx.baseLog) (hn2 : 1 ≤ ctx.negsLevelCount) (hn3 : ctx.negsBaseLog * ctx.negsLevelCount < 64)
    {g : Gen n} {B : Nat} (hg : g.Bounded B) (cmds : List (BatchCmd n)) (hval : ∀ c ∈ cmds, c.Valid N t)
    (hb : 2 * (B + cmds.length * ((2 * hc - 1) * (deltaOp ctx n B phi + deltaSel ctx n B phi D)) + 2 ^ D * deltaSel ctx n B phi D)
        < 2 ^ 64 / t.toNat) :
    ∃ S pts g1 yss S' g', setupRandomOram ctx s rows (2 ^ D) H g = some (S, pts, g1) ∧
      runBatches fft ctx s rows (2 ^ D) H cmds S g1 = some (yss, S', g') ∧
      (S'.decryptDb s = none ↔ ∃ i < N, ¬ Spec.BinaryHead (cmds.foldl (Spec.applyBatch H (2 ^ D)) (fun i => pts.getD i 0) i)) ∧
      ∀ out, S'.decryptDb s = some out → ∀ h i, h < hc → i < N → ∃ p row w, H.hashToTuple h i (2 ^ D) = some p ∧
        out[p.1]? = some row ∧ row[p.2]? = some w ∧ Spec.Shows w (cmds.foldl (Spec.applyBatch H (2 ^ D)) (fun i => pts.getD i 0) i) := by
  obtain ⟨T, L⟩ := layout_of_hash shuffle hshf hnew (rows := rows) (cols := 2 ^ D) (by positivity) hsize
  obtain ⟨S, pts, g1, hset, e3, e2, hc', hkeys, e4, e7⟩ := setup_consistent hcd hs shuffle hshf hnew hsize L h1 h2 h3 hn1 hn2 hn3 hg
  obtain ⟨yss, S', g', r1, _, r3, r4⟩ := C47_history hcd hn hf hs shuffle hshf hnew hD1 hD hpos hsize L cmds _ B S g1
    (le_refl B) e2 hc' hkeys e4 e7 hval hb
  set V := cmds.foldl (Spec.applyBatch H (2 ^ D)) (fun i => pts.getD i 0) with hV
  have hctx' : S'.ctx = ctx := by rw [runBatches_ctx r1, hc']
  -- the item in a cell
  have hitem : ∀ p : Nat × Nat, ∃ i, p.1 < rows → p.2 < 2 ^ D → i < N ∧ ∃ h < hc, T h i = p := fun p => by
    by_cases hp : p.1 < rows ∧ p.2 < 2 ^ D
    · obtain ⟨h, i, a, b, c⟩ := L.surj p.1 p.2 hp.1 hp.2
      exact ⟨i, fun _ _ => ⟨b, h, a, c⟩⟩
    · exact ⟨0, fun a b => absurd ⟨a, b⟩ hp⟩
  choose item hitem using hitem
  have hUT : ∀ h i, h < hc → i < N → item (T h i) = i := fun h i hh hi => by
    obtain ⟨a, h', b, c⟩ := hitem (T h i) (L.row_lt h i hh hi) (L.col_lt h i hh hi)
    exact (L.inj _ _ _ _ b a hh hi c).2
  obtain ⟨q1, q2⟩ := C59_decrypt_db (t := t) (S := S') (s := s) (by rw [hctx']; exact hcd) r3 (U := fun p => V (item p))
    (e := B + cmds.length * ((2 * hc - 1) * (deltaOp ctx n B phi + deltaSel ctx n B phi D))) (by
      intro p c hcell
      obtain ⟨a, b⟩ := cellAt_some_lt r3 hcell
      obtain ⟨hi, h, hh, hT⟩ := hitem p a b
      obtain ⟨ct, enc, c1, c2, c3⟩ := r4 h (item p) hh hi
      rw [hT, hcell] at c1
      cases c1
      exact ⟨enc, by rw [hctx']; exact c2, c3⟩) (by omega)
  refine ⟨S, pts, g1, yss, S', g', hset, r1, ?_, ?_⟩
  · rw [q1]
    constructor
    · rintro ⟨r, c, hr, hcc, hbad⟩
      exact ⟨item (r, c), (hitem (r, c) hr hcc).1, hbad⟩
    · rintro ⟨i, hi, hbad⟩
      have hcpos : 0 < hc := by
        rcases Nat.eq_zero_or_pos hc with h0 | h0
        · have := (C09_new_panics shuffle hc N).mpr h0
          rw [hnew] at this; cases this
        · exact h0
      refine ⟨(T 0 i).1, (T 0 i).2, L.row_lt 0 i hcpos hi, L.col_lt 0 i hcpos hi, ?_⟩
      rw [show ((T 0 i).1, (T 0 i).2) = T 0 i from rfl, hUT 0 i hcpos hi]
      exact hbad
  · intro out hout h i hh hi
    obtain ⟨l1, l2⟩ := q2 out hout
    have hr := L.row_lt h i hh hi
    have hcl := L.col_lt h i hh hi
    have g1 : out[(T h i).1]? = some out[(T h i).1] := List.getElem?_eq_getElem (by omega)
    obtain ⟨l3, l4⟩ := l2 _ _ g1
    have g2 : (out[(T h i).1])[(T h i).2]? = some (out[(T h i).1])[(T h i).2] := List.getElem?_eq_getElem (by omega)
    refine ⟨T h i, _, _, L.tuple h i hh hi, g1, g2, ?_⟩
    have := l4 _ _ g2
    rw [show ((T h i).1, (T h i).2) = T h i from rfl, hUT h i hh hi] at this
    exact this

/-- C59 (FINDING): right after `setup_random_oram`, whose items are uniform in the plaintext space, `decrypt_db` panics already for a small
plaintext modulus (16): it is usable only when every item is binary. -/
theorem C59_random_setup_panics :
    (setupRandomOram exTreeCtx exKey 3 4 exHash exGen).map (fun x => x.1.decryptDb exKey) = some none := by
  decide +kernel

/-- The view is not always a panic: a 1 x 2 database of two binary items. -/
example : ∃ S : Server 4, DbShape 1 2 S.data ∧ S.decryptDb exKey = some [[5, 8]] :=
  ⟨⟨[[⟨0, ⟨fun k => if k.val = 0 ∨ k.val = 2 then 2 ^ 60 else 0⟩⟩, ⟨0, ⟨fun k => if k.val = 3 then 2 ^ 60 else 0⟩⟩]],
    RGSW.allocate 4 3 20, exTreeCtx⟩, ⟨rfl, by simp⟩, by decide +kernel⟩

example : ∃ S pts g1 yss S' g', setupRandomOram exTreeCtx exKey 3 4 exHash exGen = some (S, pts, g1) ∧
    runBatches exFft exTreeCtx exKey 3 4 exHash [.write [2, 0] ⟨fun _ => 1⟩, .read [0, 1]] S g1 = some (yss, S', g') ∧
    (S'.decryptDb exKey = none ↔ ∃ i < 4, ¬ Spec.BinaryHead
      ([.write [2, 0] ⟨fun _ => 1⟩, .read [0, 1]].foldl (Spec.applyBatch exHash 4) (fun i => pts.getD i 0) i)) := by
  obtain ⟨S, pts, g1, yss, S', g', h1, h2, h3, _⟩ := C59_after_batches (t := 16) (ctx := exTreeCtx) (by decide) (by decide) exFft_bounded
    exKey_binary exShuffle exShuffle_perm exHash_new (D := 2) (rows := 3) (by decide) (by decide) (by decide) (by decide) (by decide)
    (by decide) (by decide) rfl (by decide) (by decide) exGen_bounded [.write [2, 0] ⟨fun _ => 1⟩, .read [0, 1]] (by
      intro c hc
      simp only [List.mem_cons, List.not_mem_nil, or_false] at hc
      rcases hc with rfl | rfl
      · exact ⟨by decide, fun k => by show (1 : Scalar).toNat < _; decide⟩
      · exact (by decide : [0, 1].Nodup ∧ ∀ i ∈ [0, 1], i < 4)) (by decide)
  exact ⟨S, pts, g1, yss, S', g', h1, h2, h3⟩

end Panacea
