import Verif.Spec.Mixed
import Verif.Props.Session

/-!
# C98: any mixture of single, multi-query and batch calls, on any number of rows, is a grid of plain contents
-/

namespace Panacea
variable {n : Nat}

/-! ### A batch on a grid whose copies may differ -/

theorem batch_grid_core {fft : Fft n} {s : Poly n} {S : Server n} {D : Nat} {specs : List (QuerySpec n)} {qs : List (ClientQuery n)}
    (hql0 : specs.length = qs.length) {H : NaiveHash} {rows k N : Nat} {T : Nat → Nat → Nat × Nat}
    (L : Layout H rows (2 ^ D) (k + 1) N T) (hpos : 0 < rows) (hsize : rows * 2 ^ D = (k + 1) * N) (hrows : specs.length = rows)
    (hsh : DbShape rows (2 ^ D) S.data) {U : Nat × Nat → Poly n} {e E er eu δ : Nat} (hU : EncDb s S.data U e)
    (hok : ∀ (r : Nat) sp q row, specs[r]? = some sp → qs[r]? = some q → S.data[r]? = some row → ∀ v, EncRow s row v e →
      RowOk fft s S.ctx S.negS D q sp row v E er eu)
    (hflag : ∀ rs, mapOption (batchRow fft S) (qs.zip S.data) = some rs →
      (∀ (r : Nat) (sp : QuerySpec n), specs[r]? = some sp → ∃ ls, (rs.map Prod.snd)[r]? = some ls ∧ ls.length = 2 ^ D ∧
        ∀ j l, ls[j]? = some l → EncBit s l (decide (j = sp.i)) S.ctx.baseLog S.ctx.levelCount E) →
      FlagSel fft s (rs.map Prod.snd) (qs.map ClientQuery.op) specs rows (2 ^ D) δ
        (Corrected T (k + 1) N (phase1Db fft qs S.data (rs.map Prod.snd)))) :
    ∃ ys S', S.processBatch fft qs H = some (ys, S') ∧ S'.negS = S.negS ∧ S'.ctx = S.ctx ∧ DbShape rows (2 ^ D) S'.data ∧
      ys.length = rows ∧
      (∀ (r : Nat) (sp : QuerySpec n), specs[r]? = some sp → ∃ y, ys[r]? = some y ∧ Enc s y (U (r, sp.i)) er) ∧
      ∀ i, i < N → ∃ (V : RLWE n) (c : Nat → RLWE n), (∀ h, h < k + 1 → cellAt S'.data (T h i) = some V) ∧
        (∀ h, h < k + 1 → Enc s (c h) ((Spec.writes specs (T h i)).getD (U (T h i))) eu) ∧
        Enc s V (decryptRlwe s (c 0) + ((List.range k).map fun h =>
          if (Spec.writes specs (T (h + 1) i)).isSome then decryptRlwe s (c (h + 1)) - decryptRlwe s (c 0) else 0).sum)
          (k * (2 * δ)) := by
  obtain ⟨rs, r1, r2, r3, r4, r5⟩ := batch_phase1_of hql0 hrows hsh hU hok
  set data1 := phase1Db fft qs S.data (rs.map Prod.snd) with hd1
  have hF := hflag rs r1 (fun r sp hsp => by
    obtain ⟨y, ls, a1, _, a3, a4⟩ := r3 r sp hsp
    exact ⟨ls, by rw [List.getElem?_map, a1]; rfl, a3, a4⟩)
  have hcell : ∀ h i, ∃ c : RLWE n, h < k + 1 → i < N → cellAt data1 (T h i) = some c := by
    intro h i
    by_cases hh : h < k + 1 ∧ i < N
    · obtain ⟨c, hc⟩ := cellAt_isSome r4 (L.row_lt h i hh.1 hh.2) (L.col_lt h i hh.1 hh.2)
      exact ⟨c, fun _ _ => hc⟩
    · exact ⟨0, fun a b => absurd ⟨a, b⟩ hh⟩
  choose c hc using hcell
  obtain ⟨data2, a1, a2, a3, _⟩ := correctAll_spec hF L (c := c) (List.range N) data1 List.nodup_range
    (fun i hi => List.mem_range.mp hi) r4 (fun i hi h hh => hc h i hh (List.mem_range.mp hi)) (fun i hi h hh => by
      rw [List.mem_range] at hi
      exact ⟨⟨h, i, hh, hi, rfl, .inr (hc h i hh hi)⟩, ⟨h, i, hh, hi, rfl, .inl (hc 0 i (by omega) hi)⟩⟩)
  have hql : qs.length = S.data.length := by rw [← hql0, hsh.1]; exact hrows
  have hcols : S.cols = some (2 ^ D) := by
    unfold Server.cols
    rcases hd : S.data with _ | ⟨row, rest⟩
    · have := hsh.1; rw [hd] at this; simp at this; omega
    · have := hsh.2 row (by rw [hd]; simp)
      simp [this]
  have hN : S.data.length * 2 ^ D / H.hCount = N := by
    rw [hsh.1, L.count, hsize, Nat.mul_div_cancel_left _ (by omega)]
  refine ⟨rs.map Prod.fst, { S with data := data2 }, ?_, rfl, rfl, a2, by simp [r2], ?_, ?_⟩
  · unfold Server.processBatch
    rw [if_pos hql, r1]
    simp only [hcols, hN]
    unfold phase1Db at hd1
    rw [if_neg (by rw [L.count]; omega), ← hd1, a1]
  · intro r sp hsp
    obtain ⟨y, ls, b1, b2, _⟩ := r3 r sp hsp
    exact ⟨y, by rw [List.getElem?_map, b1]; rfl, b2⟩
  · intro i hi
    obtain ⟨V, v1, v2⟩ := a3 i (List.mem_range.mpr hi)
    exact ⟨V, fun h => c h i, v1, fun h hh => r5 (T h i) _ (hc h i hh hi), v2⟩

theorem batch_grid_of {fft : Fft n} {s : Poly n} {S : Server n} {D : Nat} {specs : List (QuerySpec n)} {qs : List (ClientQuery n)}
    (hql0 : specs.length = qs.length) {H : NaiveHash} {rows k N : Nat} {T : Nat → Nat → Nat × Nat}
    (L : Layout H rows (2 ^ D) (k + 1) N T) (hpos : 0 < rows) (hsize : rows * 2 ^ D = (k + 1) * N) (hrows : specs.length = rows)
    (hsh : DbShape rows (2 ^ D) S.data) {U : Nat × Nat → Poly n} {e E er eu δ : Nat} (hU : EncDb s S.data U e)
    (huniq : ∀ i h h', i < N → h < k + 1 → h' < k + 1 → (Spec.writes specs (T h i)).isSome → (Spec.writes specs (T h' i)).isSome → h = h')
    (hok : ∀ (r : Nat) sp q row, specs[r]? = some sp → qs[r]? = some q → S.data[r]? = some row → ∀ v, EncRow s row v e →
      RowOk fft s S.ctx S.negS D q sp row v E er eu)
    (hflag : ∀ rs, mapOption (batchRow fft S) (qs.zip S.data) = some rs →
      (∀ (r : Nat) (sp : QuerySpec n), specs[r]? = some sp → ∃ ls, (rs.map Prod.snd)[r]? = some ls ∧ ls.length = 2 ^ D ∧
        ∀ j l, ls[j]? = some l → EncBit s l (decide (j = sp.i)) S.ctx.baseLog S.ctx.levelCount E) →
      FlagSel fft s (rs.map Prod.snd) (qs.map ClientQuery.op) specs rows (2 ^ D) δ
        (Corrected T (k + 1) N (phase1Db fft qs S.data (rs.map Prod.snd)))) :
    ∃ ys S', S.processBatch fft qs H = some (ys, S') ∧ S'.negS = S.negS ∧ S'.ctx = S.ctx ∧ DbShape rows (2 ^ D) S'.data ∧
      ys.length = rows ∧
      (∀ (r : Nat) (sp : QuerySpec n), specs[r]? = some sp → ∃ y, ys[r]? = some y ∧ Enc s y (U (r, sp.i)) er) ∧
      ∀ i h, i < N → h < k + 1 → ∃ V, cellAt S'.data (T h i) = some V ∧
        Enc s V (Spec.batch specs (k + 1) T (fun i => U (T 0 i)) i) (eu + k * (2 * δ)) := by
  obtain ⟨ys, S', b1, b2, b3, b4, b5, b6, b7⟩ := batch_grid_core hql0 L hpos hsize hrows hsh hU hok hflag
  refine ⟨ys, S', b1, b2, b3, b4, b5, b6, ?_⟩
  intro i h hi hh
  obtain ⟨V, c, v1, v2, v3⟩ := b7 i hi
  refine ⟨V, v1 h hh, ?_⟩
  by_cases hw : ∃ h0, h0 < k ∧ (Spec.writes specs (T (h0 + 1) i)).isSome
  · obtain ⟨h0, hh0, hw0⟩ := hw
    have hsum := sum_ite_unique (fun h => (Spec.writes specs (T (h + 1) i)).isSome)
      (fun h => decryptRlwe s (c (h + 1)) - decryptRlwe s (c 0)) (List.range k) h0 (List.mem_range.mpr hh0) List.nodup_range hw0
      (fun h' hh' hw' => by
        have := huniq i (h' + 1) (h0 + 1) hi (by have := List.mem_range.mp hh'; omega) (by omega) hw' hw0
        omega)
    rw [hsum] at v3
    obtain ⟨m, hm⟩ := Option.isSome_iff_exists.mp hw0
    have hc := v2 (h0 + 1) (by omega)
    rw [hm, Option.getD_some] at hc
    rw [batch_some (h0 := h0 + 1) (m := m) (by omega) hm (fun h' m' hh' hm' => by
      have := huniq i h' (h0 + 1) hi hh' (by omega) (by rw [hm']; rfl) hw0
      subst this
      rw [hm] at hm'; cases hm'; rfl)]
    unfold Enc at *
    rw [show decryptRlwe s V - m = (decryptRlwe s (c (h0 + 1)) - m)
      + (decryptRlwe s V - (decryptRlwe s (c 0) + (decryptRlwe s (c (h0 + 1)) - decryptRlwe s (c 0)))) by ring]
    exact hc.add v3
  · have hz : ((List.range k).map fun h => if (Spec.writes specs (T (h + 1) i)).isSome then decryptRlwe s (c (h + 1)) - decryptRlwe s (c 0)
        else 0).sum = 0 := by
      have : ((List.range k).map fun h => if (Spec.writes specs (T (h + 1) i)).isSome then decryptRlwe s (c (h + 1)) - decryptRlwe s (c 0)
        else 0) = (List.range k).map fun _ => 0 := List.map_congr_left fun h hh => by
          rw [if_neg (fun h' => hw ⟨h, List.mem_range.mp hh, h'⟩)]
      rw [this]; simp
    rw [hz, add_zero] at v3
    have hc := v2 0 (by omega)
    have hM' : (Spec.writes specs (T 0 i)).getD (U (T 0 i)) = Spec.batch specs (k + 1) T (fun i => U (T 0 i)) i := by
      rcases hx : Spec.writes specs (T 0 i) with _ | m
      · rw [batch_none]
        · rfl
        · intro h hh
          rcases h with _ | h
          · exact hx
          · by_contra hne
            exact hw ⟨h, by omega, Option.isSome_iff_ne_none.mpr hne⟩
      · rw [batch_some (h0 := 0) (m := m) (by omega) hx]
        · rfl
        · intro h' m' hh' hm'
          have := huniq i h' 0 hi hh' (by omega) (by rw [hm']; rfl) (by rw [hx]; rfl)
          subst this
          rw [hx] at hm'; cases hm'; rfl
    rw [hM'] at hc
    unfold Enc at *
    rw [show decryptRlwe s V - Spec.batch specs (k + 1) T (fun i => U (T 0 i)) i
      = (decryptRlwe s (c 0) - Spec.batch specs (k + 1) T (fun i => U (T 0 i)) i) + (decryptRlwe s V - decryptRlwe s (c 0)) by ring]
    exact hc.add v3

/-! ### Cells and items -/

theorem firstCell_eq {H : NaiveHash} {rows cols hc N : Nat} {T : Nat → Nat → Nat × Nat} (L : Layout H rows cols hc N T) (hpos : 0 < hc)
    {i : Nat} (hi : i < N) : Spec.firstCell H cols i = T 0 i := by
  unfold Spec.firstCell
  rw [L.tuple 0 i hpos hi]; rfl

theorem itemAt_eq {H : NaiveHash} {rows cols hc N : Nat} {T : Nat → Nat → Nat × Nat} (L : Layout H rows cols hc N T)
    (hdom : H.inputDomain = N) {h i : Nat} (hh : h < hc) (hi : i < N) : Spec.itemAt H cols (T h i) = some i := by
  unfold Spec.itemAt
  rw [hdom, L.count]
  have key : ∀ j, j < N → (((List.range hc).any fun h' => H.hashToTuple h' j cols == some (T h i)) = true ↔ j = i) := by
    intro j hj
    rw [List.any_eq_true]
    constructor
    · rintro ⟨h', m, e⟩
      rw [List.mem_range] at m
      rw [L.tuple h' j m hj] at e
      exact (L.inj h' j h i m hj hh hi (by simpa using e)).2
    · rintro rfl
      exact ⟨h, List.mem_range.mpr hh, by rw [L.tuple h j hh hj]; simp⟩
  rcases hf : (List.range N).find? (fun j => (List.range hc).any fun h' => H.hashToTuple h' j cols == some (T h i)) with _ | j
  · rw [List.find?_eq_none] at hf
    exact absurd ((key i hi).mpr rfl) (hf i (List.mem_range.mpr hi))
  · have h1 := List.find?_some hf
    have h2 := List.mem_range.mp (List.mem_of_find?_eq_some hf)
    rw [(key j h2).mp h1]

/-! ### The invariant -/

/-- The server `S` stores the grid `U`: every cell encrypts the encoding of its content, with noise at most `e`. -/
structure MixedInv (ctx : Ctx) (s : Poly n) (rows D B : Nat) (U : Nat × Nat → Poly n) (e : Nat) (S : Server n) : Prop where
  ctx_eq : S.ctx = ctx
  keys : ServerKeys ctx s S.negS B
  shape : DbShape rows (2 ^ D) S.data
  cells : ∃ M, EncDb s S.data M e ∧ ∀ p, p.1 < rows → p.2 < 2 ^ D → ctx.codec.polyEncode (U p) = some (M p)

/-! ### The client's single queries -/

/-- The query `sp` for row 0 carries the single command `cmd`. -/
def CarriesOne (ctx : Ctx) (H : NaiveHash) (cols : Nat) (cmd : Cmd n) (sp : QuerySpec n) : Prop :=
  (0, sp.i) = Spec.target H cols cmd ∧
  match cmd with
  | .read _ => sp.w = false
  | .write i a => if (Spec.firstCell H cols i).1 = 0 then sp.w = true ∧ ctx.codec.polyEncode a = some sp.m else sp.w = false

theorem clientQuery_rows {t : Scalar} {ctx : Ctx} (hcd : Codec.new t = some ctx.codec) (h1 : 1 ≤ ctx.baseLog) (h2 : 1 ≤ ctx.levelCount)
    (h3 : ctx.baseLog * ctx.levelCount < 64) (s : Poly n) (shuffle : List Nat → List Nat) (hshf : ∀ l, (shuffle l).Perm l) {hc N : Nat}
    {H : NaiveHash} (hnew : NaiveHash.new shuffle hc N = some H) {D rows : Nat} (hD : D < 64) (hpos : 0 < rows)
    (hsize : rows * 2 ^ D = hc * N) {cmd : Cmd n} (hv : cmd.Valid N t) {g : Gen n} {B : Nat} (hg : g.Bounded B) :
    ∃ q g' sp, clientQuery ctx s rows (2 ^ D) H cmd g = some (q, g') ∧ g'.Bounded B ∧ IsQuery ctx s q D sp.i sp.w sp.m B ∧
      CarriesOne ctx H (2 ^ D) cmd sp := by
  have hcpos : 0 < hc := by
    rcases Nat.eq_zero_or_pos hc with h0 | h0
    · have := (C09_new_panics shuffle hc N).mpr h0
      rw [hnew] at this; cases this
    · exact h0
  obtain ⟨T, L⟩ := layout_of_hash shuffle hshf hnew (rows := rows) (cols := 2 ^ D) (by positivity) hsize
  have hidx := hv.lt
  have hvalB : (∀ i ∈ cmd.toBatch.indices, i < N) ∧ (∀ is a, cmd.toBatch = .write is a → Spec.Encodable t a) ∧
      cmd.toBatch.indices = [cmd.index] := by
    cases cmd with
    | read i => exact ⟨fun j hj => by rw [List.mem_singleton.mp hj]; exact hidx, (by rintro _ _ ⟨⟩), rfl⟩
    | write i a => exact ⟨fun j hj => by rw [List.mem_singleton.mp hj]; exact hidx, (by rintro _ _ ⟨⟩; exact hv.2), rfl⟩
  obtain ⟨mapping, qs, specs, g', w, m, c1, c2, c3, c4, c5, c6, c7⟩ :=
    clientBatch_spec hcd h1 h2 h3 s shuffle hshf hnew hD hsize hvalB.1 hvalB.2.1 hg
  have hmap : mapping = fun r' => if r' = (T 0 cmd.index).1 then some ((T 0 cmd.index).2, cmd.index) else none := by
    have := mapping_single_eq shuffle hshf hnew (L.tuple 0 cmd.index hcpos hidx)
    rw [hvalB.2.2, this] at c1
    exact (Option.some.inj c1).symm
  obtain ⟨sp, spr, hspe⟩ : ∃ sp spr, specs = sp :: spr := List.exists_cons_of_length_pos (by omega)
  obtain ⟨q, qr, hqse⟩ : ∃ q qr, qs = q :: qr := List.exists_cons_of_length_pos (by rw [← c4.length_eq]; omega)
  subst hspe hqse
  have hq : IsQuery ctx s q D sp.i sp.w sp.m B := by
    cases c4; assumption
  obtain ⟨r1, r2⟩ := c7 0 sp rfl
  have hfc := firstCell_eq L hcpos hidx
  refine ⟨q, g', sp, by rw [clientQuery_batch, c2]; rfl, c3, hq, ?_, ?_⟩
  · unfold Spec.target Spec.oneCell
    rw [hfc]
    by_cases h0 : (T 0 cmd.index).1 = 0
    · rw [if_pos h0]
      have := (r1 (T 0 cmd.index).2 cmd.index (by rw [hmap]; simp [h0])).1
      rw [this]; exact Prod.ext h0.symm rfl
    · rw [if_neg h0, (r2 (by rw [hmap]; simp [Ne.symm h0])).2]
  · by_cases h0 : (T 0 cmd.index).1 = 0
    · obtain ⟨i1, i2, i3⟩ := r1 (T 0 cmd.index).2 cmd.index (by rw [hmap]; simp [h0])
      cases cmd with
      | read i =>
        have hw : w = false := c6
        exact i2.trans hw
      | write i a =>
        obtain ⟨hw, henc⟩ : w = true ∧ ctx.codec.polyEncode a = some m := c6
        simp only [Cmd.index] at *
        rw [hfc, if_pos h0]
        exact ⟨i2.trans hw, by rw [i3 hw]; exact henc⟩
    · have hw := (r2 (by rw [hmap]; simp [Ne.symm h0])).1
      cases cmd with
      | read i => exact hw
      | write i a =>
        simp only [Cmd.index] at *
        rw [hfc, if_neg h0]
        exact hw

theorem clientQueries_rows {t : Scalar} {ctx : Ctx} (hcd : Codec.new t = some ctx.codec) (h1 : 1 ≤ ctx.baseLog) (h2 : 1 ≤ ctx.levelCount)
    (h3 : ctx.baseLog * ctx.levelCount < 64) (s : Poly n) (shuffle : List Nat → List Nat) (hshf : ∀ l, (shuffle l).Perm l) {hc N : Nat}
    {H : NaiveHash} (hnew : NaiveHash.new shuffle hc N = some H) {D rows : Nat} (hD : D < 64) (hpos : 0 < rows)
    (hsize : rows * 2 ^ D = hc * N) {B : Nat} : ∀ (cs : List (Cmd n)), (∀ c ∈ cs, c.Valid N t) → ∀ {g : Gen n}, g.Bounded B →
    ∃ qs g' sps, mapGenM (clientQuery ctx s rows (2 ^ D) H) cs g = some (qs, g') ∧ g'.Bounded B ∧ IsQueries ctx s D B sps qs ∧
      List.Forall₂ (CarriesOne ctx H (2 ^ D)) cs sps
  | [], _, g, hg => ⟨[], g, [], rfl, hg, .nil, .nil⟩
  | c :: cs, hv, g, hg => by
    obtain ⟨q, g1, sp, q1, q2, q3, q4⟩ := clientQuery_rows hcd h1 h2 h3 s shuffle hshf hnew hD hpos hsize (hv c (by simp)) hg
    obtain ⟨qs, g', sps, r1, r2, r3, r4⟩ := clientQueries_rows hcd h1 h2 h3 s shuffle hshf hnew hD hpos hsize cs
      (fun c hc => hv c (by simp [hc])) q2
    exact ⟨q :: qs, g', sp :: sps, by simp only [mapGenM, q1, r1], r2, .cons q3 r3, .cons q4 r4⟩

/-! ### Row 0 of the grid -/

/-- The messages of the grid with row 0 replaced. -/
def withRow0 (M : Nat × Nat → Poly n) (v : Nat → Poly n) : Nat × Nat → Poly n := fun p => if p.1 = 0 then v p.2 else M p

theorem gridOne_holds {ctx : Ctx} {H : NaiveHash} {rows cols : Nat} {U M : Nat × Nat → Poly n} {v : Nat → Poly n}
    (h : ∀ p, p.1 < rows → p.2 < cols → ctx.codec.polyEncode (U p) = some (withRow0 M v p)) {cmd : Cmd n} {sp : QuerySpec n}
    (hc : CarriesOne ctx H cols cmd sp) :
    ∀ p, p.1 < rows → p.2 < cols → ctx.codec.polyEncode (Spec.gridOne H cols U cmd p) = some (withRow0 M (sp.effect v) p) := by
  intro p hp1 hp2
  obtain ⟨ht, hk⟩ := hc
  cases cmd with
  | read i =>
    have hw : sp.w = false := hk
    simp only [Spec.gridOne, Spec.cellAfterOne, QuerySpec.effect, hw, Bool.false_eq_true, if_false]
    exact h p hp1 hp2
  | write i a =>
    simp only at hk
    show ctx.codec.polyEncode (if (Spec.firstCell H cols i).1 = 0 ∧ p = Spec.firstCell H cols i then a else U p) = some (withRow0 M (sp.effect v) p)
    unfold QuerySpec.effect
    have ht : (0, sp.i) = if (Spec.firstCell H cols i).1 = 0 then Spec.firstCell H cols i else (0, 0) := ht
    by_cases h0 : (Spec.firstCell H cols i).1 = 0
    · rw [if_pos h0] at hk ht
      rw [if_pos hk.1]
      by_cases hp : p = Spec.firstCell H cols i
      · rw [if_pos ⟨h0, hp⟩, hk.2]
        unfold withRow0
        rw [if_pos (by rw [hp]; exact h0), show p.2 = sp.i by rw [hp, ← ht], Function.update_self]
      · rw [if_neg (fun h' : _ ∧ _ => hp h'.2), h p hp1 hp2]
        unfold withRow0
        by_cases hp0 : p.1 = 0
        · rw [if_pos hp0, if_pos hp0, Function.update_of_ne]
          intro he
          exact hp (by rw [← ht]; exact Prod.ext hp0 he)
        · rw [if_neg hp0, if_neg hp0]
    · rw [if_neg h0] at hk
      rw [if_neg (fun h' : _ ∧ _ => h0 h'.1), h p hp1 hp2, hk]
      simp

theorem gridFold_holds {ctx : Ctx} {H : NaiveHash} {rows cols : Nat} {M : Nat × Nat → Poly n} :
    ∀ {cs : List (Cmd n)} {sps : List (QuerySpec n)}, List.Forall₂ (CarriesOne ctx H cols) cs sps →
    ∀ {U : Nat × Nat → Poly n} {v : Nat → Poly n},
    (∀ p, p.1 < rows → p.2 < cols → ctx.codec.polyEncode (U p) = some (withRow0 M v p)) →
    ∀ p, p.1 < rows → p.2 < cols →
      ctx.codec.polyEncode (cs.foldl (Spec.gridOne H cols) U p) = some (withRow0 M (sps.foldl QuerySpec.effect v) p)
  | _, _, .nil, _, _, h => h
  | _, _, .cons hc hcs, _, _, h => gridFold_holds hcs (gridOne_holds h hc)

theorem withRow0_self (M : Nat × Nat → Poly n) : withRow0 M (fun j => M (0, j)) = M := by
  funext p
  unfold withRow0
  split
  · rename_i h; rw [← h]
  · rfl

theorem encDb_row0 {s : Poly n} {row row' : List (RLWE n)} {rest : List (List (RLWE n))} {M : Nat × Nat → Poly n} {v : Nat → Poly n}
    {e e' : Nat} (h : EncDb s (row :: rest) M e) (hle : e ≤ e') (hr : EncRow s row' v e') : EncDb s (row' :: rest) (withRow0 M v) e' := by
  intro p c hc
  obtain ⟨r, j⟩ := p
  unfold withRow0
  rcases r with _ | r
  · rw [if_pos rfl]
    rw [cellAt_row (row := row') rfl] at hc
    exact hr j c hc
  · rw [if_neg (by simp)]
    exact Enc.mono (h (r + 1, j) c hc) hle

theorem shape_row0 {rows cols : Nat} {row row' : List (RLWE n)} {rest : List (List (RLWE n))} (h : DbShape rows cols (row :: rest))
    (hl : row'.length = cols) : DbShape rows cols (row' :: rest) := by
  refine ⟨h.1, fun r hr => ?_⟩
  rcases List.mem_cons.mp hr with rfl | hm
  · exact hl
  · exact h.2 r (by simp [hm])

theorem carriesOne_nodup {ctx : Ctx} {H : NaiveHash} {cols : Nat} {cs : List (Cmd n)} {sps : List (QuerySpec n)}
    (h : List.Forall₂ (CarriesOne ctx H cols) cs sps) (hnd : (cs.map (Spec.target H cols)).Nodup) : (sps.map QuerySpec.i).Nodup := by
  have he : cs.map (Spec.target H cols) = (sps.map QuerySpec.i).map fun j => (0, j) := by
    induction h with
    | nil => rfl
    | cons hc _ ih => 
      simp only [List.map_cons] at hnd ⊢
      rw [ih (List.nodup_cons.mp hnd).2, hc.1]
  rw [he] at hnd
  exact hnd.of_map _

/-! ### The client's batches -/

theorem rowCell_eq {H : NaiveHash} {cols : Nat} {c : BatchCmd n} {mapping : NaiveHash.Mapping}
    (hm : H.hashToMapping c.indices cols = some mapping) {w : Bool} {m : Poly n} {r : Nat} {sp : QuerySpec n} (h : RowSpec mapping w m r sp) :
    Spec.rowCell H cols c r = (r, sp.i) := by
  unfold Spec.rowCell
  rw [hm, Option.bind_some]
  rcases hmr : mapping r with _ | ⟨col, i⟩
  · rw [(h.2 hmr).2]
  · rw [(h.1 col i hmr).1]

/-- What a client batch does to the content of an item, on messages and on plain contents. -/
theorem batch_encodes {t : Scalar} {ctx : Ctx} {H : NaiveHash} {rows cols hc N : Nat} {T : Nat → Nat → Nat × Nat}
    (L : Layout H rows cols hc N T) {cmd : BatchCmd n} (hv : cmd.Valid N t) {mapping : NaiveHash.Mapping}
    (c1 : H.hashToMapping cmd.indices cols = some mapping)
    (hsound : ∀ r c i, mapping r = some (c, i) → i ∈ cmd.indices ∧ ∃ h, h < hc ∧ H.hashToTuple h i cols = some (r, c))
    {specs : List (QuerySpec n)} (c5 : specs.length = rows) {w : Bool} {m : Poly n} (c6 : BatchKind ctx cmd w m)
    (c7 : ∀ r sp, specs[r]? = some sp → RowSpec mapping w m r sp) {v M : Nat → Poly n}
    (hM : ∀ i, i < N → ctx.codec.polyEncode (v i) = some (M i)) {i : Nat} (hi : i < N) :
    ctx.codec.polyEncode (Spec.applyBatch H cols v cmd i) = some (Spec.batch specs hc T M i) := by
  have hw := fun h i (hh : h < hc) (hi : i < N) => writes_client L hsound hv.nodup.2 c5 c7 hh hi
  by_cases hserved : ∃ r c, mapping r = some (c, i)
  · obtain ⟨r, c, hr⟩ := hserved
    obtain ⟨_, h0, hh0, ht0⟩ := hsound r c i hr
    have hT0 : T h0 i = (r, c) := by
      have := (L.tuple h0 i hh0 hi).symm.trans ht0
      simpa using this
    cases cmd with
    | read is =>
      have c6 : w = false := c6
      rw [batch_none (fun h hh => by rw [hw h i hh hi, if_neg (by rw [c6]; rintro ⟨⟨⟩, _⟩)])]
      exact hM i hi
    | write is a =>
      obtain ⟨c6, c6'⟩ : w = true ∧ ctx.codec.polyEncode a = some m := c6
      have hwr : Spec.writes specs (T h0 i) = some m := by
        rw [hw h0 i hh0 hi, if_pos ⟨c6, by rw [hT0]; exact hr⟩]
      rw [batch_some hh0 hwr (fun h' m' hh' hm' => by
        rw [hw h' i hh' hi] at hm'
        split at hm'
        · cases hm'; rfl
        · cases hm')]
      have : Spec.applyBatch H cols v (.write is a) i = a := by
        unfold Spec.applyBatch
        exact if_pos ⟨mapping, r, c, c1, hr⟩
      rw [this]; exact c6'
  · have hnone : ∀ h, h < hc → Spec.writes specs (T h i) = none := fun h hh => by
      rw [hw h i hh hi, if_neg (fun h' => hserved ⟨_, _, h'.2⟩)]
    rw [batch_none hnone]
    have : Spec.applyBatch H cols v cmd i = v i := by
      cases cmd with
      | read is => rfl
      | write is a =>
        unfold Spec.applyBatch
        exact if_neg (fun ⟨m', r, c, hm', hr⟩ => by
          simp only [BatchCmd.indices] at c1
          rw [c1] at hm'; cases hm'
          exact hserved ⟨r, c, hr⟩)
    rw [this]; exact hM i hi

/-! ### C98 -/

/-- C98 (one call): a server storing the grid `U` answers any valid call with the contents the grid shows, and then stores the grid
`gridAfter U`. -/
theorem C98_call {t : Scalar} {ctx : Ctx} (hcd : Codec.new t = some ctx.codec) (hn : 0 < n) {fft : Fft n} {phi : Nat}
    (hf : fft.Bounded phi) {s : Poly n} (hs : Binary s) (shuffle : List Nat → List Nat) (hshf : ∀ l, (shuffle l).Perm l) {hc N : Nat}
    {H : NaiveHash} (hnew : NaiveHash.new shuffle hc N = some H) {D rows : Nat} (hD1 : 1 ≤ D) (hD : D < 64) (hpos : 0 < rows)
    (hsize : rows * 2 ^ D = hc * N) {B : Nat} {R : Reducer n} (hR : R.Valid ctx (2 ^ D)) {st : MixedStep n}
    (hv : st.Valid H (2 ^ D) N t) {U : Nat × Nat → Poly n} {e : Nat} (he : B ≤ e) {S : Server n} (hinv : MixedInv ctx s rows D B U e S)
    {g : Gen n} (hg : g.Bounded B) (hb : 2 * (e + 2 ^ D * deltaSel ctx n B phi D) < 2 ^ 64 / t.toNat) :
    ∃ S' g', runMixed fft ctx s rows (2 ^ D) H [(R, st)] S g = some ([Spec.gridAnswer H rows (2 ^ D) U st], S', g') ∧ g'.Bounded B ∧
      MixedInv ctx s rows D B (Spec.gridAfter H (2 ^ D) U st) (e + stepNoise ctx n B phi D hc st) S' := by
  have hcpos : 0 < hc := by
    rcases Nat.eq_zero_or_pos hc with h0 | h0
    · have := (C09_new_panics shuffle hc N).mpr h0
      rw [hnew] at this; cases this
    · exact h0
  obtain ⟨hctx, hk, hsh, M, hU, hM⟩ := hinv
  subst hctx
  have hmax : max e B = e := by omega
  have hdec : ∀ p y, p.1 < rows → p.2 < 2 ^ D → Enc s y (M p) (e + 2 ^ D * deltaSel S.ctx n B phi D) → decryptDecodeRlwe S.ctx s y = U p :=
    fun p y h1 h2 hy => decryptDecode_of_enc hcd (hM p h1 h2) hy hb
  cases st with
  | one c =>
    obtain ⟨q, g1, sp, q1, q2, q3, q4⟩ := clientQuery_rows hcd hk.bl hk.lv hk.lt s shuffle hshf hnew hD hpos hsize hv hg
    obtain ⟨row, rest, hS⟩ : ∃ row rest, S.data = row :: rest := List.exists_cons_of_length_pos (by rw [hsh.1]; exact hpos)
    rw [hS] at hsh hU
    have hlen : row.length = 2 ^ D := hsh.2 row (by simp)
    have hrow : EncRow s row (fun j => M (0, j)) e := fun j c hc => hU (0, j) c (by rw [cellAt_row (row := row) rfl]; exact hc)
    obtain ⟨y, S1, p1, p2⟩ := C41_response hn hf hs hk hD1 q3 hS hlen hrow hR.one
    obtain ⟨y', S', row', u1, u2, u3, u4, u5, u6⟩ := C42_update hn hf hs hk hD1 q3 hS hlen hrow hR.one
    rw [p1] at u1
    cases u1
    rw [hmax] at u6
    have hn1 : e + stepNoise S.ctx n B phi D hc (.one c : MixedStep n) = e + deltaOp S.ctx n B phi + deltaSel S.ctx n B phi D := by
      simp only [stepNoise, callNoise]; omega
    refine ⟨S1, g1, ?_, q2, u4, by rw [u3]; exact hk, by rw [u2]; exact shape_row0 hsh u5,
      withRow0 M (sp.effect fun j => M (0, j)), ?_, ?_⟩
    · rw [runMixed]
      simp only [q1, p1, runMixed]
      rw [hdec (0, sp.i) y hpos q3.addr.lt p2]
      simp only [Spec.gridAnswer, q4.1]
    · rw [hn1, u2]
      exact encDb_row0 hU (by omega) u6
    · exact gridOne_holds (v := fun j => M (0, j)) (by rw [withRow0_self]; exact hM) q4
  | multi cs =>
    obtain ⟨hcs, hnd⟩ := hv
    obtain ⟨qs, g1, sps, q1, q2, q3, q4⟩ := clientQueries_rows hcd hk.bl hk.lv hk.lt s shuffle hshf hnew hD hpos hsize cs hcs hg
    obtain ⟨row, rest, hS⟩ : ∃ row rest, S.data = row :: rest := List.exists_cons_of_length_pos (by rw [hsh.1]; exact hpos)
    rw [hS] at hsh hU
    have hlen : row.length = 2 ^ D := hsh.2 row (by simp)
    have hrow : EncRow s row (fun j => M (0, j)) e := fun j c hc => hU (0, j) c (by rw [cellAt_row (row := row) rfl]; exact hc)
    obtain ⟨ys, S1, row', h1, h2, h3, h4, h5, h6, h7⟩ := C44_distinct hn hf hs hk hD1 q3 (carriesOne_nodup q4 hnd) hS hlen hrow hR.vec hR.gsw
    have hlen2 : sps.length = cs.length := q4.length_eq.symm
    rw [hmax, hlen2] at h7
    have hn1 : e + stepNoise S.ctx n B phi D hc (.multi cs : MixedStep n) = e + deltaOp S.ctx n B phi + cs.length * deltaSel S.ctx n B phi D
        + extNoise n S.ctx.baseLog S.ctx.levelCount (cs.length * selNoise S.ctx n B phi D) phi 1 := by
      simp only [stepNoise, callNoise]; omega
    have hy : ys.map (decryptDecodeRlwe S.ctx s) = cs.map (fun c => U (Spec.target H (2 ^ D) c)) := by
      apply List.ext_getElem?
      intro k
      rw [List.getElem?_map, List.getElem?_map]
      rcases hk2 : cs[k]? with _ | c
      · have : ys[k]? = none := List.getElem?_eq_none (by
          rw [← h6.length_eq, hlen2]; exact List.getElem?_eq_none_iff.mp hk2)
        rw [this]; rfl
      · obtain ⟨sp, hsp, hcar⟩ := forall₂_getElem_left q4 hk2
        obtain ⟨y, hy, henc⟩ := forall₂_getElem_left h6 hsp
        obtain ⟨q, _, hq⟩ := forall₂_getElem_left q3 hsp
        rw [hy, Option.map_some, Option.map_some, hdec (0, sp.i) y hpos hq.addr.lt henc, hcar.1]
    refine ⟨S1, g1, ?_, q2, h4, by rw [h3]; exact hk, by rw [h2]; exact shape_row0 hsh h5,
      withRow0 M (sps.foldl QuerySpec.effect fun j => M (0, j)), ?_, ?_⟩
    · rw [runMixed]
      simp only [q1, h1, runMixed]
      rw [hy]; rfl
    · rw [hn1, h2]
      exact encDb_row0 hU (by omega) h7
    · exact gridFold_holds (v := fun j => M (0, j)) q4 (by rw [withRow0_self]; exact hM)
  | batch c =>
    have hv : c.Valid N t := hv
    obtain ⟨T, L⟩ := layout_of_hash shuffle hshf hnew (rows := rows) (cols := 2 ^ D) (by positivity) hsize
    have hdom : H.inputDomain = N := by obtain ⟨_, rfl, rfl⟩ := NaiveHash.new_wf hshf hnew; rfl
    obtain ⟨mapping, qs, specs, g', w, m, c1, c2, c3, c4, c5, c6, c7⟩ :=
      clientBatch_spec hcd hk.bl hk.lv hk.lt s shuffle hshf hnew hD hsize hv.nodup.2 hv.enc hg
    obtain ⟨hsound, hinj⟩ := C11_mapping_sound shuffle hshf hc N H hnew c.indices (2 ^ D) (by positivity) hv.nodup.2 mapping c1
    have hw := fun h i (hh : h < hc) (hi : i < N) => writes_client L hsound hv.nodup.2 c5 c7 hh hi
    have huniq : ∀ i h h', i < N → h < hc → h' < hc → (Spec.writes specs (T h i)).isSome → (Spec.writes specs (T h' i)).isSome → h = h' := by
      intro i h h' hi hh hh' hs1 hs2
      rw [hw h i hh hi] at hs1
      rw [hw h' i hh' hi] at hs2
      have a1 : w = true ∧ mapping (T h i).1 = some ((T h i).2, i) := by
        by_contra hne; rw [if_neg hne] at hs1; cases hs1
      have a2 : w = true ∧ mapping (T h' i).1 = some ((T h' i).2, i) := by
        by_contra hne; rw [if_neg hne] at hs2; cases hs2
      have hr := hinj hv.nodup.1 _ _ _ _ i a1.2 a2.2
      have hc' : (T h i).2 = (T h' i).2 := by
        have := a1.2
        rw [hr, a2.2] at this
        simpa using this.symm
      exact (L.inj h i h' i hh hi hh' hi (Prod.ext hr hc')).1
    obtain ⟨k, rfl⟩ := Nat.exists_eq_succ_of_ne_zero (Nat.pos_iff_ne_zero.mp hcpos)
    obtain ⟨ys, S', b1, b2, b3, b4, b5, b6, b7⟩ := batch_grid_of c4.length_eq L hpos hsize c5 hsh hU huniq (E := selNoise S.ctx n B phi D)
      (batch_rows_worst hn hf hs hk hD1 c4 hsh) (batch_flags_worst hf hs c4 c5)
    have hn1 : e + stepNoise S.ctx n B phi D (k + 1) (.batch c : MixedStep n) = (e + deltaOp S.ctx n B phi + deltaSel S.ctx n B phi D)
        + k * (2 * (deltaOp S.ctx n B phi + deltaSel S.ctx n B phi D)) := by
      simp only [stepNoise]
      rw [show 2 * (k + 1) - 1 = 2 * k + 1 by omega]
      ring
    rw [hmax] at b7
    have hMi : ∀ i, i < N → S.ctx.codec.polyEncode (U (Spec.firstCell H (2 ^ D) i)) = some (M (T 0 i)) := fun i hi => by
      rw [firstCell_eq L hcpos hi]
      exact hM _ (L.row_lt 0 i hcpos hi) (L.col_lt 0 i hcpos hi)
    refine ⟨S', g', ?_, c3, b3, by rw [b2]; exact hk, b4,
      fun p => match Spec.itemAt H (2 ^ D) p with
        | none => M p
        | some i => Spec.batch specs (k + 1) T (fun i => M (T 0 i)) i, ?_, ?_⟩
    · rw [runMixed]
      simp only [c2, b1, runMixed]
      have hy : ys.map (decryptDecodeRlwe S.ctx s) = Spec.gridAnswer H rows (2 ^ D) U (.batch c) := by
        unfold Spec.gridAnswer
        apply List.ext_getElem?
        intro r
        rw [List.getElem?_map, List.getElem?_map]
        by_cases hr : r < rows
        · have hsp : specs[r]? = some specs[r] := List.getElem?_eq_getElem (by omega)
          obtain ⟨y, y1, y2⟩ := b6 r specs[r] hsp
          obtain ⟨q, _, hq⟩ := forall₂_getElem_left c4 hsp
          rw [y1, List.getElem?_range hr, Option.map_some, Option.map_some, rowCell_eq c1 (c7 r _ hsp),
            hdec (r, specs[r].i) y hr hq.addr.lt y2]
        · rw [List.getElem?_eq_none (by omega), List.getElem?_eq_none (by simp; omega)]; rfl
      rw [hy]
    · intro p ct hct
      obtain ⟨hr, hc'⟩ := cellAt_some_lt b4 hct
      obtain ⟨h, i, hh, hi, hp⟩ := L.surj p.1 p.2 hr hc'
      have hp : T h i = p := hp
      subst hp
      beta_reduce
      rw [itemAt_eq L hdom hh hi, hn1]
      obtain ⟨V, v1, v2⟩ := b7 i h hi hh
      rw [hct] at v1; cases v1
      exact v2
    · intro p hr hc'
      obtain ⟨h, i, hh, hi, hp⟩ := L.surj p.1 p.2 hr hc'
      have hp : T h i = p := hp
      subst hp
      show S.ctx.codec.polyEncode (Spec.gridBatch H (2 ^ D) U c (T h i)) = _
      unfold Spec.gridBatch
      beta_reduce
      rw [itemAt_eq L hdom hh hi]
      exact batch_encodes L hv c1 hsound c5 c6 c7 hMi hi

theorem runMixed_cons {fft : Fft n} {ctx : Ctx} {s : Poly n} {rows cols : Nat} {H : NaiveHash} {x : Reducer n × MixedStep n}
    {sts : List (Reducer n × MixedStep n)} {S S1 S2 : Server n} {g g1 g2 : Gen n} {y : List (Poly n)} {ys : List (List (Poly n))}
    (h1 : runMixed fft ctx s rows cols H [x] S g = some ([y], S1, g1))
    (h2 : runMixed fft ctx s rows cols H sts S1 g1 = some (ys, S2, g2)) :
    runMixed fft ctx s rows cols H (x :: sts) S g = some (y :: ys, S2, g2) := by
  obtain ⟨R, st⟩ := x
  cases st <;>
  · rw [runMixed] at h1 ⊢
    split at h1
    · cases h1
    · rename_i q g3 e1
      split at h1
      · cases h1
      · rename_i z S3 e2
        simp only [runMixed, Option.some.injEq, Prod.mk.injEq, List.cons.injEq, and_true] at h1
        obtain ⟨rfl, rfl, rfl⟩ := h1
        simp only [e1, e2, h2]

/-- C98: any sequence of valid single, multi-query and batch calls, on a server of any number of rows storing the grid `U`: no call panics,
the decoded answers are those of the grid of plain contents, and the server stores the final grid -- within the linear noise budget. -/
theorem C98_sessions {t : Scalar} {ctx : Ctx} (hcd : Codec.new t = some ctx.codec) (hn : 0 < n) {fft : Fft n} {phi : Nat}
    (hf : fft.Bounded phi) {s : Poly n} (hs : Binary s) (shuffle : List Nat → List Nat) (hshf : ∀ l, (shuffle l).Perm l) {hc N : Nat}
    {H : NaiveHash} (hnew : NaiveHash.new shuffle hc N = some H) {D rows : Nat} (hD1 : 1 ≤ D) (hD : D < 64) (hpos : 0 < rows)
    (hsize : rows * 2 ^ D = hc * N) {B : Nat} : ∀ (sts : List (Reducer n × MixedStep n)) (U : Nat × Nat → Poly n) (e : Nat) (S : Server n)
      (g : Gen n), B ≤ e → g.Bounded B → MixedInv ctx s rows D B U e S →
      (∀ st ∈ sts, st.1.Valid ctx (2 ^ D) ∧ st.2.Valid H (2 ^ D) N t) →
      2 * (e + mixedNoise ctx n B phi D hc (sts.map Prod.snd) + 2 ^ D * deltaSel ctx n B phi D) < 2 ^ 64 / t.toNat →
      ∃ S' g', runMixed fft ctx s rows (2 ^ D) H sts S g = some (Spec.mixed H rows (2 ^ D) U (sts.map Prod.snd), S', g') ∧ g'.Bounded B ∧
        MixedInv ctx s rows D B ((sts.map Prod.snd).foldl (Spec.gridAfter H (2 ^ D)) U)
          (e + mixedNoise ctx n B phi D hc (sts.map Prod.snd)) S' := by
  intro sts
  induction sts with
  | nil =>
    intro U e S g _ hg hinv _ _
    exact ⟨S, g, rfl, hg, by simpa [mixedNoise] using hinv⟩
  | cons st sts ih =>
    intro U e S g he hg hinv hval hb
    obtain ⟨R, st⟩ := st
    obtain ⟨hred, hv⟩ := hval (R, st) (by simp)
    have hnoise : mixedNoise ctx n B phi D hc (((R, st) :: sts).map Prod.snd)
        = stepNoise ctx n B phi D hc st + mixedNoise ctx n B phi D hc (sts.map Prod.snd) := by simp [mixedNoise]
    rw [hnoise] at hb ⊢
    obtain ⟨S1, g1, a1, a2, a3⟩ := C98_call hcd hn hf hs shuffle hshf hnew hD1 hD hpos hsize hred hv he hinv hg (by omega)
    obtain ⟨S', g', i1, i2, i3⟩ := ih _ (e + stepNoise ctx n B phi D hc st) S1 g1 (by omega) a2 a3 (fun x hx => hval x (by simp [hx])) (by omega)
    refine ⟨S', g', runMixed_cons a1 i1, i2, ?_⟩
    rw [← Nat.add_assoc]; exact i3

/-- The grid of a fresh database: every copy of item `i` holds the `i`-th plaintext. -/
def Spec.freshGrid (H : NaiveHash) (cols : Nat) (pts : List (Poly n)) : Nat × Nat → Poly n :=
  fun p => match Spec.itemAt H cols p with
    | none => 0
    | some i => pts.getD i 0

/-- C98 (end to end): from `setup_random_oram`, starting with the plaintexts it returns. -/
theorem C98_from_setup {t : Scalar} {ctx : Ctx} (hcd : Codec.new t = some ctx.codec) (hn : 0 < n) {fft : Fft n} {phi : Nat}
    (hf : fft.Bounded phi) {s : Poly n} (hs : Binary s) (shuffle : List Nat → List Nat) (hshf : ∀ l, (shuffle l).Perm l) {hc N : Nat}
    {H : NaiveHash} (hnew : NaiveHash.new shuffle hc N = some H) {D rows : Nat} (hD1 : 1 ≤ D) (hD : D < 64) (hpos : 0 < rows)
    (hsize : rows * 2 ^ D = hc * N) (h1 : 1 ≤ ctx.baseLog) (h2 : 1 ≤ ctx.levelCount) (h3 : ctx.baseLog * ctx.levelCount < 64)
    (hn1 : ctx.negsBaseLog = ctx.baseLog) (hn2 : 1 ≤ ctx.negsLevelCount) (hn3 : ctx.negsBaseLog * ctx.negsLevelCount < 64)
    {g : Gen n} {B : Nat} (hg : g.Bounded B) (sts : List (Reducer n × MixedStep n))
    (hval : ∀ st ∈ sts, st.1.Valid ctx (2 ^ D) ∧ st.2.Valid H (2 ^ D) N t)
    (hb : 2 * (B + mixedNoise ctx n B phi D hc (sts.map Prod.snd) + 2 ^ D * deltaSel ctx n B phi D) < 2 ^ 64 / t.toNat) :
    ∃ S pts g1 S' g', setupRandomOram ctx s rows (2 ^ D) H g = some (S, pts, g1) ∧ pts.length = N ∧
      runMixed fft ctx s rows (2 ^ D) H sts S g1
        = some (Spec.mixed H rows (2 ^ D) (Spec.freshGrid H (2 ^ D) pts) (sts.map Prod.snd), S', g') ∧
      ∀ p, p.1 < rows → p.2 < 2 ^ D → ∃ ct, cellAt S'.data p = some ct ∧
        decryptDecodeRlwe ctx s ct = (sts.map Prod.snd).foldl (Spec.gridAfter H (2 ^ D)) (Spec.freshGrid H (2 ^ D) pts) p := by
  obtain ⟨T, L⟩ := layout_of_hash shuffle hshf hnew (rows := rows) (cols := 2 ^ D) (by positivity) hsize
  obtain ⟨S, pts, g1, hset, e3, e2, hc', hkeys, e4, e7⟩ := setup_consistent hcd hs shuffle hshf hnew hsize L h1 h2 h3 hn1 hn2 hn3 hg
  have hdom : H.inputDomain = N := by obtain ⟨_, rfl, rfl⟩ := NaiveHash.new_wf hshf hnew; rfl
  have hinv : MixedInv ctx s rows D B (Spec.freshGrid H (2 ^ D) pts) B S := by
    refine ⟨hc', hkeys, e4, fun p => (ctx.codec.polyEncode (Spec.freshGrid H (2 ^ D) pts p)).getD 0, ?_, ?_⟩
    · intro p ct hct
      obtain ⟨hr, hcl⟩ := cellAt_some_lt e4 hct
      obtain ⟨h, i, hh, hi, hp⟩ := L.surj p.1 p.2 hr hcl
      have hp : T h i = p := hp
      subst hp
      obtain ⟨ct', enc, a1, a2, a3⟩ := e7 h i hh hi
      rw [hct] at a1; cases a1
      simp only [Spec.freshGrid, itemAt_eq L hdom hh hi, a2, Option.getD_some]
      exact a3
    · intro p hr hcl
      obtain ⟨h, i, hh, hi, hp⟩ := L.surj p.1 p.2 hr hcl
      have hp : T h i = p := hp
      subst hp
      obtain ⟨ct', enc, a1, a2, a3⟩ := e7 h i hh hi
      simp only [Spec.freshGrid, itemAt_eq L hdom hh hi, a2, Option.getD_some]
  obtain ⟨S', g', r1, _, r3⟩ := C98_sessions hcd hn hf hs shuffle hshf hnew hD1 hD hpos hsize sts _ B S g1 (le_refl B) e2 hinv hval hb
  refine ⟨S, pts, g1, S', g', hset, e3, r1, fun p hr hcl => ?_⟩
  obtain ⟨hctx, _, hsh, M, m1, m2⟩ := r3
  obtain ⟨ct, hct⟩ := cellAt_isSome hsh hr hcl
  exact ⟨ct, hct, decryptDecode_of_enc hcd (m2 p hr hcl) (m1 p ct hct) (by omega)⟩

end Panacea
