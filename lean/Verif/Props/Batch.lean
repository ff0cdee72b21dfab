import Verif.Lemmas.Batch
import Verif.Props.OramSetup

/-!
# C46, C47, C53: `process_batch`
-/

namespace Panacea
variable {n : Nat}

/-- All `hc` copies of every item `i < N` encrypt `M i`, with noise at most `e`. -/
def EncItems (s : Poly n) (hc N : Nat) (T : Nat → Nat → Nat × Nat) (db : List (List (RLWE n))) (M : Nat → Poly n) (e : Nat) : Prop :=
  ∀ h i, h < hc → i < N → ∃ ct, cellAt db (T h i) = some ct ∧ Enc s ct (M i) e

theorem encDb_of_items {s : Poly n} {H : NaiveHash} {rows cols hc N : Nat} {T : Nat → Nat → Nat × Nat} (L : Layout H rows cols hc N T)
    {db : List (List (RLWE n))} (hsh : DbShape rows cols db) {M : Nat → Poly n} {e : Nat} (h : EncItems s hc N T db M e) :
    ∃ U, EncDb s db U e ∧ ∀ h i, h < hc → i < N → U (T h i) = M i := by
  classical
  refine ⟨fun p => if hx : ∃ i h, h < hc ∧ i < N ∧ T h i = p then M hx.choose else 0, ?_, ?_⟩
  · intro p ct hct
    obtain ⟨hr, hc'⟩ := cellAt_some_lt hsh hct
    obtain ⟨h0, i0, h1, h2, h3⟩ := L.surj p.1 p.2 hr hc'
    have hex : ∃ i h, h < hc ∧ i < N ∧ T h i = p := ⟨i0, h0, h1, h2, h3⟩
    simp only [dif_pos hex]
    obtain ⟨h', a1, a2, a3⟩ := hex.choose_spec
    obtain ⟨ct', b1, b2⟩ := h h' hex.choose a1 a2
    rw [a3, hct] at b1
    cases b1
    exact b2
  · intro h0 i hh hi
    have hex : ∃ i' h', h' < hc ∧ i' < N ∧ T h' i' = T h0 i := ⟨i, h0, hh, hi, rfl⟩
    simp only [dif_pos hex]
    obtain ⟨h', a1, a2, a3⟩ := hex.choose_spec
    rw [(L.inj h' _ h0 i a1 a2 hh hi a3).2]

/-- The cells the consistency phase multiplies at position `p`: the cell itself and the first copy of its item. -/
def Corrected (T : Nat → Nat → Nat × Nat) (hc N : Nat) (db : List (List (RLWE n))) (p : Nat × Nat) (v : RLWE n) : Prop :=
  ∃ h i, h < hc ∧ i < N ∧ T h i = p ∧ (cellAt db (T 0 i) = some v ∨ cellAt db p = some v)

/-- `process_batch`, from what it does to the rows and from the selections of its consistency phase. -/
theorem batch_core_of {fft : Fft n} {s : Poly n} {S : Server n} {D : Nat} {specs : List (QuerySpec n)} {qs : List (ClientQuery n)}
    (hql0 : specs.length = qs.length) {H : NaiveHash} {rows k N : Nat} {T : Nat → Nat → Nat × Nat}
    (L : Layout H rows (2 ^ D) (k + 1) N T) (hpos : 0 < rows) (hsize : rows * 2 ^ D = (k + 1) * N) (hrows : specs.length = rows)
    (hsh : DbShape rows (2 ^ D) S.data) {M : Nat → Poly n} {e E er eu δ : Nat} (hM : EncItems s (k + 1) N T S.data M e)
    (hok : ∀ (r : Nat) sp q row, specs[r]? = some sp → qs[r]? = some q → S.data[r]? = some row → ∀ v, EncRow s row v e →
      RowOk fft s S.ctx S.negS D q sp row v E er eu)
    (hflag : ∀ rs, mapOption (batchRow fft S) (qs.zip S.data) = some rs →
      (∀ (r : Nat) (sp : QuerySpec n), specs[r]? = some sp → ∃ ls, (rs.map Prod.snd)[r]? = some ls ∧ ls.length = 2 ^ D ∧
        ∀ j l, ls[j]? = some l → EncBit s l (decide (j = sp.i)) S.ctx.baseLog S.ctx.levelCount E) →
      FlagSel fft s (rs.map Prod.snd) (qs.map ClientQuery.op) specs rows (2 ^ D) δ
        (Corrected T (k + 1) N (phase1Db fft qs S.data (rs.map Prod.snd)))) :
    ∃ ys S', S.processBatch fft qs H = some (ys, S') ∧ S'.negS = S.negS ∧ S'.ctx = S.ctx ∧ DbShape rows (2 ^ D) S'.data ∧
      ys.length = rows ∧
      (∀ (r : Nat) (sp : QuerySpec n), specs[r]? = some sp → ∃ y, ys[r]? = some y ∧ ∀ h i, h < k + 1 → i < N → T h i = (r, sp.i) →
        Enc s y (M i) er) ∧
      ∀ i, i < N → ∃ (V : RLWE n) (c : Nat → RLWE n), (∀ h, h < k + 1 → cellAt S'.data (T h i) = some V) ∧
        (∀ h, h < k + 1 → Enc s (c h) ((Spec.writes specs (T h i)).getD (M i)) eu) ∧
        Enc s V (decryptRlwe s (c 0) + ((List.range k).map fun h =>
          if (Spec.writes specs (T (h + 1) i)).isSome then decryptRlwe s (c (h + 1)) - decryptRlwe s (c 0) else 0).sum)
          (k * (2 * δ)) := by
  obtain ⟨U, hU, hUT⟩ := encDb_of_items L hsh hM
  obtain ⟨rs, r1, r2, r3, r4, r5⟩ := batch_phase1_of hql0 hrows hsh hU hok
  set data1 := phase1Db fft qs S.data (rs.map Prod.snd) with hd1
  have hF := hflag rs r1 (fun r sp hsp => by
    obtain ⟨y, ls, a1, _, a3, a4⟩ := r3 r sp hsp
    exact ⟨ls, by rw [List.getElem?_map, a1]; rfl, a3, a4⟩)
  have hcell : ∀ h i, ∃ c : RLWE n, h < k + 1 → i < N → cellAt data1 (T h i) = some c := by
    intro h i
    by_cases hh : h < k + 1 ∧ i < N
    · obtain ⟨c, hc⟩ := cellAt_isSome r4 (L.row_lt h i hh.1 hh.2) (L.col_lt h i hh.1 hh.2)
      exact ⟨c, fun _ _ => hc⟩
    · exact ⟨0, fun a b => absurd ⟨a, b⟩ hh⟩
  choose c hc using hcell
  obtain ⟨data2, a1, a2, a3, _⟩ := correctAll_spec hF L (c := c) (List.range N) data1 List.nodup_range
    (fun i hi => List.mem_range.mp hi) r4 (fun i hi h hh => hc h i hh (List.mem_range.mp hi)) (fun i hi h hh => by
      rw [List.mem_range] at hi
      exact ⟨⟨h, i, hh, hi, rfl, .inr (hc h i hh hi)⟩, ⟨h, i, hh, hi, rfl, .inl (hc 0 i (by omega) hi)⟩⟩)
  have hql : qs.length = S.data.length := by rw [← hql0, hsh.1]; exact hrows
  have hcols : S.cols = some (2 ^ D) := by
    unfold Server.cols
    rcases hd : S.data with _ | ⟨row, rest⟩
    · have := hsh.1; rw [hd] at this; simp at this; omega
    · have := hsh.2 row (by rw [hd]; simp)
      simp [this]
  have hN : S.data.length * 2 ^ D / H.hCount = N := by
    rw [hsh.1, L.count, hsize, Nat.mul_div_cancel_left _ (by omega)]
  refine ⟨rs.map Prod.fst, { S with data := data2 }, ?_, rfl, rfl, a2, by simp [r2], ?_, ?_⟩
  · unfold Server.processBatch
    rw [if_pos hql, r1]
    simp only [hcols, hN]
    unfold phase1Db at hd1
    rw [if_neg (by rw [L.count]; omega), ← hd1, a1]
  · intro r sp hsp
    obtain ⟨y, ls, b1, b2, _⟩ := r3 r sp hsp
    refine ⟨y, by rw [List.getElem?_map, b1]; rfl, fun h i hh hi hT => ?_⟩
    rw [← hUT h i hh hi, hT]
    exact b2
  · intro i hi
    obtain ⟨V, v1, v2⟩ := a3 i (List.mem_range.mpr hi)
    refine ⟨V, fun h => c h i, v1, fun h hh => ?_, v2⟩
    have := r5 (T h i) _ (hc h i hh hi)
    simp only [hUT h i hh hi] at this
    exact this

theorem batch_rows_worst (hn : 0 < n) {fft : Fft n} {phi : Nat} (hf : fft.Bounded phi) {s : Poly n} (hs : Binary s) {S : Server n}
    {B : Nat} (hk : ServerKeys S.ctx s S.negS B) {D : Nat} (hD : 1 ≤ D) {specs : List (QuerySpec n)} {qs : List (ClientQuery n)}
    (hq : IsQueries S.ctx s D B specs qs) {rows : Nat} (hsh : DbShape rows (2 ^ D) S.data) {e : Nat} :
    ∀ (r : Nat) sp q row, specs[r]? = some sp → qs[r]? = some q → S.data[r]? = some row → ∀ v, EncRow s row v e →
      RowOk fft s S.ctx S.negS D q sp row v (selNoise S.ctx n B phi D) (e + 2 ^ D * deltaSel S.ctx n B phi D)
        (max e B + deltaOp S.ctx n B phi + deltaSel S.ctx n B phi D) := by
  intro r sp q row hsp hqr hrow v hv
  obtain ⟨q', hq', hqq⟩ := forall₂_getElem_left hq hsp
  rw [hqr] at hq'; cases hq'
  exact process_row hn hf hs hk hD hqq (hsh.2 row (List.mem_of_getElem? hrow)) hv

theorem batch_flags_worst {fft : Fft n} {phi : Nat} (hf : fft.Bounded phi) {s : Poly n} (hs : Binary s) {S : Server n}
    {B D : Nat} {specs : List (QuerySpec n)} {qs : List (ClientQuery n)}
    (hq : IsQueries S.ctx s D B specs qs) {rows k N : Nat} {T : Nat → Nat → Nat × Nat} (hrows : specs.length = rows) :
    ∀ rs, mapOption (batchRow fft S) (qs.zip S.data) = some rs →
      (∀ (r : Nat) (sp : QuerySpec n), specs[r]? = some sp → ∃ ls, (rs.map Prod.snd)[r]? = some ls ∧ ls.length = 2 ^ D ∧
        ∀ j l, ls[j]? = some l → EncBit s l (decide (j = sp.i)) S.ctx.baseLog S.ctx.levelCount (selNoise S.ctx n B phi D)) →
      FlagSel fft s (rs.map Prod.snd) (qs.map ClientQuery.op) specs rows (2 ^ D) (deltaOp S.ctx n B phi + deltaSel S.ctx n B phi D)
        (Corrected T (k + 1) N (phase1Db fft qs S.data (rs.map Prod.snd))) := by
  intro rs _ hls
  exact flagSel_of_gates hq hrows hls (fun p v q ls l _ _ _ _ => ⟨fun b hb => by
    have := extBit_enc hf hs.small hb 0 v
    rw [decrypt_zero, zero_add] at this
    exact this, fun b hb => by
    have := extBit_enc hf hs.small hb 0 (externalProduct fft q.op 0 v)
    rw [decrypt_zero, zero_add] at this
    exact this⟩)

/-- `process_batch` on any well-formed batch: responses, and for every item the exact effect of the consistency correction on the cells `c`
after the row updates. -/
theorem batch_core (hn : 0 < n) {fft : Fft n} {phi : Nat} (hf : fft.Bounded phi) {s : Poly n} (hs : Binary s) {S : Server n}
    {B : Nat} (hk : ServerKeys S.ctx s S.negS B) {D : Nat} (hD : 1 ≤ D) {specs : List (QuerySpec n)} {qs : List (ClientQuery n)}
    (hq : IsQueries S.ctx s D B specs qs) {H : NaiveHash} {rows k N : Nat} {T : Nat → Nat → Nat × Nat}
    (L : Layout H rows (2 ^ D) (k + 1) N T) (hpos : 0 < rows) (hsize : rows * 2 ^ D = (k + 1) * N) (hrows : specs.length = rows)
    (hsh : DbShape rows (2 ^ D) S.data) {M : Nat → Poly n} {e : Nat} (hM : EncItems s (k + 1) N T S.data M e) :
    ∃ ys S', S.processBatch fft qs H = some (ys, S') ∧ S'.negS = S.negS ∧ S'.ctx = S.ctx ∧ DbShape rows (2 ^ D) S'.data ∧
      ys.length = rows ∧
      (∀ (r : Nat) (sp : QuerySpec n), specs[r]? = some sp → ∃ y, ys[r]? = some y ∧ ∀ h i, h < k + 1 → i < N → T h i = (r, sp.i) →
        Enc s y (M i) (e + 2 ^ D * deltaSel S.ctx n B phi D)) ∧
      ∀ i, i < N → ∃ (V : RLWE n) (c : Nat → RLWE n), (∀ h, h < k + 1 → cellAt S'.data (T h i) = some V) ∧
        (∀ h, h < k + 1 → Enc s (c h) ((Spec.writes specs (T h i)).getD (M i)) (max e B + deltaOp S.ctx n B phi + deltaSel S.ctx n B phi D)) ∧
        Enc s V (decryptRlwe s (c 0) + ((List.range k).map fun h =>
          if (Spec.writes specs (T (h + 1) i)).isSome then decryptRlwe s (c (h + 1)) - decryptRlwe s (c 0) else 0).sum)
          (k * (2 * (deltaOp S.ctx n B phi + deltaSel S.ctx n B phi D))) := by
  exact batch_core_of hq.length_eq L hpos hsize hrows hsh hM (E := selNoise S.ctx n B phi D)
    (batch_rows_worst hn hf hs hk hD hq hsh) (batch_flags_worst hf hs hq hrows)

theorem batch_none {specs : List (QuerySpec n)} {hc : Nat} {T : Nat → Nat → Nat × Nat} {M : Nat → Poly n} {i : Nat}
    (h : ∀ h, h < hc → Spec.writes specs (T h i) = none) : Spec.batch specs hc T M i = M i := by
  unfold Spec.batch
  rw [List.findSome?_eq_none_iff.mpr (fun k hk => h k (List.mem_range.mp hk))]
  rfl

theorem batch_some {specs : List (QuerySpec n)} {hc : Nat} {T : Nat → Nat → Nat × Nat} {M : Nat → Poly n} {i h0 : Nat} {m : Poly n}
    (hh : h0 < hc) (hm : Spec.writes specs (T h0 i) = some m)
    (hall : ∀ h m', h < hc → Spec.writes specs (T h i) = some m' → m' = m) : Spec.batch specs hc T M i = m := by
  unfold Spec.batch
  rcases hx : (List.range hc).findSome? (fun h => Spec.writes specs (T h i)) with _ | m'
  · rw [List.findSome?_eq_none_iff] at hx
    rw [hx h0 (List.mem_range.mpr hh)] at hm; cases hm
  · obtain ⟨h, hmem, hw⟩ := List.exists_of_findSome?_eq_some hx
    exact hall h m' (List.mem_range.mp hmem) hw

/-- What a batch that writes at most one copy of every item achieves. -/
def BatchOk (fft : Fft n) (s : Poly n) (S : Server n) (H : NaiveHash) (rows D hc N : Nat) (T : Nat → Nat → Nat × Nat)
    (specs : List (QuerySpec n)) (qs : List (ClientQuery n)) (M : Nat → Poly n) (er en : Nat) : Prop :=
    ∃ ys S', S.processBatch fft qs H = some (ys, S') ∧ S'.negS = S.negS ∧ S'.ctx = S.ctx ∧ DbShape rows (2 ^ D) S'.data ∧
      ys.length = rows ∧
      (∀ (r : Nat) (sp : QuerySpec n), specs[r]? = some sp → ∃ y, ys[r]? = some y ∧ ∀ h i, h < hc → i < N → T h i = (r, sp.i) →
        Enc s y (M i) er) ∧
      EncItems s hc N T S'.data (Spec.batch specs hc T M) en ∧
      ∀ h h' i, h < hc → h' < hc → i < N → cellAt S'.data (T h i) = cellAt S'.data (T h' i)

theorem batch_server_of {fft : Fft n} {s : Poly n} {S : Server n} {D : Nat} {specs : List (QuerySpec n)} {qs : List (ClientQuery n)}
    (hql0 : specs.length = qs.length) {H : NaiveHash} {rows k N : Nat} {T : Nat → Nat → Nat × Nat}
    (L : Layout H rows (2 ^ D) (k + 1) N T) (hpos : 0 < rows) (hsize : rows * 2 ^ D = (k + 1) * N) (hrows : specs.length = rows)
    (hsh : DbShape rows (2 ^ D) S.data) {M : Nat → Poly n} {e E er eu δ : Nat} (hM : EncItems s (k + 1) N T S.data M e)
    (huniq : ∀ i h h', i < N → h < k + 1 → h' < k + 1 → (Spec.writes specs (T h i)).isSome → (Spec.writes specs (T h' i)).isSome → h = h')
    (hok : ∀ (r : Nat) sp q row, specs[r]? = some sp → qs[r]? = some q → S.data[r]? = some row → ∀ v, EncRow s row v e →
      RowOk fft s S.ctx S.negS D q sp row v E er eu)
    (hflag : ∀ rs, mapOption (batchRow fft S) (qs.zip S.data) = some rs →
      (∀ (r : Nat) (sp : QuerySpec n), specs[r]? = some sp → ∃ ls, (rs.map Prod.snd)[r]? = some ls ∧ ls.length = 2 ^ D ∧
        ∀ j l, ls[j]? = some l → EncBit s l (decide (j = sp.i)) S.ctx.baseLog S.ctx.levelCount E) →
      FlagSel fft s (rs.map Prod.snd) (qs.map ClientQuery.op) specs rows (2 ^ D) δ
        (Corrected T (k + 1) N (phase1Db fft qs S.data (rs.map Prod.snd)))) :
    BatchOk fft s S H rows D (k + 1) N T specs qs M er (eu + k * (2 * δ)) := by
  obtain ⟨ys, S', b1, b2, b3, b4, b5, b6, b7⟩ := batch_core_of hql0 L hpos hsize hrows hsh hM hok hflag
  refine ⟨ys, S', b1, b2, b3, b4, b5, b6, ?_, ?_⟩
  · intro h i hh hi
    obtain ⟨V, c, v1, v2, v3⟩ := b7 i hi
    refine ⟨V, v1 h hh, ?_⟩
    by_cases hw : ∃ h0, h0 < k ∧ (Spec.writes specs (T (h0 + 1) i)).isSome
    · obtain ⟨h0, hh0, hw0⟩ := hw
      have hsum := sum_ite_unique (fun h => (Spec.writes specs (T (h + 1) i)).isSome)
        (fun h => decryptRlwe s (c (h + 1)) - decryptRlwe s (c 0)) (List.range k) h0 (List.mem_range.mpr hh0) List.nodup_range hw0
        (fun h' hh' hw' => by
          have := huniq i (h' + 1) (h0 + 1) hi (by have := List.mem_range.mp hh'; omega) (by omega) hw' hw0
          omega)
      rw [hsum] at v3
      obtain ⟨m, hm⟩ := Option.isSome_iff_exists.mp hw0
      have hc := v2 (h0 + 1) (by omega)
      rw [hm, Option.getD_some] at hc
      rw [batch_some (h0 := h0 + 1) (m := m) (by omega) hm (fun h' m' hh' hm' => by
        have := huniq i h' (h0 + 1) hi hh' (by omega) (by rw [hm']; rfl) hw0
        subst this
        rw [hm] at hm'; cases hm'; rfl)]
      unfold Enc at *
      rw [show decryptRlwe s V - m = (decryptRlwe s (c (h0 + 1)) - m)
        + (decryptRlwe s V - (decryptRlwe s (c 0) + (decryptRlwe s (c (h0 + 1)) - decryptRlwe s (c 0)))) by ring]
      exact hc.add v3
    · have hz : ((List.range k).map fun h => if (Spec.writes specs (T (h + 1) i)).isSome then decryptRlwe s (c (h + 1)) - decryptRlwe s (c 0)
          else 0).sum = 0 := by
        have : ((List.range k).map fun h => if (Spec.writes specs (T (h + 1) i)).isSome then decryptRlwe s (c (h + 1)) - decryptRlwe s (c 0)
          else 0) = (List.range k).map fun _ => 0 := List.map_congr_left fun h hh => by
            rw [if_neg (fun h' => hw ⟨h, List.mem_range.mp hh, h'⟩)]
        rw [this]; simp
      rw [hz, add_zero] at v3
      have hc := v2 0 (by omega)
      have hM' : (Spec.writes specs (T 0 i)).getD (M i) = Spec.batch specs (k + 1) T M i := by
        rcases hx : Spec.writes specs (T 0 i) with _ | m
        · rw [batch_none]
          · rfl
          · intro h hh
            rcases h with _ | h
            · exact hx
            · by_contra hne
              exact hw ⟨h, by omega, Option.isSome_iff_ne_none.mpr hne⟩
        · rw [batch_some (h0 := 0) (m := m) (by omega) hx]
          · rfl
          · intro h' m' hh' hm'
            have := huniq i h' 0 hi hh' (by omega) (by rw [hm']; rfl) (by rw [hx]; rfl)
            subst this
            rw [hx] at hm'; cases hm'; rfl
      rw [hM'] at hc
      unfold Enc at *
      rw [show decryptRlwe s V - Spec.batch specs (k + 1) T M i = (decryptRlwe s (c 0) - Spec.batch specs (k + 1) T M i)
        + (decryptRlwe s V - decryptRlwe s (c 0)) by ring]
      exact hc.add v3
  · intro h h' i hh hh' hi
    obtain ⟨V, c, v1, _⟩ := b7 i hi
    rw [v1 h hh, v1 h' hh']

/-- C46 (server): if at most one copy of every item is written by the batch, then every response encrypts the old content of the item at
its row's column, and afterwards *all* copies of every item are equal: to the written data if one copy was written, to the old content
otherwise.  The noise grows additively. -/
theorem C46_server (hn : 0 < n) {fft : Fft n} {phi : Nat} (hf : fft.Bounded phi) {s : Poly n} (hs : Binary s) {S : Server n}
    {B : Nat} (hk : ServerKeys S.ctx s S.negS B) {D : Nat} (hD : 1 ≤ D) {specs : List (QuerySpec n)} {qs : List (ClientQuery n)}
    (hq : IsQueries S.ctx s D B specs qs) {H : NaiveHash} {rows hc N : Nat} (hcpos : 0 < hc) {T : Nat → Nat → Nat × Nat}
    (L : Layout H rows (2 ^ D) hc N T) (hpos : 0 < rows) (hsize : rows * 2 ^ D = hc * N) (hrows : specs.length = rows)
    (hsh : DbShape rows (2 ^ D) S.data) {M : Nat → Poly n} {e : Nat} (hM : EncItems s hc N T S.data M e)
    (huniq : ∀ i h h', i < N → h < hc → h' < hc → (Spec.writes specs (T h i)).isSome → (Spec.writes specs (T h' i)).isSome → h = h') :
    ∃ ys S', S.processBatch fft qs H = some (ys, S') ∧ S'.negS = S.negS ∧ S'.ctx = S.ctx ∧ DbShape rows (2 ^ D) S'.data ∧
      ys.length = rows ∧
      (∀ (r : Nat) (sp : QuerySpec n), specs[r]? = some sp → ∃ y, ys[r]? = some y ∧ ∀ h i, h < hc → i < N → T h i = (r, sp.i) →
        Enc s y (M i) (e + 2 ^ D * deltaSel S.ctx n B phi D)) ∧
      EncItems s hc N T S'.data (Spec.batch specs hc T M) (batchNoise S.ctx n B phi D hc e) ∧
      ∀ h h' i, h < hc → h' < hc → i < N → cellAt S'.data (T h i) = cellAt S'.data (T h' i) := by
  show BatchOk fft s S H rows D hc N T specs qs M (e + 2 ^ D * deltaSel S.ctx n B phi D) (batchNoise S.ctx n B phi D hc e)
  obtain ⟨k, rfl⟩ := Nat.exists_eq_succ_of_ne_zero (Nat.pos_iff_ne_zero.mp hcpos)
  have := batch_server_of hq.length_eq L hpos hsize hrows hsh hM huniq (E := selNoise S.ctx n B phi D)
    (batch_rows_worst hn hf hs hk hD hq hsh) (batch_flags_worst hf hs hq hrows)
  have hnoise : batchNoise S.ctx n B phi D (k + 1) e = (max e B + deltaOp S.ctx n B phi + deltaSel S.ctx n B phi D)
      + k * (2 * (deltaOp S.ctx n B phi + deltaSel S.ctx n B phi D)) := by
    unfold batchNoise
    rw [show 2 * (k + 1) - 1 = 2 * k + 1 by omega]
    ring
  rw [Nat.succ_eq_add_one, hnoise]
  exact this

/-! ### The client's batch queries -/

/-- What the client's batch query asks row `r` for. -/
def RowSpec (mapping : NaiveHash.Mapping) (w : Bool) (enc : Poly n) (r : Nat) (sp : QuerySpec n) : Prop :=
  (∀ c i, mapping r = some (c, i) → sp.i = c ∧ sp.w = w ∧ (w = true → sp.m = enc)) ∧ (mapping r = none → sp.w = false ∧ sp.i = 0)

theorem forall₂_choose {α β γ : Type} {P : β → γ → Prop} {Q : α → γ → Prop} : ∀ {as : List α} {bs : List β},
    List.Forall₂ (fun a b => ∃ c, P b c ∧ Q a c) as bs → ∃ cs, List.Forall₂ (fun c b => P b c) cs bs ∧ List.Forall₂ Q as cs
  | _, _, .nil => ⟨[], .nil, .nil⟩
  | _, _, .cons ⟨c, h1, h2⟩ hs => by
    obtain ⟨cs, h3, h4⟩ := forall₂_choose hs
    exact ⟨c :: cs, .cons h1 h3, .cons h2 h4⟩

/-- The query kind of a batch command. -/
def BatchKind (ctx : Ctx) (cmd : BatchCmd n) (w : Bool) (m : Poly n) : Prop :=
  match cmd with
  | .read _ => w = false
  | .write _ a => w = true ∧ ctx.codec.polyEncode a = some m

theorem BatchCmd.Valid.nodup {N : Nat} {t : Scalar} {c : BatchCmd n} (h : c.Valid N t) : c.indices.Nodup ∧ ∀ i ∈ c.indices, i < N := by
  cases c with
  | read is => exact h
  | write is a => exact h.1

theorem BatchCmd.Valid.enc {N : Nat} {t : Scalar} {c : BatchCmd n} (h : c.Valid N t) : ∀ is a, c = .write is a → Spec.Encodable t a := by
  rintro is a rfl
  exact h.2

theorem clientBatch_spec {t : Scalar} {ctx : Ctx} (hcd : Codec.new t = some ctx.codec) (h1 : 1 ≤ ctx.baseLog) (h2 : 1 ≤ ctx.levelCount)
    (h3 : ctx.baseLog * ctx.levelCount < 64) (s : Poly n) (shuffle : List Nat → List Nat) (hsh : ∀ l, (shuffle l).Perm l) {hc N : Nat}
    {H : NaiveHash} (hnew : NaiveHash.new shuffle hc N = some H) {D rows : Nat} (hD : D < 64) (hsize : rows * 2 ^ D = hc * N)
    {cmd : BatchCmd n} (hr : ∀ i ∈ cmd.indices, i < N) (hea : ∀ is a, cmd = .write is a → Spec.Encodable t a) {g : Gen n} {B : Nat} (hg : g.Bounded B) :
    ∃ mapping qs specs g' w m, H.hashToMapping cmd.indices (2 ^ D) = some mapping ∧
      clientBatch ctx s rows (2 ^ D) H cmd g = some (qs, g') ∧ g'.Bounded B ∧ IsQueries ctx s D B specs qs ∧
      specs.length = rows ∧ BatchKind ctx cmd w m ∧ ∀ r sp, specs[r]? = some sp → RowSpec mapping w m r sp := by
  obtain ⟨mapping, hm⟩ := C11_mapping_total shuffle hsh hc N H hnew cmd.indices (2 ^ D) (by positivity) hr
  obtain ⟨hsound, _⟩ := C11_mapping_sound shuffle hsh hc N H hnew cmd.indices (2 ^ D) (by positivity) hr mapping hm
  obtain ⟨hb1, _⟩ := C10_tuple_bijection shuffle hsh hc N H hnew rows (2 ^ D) (by positivity) hsize
  have hcol : ∀ r c i, mapping r = some (c, i) → c < 2 ^ D := by
    intro r c i hmr
    obtain ⟨hi, h, hh, ht⟩ := hsound r c i hmr
    obtain ⟨r', c', ht', _, hc', _⟩ := hb1 h i hh (hr i hi)
    rw [ht] at ht'; cases ht'; exact hc'
  have hread : ∀ (enc : Poly n) (w : Bool) r g, (∀ c i, mapping r = some (c, i) → w = false) → g.Bounded B → ∃ res, readQueryRow ctx s (2 ^ D) mapping r g = some res ∧
      (∃ sp, IsQuery ctx s res.1 D sp.i sp.w sp.m B ∧ RowSpec mapping w enc r sp) ∧ res.2.Bounded B := by
    intro enc w r g hwf hg
    unfold readQueryRow
    rcases hmr : mapping r with _ | ⟨c, i⟩
    · obtain ⟨q, g', m, q1, q2, q3⟩ := C42_read_query hcd h1 h2 h3 s hD (i := 0) (by positivity) hg
      exact ⟨(q, g'), q1, ⟨⟨0, false, m⟩, q3, ⟨by rw [hmr]; rintro _ _ ⟨⟩, fun _ => ⟨rfl, rfl⟩⟩⟩, q2⟩
    · obtain ⟨q, g', m, q1, q2, q3⟩ := C42_read_query hcd h1 h2 h3 s hD (hcol r c i hmr) hg
      have hw := hwf c i hmr
      refine ⟨(q, g'), q1, ⟨⟨c, false, m⟩, q3, ⟨?_, fun h => by rw [hmr] at h; cases h⟩⟩, q2⟩
      rw [hmr]
      rintro _ _ ⟨⟩
      exact ⟨rfl, hw.symm, fun h => by rw [hw] at h; cases h⟩
  cases cmd with
  | read is =>
    simp only [BatchCmd.indices] at hm
    obtain ⟨res, e1, e2, e3⟩ := mapGenM_spec (P := fun g : Gen n => g.Bounded B)
      (Q := fun r q => ∃ sp : QuerySpec n, IsQuery ctx s q D sp.i sp.w sp.m B ∧ RowSpec mapping false 0 r sp)
      (f := readQueryRow ctx s (2 ^ D) mapping) (List.range rows) (fun r _ g hg => hread 0 false r g (fun _ _ _ => rfl) hg) g hg
    obtain ⟨specs, s1, s2⟩ := forall₂_choose (P := fun q (sp : QuerySpec n) => IsQuery ctx s q D sp.i sp.w sp.m B) e2
    refine ⟨mapping, res.1, specs, res.2, false, 0, hm, ?_, e3, s1, by rw [← s2.length_eq]; simp, rfl, fun r sp hsp => ?_⟩
    · unfold clientBatch
      simp only [genReadQueryBatch, hm, e1]
    · obtain ⟨a, ha, hq⟩ := forall₂_getElem s2 hsp
      have : a = r := by
        rw [List.getElem?_eq_some_iff] at ha
        obtain ⟨h, rfl⟩ := ha
        simp
      rw [← this]; exact hq
  | write is a =>
    simp only [BatchCmd.indices] at hm
    obtain ⟨enc, henc⟩ := polyEncode_total hcd (hea is a rfl)
    obtain ⟨res, e1, e2, e3⟩ := mapGenM_spec (P := fun g : Gen n => g.Bounded B)
      (Q := fun r q => ∃ sp : QuerySpec n, IsQuery ctx s q D sp.i sp.w sp.m B ∧ RowSpec mapping true enc r sp)
      (f := writeQueryRow ctx s (2 ^ D) a mapping) (List.range rows) (fun r _ g hg => by
        rcases hmr : mapping r with _ | ⟨c, i⟩
        · have := hread enc true r g (by rw [hmr]; rintro _ _ ⟨⟩) hg
          unfold readQueryRow at this
          unfold writeQueryRow
          rw [hmr] at this ⊢
          exact this
        · obtain ⟨q, g', enc', q1, q2, q4, q3⟩ := C42_write_query hcd h1 h2 h3 s hD (hcol r c i hmr) (hea is a rfl) hg
          rw [henc] at q4; cases q4
          refine ⟨(q, g'), by unfold writeQueryRow; rw [hmr]; exact q1, ⟨⟨c, true, enc⟩, q3, ⟨?_, ?_⟩⟩, q2⟩
          · rw [hmr]; rintro _ _ ⟨⟩; exact ⟨rfl, rfl, fun _ => rfl⟩
          · rw [hmr]; rintro ⟨⟩) g hg
    obtain ⟨specs, s1, s2⟩ := forall₂_choose (P := fun q (sp : QuerySpec n) => IsQuery ctx s q D sp.i sp.w sp.m B) e2
    refine ⟨mapping, res.1, specs, res.2, true, enc, hm, ?_, e3, s1, by rw [← s2.length_eq]; simp, ⟨rfl, henc⟩, fun r sp hsp => ?_⟩
    · unfold clientBatch
      simp only [genWriteQueryBatch, hm, e1]
    · obtain ⟨a, ha, hq⟩ := forall₂_getElem s2 hsp
      have : a = r := by
        rw [List.getElem?_eq_some_iff] at ha
        obtain ⟨h, rfl⟩ := ha
        simp
      rw [← this]; exact hq

/-- In a client batch a cell is written iff it is the mapped cell of an item of a WRITE batch. -/
theorem writes_client {H : NaiveHash} {rows cols hc N : Nat} {T : Nat → Nat → Nat × Nat} (L : Layout H rows cols hc N T)
    {is : List Nat} {mapping : NaiveHash.Mapping}
    (hsound : ∀ r c i, mapping r = some (c, i) → i ∈ is ∧ ∃ h, h < hc ∧ H.hashToTuple h i cols = some (r, c)) (hlt : ∀ i ∈ is, i < N)
    {specs : List (QuerySpec n)} (hlen : specs.length = rows) {w : Bool} {enc : Poly n}
    (hrow : ∀ r sp, specs[r]? = some sp → RowSpec mapping w enc r sp) {h i : Nat} (hh : h < hc) (hi : i < N) :
    Spec.writes specs (T h i) = if w = true ∧ mapping (T h i).1 = some ((T h i).2, i) then some enc else none := by
  have hr := L.row_lt h i hh hi
  obtain ⟨sp, hsp⟩ : ∃ sp, specs[(T h i).1]? = some sp := ⟨specs[(T h i).1], List.getElem?_eq_getElem (by omega)⟩
  obtain ⟨r1, r2⟩ := hrow _ sp hsp
  unfold Spec.writes
  simp only [hsp]
  rcases hm : mapping (T h i).1 with _ | ⟨c, i'⟩
  · rw [if_neg (by simp [r2 hm]), if_neg (by rintro ⟨_, ⟨⟩⟩)]
  · obtain ⟨e1, e2, e3⟩ := r1 c i' hm
    obtain ⟨hi', h', hh', ht⟩ := hsound _ c i' hm
    have hT : T h' i' = ((T h i).1, c) := by
      have := (L.tuple h' i' hh' (hlt i' hi')).symm.trans ht
      simpa using this
    by_cases hw : w = true
    · by_cases hc : c = (T h i).2
      · have heq : T h' i' = T h i := by rw [hT, hc]
        have hii : i' = i := (L.inj h' i' h i hh' (hlt i' hi') hh hi heq).2
        rw [if_pos ⟨by rw [e1, hc], by rw [e2, hw]⟩, if_pos ⟨hw, by rw [hc, hii]⟩, e3 hw]
      · rw [if_neg (fun h' => hc (by rw [← e1]; exact h'.1)), if_neg (by
          rintro ⟨_, h'⟩
          simp only [Option.some.injEq, Prod.mk.injEq] at h'
          exact hc h'.1)]
    · rw [if_neg (by rw [e2]; exact fun h' => hw h'.2), if_neg (fun h' => hw h'.1)]

/-- One batch access, end to end, from what the server achieves. -/
theorem batch_access_of {t : Scalar} {fft : Fft n} {s : Poly n}
    {S : Server n} (hcd : Codec.new t = some S.ctx.codec) {B : Nat} (hk : ServerKeys S.ctx s S.negS B) (shuffle : List Nat → List Nat)
    (hshf : ∀ l, (shuffle l).Perm l) {hc N : Nat} {H : NaiveHash} (hnew : NaiveHash.new shuffle hc N = some H) {D rows : Nat}
    (hD : D < 64) (hsize : rows * 2 ^ D = hc * N) {T : Nat → Nat → Nat × Nat} (L : Layout H rows (2 ^ D) hc N T)
    {v : Nat → Poly n} {e er en : Nat} (hcons : Consistent S.ctx s hc N T S.data v e)
    {cmd : BatchCmd n} (hv : cmd.Valid N t) {g : Gen n} (hg : g.Bounded B)
    (hserver : ∀ specs qs g' M, clientBatch S.ctx s rows (2 ^ D) H cmd g = some (qs, g') → IsQueries S.ctx s D B specs qs →
      specs.length = rows → EncItems s hc N T S.data M e →
      (∀ i h h', i < N → h < hc → h' < hc → (Spec.writes specs (T h i)).isSome → (Spec.writes specs (T h' i)).isSome → h = h') →
      BatchOk fft s S H rows D hc N T specs qs M er en) :
    ∃ mapping qs g' ys S', H.hashToMapping cmd.indices (2 ^ D) = some mapping ∧
      clientBatch S.ctx s rows (2 ^ D) H cmd g = some (qs, g') ∧ g'.Bounded B ∧
      S.processBatch fft qs H = some (ys, S') ∧ S'.negS = S.negS ∧ S'.ctx = S.ctx ∧ DbShape rows (2 ^ D) S'.data ∧
      (∀ r c i, mapping r = some (c, i) → ∃ y enc, ys[r]? = some y ∧ S.ctx.codec.polyEncode (v i) = some enc ∧
        Enc s y enc er) ∧
      Consistent S.ctx s hc N T S'.data (Spec.applyBatch H (2 ^ D) v cmd) en ∧
      ∀ h h' i, h < hc → h' < hc → i < N → cellAt S'.data (T h i) = cellAt S'.data (T h' i) := by
  have hcpos : 0 < hc := by
    rcases Nat.eq_zero_or_pos hc with h0 | h0
    · have := (C09_new_panics shuffle hc N).mpr h0
      rw [hnew] at this; cases this
    · exact h0
  obtain ⟨mapping, qs, specs, g', w, m, c1, c2, c3, c4, c5, c6, c7⟩ := clientBatch_spec hcd hk.bl hk.lv hk.lt s shuffle hshf hnew hD hsize hv.nodup.2 hv.enc hg
  obtain ⟨hsound, hinj⟩ := C11_mapping_sound shuffle hshf hc N H hnew cmd.indices (2 ^ D) (by positivity) hv.nodup.2 mapping c1
  have hw := fun h i (hh : h < hc) (hi : i < N) => writes_client L hsound hv.nodup.2 c5 c7 hh hi
  set M : Nat → Poly n := fun i => (S.ctx.codec.polyEncode (v i)).getD 0 with hMdef
  have hMenc : ∀ i, i < N → S.ctx.codec.polyEncode (v i) = some (M i) := by
    intro i hi
    obtain ⟨_, enc, _, h2, _⟩ := hcons 0 i hcpos hi
    rw [hMdef]; simp only [h2]; rfl
  have hM : EncItems s hc N T S.data M e := by
    intro h i hh hi
    obtain ⟨ct, enc, a1, a2, a3⟩ := hcons h i hh hi
    rw [hMenc i hi] at a2; cases a2
    exact ⟨ct, a1, a3⟩
  have huniq : ∀ i h h', i < N → h < hc → h' < hc → (Spec.writes specs (T h i)).isSome → (Spec.writes specs (T h' i)).isSome → h = h' := by
    intro i h h' hi hh hh' hs1 hs2
    rw [hw h i hh hi] at hs1
    rw [hw h' i hh' hi] at hs2
    have a1 : w = true ∧ mapping (T h i).1 = some ((T h i).2, i) := by
      by_contra hne; rw [if_neg hne] at hs1; cases hs1
    have a2 : w = true ∧ mapping (T h' i).1 = some ((T h' i).2, i) := by
      by_contra hne; rw [if_neg hne] at hs2; cases hs2
    have hr := hinj hv.nodup.1 _ _ _ _ i a1.2 a2.2
    have hc' : (T h i).2 = (T h' i).2 := by
      have := a1.2
      rw [hr, a2.2] at this
      simpa using this.symm
    exact (L.inj h i h' i hh hi hh' hi (Prod.ext hr hc')).1
  obtain ⟨ys, S', b1, b2, b3, b4, b5, b6, b7, b8⟩ := hserver specs qs g' M c2 c4 c5 hM huniq
  refine ⟨mapping, qs, g', ys, S', c1, c2, c3, b1, b2, b3, b4, ?_, ?_, b8⟩
  · intro r c i hr
    obtain ⟨hi, h, hh, ht⟩ := hsound r c i hr
    have hiN := hv.nodup.2 i hi
    have hT : T h i = (r, c) := by
      have := (L.tuple h i hh hiN).symm.trans ht
      simpa using this
    have hrl : r < rows := by have := L.row_lt h i hh hiN; rw [hT] at this; exact this
    have hsp : specs[r]? = some specs[r] := List.getElem?_eq_getElem (by omega)
    obtain ⟨y, y1, y2⟩ := b6 r specs[r] hsp
    refine ⟨y, M i, y1, hMenc i hiN, y2 h i hh hiN ?_⟩
    rw [hT, ((c7 r specs[r] hsp).1 c i hr).1]
  · intro h i hh hi
    obtain ⟨ct, d1, d2⟩ := b7 h i hh hi
    -- the new content of item `i` at the level of messages
    have hnew' : S.ctx.codec.polyEncode (Spec.applyBatch H (2 ^ D) v cmd i) = some (Spec.batch specs hc T M i) := by
      by_cases hserved : ∃ r c, mapping r = some (c, i)
      · obtain ⟨r, c, hr⟩ := hserved
        obtain ⟨_, h0, hh0, ht0⟩ := hsound r c i hr
        have hT0 : T h0 i = (r, c) := by
          have := (L.tuple h0 i hh0 hi).symm.trans ht0
          simpa using this
        cases cmd with
        | read is =>
          have c6 : w = false := c6
          rw [batch_none (fun h hh => by rw [hw h i hh hi, if_neg (by rw [c6]; rintro ⟨⟨⟩, _⟩)])]
          exact hMenc i hi
        | write is a =>
          obtain ⟨c6, c6'⟩ : w = true ∧ S.ctx.codec.polyEncode a = some m := c6
          have hwr : Spec.writes specs (T h0 i) = some m := by
            rw [hw h0 i hh0 hi, if_pos ⟨c6, by rw [hT0]; exact hr⟩]
          rw [batch_some hh0 hwr (fun h' m' hh' hm' => by
            rw [hw h' i hh' hi] at hm'
            split at hm'
            · cases hm'; rfl
            · cases hm')]
          have : Spec.applyBatch H (2 ^ D) v (.write is a) i = a := by
            unfold Spec.applyBatch
            exact if_pos ⟨mapping, r, c, c1, hr⟩
          rw [this]; exact c6'
      · have hnone : ∀ h, h < hc → Spec.writes specs (T h i) = none := fun h hh => by
          rw [hw h i hh hi, if_neg (fun h' => hserved ⟨_, _, h'.2⟩)]
        rw [batch_none hnone]
        have : Spec.applyBatch H (2 ^ D) v cmd i = v i := by
          cases cmd with
          | read is => rfl
          | write is a =>
            unfold Spec.applyBatch
            exact if_neg (fun ⟨m', r, c, hm', hr⟩ => by
              simp only [BatchCmd.indices] at c1
              rw [c1] at hm'; cases hm'
              exact hserved ⟨r, c, hr⟩)
        rw [this]; exact hMenc i hi
    exact ⟨ct, _, d1, by rw [hnew'], d2⟩

/-- C46: one batch access, end to end.  On a consistent database (all copies of item `i` store `v i`), for any batch READ or WRITE of
distinct items generated by the client, `process_batch` does not panic; every row mapped to an item answers with an encryption of the
item's old content; afterwards the database is consistent again, for the plain-array content (the served items hold the new data), and the
copies of an item are identical ciphertexts. -/
theorem C46_batch_access {t : Scalar} (hn : 0 < n) {fft : Fft n} {phi : Nat} (hf : fft.Bounded phi) {s : Poly n} (hs : Binary s)
    {S : Server n} (hcd : Codec.new t = some S.ctx.codec) {B : Nat} (hk : ServerKeys S.ctx s S.negS B) (shuffle : List Nat → List Nat)
    (hshf : ∀ l, (shuffle l).Perm l) {hc N : Nat} {H : NaiveHash} (hnew : NaiveHash.new shuffle hc N = some H) {D rows : Nat} (hD1 : 1 ≤ D)
    (hD : D < 64) (hpos : 0 < rows) (hsize : rows * 2 ^ D = hc * N) {T : Nat → Nat → Nat × Nat} (L : Layout H rows (2 ^ D) hc N T)
    (hsh : DbShape rows (2 ^ D) S.data) {v : Nat → Poly n} {e : Nat} (hcons : Consistent S.ctx s hc N T S.data v e)
    {cmd : BatchCmd n} (hv : cmd.Valid N t) {g : Gen n} (hg : g.Bounded B) :
    ∃ mapping qs g' ys S', H.hashToMapping cmd.indices (2 ^ D) = some mapping ∧
      clientBatch S.ctx s rows (2 ^ D) H cmd g = some (qs, g') ∧ g'.Bounded B ∧
      S.processBatch fft qs H = some (ys, S') ∧ S'.negS = S.negS ∧ S'.ctx = S.ctx ∧ DbShape rows (2 ^ D) S'.data ∧
      (∀ r c i, mapping r = some (c, i) → ∃ y enc, ys[r]? = some y ∧ S.ctx.codec.polyEncode (v i) = some enc ∧
        Enc s y enc (e + 2 ^ D * deltaSel S.ctx n B phi D)) ∧
      Consistent S.ctx s hc N T S'.data (Spec.applyBatch H (2 ^ D) v cmd) (batchNoise S.ctx n B phi D hc e) ∧
      ∀ h h' i, h < hc → h' < hc → i < N → cellAt S'.data (T h i) = cellAt S'.data (T h' i) := by
  have hcpos : 0 < hc := by
    rcases Nat.eq_zero_or_pos hc with h0 | h0
    · have := (C09_new_panics shuffle hc N).mpr h0
      rw [hnew] at this; cases this
    · exact h0
  exact batch_access_of hcd hk shuffle hshf hnew hD hsize L hcons hv hg (fun specs qs g' M _ hq hlen hM huniq =>
    C46_server hn hf hs hk hD1 hq hcpos L hpos hsize hlen hsh hM huniq)

/-- C47: every history of batch accesses behaves like a plain array on the served items.  For any list of valid batch commands run through the
API on a consistent database, nothing panics; response `r` of every command is the current content of the item its mapping assigns to row
`r`; the final database is consistent with the plain-array content -- as long as the linear noise budget holds. -/
theorem C47_history {t : Scalar} {ctx : Ctx} (hcd : Codec.new t = some ctx.codec) (hn : 0 < n) {fft : Fft n} {phi : Nat}
    (hf : fft.Bounded phi) {s : Poly n} (hs : Binary s) (shuffle : List Nat → List Nat) (hshf : ∀ l, (shuffle l).Perm l) {hc N : Nat}
    {H : NaiveHash} (hnew : NaiveHash.new shuffle hc N = some H) {D rows : Nat} (hD1 : 1 ≤ D) (hD : D < 64) (hpos : 0 < rows)
    (hsize : rows * 2 ^ D = hc * N) {T : Nat → Nat → Nat × Nat} (L : Layout H rows (2 ^ D) hc N T) {B : Nat} :
    ∀ (cmds : List (BatchCmd n)) (v : Nat → Poly n) (e : Nat) (S : Server n) (g : Gen n),
      B ≤ e → g.Bounded B → S.ctx = ctx → ServerKeys ctx s S.negS B → DbShape rows (2 ^ D) S.data → Consistent ctx s hc N T S.data v e →
      (∀ c ∈ cmds, c.Valid N t) →
      2 * (e + cmds.length * ((2 * hc - 1) * (deltaOp ctx n B phi + deltaSel ctx n B phi D)) + 2 ^ D * deltaSel ctx n B phi D)
        < 2 ^ 64 / t.toNat →
      ∃ yss S' g', runBatches fft ctx s rows (2 ^ D) H cmds S g = some (yss, S', g') ∧ Spec.batchOk H (2 ^ D) v cmds yss ∧
        DbShape rows (2 ^ D) S'.data ∧
        Consistent ctx s hc N T S'.data (cmds.foldl (Spec.applyBatch H (2 ^ D)) v)
          (e + cmds.length * ((2 * hc - 1) * (deltaOp ctx n B phi + deltaSel ctx n B phi D))) := by
  intro cmds
  induction cmds with
  | nil =>
    intro v e S g _ _ _ _ hsh hcons _ _
    exact ⟨[], S, g, rfl, trivial, hsh, by simpa using hcons⟩
  | cons cmd cmds ih =>
    intro v e S g he hg hctx hk hsh hcons hval hb
    subst hctx
    obtain ⟨mapping, qs, g', ys, S1, a1, a2, a3, a4, a5, a6, a7, a8, a9, _⟩ := C46_batch_access hn hf hs hcd hk shuffle hshf hnew hD1 hD hpos
      hsize L hsh hcons (hval cmd (by simp)) hg
    set X := (2 * hc - 1) * (deltaOp S.ctx n B phi + deltaSel S.ctx n B phi D) with hX
    have hnoise : batchNoise S.ctx n B phi D hc e = e + X := by
      unfold batchNoise; rw [max_eq_left he]
    rw [hnoise] at a9
    have hstep : e + X + cmds.length * X = e + (cmds.length + 1) * X := by ring
    simp only [List.length_cons] at hb ⊢
    obtain ⟨yss, S', g'', i1, i2, i3, i4⟩ := ih (Spec.applyBatch H (2 ^ D) v cmd) (e + X) S1 g' (by omega) a3 a6 (by rw [a5]; exact hk) a7
      a9 (fun c hc => hval c (by simp [hc])) (by rw [hstep]; exact hb)
    refine ⟨ys.map (decryptDecodeRlwe S.ctx s) :: yss, S', g'', ?_, ⟨?_, i2⟩, i3, ?_⟩
    · rw [runBatches]
      simp only [a2, a4, i1]
    · intro m r col i hm hr
      rw [a1] at hm; cases hm
      obtain ⟨y, enc, y1, y2, y3⟩ := a8 r col i hr
      rw [List.getElem?_map, y1, Option.map_some, decryptDecode_of_enc hcd y2 y3 (by
        have : e ≤ e + (cmds.length + 1) * X := Nat.le_add_right _ _
        omega)]
    · rw [hstep] at i4
      simpa using i4

/-- `setup_random_oram` never panics on a grid of `h_count * N` cells and makes a consistent database. -/
theorem setup_consistent {t : Scalar} {ctx : Ctx} (hcd : Codec.new t = some ctx.codec)
    {s : Poly n} (hs : Binary s) (shuffle : List Nat → List Nat) (hshf : ∀ l, (shuffle l).Perm l) {hc N : Nat}
    {H : NaiveHash} (hnew : NaiveHash.new shuffle hc N = some H) {D rows : Nat}
    (hsize : rows * 2 ^ D = hc * N) {T : Nat → Nat → Nat × Nat} (L : Layout H rows (2 ^ D) hc N T)
    (h1 : 1 ≤ ctx.baseLog) (h2 : 1 ≤ ctx.levelCount) (h3 : ctx.baseLog * ctx.levelCount < 64)
    (hn1 : ctx.negsBaseLog = ctx.baseLog) (hn2 : 1 ≤ ctx.negsLevelCount) (hn3 : ctx.negsBaseLog * ctx.negsLevelCount < 64)
    {g : Gen n} {B : Nat} (hg : g.Bounded B) :
    ∃ S pts g1, setupRandomOram ctx s rows (2 ^ D) H g = some (S, pts, g1) ∧ pts.length = N ∧ g1.Bounded B ∧ S.ctx = ctx ∧
      ServerKeys ctx s S.negS B ∧ DbShape rows (2 ^ D) S.data ∧ Consistent ctx s hc N T S.data (fun i => pts.getD i 0) B := by
  have hcpos : 0 < hc := by
    rcases Nat.eq_zero_or_pos hc with h0 | h0
    · have := (C09_new_panics shuffle hc N).mpr h0
      rw [hnew] at this; cases this
    · exact h0
  have hN : H.inputDomain = N := by obtain ⟨_, rfl, rfl⟩ := NaiveHash.new_wf hshf hnew; rfl
  obtain ⟨⟨negS, g0⟩, k1, k2, k3, k4, k5⟩ := C21_neg_gsw hn1 hs hg
  obtain ⟨pts, db, g1, e1, e2, e3, e4, _, _, e7⟩ := genDummy_layout hcd s L hcpos hsize k5
  have hkeys : ServerKeys ctx s negS B :=
    ⟨h1, h2, h3, ⟨by rw [k3, hn1]; exact h1, by rw [k4]; exact hn2, by rw [k3, k4]; exact hn3⟩, k3, k4, k2⟩
  have hset : setupRandomOram ctx s rows (2 ^ D) H g = some (Server.new db negS ctx, pts, g1) := by
    unfold setupRandomOram
    rw [if_pos (by rw [hN, L.count, Nat.mul_comm N hc]; omega)]
    simp only [k1, e1]
  exact ⟨_, pts, g1, hset, e3, e2, rfl, hkeys, e4, e7⟩

/-- C47 (end to end): the same for a database made by `setup_random_oram`. -/
theorem C47_from_setup {t : Scalar} {ctx : Ctx} (hcd : Codec.new t = some ctx.codec) (hn : 0 < n) {fft : Fft n} {phi : Nat}
    (hf : fft.Bounded phi) {s : Poly n} (hs : Binary s) (shuffle : List Nat → List Nat) (hshf : ∀ l, (shuffle l).Perm l) {hc N : Nat}
    {H : NaiveHash} (hnew : NaiveHash.new shuffle hc N = some H) {D rows : Nat} (hD1 : 1 ≤ D) (hD : D < 64) (hpos : 0 < rows)
    (hsize : rows * 2 ^ D = hc * N) (h1 : 1 ≤ ctx.baseLog) (h2 : 1 ≤ ctx.levelCount) (h3 : ctx.baseLog * ctx.levelCount < 64)
    (hn1 : ctx.negsBaseLog = ctx.baseLog) (hn2 : 1 ≤ ctx.negsLevelCount) (hn3 : ctx.negsBaseLog * ctx.negsLevelCount < 64)
    {g : Gen n} {B : Nat} (hg : g.Bounded B) (cmds : List (BatchCmd n)) (hval : ∀ c ∈ cmds, c.Valid N t)
    (hb : 2 * (B + cmds.length * ((2 * hc - 1) * (deltaOp ctx n B phi + deltaSel ctx n B phi D)) + 2 ^ D * deltaSel ctx n B phi D)
        < 2 ^ 64 / t.toNat) :
    ∃ S pts g1 yss S' g', setupRandomOram ctx s rows (2 ^ D) H g = some (S, pts, g1) ∧ pts.length = N ∧
      runBatches fft ctx s rows (2 ^ D) H cmds S g1 = some (yss, S', g') ∧ Spec.batchOk H (2 ^ D) (fun i => pts.getD i 0) cmds yss := by
  obtain ⟨T, L⟩ := layout_of_hash shuffle hshf hnew (rows := rows) (cols := 2 ^ D) (by positivity) hsize
  obtain ⟨S, pts, g1, hset, e3, e2, hc', hkeys, e4, e7⟩ := setup_consistent hcd hs shuffle hshf hnew hsize L h1 h2 h3 hn1 hn2 hn3 hg
  obtain ⟨yss, S', g', r1, r2, _⟩ := C47_history hcd hn hf hs shuffle hshf hnew hD1 hD hpos hsize L cmds _ B S g1
    (le_refl B) e2 hc' hkeys e4 e7 hval hb
  exact ⟨_, pts, g1, yss, S', g', hset, e3, r1, r2⟩

/-! ### C53: repeated items in a WRITE batch -/

/-- C53 (formula): if exactly two copies `h ≠ h'` of item `i`, neither of them the first copy, are written with the same data `m` by one
batch, then all copies of the item end up with `2 m - M i` instead of `m`. -/
theorem C53_double_write (hn : 0 < n) {fft : Fft n} {phi : Nat} (hf : fft.Bounded phi) {s : Poly n} (hs : Binary s) {S : Server n}
    {B : Nat} (hk : ServerKeys S.ctx s S.negS B) {D : Nat} (hD : 1 ≤ D) {specs : List (QuerySpec n)} {qs : List (ClientQuery n)}
    (hq : IsQueries S.ctx s D B specs qs) {H : NaiveHash} {rows k N : Nat} {T : Nat → Nat → Nat × Nat}
    (L : Layout H rows (2 ^ D) (k + 1) N T) (hpos : 0 < rows) (hsize : rows * 2 ^ D = (k + 1) * N) (hrows : specs.length = rows)
    (hsh : DbShape rows (2 ^ D) S.data) {M : Nat → Poly n} {e : Nat} (hM : EncItems s (k + 1) N T S.data M e)
    {i h1 h2 : Nat} (hi : i < N) (h12 : h1 < h2) (hh2 : h2 < k) {m : Poly n} (hw0 : Spec.writes specs (T 0 i) = none)
    (hw1 : Spec.writes specs (T (h1 + 1) i) = some m) (hw2 : Spec.writes specs (T (h2 + 1) i) = some m)
    (hother : ∀ h, h < k → h ≠ h1 → h ≠ h2 → Spec.writes specs (T (h + 1) i) = none) :
    ∃ ys S' V, S.processBatch fft qs H = some (ys, S') ∧ (∀ h, h < k + 1 → cellAt S'.data (T h i) = some V) ∧
      Enc s V (2 * m - M i) (3 * (max e B + deltaOp S.ctx n B phi + deltaSel S.ctx n B phi D)
        + k * (2 * (deltaOp S.ctx n B phi + deltaSel S.ctx n B phi D))) := by
  obtain ⟨ys, S', b1, _, _, _, _, _, b7⟩ := batch_core hn hf hs hk hD hq L hpos hsize hrows hsh hM
  obtain ⟨V, c, v1, v2, v3⟩ := b7 i hi
  refine ⟨ys, S', V, b1, v1, ?_⟩
  have hsum : ((List.range k).map fun h =>
          if (Spec.writes specs (T (h + 1) i)).isSome then decryptRlwe s (c (h + 1)) - decryptRlwe s (c 0) else 0).sum
      = (decryptRlwe s (c (h1 + 1)) - decryptRlwe s (c 0)) + (decryptRlwe s (c (h2 + 1)) - decryptRlwe s (c 0)) := by
    have hsplit : (List.range k).map (fun h =>
          if (Spec.writes specs (T (h + 1) i)).isSome then decryptRlwe s (c (h + 1)) - decryptRlwe s (c 0) else 0)
        = (List.range k).map fun h => (if decide (h = h1) then decryptRlwe s (c (h + 1)) - decryptRlwe s (c 0) else 0)
          + (if decide (h = h2) then decryptRlwe s (c (h + 1)) - decryptRlwe s (c 0) else 0) := List.map_congr_left fun h hh => by
      rw [List.mem_range] at hh
      by_cases e1 : h = h1
      · subst e1
        have : ¬ h = h2 := by omega
        simp [hw1, this]
      · by_cases e2 : h = h2
        · subst e2; simp [hw2, e1]
        · simp [hother h hh e1 e2, e1, e2]
    rw [hsplit, List.sum_map_add,
      sum_ite_unique (fun h => decide (h = h1)) _ (List.range k) h1 (List.mem_range.mpr (by omega)) List.nodup_range (by simp) (by simp),
      sum_ite_unique (fun h => decide (h = h2)) _ (List.range k) h2 (List.mem_range.mpr hh2) List.nodup_range (by simp) (by simp)]
  rw [hsum] at v3
  have c0 := v2 0 (by omega)
  have c1 := v2 (h1 + 1) (by omega)
  have c2 := v2 (h2 + 1) (by omega)
  rw [hw0, Option.getD_none] at c0
  rw [hw1, Option.getD_some] at c1
  rw [hw2, Option.getD_some] at c2
  unfold Enc at *
  rw [show decryptRlwe s V - (2 * m - M i) = ((decryptRlwe s (c (h1 + 1)) - m) + (decryptRlwe s (c (h2 + 1)) - m) - (decryptRlwe s (c 0) - M i))
    + (decryptRlwe s V - (decryptRlwe s (c 0) + ((decryptRlwe s (c (h1 + 1)) - decryptRlwe s (c 0))
      + (decryptRlwe s (c (h2 + 1)) - decryptRlwe s (c 0))))) by ring]
  exact (((c1.add c2).sub c0).add v3).mono (by omega)

/-! ### A concrete database -/

/-- The permutation of the example table. -/
def exTable : List Nat := [0, 5, 9, 1, 4, 8, 2, 6, 10, 3, 7, 11]
/-- A shuffle producing it. -/
def exShuffle (l : List Nat) : List Nat := if l = List.range 12 then exTable else l
theorem exShuffle_perm (l : List Nat) : (exShuffle l).Perm l := by
  unfold exShuffle
  split
  · rename_i h; subst h; decide
  · exact List.Perm.refl l

/-- Three hash functions, four items. -/
def exHash : NaiveHash := ⟨exTable, 3, 4⟩
theorem exHash_new : NaiveHash.new exShuffle 3 4 = some exHash := by decide

/-- A transparent encryption of the plaintext `v`. -/
def exCt (v : Nat) : RLWE 4 := ⟨0, ⟨fun _ => BitVec.ofNat 64 (v * 2 ^ 60)⟩⟩
theorem exCt_enc (v : Nat) : Enc exKey (exCt v) ⟨fun _ => BitVec.ofNat 64 (v * 2 ^ 60)⟩ 0 := by
  unfold Enc decryptRlwe exCt
  simp only
  rw [show (⟨fun _ => BitVec.ofNat 64 (v * 2 ^ 60)⟩ : Poly 4) - 0 * exKey - ⟨fun _ => BitVec.ofNat 64 (v * 2 ^ 60)⟩ = 0 by ring]
  exact Small.zero _

/-- Three rows of four columns; item `i` (with content `i`) in its three cells. -/
def exDb : List (List (RLWE 4)) := [[exCt 0, exCt 1, exCt 2, exCt 3], [exCt 1, exCt 0, exCt 2, exCt 3], [exCt 1, exCt 0, exCt 2, exCt 3]]

theorem exDb_items {T : Nat → Nat → Nat × Nat} (L : Layout exHash 3 4 3 4 T) :
    EncItems exKey 3 4 T exDb (fun i => ⟨fun _ => BitVec.ofNat 64 (i * 2 ^ 60)⟩) 0 := by
  intro h i hh hi
  refine ⟨exCt i, ?_, exCt_enc i⟩
  have ht := L.tuple h i hh hi
  interval_cases h <;> interval_cases i <;> (simp only [exHash, NaiveHash.hashToTuple, NaiveHash.hash, exTable] at ht; injection ht with ht; rw [← ht]; rfl)

theorem exDb_shape : DbShape 3 4 exDb := ⟨rfl, by
  intro row hrow
  simp only [exDb, List.mem_cons, List.not_mem_nil, or_false] at hrow
  rcases hrow with rfl | rfl | rfl <;> rfl⟩

/-- C53 (concrete witness, all API calls): the client asks for a batch WRITE of 7 to the items 0, 1, 1.  Item 0 takes row 0, so the two
requests for item 1 take its copies in rows 1 and 2; after `process_batch` every copy of item 1 (content 1 before) decodes to 13 = 2*7 - 1. -/
theorem C53_witness : ∃ r qs g' ys S', negGsw exTreeCtx exKey exGen = some r ∧
    genWriteQueryBatch exTreeCtx exKey 3 4 exHash [0, 1, 1] ⟨fun _ => 7⟩ exGen = some (qs, g') ∧
    (Server.new exDb r.1 exTreeCtx).processBatch exFft qs exHash = some (ys, S') ∧
    ∀ h p, h < 3 → exHash.hashToTuple h 1 4 = some p →
      (cellAt exDb p).map (decryptDecodeRlwe exTreeCtx exKey) = some ⟨fun _ => 1⟩ ∧
      (cellAt S'.data p).map (decryptDecodeRlwe exTreeCtx exKey) = some ⟨fun _ => 13⟩ := by
  obtain ⟨r, h1, h2⟩ := exServerKeys
  obtain ⟨T, L⟩ := layout_of_hash exShuffle exShuffle_perm exHash_new (rows := 3) (cols := 2 ^ 2) (by decide) (by decide)
  have hwE : Spec.Encodable (16 : Scalar) (⟨fun _ => 7⟩ : Poly 4) := fun k => by show (7 : Scalar).toNat < _; decide
  obtain ⟨mapping, qs, specs, g', w, m, c1, c2, c3, c4, c5, c6, c7⟩ := clientBatch_spec (t := 16) (ctx := exTreeCtx) (by decide) (by decide)
    (by decide) (by decide) exKey exShuffle exShuffle_perm exHash_new (D := 2) (rows := 3) (by decide) (by decide)
    (cmd := .write [0, 1, 1] ⟨fun _ => 7⟩) (by decide) (by rintro is a ⟨⟩; exact hwE) exGen_bounded
  obtain ⟨c6, c6'⟩ : w = true ∧ exTreeCtx.codec.polyEncode (⟨fun _ => 7⟩ : Poly 4) = some m := c6
  obtain ⟨hsound, _⟩ := C11_mapping_sound exShuffle exShuffle_perm 3 4 exHash exHash_new [0, 1, 1] (2 ^ 2) (by decide) (by decide) mapping c1
  have hmap : mapping 0 = some (0, 0) ∧ mapping 1 = some (0, 1) ∧ mapping 2 = some (0, 1) := by
    have hx : exHash.hashToMapping [0, 1, 1] (2 ^ 2) = some mapping := c1
    simp only [NaiveHash.hashToMapping, NaiveHash.mapAll] at hx
    injection hx with hx
    rw [← hx]
    exact ⟨rfl, rfl, rfl⟩
  have hw := fun h i (hh : h < 3) (hi : i < 4) => writes_client L hsound (by decide) c5 c7 hh hi
  have hT : ∀ h p, h < 3 → exHash.hashToTuple h 1 4 = some p → T h 1 = p := fun h p hh hp => by
    have := (L.tuple h 1 hh (by decide)).symm.trans hp
    simpa using this
  have t0 := hT 0 (0, 1) (by decide) (by decide)
  have t1 := hT 1 (1, 0) (by decide) (by decide)
  have t2 := hT 2 (2, 0) (by decide) (by decide)
  obtain ⟨ys, S', V, e1, e2, e3⟩ := C53_double_write (by decide) exFft_bounded exKey_binary (S := Server.new exDb r.1 exTreeCtx) h2 (by decide)
    c4 (k := 2) L (by decide) (by decide) c5 exDb_shape (exDb_items L) (i := 1) (h1 := 0) (h2 := 1) (by decide) (by decide) (by decide) (m := m)
    (by rw [hw 0 1 (by decide) (by decide), t0, hmap.1, if_neg (by rintro ⟨_, h⟩; simp at h)])
    (by rw [hw 1 1 (by decide) (by decide), t1, hmap.2.1, if_pos ⟨c6, rfl⟩])
    (by rw [hw 2 1 (by decide) (by decide), t2, hmap.2.2, if_pos ⟨c6, rfl⟩])
    (by intro h hh a b; omega)
  refine ⟨r, qs, g', ys, S', h1, c2, e1, fun h p hh hp => ?_⟩
  have hp' := hT h p hh hp
  refine ⟨?_, ?_⟩
  · obtain ⟨ct, d1, d2⟩ := exDb_items L h 1 hh (by decide)
    rw [hp'] at d1
    rw [d1, Option.map_some, decryptDecode_of_enc (t := 16) (pt := ⟨fun _ => 1⟩) (by decide) (by decide +kernel) d2 (by decide)]
  · have := e2 h hh
    rw [hp'] at this
    rw [this, Option.map_some]
    have hm : m = ⟨fun _ => BitVec.ofNat 64 (7 * 2 ^ 60)⟩ := by
      have : exTreeCtx.codec.polyEncode (⟨fun _ => 7⟩ : Poly 4) = some ⟨fun _ => BitVec.ofNat 64 (7 * 2 ^ 60)⟩ := by decide +kernel
      rw [this] at c6'; injection c6' with c6'; exact c6'.symm
    subst hm
    rw [decryptDecode_of_enc (t := 16) (pt := ⟨fun _ => 13⟩) (by decide) (by decide +kernel) e3 (by
      change 2 * (3 * (max 0 3 + deltaOp exTreeCtx 4 3 5 + deltaSel exTreeCtx 4 3 5 2)
        + 2 * (2 * (deltaOp exTreeCtx 4 3 5 + deltaSel exTreeCtx 4 3 5 2))) < _
      decide)]

/-- C46, C47: the hypotheses are met by the example grid (three rows of four columns, three copies of four items): set up, write 7 to the
items 2 and 0, then read the items 0, 1. -/
example : ∃ S pts g1 yss S' g', setupRandomOram exTreeCtx exKey 3 4 exHash exGen = some (S, pts, g1) ∧
    runBatches exFft exTreeCtx exKey 3 4 exHash [.write [2, 0] ⟨fun _ => 7⟩, .read [0, 1]] S g1 = some (yss, S', g') ∧
    Spec.batchOk exHash 4 (fun i => pts.getD i 0) [.write [2, 0] ⟨fun _ => 7⟩, .read [0, 1]] yss := by
  obtain ⟨S, pts, g1, yss, S', g', h1, _, h2, h3⟩ := C47_from_setup (t := 16) (ctx := exTreeCtx) (by decide) (by decide) exFft_bounded
    exKey_binary exShuffle exShuffle_perm exHash_new (D := 2) (rows := 3) (by decide) (by decide) (by decide) (by decide) (by decide)
    (by decide) (by decide) rfl (by decide) (by decide) exGen_bounded [.write [2, 0] ⟨fun _ => 7⟩, .read [0, 1]] (by
      intro c hc
      simp only [List.mem_cons, List.not_mem_nil, or_false] at hc
      rcases hc with rfl | rfl
      · exact ⟨by decide, fun k => by show (7 : Scalar).toNat < _; decide⟩
      · exact (by decide : [0, 1].Nodup ∧ ∀ i ∈ [0, 1], i < 4)) (by decide)
  exact ⟨S, pts, g1, yss, S', g', h1, h2, h3⟩

end Panacea
