import Verif.Props.Batch

/-!
# C61: single accesses (`gen_*_query_one` + `process_one`) on a database with several rows
-/

namespace Panacea
variable {n : Nat}

/-- The mapping for a single item is exactly its first hash. -/
theorem mapping_single_eq (shuffle : List Nat → List Nat) (hs : ∀ l, (shuffle l).Perm l) {hc N : Nat} {H : NaiveHash}
    (hnew : NaiveHash.new shuffle hc N = some H) {cols i r c : Nat} (ht : H.hashToTuple 0 i cols = some (r, c)) :
    H.hashToMapping [i] cols = some (fun r' => if r' = r then some (c, i) else none) := by
  obtain ⟨w, rfl, rfl⟩ := NaiveHash.new_wf hs hnew
  have hpos : 0 < H.hCount := by
    by_contra h0
    have : NaiveHash.new shuffle H.hCount H.inputDomain = none := (C09_new_panics shuffle _ _).mpr (by omega)
    rw [hnew] at this; cases this
  obtain ⟨k, hk⟩ := Nat.exists_eq_succ_of_ne_zero (Nat.pos_iff_ne_zero.mp hpos)
  unfold NaiveHash.hashToMapping NaiveHash.mapAll
  rw [hk, List.range_succ_eq_map]
  unfold NaiveHash.mapOne
  rw [ht]
  simp only [NaiveHash.mapAll]
  rfl

/-- Where a single access really goes: the first copy of the item if that copy is in row 0, and cell `(0, 0)` otherwise. -/
def Spec.oneCell (p : Nat × Nat) : Nat × Nat := if p.1 = 0 then p else (0, 0)

/-- What a cell `q` with content `old` holds after a single access to an item whose first copy is in cell `p`: a WRITE stores its data in
cell `p`, provided that cell is in row 0; nothing else changes. -/
def Spec.cellAfterOne (cmd : Cmd n) (p q : Nat × Nat) (old : Poly n) : Poly n :=
  match cmd with
  | .read _ => old
  | .write _ a => if p.1 = 0 ∧ q = p then a else old

/-- The batch command with the single item of `c`. -/
def Cmd.toBatch : Cmd n → BatchCmd n
  | .read i => .read [i]
  | .write i a => .write [i] a

theorem clientQuery_batch (ctx : Ctx) (s : Poly n) (rows cols : Nat) (H : NaiveHash) (c : Cmd n) (g : Gen n) :
    clientQuery ctx s rows cols H c g = removeFirst (clientBatch ctx s rows cols H c.toBatch g) := by
  cases c <;> rfl

/-- C61: on a consistent database of any number of rows (all copies of item `i` store `v i`), the query generated by
`gen_read_query_one` / `gen_write_query_one` for any valid command, processed by `process_one`, does not panic; the response decodes to the
content of the item stored in the cell `oneCell (hash_to_tuple(0, i))`; and every cell of the database decodes to `cellAfterOne` of its old
content. -/
theorem C61_single_access {t : Scalar} (hn : 0 < n) {fft : Fft n} {phi : Nat} (hf : fft.Bounded phi) {s : Poly n} (hs : Binary s)
    {S : Server n} (hcd : Codec.new t = some S.ctx.codec) {B : Nat} (hk : ServerKeys S.ctx s S.negS B) (shuffle : List Nat → List Nat)
    (hshf : ∀ l, (shuffle l).Perm l) {hc N : Nat} {H : NaiveHash} (hnew : NaiveHash.new shuffle hc N = some H) {D rows : Nat} (hD1 : 1 ≤ D)
    (hD : D < 64) (hpos : 0 < rows) (hsize : rows * 2 ^ D = hc * N) {T : Nat → Nat → Nat × Nat} (L : Layout H rows (2 ^ D) hc N T)
    (hsh : DbShape rows (2 ^ D) S.data) {v : Nat → Poly n} {e : Nat} (hcons : Consistent S.ctx s hc N T S.data v e)
    {cmd : Cmd n} (hv : cmd.Valid N t) {g : Gen n} (hg : g.Bounded B) {reduce : List (RLWE n) → RLWE n}
    (hr : IsReduction (· + ·) 0 reduce)
    (hb : 2 * (max e B + deltaOp S.ctx n B phi + deltaSel S.ctx n B phi D + 2 ^ D * deltaSel S.ctx n B phi D) < 2 ^ 64 / t.toNat) :
    ∃ q g' y S', clientQuery S.ctx s rows (2 ^ D) H cmd g = some (q, g') ∧ S.processOne reduce fft q = some (y, S') ∧
      S'.negS = S.negS ∧ S'.ctx = S.ctx ∧ DbShape rows (2 ^ D) S'.data ∧
      (∀ h j, h < hc → j < N → T h j = Spec.oneCell (T 0 cmd.index) → decryptDecodeRlwe S.ctx s y = v j) ∧
      ∀ h j, h < hc → j < N → ∃ ct, cellAt S'.data (T h j) = some ct ∧
        decryptDecodeRlwe S.ctx s ct = Spec.cellAfterOne cmd (T 0 cmd.index) (T h j) (v j) := by
  have hcpos : 0 < hc := by
    rcases Nat.eq_zero_or_pos hc with h0 | h0
    · have := (C09_new_panics shuffle hc N).mpr h0
      rw [hnew] at this; cases this
    · exact h0
  have hidx := hv.lt
  have hvalB : (∀ i ∈ cmd.toBatch.indices, i < N) ∧ (∀ is a, cmd.toBatch = .write is a → Spec.Encodable t a) ∧
      cmd.toBatch.indices = [cmd.index] := by
    cases cmd with
    | read i => exact ⟨fun j hj => by rw [List.mem_singleton.mp hj]; exact hidx, (by rintro _ _ ⟨⟩), rfl⟩
    | write i a => exact ⟨fun j hj => by rw [List.mem_singleton.mp hj]; exact hidx, (by rintro _ _ ⟨⟩; exact hv.2), rfl⟩
  obtain ⟨mapping, qs, specs, g', w, m, c1, c2, c3, c4, c5, c6, c7⟩ :=
    clientBatch_spec hcd hk.bl hk.lv hk.lt s shuffle hshf hnew hD hsize hvalB.1 hvalB.2.1 hg
  have hmap : mapping = fun r' => if r' = (T 0 cmd.index).1 then some ((T 0 cmd.index).2, cmd.index) else none := by
    have := mapping_single_eq shuffle hshf hnew (L.tuple 0 cmd.index hcpos hidx)
    rw [hvalB.2.2, this] at c1
    exact (Option.some.inj c1).symm
  -- the query of row 0
  obtain ⟨sp, spr, hspe⟩ : ∃ sp spr, specs = sp :: spr := List.exists_cons_of_length_pos (by omega)
  obtain ⟨q, qr, hqse⟩ : ∃ q qr, qs = q :: qr := List.exists_cons_of_length_pos (by rw [← c4.length_eq]; omega)
  subst hspe hqse
  have hq : IsQuery S.ctx s q D sp.i sp.w sp.m B := by
    cases c4; assumption
  obtain ⟨r1, r2⟩ := c7 0 sp rfl
  -- the messages
  set M : Nat → Poly n := fun i => (S.ctx.codec.polyEncode (v i)).getD 0 with hMdef
  have hMenc : ∀ i, i < N → S.ctx.codec.polyEncode (v i) = some (M i) := by
    intro i hi
    obtain ⟨_, enc, _, h2, _⟩ := hcons 0 i hcpos hi
    rw [hMdef]; simp only [h2]; rfl
  have hM : EncItems s hc N T S.data M e := by
    intro h i hh hi
    obtain ⟨ct, enc, a1, a2, a3⟩ := hcons h i hh hi
    rw [hMenc i hi] at a2; cases a2
    exact ⟨ct, a1, a3⟩
  obtain ⟨U, hU, hUT⟩ := encDb_of_items L hsh hM
  obtain ⟨row, rest, hS⟩ : ∃ row rest, S.data = row :: rest := List.exists_cons_of_length_pos (by rw [hsh.1]; exact hpos)
  have hlen : row.length = 2 ^ D := hsh.2 row (by rw [hS]; simp)
  have hrow : EncRow s row (fun j => U (0, j)) e := fun j c hc => hU (0, j) c (by rw [hS, cellAt_row (row := row) rfl]; exact hc)
  obtain ⟨y, S1, p1, p2⟩ := C41_response hn hf hs hk hD1 hq hS hlen hrow hr
  obtain ⟨y', S', row', u1, u2, u3, u4, u5, u6⟩ := C42_update hn hf hs hk hD1 hq hS hlen hrow hr
  rw [p1] at u1
  cases u1
  -- the addressed cell
  have hcell : (0, sp.i) = Spec.oneCell (T 0 cmd.index) := by
    unfold Spec.oneCell
    by_cases h0 : (T 0 cmd.index).1 = 0
    · rw [if_pos h0]
      have := (r1 (T 0 cmd.index).2 cmd.index (by rw [hmap]; simp [h0])).1
      rw [this]; exact Prod.ext h0.symm rfl
    · rw [if_neg h0, (r2 (by rw [hmap]; simp [Ne.symm h0])).2]
  refine ⟨q, g', y, S1, ?_, p1, u3, u4, ?_, ?_, ?_⟩
  · rw [clientQuery_batch, c2]; rfl
  · refine ⟨?_, ?_⟩
    · rw [u2, List.length_cons, ← hsh.1, hS, List.length_cons]
    · intro r hr'
      rw [u2] at hr'
      rcases List.mem_cons.mp hr' with rfl | hm
      · exact u5
      · exact hsh.2 r (by rw [hS]; simp [hm])
  · intro h j hh hj hT
    have he : U (0, sp.i) = M j := by rw [hcell, ← hT]; exact hUT h j hh hj
    refine decryptDecode_of_enc hcd (hMenc j hj) (e := e + 2 ^ D * deltaSel S.ctx n B phi D) (by rw [← he]; exact p2) ?_
    have := le_max_left e B
    omega
  · intro h j hh hj
    have hrl := L.row_lt h j hh hj
    have hcl := L.col_lt h j hh hj
    by_cases h0 : (T h j).1 = 0
    · have hTe : T h j = (0, (T h j).2) := by rw [← h0]
      obtain ⟨ct, hct⟩ : ∃ ct, row'[(T h j).2]? = some ct := ⟨row'[(T h j).2], List.getElem?_eq_getElem (by omega)⟩
      refine ⟨ct, by rw [hTe, u2, cellAt_row (row := row') rfl, hct], ?_⟩
      have hE := u6 _ _ hct
      -- the message of the cell
      have key : ∃ enc, S.ctx.codec.polyEncode (Spec.cellAfterOne cmd (T 0 cmd.index) (T h j) (v j)) = some enc ∧
          (if sp.w then Function.update (fun j => U (0, j)) sp.i sp.m else fun j => U (0, j)) (T h j).2 = enc := by
        have hold : U (0, (T h j).2) = M j := by rw [← hTe]; exact hUT h j hh hj
        by_cases hr0 : (T 0 cmd.index).1 = 0
        · obtain ⟨i1, i2, i3⟩ := r1 (T 0 cmd.index).2 cmd.index (by rw [hmap]; simp [hr0])
          cases cmd with
          | read i =>
            have hw : w = false := c6
            refine ⟨M j, hMenc j hj, ?_⟩
            rw [if_neg (by rw [i2, hw]; simp)]
            exact hold
          | write i a =>
            obtain ⟨hw, henc⟩ : w = true ∧ S.ctx.codec.polyEncode a = some m := c6
            rw [if_pos (by rw [i2, hw])]
            simp only [Cmd.index] at *
            by_cases heq : T h j = T 0 i
            · refine ⟨m, by rw [show Spec.cellAfterOne (.write i a) (T 0 i) (T h j) (v j) = a from if_pos ⟨hr0, heq⟩]; exact henc, ?_⟩
              rw [heq, ← i1, Function.update_self]
              exact i3 hw
            · refine ⟨M j, by
                rw [show Spec.cellAfterOne (.write i a) (T 0 i) (T h j) (v j) = v j from if_neg (fun h => heq h.2)]; exact hMenc j hj, ?_⟩
              rw [Function.update_of_ne]
              · exact hold
              · intro hcc
                exact heq (Prod.ext (by rw [h0, hr0]) (by rw [hcc, i1]))
        · have hw := (r2 (by rw [hmap]; simp [Ne.symm hr0])).1
          rw [if_neg (by rw [hw]; simp)]
          refine ⟨M j, ?_, hold⟩
          have : Spec.cellAfterOne cmd (T 0 cmd.index) (T h j) (v j) = v j := by
            cases cmd with
            | read i => rfl
            | write i a => exact if_neg (fun h => hr0 h.1)
          rw [this]
          exact hMenc j hj
      obtain ⟨enc, k1, k2⟩ := key
      rw [k2] at hE
      exact decryptDecode_of_enc hcd k1 hE (by omega)
    · have hsame : cellAt S1.data (T h j) = cellAt S.data (T h j) := by
        obtain ⟨r, hr'⟩ := Nat.exists_eq_succ_of_ne_zero h0
        unfold cellAt
        rw [u2, hS, hr']
        rfl
      obtain ⟨ct, enc, a1, a2, a3⟩ := hcons h j hh hj
      refine ⟨ct, by rw [hsame]; exact a1, ?_⟩
      have : Spec.cellAfterOne cmd (T 0 cmd.index) (T h j) (v j) = v j := by
        cases cmd with
        | read i => rfl
        | write i a => exact if_neg (fun h' => h0 (by rw [h'.2]; exact h'.1))
      rw [this]
      have := le_max_left e B
      exact decryptDecode_of_enc hcd a2 a3 (by omega)

/-- C61 (FINDING): a freshly set up ORAM with several rows; an item whose first copy is not in row 0 cannot be accessed through the single
query API: a READ answers with the item stored in cell (0, 0), and a WRITE is silently lost, whatever the data. -/
theorem C61_lost {t : Scalar} {ctx : Ctx} (hcd : Codec.new t = some ctx.codec) (hn : 0 < n) {fft : Fft n} {phi : Nat}
    (hf : fft.Bounded phi) {s : Poly n} (hs : Binary s) (shuffle : List Nat → List Nat) (hshf : ∀ l, (shuffle l).Perm l) {hc N : Nat}
    {H : NaiveHash} (hnew : NaiveHash.new shuffle hc N = some H) {D rows : Nat} (hD1 : 1 ≤ D) (hD : D < 64) (hpos : 0 < rows)
    (hsize : rows * 2 ^ D = hc * N) (h1 : 1 ≤ ctx.baseLog) (h2 : 1 ≤ ctx.levelCount) (h3 : ctx.baseLog * ctx.levelCount < 64)
    (hn1 : ctx.negsBaseLog = ctx.baseLog) (hn2 : 1 ≤ ctx.negsLevelCount) (hn3 : ctx.negsBaseLog * ctx.negsLevelCount < 64)
    {g : Gen n} {B : Nat} (hg : g.Bounded B) {cmd : Cmd n} (hv : cmd.Valid N t) {r c : Nat}
    (htup : H.hashToTuple 0 cmd.index (2 ^ D) = some (r, c)) (hr0 : r ≠ 0) {reduce : List (RLWE n) → RLWE n}
    (hr : IsReduction (· + ·) 0 reduce) {h0 i0 : Nat} (hh0 : h0 < hc) (hi0 : i0 < N) (hcorner : H.hashToTuple h0 i0 (2 ^ D) = some (0, 0))
    (hb : 2 * (B + deltaOp ctx n B phi + deltaSel ctx n B phi D + 2 ^ D * deltaSel ctx n B phi D) < 2 ^ 64 / t.toNat) :
    ∃ S pts g1 q g' y S', setupRandomOram ctx s rows (2 ^ D) H g = some (S, pts, g1) ∧
      clientQuery ctx s rows (2 ^ D) H cmd g1 = some (q, g') ∧ S.processOne reduce fft q = some (y, S') ∧
      some (decryptDecodeRlwe ctx s y) = pts[i0]? ∧
      ∀ h j p, h < hc → j < N → H.hashToTuple h j (2 ^ D) = some p →
        ∃ ct, cellAt S'.data p = some ct ∧ some (decryptDecodeRlwe ctx s ct) = pts[j]? := by
  obtain ⟨T, L⟩ := layout_of_hash shuffle hshf hnew (rows := rows) (cols := 2 ^ D) (by positivity) hsize
  obtain ⟨S, pts, g1, hset, e3, e2, hc', hkeys, e4, e7⟩ := setup_consistent hcd hs shuffle hshf hnew hsize L h1 h2 h3 hn1 hn2 hn3 hg
  subst hc'
  obtain ⟨q, g', y, S', a1, a2, _, _, _, a6, a7⟩ := C61_single_access hn hf hs hcd hkeys shuffle hshf hnew hD1 hD hpos hsize L e4 e7 hv e2 hr
    (by rw [max_self]; exact hb)
  have hcpos : 0 < hc := by omega
  have hT0 : T 0 cmd.index = (r, c) := Option.some.inj ((L.tuple 0 cmd.index hcpos hv.lt).symm.trans htup)
  refine ⟨S, pts, g1, q, g', y, S', hset, a1, a2, ?_, fun h j p hh hj hp => ?_⟩
  · rw [a6 h0 i0 hh0 hi0 (by
      rw [hT0, Spec.oneCell, if_neg hr0]
      exact Option.some.inj ((L.tuple h0 i0 hh0 hi0).symm.trans hcorner))]
    rw [List.getD_eq_getElem?_getD, List.getElem?_eq_getElem (by omega)]
    rfl
  · obtain ⟨ct, b1, b2⟩ := a7 h j hh hj
    have hTp : T h j = p := Option.some.inj ((L.tuple h j hh hj).symm.trans hp)
    refine ⟨ct, by rw [← hTp]; exact b1, ?_⟩
    have : Spec.cellAfterOne cmd (T 0 cmd.index) (T h j) (pts.getD j 0) = pts.getD j 0 := by
      cases cmd with
      | read i => rfl
      | write i a => exact if_neg (fun h => hr0 (by rw [hT0] at h; exact h.1))
    rw [b2, this, List.getD_eq_getElem?_getD, List.getElem?_eq_getElem (by omega)]
    rfl

/-- The hypotheses of `C61_lost` (hence of `C61_single_access`) are met: the unshuffled table puts the first copy of item 2 in row 1 of a
3 x 4 database, so a WRITE of item 2 is lost and answered with item 0. -/
example : ∃ S pts g1 q g' y S', setupRandomOram exTreeCtx exKey 3 (2 ^ 2) ⟨List.range 12, 3, 4⟩ exGen = some (S, pts, g1) ∧
    clientQuery exTreeCtx exKey 3 (2 ^ 2) ⟨List.range 12, 3, 4⟩ (.write 2 ⟨fun _ => 7⟩) g1 = some (q, g') ∧
    S.processOne (fun xs => xs.foldl (· + ·) 0) exFft q = some (y, S') ∧ some (decryptDecodeRlwe exTreeCtx exKey y) = pts[0]? := by
  obtain ⟨S, pts, g1, q, g', y, S', a, b, c, d, _⟩ := C61_lost (t := 16) (ctx := exTreeCtx) (by decide) (by decide) exFft_bounded
    exKey_binary id (fun l => List.Perm.refl l) (hc := 3) (N := 4) (H := ⟨List.range 12, 3, 4⟩) (by decide) (D := 2) (rows := 3)
    (by decide) (by decide) (by decide) (by decide) (by decide) (by decide) (by decide) rfl (by decide) (by decide) exGen_bounded
    (cmd := .write 2 ⟨fun _ => 7⟩) ⟨by decide, fun k => by show (7 : Scalar).toNat < _; decide⟩ (r := 1) (c := 2) (by decide) (by decide)
    fold_isReduction (h0 := 0) (i0 := 0) (by decide) (by decide) (by decide) (by decide)
  exact ⟨S, pts, g1, q, g', y, S', a, b, c, d⟩

end Panacea
