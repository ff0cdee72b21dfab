import Verif.Props.OramSetup

/-!
# C52: geometry and panics; C51 (first part): query shapes
-/

namespace Panacea
variable {n : Nat}

/-! ## Shapes of the server's intermediate values, for arbitrary ciphertext contents -/

theorem demuxRec_shape (fft : Fft n) : ∀ (bits : List (RGSW n)) (b : RLWE n), bits ≠ [] →
    ∃ out, demuxRec fft bits b = some out ∧ out.length = 2 ^ bits.length
  | [], _, h => absurd rfl h
  | [c], b, _ => ⟨_, rfl, rfl⟩
  | c :: c' :: rest, b, _ => by
    obtain ⟨lo, h1, h2⟩ := demuxRec_shape fft (c' :: rest) (externalProduct fft c 0 b) (by simp)
    obtain ⟨ro, h3, h4⟩ := demuxRec_shape fft (c' :: rest) (b - externalProduct fft c 0 b) (by simp)
    refine ⟨lo ++ ro, ?_, ?_⟩
    · rw [demuxRec]
      simp only [h1, h3]
    · rw [List.length_append, h2, h4]
      simp only [List.length_cons, pow_succ]
      omega

/-- Usable decomposition parameters for the trivial gadget ciphertexts. -/
def ParamsOK (ctx : Ctx) : Prop := 1 ≤ ctx.baseLog ∧ 1 ≤ ctx.levelCount ∧ ctx.baseLog * ctx.levelCount ≤ 64

theorem mapOption_none {α β : Type} {f : α → Option β} : ∀ {l : List α} {a : α}, a ∈ l → f a = none → mapOption f l = none
  | [], _, h, _ => absurd h (by simp)
  | b :: l, a, h, hf => by
    rw [mapOption]
    rcases List.mem_cons.mp h with rfl | h
    · rw [hf]
    · rw [mapOption_none h hf]
      split
      · rename_i h1 h2; cases h2
      · rfl

theorem decomposedSelectors_shape (fft : Fft n) {ctx : Ctx} (hp : ParamsOK ctx) (q : ClientQuery n) (cols : Nat) :
    (decomposedSelectors fft ctx q cols = none ↔ q.a = [] ∨ 2 ^ q.a.length ≠ cols) ∧
    ∀ L, decomposedSelectors fft ctx q cols = some L → L.length = cols ∧ ∀ cs ∈ L, cs.length = ctx.levelCount := by
  obtain ⟨h1, h2, h3⟩ := hp
  have hpar : ∀ l ∈ List.range' 1 ctx.levelCount, ¬ (ctx.baseLog * l = 0 ∨ 64 < ctx.baseLog * l) := fun l hl => by
    rw [List.mem_range'_1] at hl
    have hle : ctx.baseLog * l ≤ ctx.baseLog * ctx.levelCount := Nat.mul_le_mul_left _ (by omega)
    have hpos : 1 ≤ ctx.baseLog * l := Nat.mul_pos h1 hl.1
    omega
  by_cases ha : q.a = []
  · have : decomposedSelectors fft ctx q cols = none := by
      unfold decomposedSelectors
      rw [mapOption_none (a := 1) (by rw [List.mem_range'_1]; omega)]
      unfold demuxLevel
      split
      · rfl
      · rw [ha]; rfl
    rw [this]
    simp [ha]
  · obtain ⟨R, e1, e2⟩ := mapOption_spec (f := demuxLevel fft ctx q.a) (Q := fun _ (tmp : List (RLWE n)) => tmp.length = 2 ^ q.a.length)
      (List.range' 1 ctx.levelCount) (fun l hl => by
        obtain ⟨out, o1, o2⟩ := demuxRec_shape fft q.a ⟨0, Poly.set 0 0 (gadget ctx.baseLog l)⟩ ha
        refine ⟨out, ?_, o2⟩
        unfold demuxLevel demuxWith
        rw [if_neg (hpar l hl), o1]
        simp only
        rw [if_pos o2])
    have hRlen : R.length = ctx.levelCount := by rw [← e2.length_eq, List.length_range']
    have hall : ∀ r ∈ R, r.length = 2 ^ q.a.length := fun r hr => by
      obtain ⟨k, hk⟩ := List.mem_iff_getElem?.mp hr
      obtain ⟨_, _, h⟩ := forall₂_getElem e2 hk
      exact h
    have hne : R ≠ [] := by rintro rfl; simp at hRlen; omega
    have hhead : (R.headD []).length = 2 ^ q.a.length := by
      cases R with
      | nil => exact absurd rfl hne
      | cons r R => exact hall r (by simp)
    rcases hT : transpose R with _ | L
    · rcases (C06_transpose_panics R).1 hT with h | ⟨r, h1, h2⟩
      · exact absurd h hne
      · rw [hhead, hall r h1] at h2; omega
    · obtain ⟨t1, t2⟩ := C06_transpose_entries R L hT
      rw [hhead] at t1
      unfold decomposedSelectors
      rw [e1]
      simp only [hT]
      by_cases hc : L.length = cols
      · rw [if_pos hc]
        refine ⟨by simp [ha]; omega, fun L' hL' => ?_⟩
        cases hL'
        refine ⟨hc, fun cs hcs => ?_⟩
        obtain ⟨j, hj, rfl⟩ := List.mem_iff_getElem.mp hcs
        rw [(t2 j hj).1, hRlen]
      · rw [if_neg hc]
        refine ⟨by simp; right; omega, by simp⟩

theorem decomposedRlweToRgsw_shape (fft : Fft n) (ctx : Ctx) (negS : RGSW n) {cs : List (RLWE n)} (h : cs.length = ctx.levelCount) :
    ∃ C, decomposedRlweToRgsw fft ctx cs negS = some C ∧ C.baseLog = ctx.baseLog ∧ C.rows.length = ctx.levelCount := by
  unfold decomposedRlweToRgsw
  rw [if_pos (by omega)]
  exact ⟨_, rfl, rfl, by simp [h]⟩

theorem processOneSt_shape (fft : Fft n) {ctx : Ctx} (hp : ParamsOK ctx) (q : ClientQuery n) (row : List (RLWE n)) (negS : RGSW n) :
    (processOneSt fft ctx q row negS = none ↔ q.a = [] ∨ 2 ^ q.a.length ≠ row.length) ∧
    ∀ y ls, processOneSt fft ctx q row negS = some (y, ls) →
      ls.length = row.length ∧ ∀ l ∈ ls, l.baseLog = ctx.baseLog ∧ l.rows.length = ctx.levelCount := by
  obtain ⟨h1, h2⟩ := decomposedSelectors_shape fft hp q row.length
  unfold processOneSt
  rcases hL : decomposedSelectors fft ctx q row.length with _ | L
  · exact ⟨by simpa using h1.mp hL, by simp⟩
  · obtain ⟨hl, hcs⟩ := h2 L hL
    simp only
    rw [responseLoop_eq]
    obtain ⟨rs, r1, r2, r3⟩ := mapOption_getElem_spec (f := partialResponse fft ctx negS) (l := L.zip row)
      (Q := fun _ _ r => r.2.baseLog = ctx.baseLog ∧ r.2.rows.length = ctx.levelCount) (fun j x hx => by
        obtain ⟨C, c1, c2⟩ := decomposedRlweToRgsw_shape fft ctx negS (hcs x.1 (List.mem_of_getElem? (zip_getElem.mp hx).1))
        exact ⟨_, by unfold partialResponse; rw [c1], c2⟩)
    rw [r1]
    have hno : ¬ (q.a = [] ∨ 2 ^ q.a.length ≠ row.length) := fun h => by
      rw [h1.mpr h] at hL; cases hL
    refine ⟨by simpa using hno, fun y ls h => ?_⟩
    simp only [Option.map_some, List.nil_append, Option.some.injEq, Prod.mk.injEq] at h
    obtain ⟨_, rfl⟩ := h
    refine ⟨by rw [List.length_map, r2, List.length_zip, hl, min_self], fun l hl' => ?_⟩
    obtain ⟨r, hr, rfl⟩ := List.mem_map.mp hl'
    obtain ⟨j, hj⟩ := List.mem_iff_getElem?.mp hr
    obtain ⟨_, _, _, h⟩ := r3 j r hj
    exact h

/-- C52: `process_one` panics iff the query has no address ciphertexts or not exactly `log2(columns)` many -- whatever the ciphertexts
contain. -/
theorem C52_process_one_panics_iff {reduce : List (RLWE n) → RLWE n} (hr : IsReduction (· + ·) 0 reduce) (fft : Fft n) {S : Server n}
    (hp : ParamsOK S.ctx) (q : ClientQuery n) {row : List (RLWE n)} {rest : List (List (RLWE n))} (hS : S.data = row :: rest) :
    S.processOne reduce fft q = none ↔ q.a = [] ∨ 2 ^ q.a.length ≠ row.length := by
  rw [← (processOneSt_shape fft hp q row S.negS).1]
  unfold Server.processOne
  simp only [hS]
  rw [processOneMt_eq_st hr]
  rcases processOneSt fft S.ctx q row S.negS with _ | ⟨y, ls⟩ <;> simp

/-- C52 (no rows): `process_one` on an empty database panics. -/
theorem C52_no_rows (reduce : List (RLWE n) → RLWE n) (fft : Fft n) {S : Server n} (q : ClientQuery n) (hS : S.data = []) :
    S.processOne reduce fft q = none := by unfold Server.processOne; rw [hS]

theorem mapGen_length' {α β : Type} (f : α → Gen n → β × Gen n) (l : List α) (g : Gen n) : (mapGen f l g).1.length = l.length :=
  mapGen_length f l g

/-- The number of address ciphertexts of a client query. -/
theorem query_addr_length {ctx : Ctx} {s : Poly n} {cols i : Nat} {g g' : Gen n} {bits : List (RGSW n)}
    (h : bitDecomposedRgsw ctx s i cols g = some (bits, g')) (h0 : 0 < cols) (h1 : cols < 2 ^ 64) : bits.length = Nat.log2 cols := by
  unfold bitDecomposedRgsw at h
  rw [log2_eq h0 h1] at h
  simp only [Option.some.injEq] at h
  have := congrArg (fun r => r.1.length) h
  simp only at this
  rw [mapGen_length, indexBits_length] at this
  exact this.symm

theorem read_query_addr {ctx : Ctx} {s : Poly n} {cols i : Nat} {g : Gen n} {r : ClientQuery n × Gen n}
    (h : makeReadQuery ctx s cols i g = some r) (h0 : 0 < cols) (h1 : cols < 2 ^ 64) : r.1.a.length = Nat.log2 cols := by
  unfold makeReadQuery at h
  split at h
  · cases h
  · rename_i a g1 ha
    simp only at h
    split at h
    · cases h
    · cases h
      exact query_addr_length ha h0 h1

theorem write_query_addr {ctx : Ctx} {s : Poly n} {cols i : Nat} {alpha : Poly n} {g : Gen n} {r : ClientQuery n × Gen n}
    (h : makeWriteQuery ctx s cols i alpha g = some r) (h0 : 0 < cols) (h1 : cols < 2 ^ 64) : r.1.a.length = Nat.log2 cols := by
  unfold makeWriteQuery at h
  split at h
  · cases h
  · rename_i a g1 ha
    simp only at h
    split at h
    · cases h
    · cases h
      exact query_addr_length ha h0 h1

theorem geometry_iff {a : List (RGSW n)} {cols : Nat} (ha : a.length = Nat.log2 cols) (h0 : 0 < cols) :
    (a = [] ∨ 2 ^ a.length ≠ cols) ↔ ¬ ∃ D, 1 ≤ D ∧ cols = 2 ^ D := by
  constructor
  · rintro h ⟨D, hD, rfl⟩
    rw [Nat.log2_two_pow] at ha
    rcases h with rfl | h
    · simp at ha; omega
    · rw [ha] at h; exact h rfl
  · intro h
    by_contra hcon
    rw [not_or, not_not] at hcon
    refine h ⟨a.length, ?_, hcon.2.symm⟩
    rcases a with _ | ⟨x, a⟩
    · exact absurd rfl hcon.1
    · simp

/-- C52 (geometry): `process_one` on the client's query for `cols` columns -- any index, READ or WRITE -- panics iff `cols` is not a power
of two or is 1. -/
theorem C52_geometry {reduce : List (RLWE n) → RLWE n} (hr : IsReduction (· + ·) 0 reduce) (fft : Fft n) {S : Server n}
    (hp : ParamsOK S.ctx) {row : List (RLWE n)} {rest : List (List (RLWE n))} (hS : S.data = row :: rest) (h0 : 0 < row.length)
    (h1 : row.length < 2 ^ 64) {ctx : Ctx} {s : Poly n} {i : Nat} {alpha : Poly n} {g : Gen n} {r : ClientQuery n × Gen n}
    (hq : makeReadQuery ctx s row.length i g = some r ∨ makeWriteQuery ctx s row.length i alpha g = some r) :
    S.processOne reduce fft r.1 = none ↔ ¬ ∃ D, 1 ≤ D ∧ row.length = 2 ^ D := by
  rw [C52_process_one_panics_iff hr fft hp r.1 hS]
  refine geometry_iff ?_ h0
  rcases hq with hq | hq
  · exact read_query_addr hq h0 h1
  · exact write_query_addr hq h0 h1

/-- C52 (client): no columns, no query. -/
theorem C52_zero_cols (ctx : Ctx) (s : Poly n) (i : Nat) (alpha : Poly n) (g : Gen n) :
    makeReadQuery ctx s 0 i g = none ∧ makeWriteQuery ctx s 0 i alpha g = none := by
  have : bitDecomposedRgsw ctx s i 0 g = none := by unfold bitDecomposedRgsw; rw [log2_zero]
  exact ⟨by unfold makeReadQuery; rw [this], by unfold makeWriteQuery; rw [this]⟩

/-! ### process_batch -/

theorem flagProduct_some (fft : Fft n) {rows cols : Nat} {ls : List (List (RGSW n))} {flags : List (RGSW n)} (h1 : ls.length = rows)
    (h2 : ∀ l ∈ ls, l.length = cols) (h3 : flags.length = rows) {p : Nat × Nat} (hp1 : p.1 < rows) (hp2 : p.2 < cols) (v : RLWE n) :
    ∃ fl l, flags[p.1]? = some fl ∧ (∃ row, ls[p.1]? = some row ∧ row[p.2]? = some l) ∧
      flagProduct fft ls flags p v = some (externalProduct fft l 0 (externalProduct fft fl 0 v)) := by
  have hf : flags[p.1]? = some flags[p.1] := List.getElem?_eq_getElem (by omega)
  have hl : ls[p.1]? = some ls[p.1] := List.getElem?_eq_getElem (by omega)
  have hlen := h2 ls[p.1] (List.getElem_mem (by omega))
  have hc : ls[p.1][p.2]? = some ls[p.1][p.2] := List.getElem?_eq_getElem (by omega)
  refine ⟨_, _, hf, ⟨_, hl, hc⟩, ?_⟩
  unfold flagProduct flagProduct.cellSel
  simp only [hf, hl, hc]

theorem itemPositions_some {H : NaiveHash} {rows cols hc N : Nat} {T : Nat → Nat → Nat × Nat} (L : Layout H rows cols hc N T) {i : Nat}
    (hi : i < N) : itemPositions H cols i = some ((List.range hc).map fun h => T h i) := by
  unfold itemPositions
  rw [L.count]
  have : ∀ hs : List Nat, (∀ h ∈ hs, h < hc) → mapOption (fun h => H.hashToTuple h i cols) hs = some (hs.map fun h => T h i) := by
    intro hs
    induction hs with
    | nil => intro _; rfl
    | cons h hs ih =>
      intro hlt
      rw [mapOption, L.tuple h i (hlt h (by simp)) hi, ih (fun k hk => hlt k (by simp [hk]))]
      rfl
  exact this _ (fun h hh => List.mem_range.mp hh)

theorem foldl_setCell_shape {rows cols : Nat} (v : RLWE n) : ∀ (ps : List (Nat × Nat)) (db : List (List (RLWE n))), DbShape rows cols db →
    DbShape rows cols (ps.foldl (fun d p => setCell d p v) db)
  | [], _, h => h
  | p :: ps, db, h => foldl_setCell_shape v ps _ (setCell_shape h p v)

theorem correctItem_shape (fft : Fft n) {H : NaiveHash} {rows cols hc N : Nat} {T : Nat → Nat → Nat × Nat} (L : Layout H rows cols hc N T)
    (hpos : 0 < hc) {ls : List (List (RGSW n))} {flags : List (RGSW n)} (h1 : ls.length = rows) (h2 : ∀ l ∈ ls, l.length = cols)
    (h3 : flags.length = rows) {db : List (List (RLWE n))} (hsh : DbShape rows cols db) {i : Nat} (hi : i < N) :
    ∃ db', correctItem fft H cols ls flags db i = some db' ∧ DbShape rows cols db' := by
  unfold correctItem
  rw [itemPositions_some L hi]
  simp only
  have hin : ∀ p ∈ (List.range hc).map (fun h => T h i), p.1 < rows ∧ p.2 < cols := fun p hp => by
    obtain ⟨h, hh, rfl⟩ := List.mem_map.mp hp
    rw [List.mem_range] at hh
    exact ⟨L.row_lt h i hh hi, L.col_lt h i hh hi⟩
  obtain ⟨vs, e1, e2⟩ := mapOption_spec (f := cellAt db) (Q := fun _ _ => True) ((List.range hc).map fun h => T h i) (fun p hp => by
    obtain ⟨c, hc'⟩ := cellAt_isSome hsh (hin p hp).1 (hin p hp).2
    exact ⟨c, hc', trivial⟩)
  have hvl : vs.length = hc := by rw [← e2.length_eq]; simp
  have hne : ∃ v, correctConsistency fft db ls flags ((List.range hc).map fun h => T h i) = some v := by
    unfold correctConsistency
    rw [e1]
    rcases vs with _ | ⟨v, vs⟩
    · simp at hvl; omega
    · simp only
      unfold correctValue
      obtain ⟨f1, g1, g2⟩ := mapOption_spec (f := fun p => flagProduct fft ls flags p v) (Q := fun _ _ => True)
        ((List.range hc).map fun h => T h i) (fun p hp => by
          obtain ⟨_, _, _, _, e⟩ := flagProduct_some fft h1 h2 h3 (hin p hp).1 (hin p hp).2 v
          exact ⟨_, e, trivial⟩)
      rw [g1]
      have hfl : f1.length = hc := by rw [← g2.length_eq]; simp
      rcases f1 with _ | ⟨w, ws⟩
      · simp at hfl; omega
      · simp only
        obtain ⟨ts, t1, _⟩ := mapOption_spec (f := fun (x : (Nat × Nat) × RLWE n) => flagProduct fft ls flags x.1 x.2) (Q := fun _ _ => True)
          ((((List.range hc).map fun h => T h i).drop 1).zip vs) (fun x hx => by
            obtain ⟨px, _⟩ := List.of_mem_zip hx
            have hp := hin x.1 (List.mem_of_mem_drop px)
            obtain ⟨_, _, _, _, e⟩ := flagProduct_some fft h1 h2 h3 hp.1 hp.2 x.2
            exact ⟨_, e, trivial⟩)
        rw [t1]
        exact ⟨_, rfl⟩
  obtain ⟨v, hv⟩ := hne
  rw [hv]
  exact ⟨_, rfl, foldl_setCell_shape v _ _ hsh⟩

theorem correctAll_shape (fft : Fft n) {H : NaiveHash} {rows cols hc N : Nat} {T : Nat → Nat → Nat × Nat} (L : Layout H rows cols hc N T)
    (hpos : 0 < hc) {ls : List (List (RGSW n))} {flags : List (RGSW n)} (h1 : ls.length = rows) (h2 : ∀ l ∈ ls, l.length = cols)
    (h3 : flags.length = rows) : ∀ (is : List Nat) (db : List (List (RLWE n))), (∀ i ∈ is, i < N) → DbShape rows cols db →
    ∃ db', correctAll fft H cols ls flags is db = some db' ∧ DbShape rows cols db'
  | [], db, _, hsh => ⟨db, rfl, hsh⟩
  | i :: is, db, hlt, hsh => by
    obtain ⟨db1, e1, e2⟩ := correctItem_shape fft L hpos h1 h2 h3 hsh (hlt i (by simp))
    obtain ⟨db', e3, e4⟩ := correctAll_shape fft L hpos h1 h2 h3 is db1 (fun j hj => hlt j (by simp [hj])) e2
    exact ⟨db', by rw [correctAll, e1]; exact e3, e4⟩

/-- C52 (batch): on a `rows x cols` database (`rows > 0`) whose hash table covers the grid, `process_batch` panics iff the number of queries
is not the number of rows, or some query has no address ciphertexts, or not exactly `log2(cols)` many -- whatever the ciphertexts
contain. When it succeeds the database keeps its shape and there is one response per row. -/
theorem C52_batch_panics_iff (fft : Fft n) {S : Server n} (hp : ParamsOK S.ctx) (shuffle : List Nat → List Nat)
    (hsh : ∀ l, (shuffle l).Perm l) {hc N : Nat} {H : NaiveHash} (hnew : NaiveHash.new shuffle hc N = some H) {rows cols : Nat}
    (hrows : 0 < rows) (hcols : 0 < cols) (hsize : rows * cols = hc * N) (hlen : S.data.length = rows)
    (hrow : ∀ row ∈ S.data, row.length = cols) (qs : List (ClientQuery n)) :
    (S.processBatch fft qs H = none ↔ qs.length ≠ rows ∨ ∃ q ∈ qs, q.a = [] ∨ 2 ^ q.a.length ≠ cols) ∧
    ∀ ys S', S.processBatch fft qs H = some (ys, S') → ys.length = rows ∧ S'.data.length = rows ∧ (∀ row ∈ S'.data, row.length = cols) ∧
      S'.negS = S.negS ∧ S'.ctx = S.ctx := by
  have hpos : 0 < hc := by
    rcases Nat.eq_zero_or_pos hc with h0 | h0
    · have := (C09_new_panics shuffle hc N).mpr h0
      rw [hnew] at this; cases this
    · exact h0
  obtain ⟨T, L⟩ := layout_of_hash shuffle hsh hnew hcols hsize
  unfold Server.processBatch
  by_cases hq : qs.length = S.data.length
  swap
  · rw [if_neg hq]
    refine ⟨by simp; left; omega, by simp⟩
  · rw [if_pos hq]
    by_cases hbad : ∃ q ∈ qs, q.a = [] ∨ 2 ^ q.a.length ≠ cols
    · obtain ⟨q, hqm, hqb⟩ := hbad
      obtain ⟨k, hk⟩ := List.mem_iff_getElem?.mp hqm
      have hkl : k < S.data.length := by rw [← hq]; exact (List.getElem?_eq_some_iff.mp hk).1
      have hm : (q, S.data[k]) ∈ qs.zip S.data := List.mem_of_getElem? (zip_getElem.mpr ⟨hk, List.getElem?_eq_getElem hkl⟩)
      have hnone : batchRow fft S (q, S.data[k]) = none := by
        unfold batchRow
        rw [(processOneSt_shape fft hp q S.data[k] S.negS).1, hrow _ (List.getElem_mem hkl)]
        exact hqb
      rw [mapOption_none hm hnone]
      refine ⟨by simp; right; exact ⟨q, hqm, by simpa using hqb⟩, by simp⟩
    · obtain ⟨rs, r1, r2, r3⟩ := mapOption_getElem_spec (f := batchRow fft S) (l := qs.zip S.data)
        (Q := fun _ _ r => r.2.length = cols) (fun j x hx => by
          obtain ⟨x1, x2⟩ := zip_getElem.mp hx
          have hxl := hrow _ (List.mem_of_getElem? x2)
          have hsp := processOneSt_shape fft hp x.1 x.2 S.negS
          rcases hps : batchRow fft S x with _ | r
          · unfold batchRow at hps
            exact absurd ⟨x.1, List.mem_of_getElem? x1, by rw [← hxl]; exact hsp.1.mp hps⟩ hbad
          · exact ⟨r, rfl, by rw [(hsp.2 r.1 r.2 hps).1, hxl]⟩)
      rw [r1]
      have hrl : rs.length = rows := by rw [r2, List.length_zip, hq, min_self, hlen]
      have hcolsS : S.cols = some cols := by
        unfold Server.cols
        rcases hd : S.data with _ | ⟨row, rest⟩
        · rw [hd] at hlen; simp at hlen; omega
        · simp [hrow row (by rw [hd]; simp)]
      simp only [hcolsS]
      rw [if_neg (by rw [L.count]; omega), hlen, L.count, hsize, Nat.mul_div_cancel_left _ hpos]
      have hls : ∀ l ∈ rs.map Prod.snd, l.length = cols := fun l hl => by
        obtain ⟨r, hr, rfl⟩ := List.mem_map.mp hl
        obtain ⟨j, hj⟩ := List.mem_iff_getElem?.mp hr
        obtain ⟨_, _, _, h⟩ := r3 j r hj
        exact h
      obtain ⟨db', c1, c2⟩ := correctAll_shape fft L hpos (ls := rs.map Prod.snd) (flags := qs.map ClientQuery.op) (by simp [hrl]) hls
        (by simp [hq, hlen]) (List.range N)
        (List.zipWith (fun (x : ClientQuery n × List (RLWE n)) l => updateDb fft x.1 x.2 l) (qs.zip S.data) (rs.map Prod.snd))
        (fun i hi => List.mem_range.mp hi) (by
          refine ⟨by simp [hq, hlen, hrl], fun row hr => ?_⟩
          obtain ⟨j, hj⟩ := List.mem_iff_getElem?.mp hr
          rw [List.getElem?_zipWith] at hj
          split at hj
          · rename_i x l hx hl
            cases hj
            unfold updateDb
            rw [List.length_zipWith, hrow _ (List.mem_of_getElem? (zip_getElem.mp hx).2), hls l (List.mem_of_getElem? hl), min_self]
          · cases hj)
      rw [c1]
      refine ⟨by simp only [reduceCtorEq, false_iff, not_or, not_not]; exact ⟨by omega, hbad⟩, fun ys S' h => ?_⟩
      simp only [Option.some.injEq, Prod.mk.injEq] at h
      obtain ⟨rfl, rfl⟩ := h
      exact ⟨by simp [hrl], c2.1, c2.2, rfl, rfl⟩

example : ParamsOK exTreeCtx ∧ ¬ (∃ D, 1 ≤ D ∧ 6 = 2 ^ D) ∧ ∃ r, makeReadQuery exTreeCtx exKey 6 5 exGen = some r ∧ r.1.a.length = 2 := by
  refine ⟨by unfold ParamsOK; decide, ?_, ?_⟩
  · rintro ⟨D, h1, h2⟩
    rcases D with _ | _ | _ | D
    · omega
    · omega
    · omega
    · have : 2 ^ 3 ≤ 2 ^ (D + 3) := Nat.pow_le_pow_right (by decide) (by omega)
      omega
  · rcases h : makeReadQuery exTreeCtx exKey 6 5 exGen with _ | r
    · revert h; decide +kernel
    · exact ⟨r, rfl, read_query_addr h (by decide) (by decide)⟩

end Panacea
