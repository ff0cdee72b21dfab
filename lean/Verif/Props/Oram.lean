import Verif.Lemmas.Oram
import Verif.Props.NaiveHash

/-!
# C41 - C43, C52: the single-query ORAM
-/

namespace Panacea
variable {n : Nat}

/-- One access of one row with measured noise: response and new contents. -/
theorem process_row_of {fft : Fft n} {s : Poly n} {ctx : Ctx} {negS : RGSW n} {B : Nat} (hk : ServerKeys ctx s negS B) {q : ClientQuery n} {D i : Nat} {w : Bool} {m : Poly n} (hD : 1 ≤ D)
    (hq : IsQuery ctx s q D i w m B) {row : List (RLWE n)} (hlen : row.length = 2 ^ D) {v : Nat → Poly n} {e : Nat}
    (hrow : EncRow s row v e) {ms : Measure} (hm : MeasuredRow fft s ctx negS q row D B ms) :
    ∃ y ls, processOneSt fft ctx q row negS = some (y, ls) ∧ ls.length = 2 ^ D ∧
      (∀ j l, ls[j]? = some l → EncBit s l (decide (j = i)) ctx.baseLog ctx.levelCount (ms.rows D)) ∧
      Enc s y (v i) (e + 2 ^ D * ms.sel) ∧
      (updateDb fft q row ls).length = 2 ^ D ∧
      EncRow s (updateDb fft q row ls) (if w then Function.update v i m else v) (max e B + ms.op + ms.sel) := by
  obtain ⟨y, ls, h1, h2, h3, h4⟩ := processOneSt_of hk.bl hk.lv hk.lt hk.neg hD hq.addr hlen hm
  refine ⟨y, ls, h1, h2, h3, ?_, by unfold updateDb; simp [hlen, h2], ?_⟩
  · have hi : i < row.length := by rw [hlen]; exact hq.addr.lt
    have hy := h4 row[i] (List.getElem?_eq_getElem hi)
    have hc := hrow i row[i] (List.getElem?_eq_getElem hi)
    unfold Enc at *
    rw [show decryptRlwe s y - v i = (decryptRlwe s row[i] - v i) + (decryptRlwe s y - decryptRlwe s row[i]) by ring]
    exact hc.add hy
  · intro j c hc
    unfold updateDb at hc
    rw [List.getElem?_zipWith] at hc
    split at hc
    · rename_i cell l hcell hl
      cases hc
      have := updateCell_of (q := q) (cell := cell) hq.op (h3 j l hl) hq.data (hrow j cell hcell)
        (hm.op cell (List.mem_of_getElem? hcell)) (hm.sel y ls h1 j l cell hl hcell).2
      have hm : (if decide (j = i) && w then m else v j) = (if w then Function.update v i m else v) j := by
        cases w
        · simp
        · by_cases hji : j = i
          · subst hji; simp
          · simp [hji]
      rw [hm] at this
      refine this.mono ?_
      have h1 : (if decide (j = i) && w then B else e) ≤ max e B := by split <;> omega
      have h2 : (if decide (j = i) then ms.op else 0) ≤ ms.op := by split <;> omega
      omega
    · cases hc

/-- C41 + C42, one access of one row: response and new contents. -/
theorem process_row (hn : 0 < n) {fft : Fft n} {phi : Nat} (hf : fft.Bounded phi) {s : Poly n} (hs : Binary s) {ctx : Ctx}
    {negS : RGSW n} {B : Nat} (hk : ServerKeys ctx s negS B) {q : ClientQuery n} {D i : Nat} {w : Bool} {m : Poly n} (hD : 1 ≤ D)
    (hq : IsQuery ctx s q D i w m B) {row : List (RLWE n)} (hlen : row.length = 2 ^ D) {v : Nat → Poly n} {e : Nat}
    (hrow : EncRow s row v e) :
    ∃ y ls, processOneSt fft ctx q row negS = some (y, ls) ∧ ls.length = 2 ^ D ∧
      (∀ j l, ls[j]? = some l → EncBit s l (decide (j = i)) ctx.baseLog ctx.levelCount (selNoise ctx n B phi D)) ∧
      Enc s y (v i) (e + 2 ^ D * deltaSel ctx n B phi D) ∧
      (updateDb fft q row ls).length = 2 ^ D ∧
      EncRow s (updateDb fft q row ls) (if w then Function.update v i m else v) (max e B + deltaOp ctx n B phi + deltaSel ctx n B phi D) := by
  obtain ⟨h1, h2⟩ := measuredRow_worst hn hf hs hk q row D
  have := process_row_of hk hD hq hlen hrow h1
  rw [h2] at this
  exact this

/-- C41: `process_one` on a database row of `2^D` columns encrypting `v` answers a query for column `i` -- READ or WRITE -- with an
encryption of `v i`, whatever the parallel reduction does. -/
theorem C41_response (hn : 0 < n) {fft : Fft n} {phi : Nat} (hf : fft.Bounded phi) {s : Poly n} (hs : Binary s) {S : Server n}
    {B : Nat} (hk : ServerKeys S.ctx s S.negS B) {q : ClientQuery n} {D i : Nat} {w : Bool} {m : Poly n} (hD : 1 ≤ D)
    (hq : IsQuery S.ctx s q D i w m B) {row : List (RLWE n)} {rest : List (List (RLWE n))} (hS : S.data = row :: rest)
    (hlen : row.length = 2 ^ D) {v : Nat → Poly n} {e : Nat} (hrow : EncRow s row v e)
    {reduce : List (RLWE n) → RLWE n} (hr : IsReduction (· + ·) 0 reduce) :
    ∃ y S', S.processOne reduce fft q = some (y, S') ∧ Enc s y (v i) (e + 2 ^ D * deltaSel S.ctx n B phi D) := by
  obtain ⟨y, ls, h1, _, _, h4, _⟩ := process_row hn hf hs hk hD hq hlen hrow
  refine ⟨y, { S with data := updateDb fft q row ls :: rest }, ?_, h4⟩
  unfold Server.processOne
  simp only [hS]
  rw [processOneMt_eq_st hr, h1]

/-- C41 (decoded): within the noise budget the response decrypts and decodes to the plaintext stored at column `i`. -/
theorem C41_decoded {t : Scalar} (hn : 0 < n) {fft : Fft n} {phi : Nat} (hf : fft.Bounded phi) {s : Poly n} (hs : Binary s) {S : Server n}
    (hc : Codec.new t = some S.ctx.codec)
    {B : Nat} (hk : ServerKeys S.ctx s S.negS B) {q : ClientQuery n} {D i : Nat} {w : Bool} {m : Poly n} (hD : 1 ≤ D)
    (hq : IsQuery S.ctx s q D i w m B) {row : List (RLWE n)} {rest : List (List (RLWE n))} (hS : S.data = row :: rest)
    (hlen : row.length = 2 ^ D) {v : Nat → Poly n} {e : Nat} (hrow : EncRow s row v e) {pt : Poly n}
    (hpt : S.ctx.codec.polyEncode pt = some (v i))
    {reduce : List (RLWE n) → RLWE n} (hr : IsReduction (· + ·) 0 reduce)
    (hb : 2 * (e + 2 ^ D * deltaSel S.ctx n B phi D) < 2 ^ 64 / t.toNat) :
    ∃ y S', S.processOne reduce fft q = some (y, S') ∧ decryptDecodeRlwe S.ctx s y = pt := by
  obtain ⟨y, S', h1, h2⟩ := C41_response hn hf hs hk hD hq hS hlen hrow hr
  exact ⟨y, S', h1, decryptDecode_of_enc hc hpt h2 hb⟩

/-- C42: `process_one` keeps the shape of the database, its keys and all other rows; in row 0 a WRITE replaces column `i` by the query's
data and nothing else, a READ replaces nothing; the noise grows by an additive amount independent of the contents. -/
theorem C42_update (hn : 0 < n) {fft : Fft n} {phi : Nat} (hf : fft.Bounded phi) {s : Poly n} (hs : Binary s) {S : Server n}
    {B : Nat} (hk : ServerKeys S.ctx s S.negS B) {q : ClientQuery n} {D i : Nat} {w : Bool} {m : Poly n} (hD : 1 ≤ D)
    (hq : IsQuery S.ctx s q D i w m B) {row : List (RLWE n)} {rest : List (List (RLWE n))} (hS : S.data = row :: rest)
    (hlen : row.length = 2 ^ D) {v : Nat → Poly n} {e : Nat} (hrow : EncRow s row v e)
    {reduce : List (RLWE n) → RLWE n} (hr : IsReduction (· + ·) 0 reduce) :
    ∃ y S' row', S.processOne reduce fft q = some (y, S') ∧ S'.data = row' :: rest ∧ S'.negS = S.negS ∧ S'.ctx = S.ctx ∧
      row'.length = 2 ^ D ∧
      EncRow s row' (if w then Function.update v i m else v) (max e B + deltaOp S.ctx n B phi + deltaSel S.ctx n B phi D) := by
  obtain ⟨y, ls, h1, _, _, _, h5, h6⟩ := process_row hn hf hs hk hD hq hlen hrow
  refine ⟨y, { S with data := updateDb fft q row ls :: rest }, _, ?_, rfl, rfl, rfl, h5, h6⟩
  unfold Server.processOne
  simp only [hS]
  rw [processOneMt_eq_st hr, h1]

/-! ### The client's queries -/

theorem polyEncode_total {t : Scalar} {c : Codec} (hc : Codec.new t = some c) {p : Poly n} (hp : Spec.Encodable t p) :
    ∃ enc, c.polyEncode p = some enc := by
  unfold Codec.polyEncode
  rw [if_pos]
  · exact ⟨_, rfl⟩
  · intro k
    rw [Option.isSome_iff_ne_none, Ne, (C02_encode hc (p k)).1]
    have := hp k
    omega

theorem genBinaryPt_encodable {t : Scalar} {c : Codec} (hc : Codec.new t = some c) (g : Gen n) : Spec.Encodable t (genBinaryPt g).1 := by
  intro k
  obtain ⟨j, hj1, _, hj⟩ := (C02_new_isSome_iff t).mp (by rw [hc]; rfl)
  have h2 : 2 ≤ 2 ^ j := by
    calc 2 = 2 ^ 1 := rfl
      _ ≤ 2 ^ j := Nat.pow_le_pow_right (by decide) hj1
  show (g.plains g.pos k % 2).toNat < t.toNat
  rw [BitVec.toNat_umod, hj]
  have : (g.plains g.pos k).toNat % (2 : Scalar).toNat < 2 := Nat.mod_lt _ (by decide)
  omega

/-- C42 (client, WRITE): for `i < 2^D` and encodable data the client's query is well formed. -/
theorem C42_write_query {t : Scalar} {ctx : Ctx} (hc : Codec.new t = some ctx.codec) (h1 : 1 ≤ ctx.baseLog) (h2 : 1 ≤ ctx.levelCount)
    (h3 : ctx.baseLog * ctx.levelCount < 64) (s : Poly n) {i D : Nat} (hD : D < 64) (hi : i < 2 ^ D) {alpha : Poly n}
    (ha : Spec.Encodable t alpha) {g : Gen n} {B : Nat} (hg : g.Bounded B) :
    ∃ q g' enc, makeWriteQuery ctx s (2 ^ D) i alpha g = some (q, g') ∧ g'.Bounded B ∧ ctx.codec.polyEncode alpha = some enc ∧
      IsQuery ctx s q D i true enc B := by
  obtain ⟨bits, g1, e1, eg, e2⟩ := bitDecomposed_spec h1 h2 h3 s i (2 ^ D) D (log2_pow hD) hg
  obtain ⟨enc, he⟩ := polyEncode_total hc ha
  obtain ⟨b1, b2⟩ := encryptConstantRgsw_bit h1 h2 h3 true eg (s := s)
  refine ⟨⟨bits, (genEncOp ctx s .write g1).1, (encryptRlwe s enc (genEncOp ctx s .write g1).2).1⟩,
    (encryptRlwe s enc (genEncOp ctx s .write g1).2).2, enc, ?_, ?_, he, ?_⟩
  · unfold makeWriteQuery
    rw [e1]
    simp only
    unfold encodeEncryptRlwe
    rw [he]
  · exact encryptRlwe_gen (by exact b2)
  · rw [Nat.mod_eq_of_lt hi] at e2
    exact ⟨e2, b1, encryptRlwe_enc b2⟩

/-- C42 (client, READ): for `i < 2^D` the client's query is well formed. -/
theorem C42_read_query {t : Scalar} {ctx : Ctx} (hc : Codec.new t = some ctx.codec) (h1 : 1 ≤ ctx.baseLog) (h2 : 1 ≤ ctx.levelCount)
    (h3 : ctx.baseLog * ctx.levelCount < 64) (s : Poly n) {i D : Nat} (hD : D < 64) (hi : i < 2 ^ D) {g : Gen n} {B : Nat}
    (hg : g.Bounded B) :
    ∃ q g' m, makeReadQuery ctx s (2 ^ D) i g = some (q, g') ∧ g'.Bounded B ∧ IsQuery ctx s q D i false m B := by
  obtain ⟨bits, g1, e1, eg, e2⟩ := bitDecomposed_spec h1 h2 h3 s i (2 ^ D) D (log2_pow hD) hg
  obtain ⟨enc, he⟩ := polyEncode_total hc (genBinaryPt_encodable hc g1)
  have hg2 : (genBinaryPt g1).2.Bounded B := eg
  obtain ⟨b1, b2⟩ := encryptConstantRgsw_bit h1 h2 h3 false hg2 (s := s)
  refine ⟨⟨bits, (genEncOp ctx s .read (genBinaryPt g1).2).1, (encryptRlwe s enc (genEncOp ctx s .read (genBinaryPt g1).2).2).1⟩,
    (encryptRlwe s enc (genEncOp ctx s .read (genBinaryPt g1).2).2).2, enc, ?_, ?_, ?_⟩
  · unfold makeReadQuery
    rw [e1]
    simp only
    unfold encodeEncryptRlwe
    rw [he]
  · exact encryptRlwe_gen (by exact b2)
  · rw [Nat.mod_eq_of_lt hi] at e2
    exact ⟨e2, b1, encryptRlwe_enc b2⟩

/-- A one-row client's query for item `i` addresses the column of the item's first hash. -/
theorem mapping_single (shuffle : List Nat → List Nat) (hs : ∀ l, (shuffle l).Perm l) {hc N : Nat} {H : NaiveHash}
    (hnew : NaiveHash.new shuffle hc N = some H) {cols i r c : Nat} (ht : H.hashToTuple 0 i cols = some (r, c)) :
    ∃ m, H.hashToMapping [i] cols = some m ∧ m r = some (c, i) := by
  obtain ⟨w, rfl, rfl⟩ := NaiveHash.new_wf hs hnew
  have hpos : 0 < H.hCount := by
    by_contra h0
    have : NaiveHash.new shuffle H.hCount H.inputDomain = none := (C09_new_panics shuffle _ _).mpr (by omega)
    rw [hnew] at this; cases this
  obtain ⟨k, hk⟩ := Nat.exists_eq_succ_of_ne_zero (Nat.pos_iff_ne_zero.mp hpos)
  refine ⟨NaiveHash.Mapping.insert (fun _ => none) r (c, i), ?_, by simp [NaiveHash.Mapping.insert]⟩
  unfold NaiveHash.hashToMapping NaiveHash.mapAll
  rw [hk, List.range_succ_eq_map]
  unfold NaiveHash.mapOne
  rw [ht]
  simp [NaiveHash.mapAll]

/-- The database state between accesses: one row of `2^D` columns; item `i` is stored, with noise at most `e`, at the column of its first
hash. -/
structure OneInv (ctx : Ctx) (s : Poly n) (H : NaiveHash) (D N B : Nat) (v : Nat → Poly n) (e : Nat) (S : Server n) : Prop where
  ctx_eq : S.ctx = ctx
  keys : ServerKeys ctx s S.negS B
  shape : ∃ row, S.data = [row] ∧ row.length = 2 ^ D ∧ ∃ vc, EncRow s row vc e ∧
    ∀ i c, i < N → H.hashToTuple 0 i (2 ^ D) = some (0, c) → ctx.codec.polyEncode (v i) = some (vc c)

/-- The flag and data of the query for a command. -/
def CmdKind (ctx : Ctx) (cmd : Cmd n) (w : Bool) (m : Poly n) : Prop :=
  match cmd with
  | .read _ => w = false
  | .write _ a => w = true ∧ ctx.codec.polyEncode a = some m

theorem clientQuery_one {t : Scalar} {ctx : Ctx} (hcd : Codec.new t = some ctx.codec) (h1 : 1 ≤ ctx.baseLog) (h2 : 1 ≤ ctx.levelCount)
    (h3 : ctx.baseLog * ctx.levelCount < 64) (s : Poly n) (shuffle : List Nat → List Nat) (hsh : ∀ l, (shuffle l).Perm l) {hc N : Nat}
    {H : NaiveHash} (hnew : NaiveHash.new shuffle hc N = some H) {D : Nat} (hD : D < 64) {cmd : Cmd n} (hv : cmd.Valid N t) {c : Nat}
    (ht : H.hashToTuple 0 cmd.index (2 ^ D) = some (0, c)) {g : Gen n} {B : Nat} (hg : g.Bounded B) :
    ∃ q g' w m, clientQuery ctx s 1 (2 ^ D) H cmd g = some (q, g') ∧ g'.Bounded B ∧ IsQuery ctx s q D c w m B ∧
      CmdKind ctx cmd w m := by
  have hcl : c < 2 ^ D := by
    unfold NaiveHash.hashToTuple at ht
    split at ht
    · cases ht
    · rw [if_neg (by positivity)] at ht
      simp only [Option.some.injEq, Prod.mk.injEq] at ht
      rw [← ht.2]
      exact Nat.mod_lt _ (by positivity)
  obtain ⟨mp, m1, m2⟩ := mapping_single shuffle hsh hnew ht
  cases cmd with
  | read i =>
    obtain ⟨q, g', m, q1, q2, q3⟩ := C42_read_query hcd h1 h2 h3 s hD hcl hg
    refine ⟨q, g', false, m, ?_, q2, q3, rfl⟩
    simp only [Cmd.index] at m1 m2
    simp only [clientQuery, genReadQueryOne, genReadQueryBatch, m1, List.range_one, mapGenM, readQueryRow, m2, q1, removeFirst]
  | write i a =>
    obtain ⟨q, g', enc, q1, q2, q4, q3⟩ := C42_write_query hcd h1 h2 h3 s hD hcl hv.2 hg
    refine ⟨q, g', true, enc, ?_, q2, q3, rfl, q4⟩
    simp only [Cmd.index] at m1 m2
    simp only [clientQuery, genWriteQueryOne, genWriteQueryBatch, m1, List.range_one, mapGenM, writeQueryRow, m2, q1, removeFirst]

theorem Cmd.Valid.lt {N : Nat} {t : Scalar} {c : Cmd n} (h : c.Valid N t) : c.index < N := by
  cases c with
  | read i => exact h
  | write i a => exact h.1

/-- C43: every history of single accesses behaves like a plain array.  For a one-row database of `2^D = h_count * N` columns storing the
items `v 0 .. v (N-1)` with noise `e ≥ B`, running any list of valid READ/WRITE commands through the API never panics and every decoded
response is the content of its item at that point of the history in the plain-array semantics -- as long as the linear budget
`e + k * (δ_op + δ_sel) + 2^D * δ_sel < Δ/2` holds for the number `k` of commands. -/
theorem C43_history {t : Scalar} {ctx : Ctx} (hcd : Codec.new t = some ctx.codec) (hn : 0 < n) {fft : Fft n} {phi : Nat}
    (hf : fft.Bounded phi) {s : Poly n} (hs : Binary s) (shuffle : List Nat → List Nat) (hsh : ∀ l, (shuffle l).Perm l) {hc N : Nat}
    {H : NaiveHash} (hnew : NaiveHash.new shuffle hc N = some H) {D : Nat} (hD1 : 1 ≤ D) (hD : D < 64) (hsize : 2 ^ D = hc * N) {B : Nat} :
    ∀ (cmds : List ((List (RLWE n) → RLWE n) × Cmd n)) (v : Nat → Poly n) (e : Nat) (S : Server n) (g : Gen n),
      B ≤ e → g.Bounded B → OneInv ctx s H D N B v e S →
      (∀ c ∈ cmds, IsReduction (· + ·) 0 c.1 ∧ c.2.Valid N t) →
      2 * (e + cmds.length * (deltaOp ctx n B phi + deltaSel ctx n B phi D) + 2 ^ D * deltaSel ctx n B phi D) < 2 ^ 64 / t.toNat →
      ∃ S' g', runHistory fft ctx s 1 (2 ^ D) H cmds S g = some (Spec.run v (cmds.map Prod.snd), S', g') ∧
        OneInv ctx s H D N B ((cmds.map Prod.snd).foldl Spec.apply v)
          (e + cmds.length * (deltaOp ctx n B phi + deltaSel ctx n B phi D)) S' := by
  intro cmds
  induction cmds with
  | nil =>
    intro v e S g _ _ hinv _ _
    exact ⟨S, g, rfl, by simpa using hinv⟩
  | cons cmd cmds ih =>
    intro v e S g he hg hinv hval hb
    obtain ⟨hred, hv⟩ := hval cmd (by simp)
    obtain ⟨b1, b2, _⟩ := C10_tuple_bijection shuffle hsh hc N H hnew 1 (2 ^ D) (by positivity) (by omega)
    have hcpos : 0 < hc := by
      rcases Nat.eq_zero_or_pos hc with h0 | h0
      · have : 0 < 2 ^ D := by positivity
        rw [hsize, h0] at this; omega
      · exact h0
    obtain ⟨r, c, ht, hr, hcl, _⟩ := b1 0 cmd.2.index hcpos hv.lt
    have hr0 : r = 0 := by omega
    subst hr0
    obtain ⟨row, hS, hlen, vc, hrow, hitems⟩ := hinv.shape
    have hk := hinv.keys
    obtain ⟨q, g', w, m, q1, q2, q3, q4⟩ := clientQuery_one hcd hk.bl hk.lv hk.lt s shuffle hsh hnew hD hv ht hg
    have hk' : ServerKeys S.ctx s S.negS B := by rw [hinv.ctx_eq]; exact hk
    have hq' : IsQuery S.ctx s q D c w m B := by rw [hinv.ctx_eq]; exact q3
    have hcd' : Codec.new t = some S.ctx.codec := by rw [hinv.ctx_eq]; exact hcd
    obtain ⟨y, S1, p1, p2⟩ := C41_decoded hn hf hs hcd' hk' hD1 hq' hS hlen hrow
      (pt := v cmd.2.index) (by rw [hinv.ctx_eq]; exact hitems _ _ hv.lt ht) hred (by
        rw [hinv.ctx_eq]
        have : 2 ^ D * deltaSel ctx n B phi D ≤ (cmds.length + 1) * (deltaOp ctx n B phi + deltaSel ctx n B phi D)
            + 2 ^ D * deltaSel ctx n B phi D := by omega
        simp only [List.length_cons] at hb
        omega)
    obtain ⟨y', S1', row', p3, p4, p5, p6, p7, p8⟩ := C42_update hn hf hs hk' hD1 hq' hS hlen hrow hred
    rw [p1] at p3
    cases p3
    rw [hinv.ctx_eq] at p2 p6 p8
    have hmax : max e B = e := by omega
    rw [hmax] at p8
    have hstep : e + (deltaOp ctx n B phi + deltaSel ctx n B phi D) + cmds.length * (deltaOp ctx n B phi + deltaSel ctx n B phi D)
        = e + (cmds.length + 1) * (deltaOp ctx n B phi + deltaSel ctx n B phi D) := by ring
    obtain ⟨S', g'', i1, i2⟩ := ih (Spec.apply v cmd.2) (e + (deltaOp ctx n B phi + deltaSel ctx n B phi D)) S1 g' (by omega) q2
      ⟨p6, by rw [p5]; exact hk, row', p4, p7, _, by rw [← Nat.add_assoc]; exact p8, by
        intro i ci hi hti
        rcases hcmd : cmd.2 with j | ⟨j, a⟩
        · rw [hcmd] at q4
          have q4 : w = false := q4
          subst q4
          simp only [Bool.false_eq_true, if_false, Spec.apply]
          exact hitems i ci hi hti
        · rw [hcmd] at q4 ht hv
          simp only [Cmd.index] at ht
          obtain ⟨rfl, hm⟩ := q4
          simp only [if_true, Spec.apply]
          by_cases hij : i = j
          · subst hij
            have : ci = c := by
              have := ht.symm.trans hti
              simpa using this.symm
            subst this
            simp only [Function.update_self]
            exact hm
          · have : ci ≠ c := by
              rintro rfl
              exact hij (b2 0 i 0 j (0, ci) hcpos hi hcpos hv.lt hti ht).2
            simp only [Function.update_of_ne hij, Function.update_of_ne this]
            exact hitems i ci hi hti⟩
      (fun c hc => hval c (by simp [hc]))
      (by
        rw [hstep]; simpa using hb)
    refine ⟨S', g'', ?_, ?_⟩
    · rw [runHistory]
      simp only [q1, p1, i1, p2, List.map_cons, Spec.run]
    · rw [hstep] at i2
      simpa using i2

/-! ### The hypotheses are met -/

/-- A server key for the example context, produced by `neg_gsw`. -/
theorem exServerKeys : ∃ r, negGsw exTreeCtx exKey exGen = some r ∧ ServerKeys exTreeCtx exKey r.1 3 := by
  obtain ⟨r, h1, h2, h3, h4, _⟩ := C21_neg_gsw (ctx := exTreeCtx) rfl exKey_binary exGen_bounded
  exact ⟨r, h1, by decide, by decide, by decide, ⟨by rw [h3]; decide, by rw [h4]; decide, by rw [h3, h4]; decide⟩, h3, h4, h2⟩

/-- A four-column row of transparent encryptions of the column numbers. -/
def exRow : List (RLWE 4) := (List.range 4).map fun j => ⟨0, ⟨fun _ => BitVec.ofNat 64 (j * 2 ^ 60)⟩⟩

theorem exRow_enc : EncRow exKey exRow (fun j => ⟨fun _ => BitVec.ofNat 64 (j * 2 ^ 60)⟩) 0 := by
  intro j c hc
  unfold exRow at hc
  rw [List.getElem?_map, Option.map_eq_some_iff] at hc
  obtain ⟨k, hk, rfl⟩ := hc
  have : k = j := by
    rw [List.getElem?_eq_some_iff] at hk
    obtain ⟨h, rfl⟩ := hk
    simp
  subst this
  unfold Enc decryptRlwe
  simp only
  rw [show (⟨fun _ => BitVec.ofNat 64 (k * 2 ^ 60)⟩ : Poly 4) - 0 * exKey - ⟨fun _ => BitVec.ofNat 64 (k * 2 ^ 60)⟩ = 0 by ring]
  exact Small.zero _

/-- C41, C42: the example server, a WRITE of 7 to column 2 made by the client. -/
example : ∃ r q g' S' y row', negGsw exTreeCtx exKey exGen = some r ∧
    makeWriteQuery exTreeCtx exKey 4 2 ⟨fun _ => 7⟩ exGen = some (q, g') ∧
    (Server.new [exRow] r.1 exTreeCtx).processOne (fun xs => xs.foldl (· + ·) 0) exFft q = some (y, S') ∧
    decryptDecodeRlwe exTreeCtx exKey y = ⟨fun _ => 2⟩ ∧ S'.data = [row'] ∧
    ∃ enc e, exTreeCtx.codec.polyEncode (⟨fun _ => 7⟩ : Poly 4) = some enc ∧
      EncRow exKey row' (Function.update (fun j => ⟨fun _ => BitVec.ofNat 64 (j * 2 ^ 60)⟩) 2 enc) e := by
  obtain ⟨r, h1, h2⟩ := exServerKeys
  have hw : Spec.Encodable (16 : Scalar) (⟨fun _ => 7⟩ : Poly 4) := fun k => by show (7 : Scalar).toNat < _; decide
  obtain ⟨q, g', enc, q1, _, q2, q3⟩ := C42_write_query (t := 16) (ctx := exTreeCtx) (by decide) (by decide) (by decide) (by decide)
    exKey (i := 2) (D := 2) (by decide) (by decide) hw exGen_bounded
  have hr : IsReduction (· + ·) (0 : RLWE 4) (fun xs => xs.foldl (· + ·) 0) := fun xs => ParReduce.fold xs
  obtain ⟨y, S', e1, e2⟩ := C41_decoded (t := 16) (by decide) exFft_bounded exKey_binary (S := Server.new [exRow] r.1 exTreeCtx)
    (by change Codec.new 16 = some exTreeCtx.codec; decide) h2 (by decide) q3 rfl (by decide) exRow_enc (pt := ⟨fun _ => 2⟩)
    (by change exTreeCtx.codec.polyEncode (⟨fun _ => 2⟩ : Poly 4) = _; decide +kernel) hr
    (by change 2 * (0 + 2 ^ 2 * deltaSel exTreeCtx 4 3 5 2) < _; decide)
  obtain ⟨y', S'', row', f1, f2, _, _, _, f3⟩ := C42_update (by decide) exFft_bounded exKey_binary (S := Server.new [exRow] r.1 exTreeCtx)
    h2 (by decide) q3 rfl (by decide) exRow_enc hr
  rw [e1] at f1; cases f1
  exact ⟨r, q, g', S', y, row', h1, q1, e1, e2, f2, enc, _, q2, f3⟩

end Panacea
