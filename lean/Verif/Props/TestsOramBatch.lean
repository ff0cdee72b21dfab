import Verif.Props.TestsOram
import Verif.Lemmas.Draws

/-!
# C84, continued: the tests of the batched ORAM
-/

namespace Panacea
variable {n : Nat}

/-- The database of `S` is a grid storing the items `v` in all copies, with noise at most `e`. -/
structure GridInv (ctx : Ctx) (s : Poly n) (T : Nat → Nat → Nat × Nat) (rows D hc N B : Nat) (v : Nat → Poly n) (e : Nat) (S : Server n) : Prop where
  ctx_eq : S.ctx = ctx
  keys : ServerKeys ctx s S.negS B
  shape : DbShape rows (2 ^ D) S.data
  items : Consistent ctx s hc N T S.data v e

/-- Noise added by one batch. -/
def batchStep (ctx : Ctx) (n B phi D hc : Nat) : Nat := (2 * hc - 1) * (deltaOp ctx n B phi + deltaSel ctx n B phi D)

/-- One batch access. -/
theorem batch_step {t : Scalar} {ctx : Ctx} (hctx : ctx.Good t) (hn : 0 < n) {fft : Fft n} {phi : Nat} (hf : fft.Bounded phi) {s : Poly n}
    (hs : Binary s) {shuffle : List Nat → List Nat} (hsh : ∀ l, (shuffle l).Perm l) {hc N : Nat} {H : NaiveHash}
    (hnew : NaiveHash.new shuffle hc N = some H) {D rows cols : Nat} (hD1 : 1 ≤ D) (hD : D < 64) (hcols : cols = 2 ^ D) (hpos : 0 < rows)
    (hsize : rows * cols = hc * N) {T : Nat → Nat → Nat × Nat} (L : Layout H rows cols hc N T) {B e : Nat} {v : Nat → Poly n}
    {S : Server n} {g : Gen n} (he : B ≤ e) (hg : g.Bounded B) (hinv : GridInv ctx s T rows D hc N B v e S) {c : BatchCmd n}
    (hval : c.Valid N t) (hb : 2 * (e + 2 ^ D * deltaSel ctx n B phi D) < 2 ^ 64 / t.toNat) :
    ∃ m qs g1 ys S1, H.hashToMapping c.indices cols = some m ∧ clientBatch ctx s rows cols H c g = some (qs, g1) ∧ g1.Bounded B ∧
      S.processBatch fft qs H = some (ys, S1) ∧
      (∀ r col i, m r = some (col, i) → ∃ y, ys[r]? = some y ∧ decryptDecodeRlwe ctx s y = v i) ∧
      GridInv ctx s T rows D hc N B (Spec.applyBatch H cols v c) (e + batchStep ctx n B phi D hc) S1 := by
  obtain ⟨rfl, h2, h3, h4⟩ := hinv
  subst hcols
  obtain ⟨m, qs, g1, ys, S1, a1, a2, a3, a4, a5, a6, a7, a8, a9, _⟩ := C46_batch_access hn hf hs hctx.codec h2 shuffle hsh hnew hD1 hD
    hpos hsize L h3 h4 hval hg
  refine ⟨m, qs, g1, ys, S1, a1, a2, a3, a4, ?_, a6, by rw [a5]; exact h2, a7, ?_⟩
  · intro r col i hr
    obtain ⟨y, enc, y1, y2, y3⟩ := a8 r col i hr
    exact ⟨y, y1, decryptDecode_of_enc hctx.codec y2 y3 hb⟩
  · unfold batchNoise at a9
    rw [max_eq_left he] at a9
    exact a9

theorem assertT_iff {p : Prop} [Decidable p] : assertT p = some () ↔ p := by
  unfold assertT; split <;> simp_all

theorem forT_unit {f : Nat → Option Unit} {l : List Nat} (h : ∀ i ∈ l, f i = some ()) : forT (fun i _ => f i) l () = some () := by
  obtain ⟨y, e, _⟩ := forT_inv (f := fun i (_ : Unit) => f i) (P := fun _ => True) l (fun i hi x _ => ⟨(), h i hi, trivial⟩) () trivial
  exact e

theorem forT_unit_iff {f : Nat → Option Unit} : ∀ {l : List Nat}, forT (fun i _ => f i) l () = some () ↔ ∀ i ∈ l, f i = some ()
  | [] => by simp [forT]
  | i :: l => by
    rw [forT]
    cases h : f i with
    | none => simp [h]
    | some u =>
      simp only [List.mem_cons, forall_eq_or_imp, h, true_and]
      exact forT_unit_iff

/-- The reading block of the batch tests passes, for any requested items that are their own positions in the request (as `[0, 1]`). -/
theorem batchReadBlock_spec {t : Scalar} {E : OramTest n} {B phi rows cols D hc N : Nat} (hctx : E.ctx.Good t) (hn : 0 < n)
    (hf : E.fft.Bounded phi) (hsh : ∀ l, (E.shuffle l).Perm l) (hord : ∀ m r, r ∈ E.order m → (m r).isSome) {H : NaiveHash}
    (hnew : NaiveHash.new E.shuffle hc N = some H) (hD1 : 1 ≤ D) (hD : D < 64) (hcols : cols = 2 ^ D) (hpos : 0 < rows)
    (hsize : rows * cols = hc * N) {T : Nat → Nat → Nat × Nat} (L : Layout H rows cols hc N T) {e : Nat} {pts : List (Poly n)}
    {S : Server n} {g : Gen n} (he : B ≤ e) (hg : g.Bounded B)
    (hinv : GridInv E.ctx E.sk T rows D hc N B (fun i => pts.getD i 0) e S) (hlen : pts.length = N) {indices : List Nat}
    (hnd : indices.Nodup) (hlt : ∀ i ∈ indices, i < N) (hid : ∀ i ∈ indices, indices[i]? = some i)
    (hb : 2 * (e + 2 ^ D * deltaSel E.ctx n B phi D) < 2 ^ 64 / t.toNat) :
    ∃ S1 g1, batchReadBlock E rows cols H pts indices S g = some (S1, g1) ∧ g1.Bounded B ∧
      GridInv E.ctx E.sk T rows D hc N B (fun i => pts.getD i 0) (e + batchStep E.ctx n B phi D hc) S1 := by
  obtain ⟨m, qs, g1, ys, S1, a1, a2, a3, a4, a5, a6⟩ := batch_step hctx hn hf E.sk_binary hsh hnew hD1 hD hcols hpos hsize L he hg hinv
    (c := .read indices) ⟨hnd, hlt⟩ hb
  have hsound := (C11_mapping_sound E.shuffle hsh hc N H hnew indices cols (by rw [hcols]; positivity) hlt m a1).1
  obtain ⟨b, e1, _⟩ := forT_inv (f := batchReadCheck E m pts indices ys) (P := fun _ => True) (E.order m) (fun r hr x _ => by
    obtain ⟨⟨c, i⟩, hm⟩ := Option.isSome_iff_exists.mp (hord m r hr)
    obtain ⟨y, y1, y2⟩ := a5 r c i hm
    have hi := (hsound r c i hm).1
    obtain ⟨z, hz⟩ := noise_decoded_some hctx.codec E.sk y
    have hp : pts[i]? = some (decryptDecodeRlwe E.ctx E.sk y) := by rw [y2]; exact pts_getD (by rw [hlen]; exact hlt i hi)
    refine ⟨true, ?_, trivial⟩
    unfold batchReadCheck
    cases x <;>
    simp only [hm, y1, hid i hi, hp, hz, Option.bind_eq_bind, Option.bind_some, assertT, if_true, Option.pure_def]) false trivial
  refine ⟨S1, g1, ?_, a3, a6⟩
  unfold batchReadBlock
  simp only [BatchCmd.indices, clientBatch] at a1 a2
  simp only [a1, a2, a4, e1, Option.bind_eq_bind, Option.bind_some, Option.pure_def]

/-- The copies of item 2 do not all lie in the row of the first copy of item 1. -/
def NotAllInRow (H : NaiveHash) (cols : Nat) : Prop :=
  ∃ h, h < 4 ∧ (H.hashToTuple h 2 cols).map Prod.fst ≠ (H.hashToTuple 0 1 cols).map Prod.fst

/-- Which items the greedy mapping serves for the request `[1, 2]`. -/
theorem served_one_two {shuffle : List Nat → List Nat} (hsh : ∀ l, (shuffle l).Perm l) {N : Nat} (hN : 3 ≤ N) {H : NaiveHash}
    (hnew : NaiveHash.new shuffle 4 N = some H) {rows cols : Nat} {T : Nat → Nat → Nat × Nat} (L : Layout H rows cols 4 N T) :
    Served H cols [1, 2] 1 ∧ (Served H cols [1, 2] 2 ↔ NotAllInRow H cols) := by
  have hin : ∀ i ∈ [1, 2], i < N := by intro i hi; simp at hi; omega
  obtain ⟨m, hm⟩ := C11_mapping_total shuffle hsh 4 N H hnew [1, 2] cols L.cols_pos hin
  have hm1 : H.hashToMapping [1] cols = some (NaiveHash.Mapping.insert (fun _ => none) (T 0 1).1 ((T 0 1).2, 1)) := by
    unfold NaiveHash.hashToMapping NaiveHash.mapAll
    rw [L.count]
    show (match H.mapOne cols 1 [0, 1, 2, 3] (fun _ => none) with | none => none | some out' => NaiveHash.mapAll H cols [] out') = _
    unfold NaiveHash.mapOne
    rw [L.tuple 0 1 (by decide) (by omega)]
    rfl
  have h0 : H.hashToMapping [] cols = some (fun _ => none) := rfl
  obtain ⟨s1, _⟩ := C12_served_iff_free shuffle hsh 4 N H hnew cols L.cols_pos [] [2] 1 (by decide) hin (fun _ => none) m h0 hm
  obtain ⟨s2, _⟩ := C12_served_iff_free shuffle hsh 4 N H hnew cols L.cols_pos [1] [] 2 (by decide) hin _ m hm1 hm
  have hS : ∀ i, Served H cols [1, 2] i ↔ ∃ r c, m r = some (c, i) := fun i => by
    constructor
    · rintro ⟨m', r, c, e1, e2⟩
      rw [hm] at e1; cases e1
      exact ⟨r, c, e2⟩
    · rintro ⟨r, c, e2⟩
      exact ⟨m, r, c, hm, e2⟩
  refine ⟨(hS 1).mpr (s1.mpr ⟨0, _, _, by decide, L.tuple 0 1 (by decide) (by omega), rfl⟩), (hS 2).trans (s2.trans ?_)⟩
  unfold NotAllInRow
  rw [L.tuple 0 1 (by decide) (by omega)]
  constructor
  · rintro ⟨h, r, c, hh, ht, hr⟩
    refine ⟨h, hh, ?_⟩
    rw [ht]
    intro heq
    simp only [Option.map_some, Option.some.injEq] at heq
    simp [NaiveHash.Mapping.insert, heq] at hr
  · rintro ⟨h, hh, hne⟩
    rw [L.tuple h 2 hh (by omega)] at hne
    refine ⟨h, _, _, hh, L.tuple h 2 hh (by omega), ?_⟩
    have : (T h 2).1 ≠ (T 0 1).1 := fun heq => hne (by simp [heq])
    simp [NaiveHash.Mapping.insert, this]

/-- C84 (`test_oram_batch`, exactly when it passes): the test always gets as far as its writing block, and then passes if and only if the copies of item 2
do not all lie in the row in which `hash_to_mapping` placed item 1 -- otherwise item 2 is silently not written -- or the random new data happens
to equal the random old content of item 2. -/
theorem C84_oram_batch_iff {t : Scalar} {E : OramTest n} {B phi : Nat} (hE : E.OK t 8 B phi)
    (hb : 2 * (B + 3 * (7 * (deltaOp E.ctx n B phi + deltaSel E.ctx n B phi 3)) + 2 ^ 3 * deltaSel E.ctx n B phi 3) < 2 ^ 64 / t.toNat) :
    ∃ H S pts g1 S1 g2, NaiveHash.new E.shuffle 4 16 = some H ∧ setupRandomOram E.ctx E.sk 8 8 H E.g = some (S, pts, g1) ∧
      batchReadBlock E 8 8 H pts [0, 1] S g1 = some (S1, g2) ∧
      (testOramBatch E = some () ↔ NotAllInRow H 8 ∨ pts[2]? = some (genBinaryPt g2).1) := by
  obtain ⟨H, hnew⟩ := hash_new_one E.shuffle 4 16 (by decide)
  have hc := hE.ctx
  obtain ⟨T, L⟩ := layout_of_hash E.shuffle hE.perm hnew (rows := 8) (cols := 8) (by decide) (by decide)
  obtain ⟨S, pts, g1, hset, hlen, hg1, hSc, hkeys, hshape, hcons⟩ := setup_consistent hc.codec E.sk_binary E.shuffle hE.perm hnew (D := 3)
    (rows := 8) (by decide) L hc.bl hc.lv hc.lt hc.nbl hc.nlv hc.nlt hE.gen
  have hX : batchStep E.ctx n B phi 3 4 = 7 * (deltaOp E.ctx n B phi + deltaSel E.ctx n B phi 3) := rfl
  obtain ⟨X, hX'⟩ : ∃ X, X = batchStep E.ctx n B phi 3 4 := ⟨_, rfl⟩
  rw [← hX, ← hX'] at hb
  obtain ⟨S1, g2, hread, hg2, hinv1⟩ := batchReadBlock_spec hc hE.ring hE.fft hE.perm hE.order hnew (D := 3) (rows := 8) (cols := 8)
    (by decide) (by decide) rfl (by decide) (by decide) L (le_refl B) hg1 ⟨hSc, hkeys, hshape, hcons⟩ hlen (indices := [0, 1])
    (by decide) (by decide) (by decide) (by omega)
  rw [← hX'] at hinv1
  refine ⟨H, S, pts, g1, S1, g2, hnew, hset, hread, ?_⟩
  have hgb := genBinary_bounded hg2
  obtain ⟨newData, hnd⟩ : ∃ x, x = (genBinaryPt g2).1 := ⟨_, rfl⟩
  have henc : Spec.Encodable t newData := by rw [hnd]; exact genBinaryPt_encodable hc.codec g2
  obtain ⟨m, wq, g3, yw, S2, a1, a2, a3, a4, a5, a6⟩ := batch_step hc hE.ring hE.fft E.sk_binary hE.perm hnew (D := 3) (by decide)
    (by decide) (cols := 8) rfl (rows := 8) (by decide) (by decide) L (by omega) hgb hinv1 (c := .write [1, 2] newData) ⟨by decide, henc⟩
    (by omega)
  rw [← hX'] at a6
  obtain ⟨m', rq, g4, ys, S3, b1, b2, b3, b4, b5, b6⟩ := batch_step hc hE.ring hE.fft E.sk_binary hE.perm hnew (D := 3) (by decide)
    (by decide) (cols := 8) rfl (rows := 8) (by decide) (by decide) L (by omega) a3 a6 (c := .read [1, 2]) ⟨by decide, by decide⟩
    (by omega)
  rw [← hX'] at b6
  simp only [BatchCmd.indices] at a1 b1
  rw [a1] at b1
  cases b1
  simp only [clientBatch] at a2 b2
  obtain ⟨hs1, hs2⟩ := served_one_two hE.perm (by decide) hnew L
  -- the responses of the final read
  have hresp : forT (fun r _ => batchWriteCheck E newData ys r) (E.order m) () = some () := by
    refine forT_unit fun r hr => ?_
    obtain ⟨⟨c, i⟩, hm⟩ := Option.isSome_iff_exists.mp (hE.order m r hr)
    obtain ⟨y, y1, y2⟩ := b5 r c i hm
    have : Spec.applyBatch H 8 (fun i => pts.getD i 0) (.write [1, 2] newData) i = newData := if_pos ⟨m, r, c, a1, hm⟩
    rw [this] at y2
    unfold batchWriteCheck
    simp only [y1, y2, Option.bind_eq_bind, Option.bind_some, assertT, if_true]
  -- the copies
  have hcopy : ∀ i h, i < 16 → h < 4 → (batchCopyCheck E 8 H newData S3 i h = some () ↔
      newData = Spec.applyBatch H 8 (fun i => pts.getD i 0) (.write [1, 2] newData) i) := by
    intro i h hi hh
    obtain ⟨ct, enc, c1, c2, c3⟩ := b6.items h i hh hi
    have hdec : decryptDecodeRlwe E.ctx E.sk ct = Spec.applyBatch H 8 (fun i => pts.getD i 0) (.write [1, 2] newData) i :=
      decryptDecode_of_enc hc.codec c2 c3 (by omega)
    unfold batchCopyCheck
    simp only [L.tuple h i hh hi, c1, hdec, Option.bind_eq_bind, Option.bind_some, assertT_iff]
  have hwr : batchWriteBlock E 8 8 H [1, 2] S1 g2 = some () ↔
      ∀ i ∈ [1, 2], ∀ h ∈ List.range 4, batchCopyCheck E 8 H newData S3 i h = some () := by
    have : batchWriteBlock E 8 8 H [1, 2] S1 g2
        = forT (fun i _ => forT (fun h _ => batchCopyCheck E 8 H newData S3 i h) (List.range 4) ()) [1, 2] () := by
      unfold batchWriteBlock
      dsimp only
      rw [← hnd]
      exact bind_step a1 (bind_step a2 (bind_step a4 (bind_step b2 (bind_step b4 (bind_step hresp rfl)))))
    rw [this, forT_unit_iff]
    simp only [forT_unit_iff]
  have htest : testOramBatch E = batchWriteBlock E 8 8 H [1, 2] S1 g2 := by
    unfold testOramBatch
    exact bind_step hnew (bind_step hset (bind_step (assertT_pos hlen.symm) (bind_step hread rfl)))
  rw [htest, hwr]
  have hp2 : pts[2]? = some (pts.getD 2 0) := pts_getD (by omega)
  rw [hp2, ← hnd, ← hs2]
  have v1 : Spec.applyBatch H 8 (fun i => pts.getD i 0) (.write [1, 2] newData) 1 = newData := if_pos hs1
  by_cases hs : Served H 8 [1, 2] 2
  · have v2 : Spec.applyBatch H 8 (fun i => pts.getD i 0) (.write [1, 2] newData) 2 = newData := if_pos hs
    refine ⟨fun _ => Or.inl hs, fun _ i hi h hh => ?_⟩
    rw [List.mem_range] at hh
    simp only [List.mem_cons, List.not_mem_nil, or_false] at hi
    rcases hi with rfl | rfl
    · exact (hcopy 1 h (by decide) hh).mpr v1.symm
    · exact (hcopy 2 h (by decide) hh).mpr v2.symm
  · have v2 : Spec.applyBatch H 8 (fun i => pts.getD i 0) (.write [1, 2] newData) 2 = pts.getD 2 0 := if_neg hs
    constructor
    · intro hall
      have := (hcopy 2 0 (by decide) (by decide)).mp (hall 2 (by simp) 0 (by simp))
      rw [v2] at this
      exact Or.inr (by rw [← this])
    · rintro (h | h)
      · exact absurd h hs
      · rw [Option.some.injEq] at h
        intro i hi h' hh
        rw [List.mem_range] at hh
        simp only [List.mem_cons, List.not_mem_nil, or_false] at hi
        rcases hi with rfl | rfl
        · exact (hcopy 1 h' (by decide) hh).mpr v1.symm
        · exact (hcopy 2 h' (by decide) hh).mpr (by rw [v2, h])

/-- C84 (`test_oram_batch` passes) unless all four copies of item 2 lie in the row of the first copy of item 1. -/
theorem C84_oram_batch {t : Scalar} {E : OramTest n} {B phi : Nat} (hE : E.OK t 8 B phi)
    (hb : 2 * (B + 3 * (7 * (deltaOp E.ctx n B phi + deltaSel E.ctx n B phi 3)) + 2 ^ 3 * deltaSel E.ctx n B phi 3) < 2 ^ 64 / t.toNat)
    {H : NaiveHash} (hH : NaiveHash.new E.shuffle 4 16 = some H) (hrow : NotAllInRow H 8) : testOramBatch E = some () := by
  obtain ⟨H', S, pts, g1, S1, g2, h1, _, _, h4⟩ := C84_oram_batch_iff hE hb
  rw [hH] at h1
  cases h1
  exact h4.mpr (Or.inl hrow)

/-- The plaintexts of the dummy database are draws of the plaintext stream. -/
theorem dummyUnique_plains {ctx : Ctx} {s : Poly n} {rows cols : Nat} {H : NaiveHash} : ∀ {is : List Nat} {db : List (List (RLWE n))} {g : Gen n}
    {r : List (Poly n) × List (List (RLWE n)) × Gen n}, dummyUnique ctx s rows cols H is db g = some r →
    ∀ p ∈ r.1, ∃ i, p = ⟨fun k => g.plains i k % ctx.codec.ptModulus⟩
  | [], db, g, r, h, p, hp => by
    simp only [dummyUnique, Option.some.injEq] at h
    subst h
    simp at hp
  | i :: is, db, g, r, h, p, hp => by
    rw [dummyUnique] at h
    split at h
    · cases h
    · split at h
      · split at h
        · cases h
        · rename_i ct g' he
          split at h
          · cases h
          · rename_i pts db' g'' hr
            simp only [Option.some.injEq] at h
            subst h
            rcases List.mem_cons.mp hp with rfl | hp
            · exact ⟨g.pos, rfl⟩
            · have hg : g'.plains = g.plains := by
                unfold encodeEncryptRlwe at he
                split at he
                · cases he
                · simp only [Option.some.injEq] at he
                  have := congrArg (fun x => x.2.plains) he
                  exact this.symm
              obtain ⟨j, hj⟩ := dummyUnique_plains hr p hp
              exact ⟨j, by rw [hj, hg]⟩
      · cases h

theorem setup_plains {ctx : Ctx} {s : Poly n} {rows cols : Nat} {H : NaiveHash} {g : Gen n} {S : Server n} {pts : List (Poly n)} {g1 : Gen n}
    (h : setupRandomOram ctx s rows cols H g = some (S, pts, g1)) (hsmall : rows * cols / H.hCount < 128) :
    ∀ p ∈ pts, ∃ i, p = ⟨fun k => g.plains i k % ctx.codec.ptModulus⟩ := by
  unfold setupRandomOram at h
  split at h
  · split at h
    · cases h
    · rename_i negS g0 hneg
      have hg0 : g0.plains = g.plains := by
        obtain ⟨K, P, _, hd⟩ := draws_negGsw (ι := Unit) ctx (fun _ => s)
        rw [hd.adv () g negS g0 hneg]
      split at h
      · cases h
      · rename_i pts' db g1' hdb
        simp only [Option.some.injEq, Prod.mk.injEq] at h
        obtain ⟨_, rfl, _⟩ := h
        unfold genDummyDatabase at hdb
        split at hdb
        · cases hdb
        · simp only at hdb
          rw [if_pos (show rows * cols / H.hCount < uniqueLimit from hsmall)] at hdb
          split at hdb
          · cases hdb
          · rename_i pts1 db1 g2 hu
            rw [Nat.sub_self] at hdb
            simp only [List.range'_zero, dummyRest] at hdb
            split at hdb
            · cases hdb
            · simp only [List.append_nil, Option.some.injEq, Prod.mk.injEq] at hdb
              obtain ⟨rfl, _⟩ := hdb
              intro p hp
              obtain ⟨i, hi⟩ := dummyUnique_plains hu p hp
              exact ⟨i, by rw [hi, hg0]⟩
  · cases h

/-- C84 (`test_oram_batch` can fail): whenever the shuffle puts all four copies of item 2 into the row of the first copy of item 1 and no item of the
database is a binary polynomial (as is overwhelmingly likely for 2048 random coefficients), the test panics: whatever the key, the noise
and the scheduling. -/
theorem C84_oram_batch_fails {t : Scalar} {E : OramTest n} {B phi : Nat} (hE : E.OK t 8 B phi)
    (hb : 2 * (B + 3 * (7 * (deltaOp E.ctx n B phi + deltaSel E.ctx n B phi 3)) + 2 ^ 3 * deltaSel E.ctx n B phi 3) < 2 ^ 64 / t.toNat)
    {H : NaiveHash} (hH : NaiveHash.new E.shuffle 4 16 = some H) (hrow : ¬ NotAllInRow H 8)
    (hpl : ∀ i, ∃ k, 2 ≤ (E.g.plains i k).toNat % t.toNat) : testOramBatch E = none := by
  obtain ⟨H', S, pts, g1, S1, g2, h1, h2, _, h4⟩ := C84_oram_batch_iff hE hb
  rw [hH] at h1
  cases h1
  have hcnt : H.hCount = 4 := by obtain ⟨_, _, h⟩ := NaiveHash.new_wf hE.perm hH; omega
  cases hres : testOramBatch E with
  | none => rfl
  | some u =>
    exfalso
    rcases h4.mp hres with h | h
    · exact hrow h
    · obtain ⟨i, hi⟩ := setup_plains h2 (by rw [hcnt]; decide) _ (List.mem_of_getElem? h)
      obtain ⟨k, hk⟩ := hpl i
      have hb2 := genBinary_values g2 k
      have e1 : (genBinaryPt g2).1 k = E.g.plains i k % E.ctx.codec.ptModulus := by rw [hi]
      have ht : E.ctx.codec.ptModulus.toNat = t.toNat := by
        obtain ⟨wf, ht⟩ := Codec.new_wf hE.ctx.codec
        rw [wf.ptModulus_toNat, ht]
      rw [e1] at hb2
      have : (E.g.plains i k % E.ctx.codec.ptModulus).toNat = (E.g.plains i k).toNat % t.toNat := by rw [BitVec.toNat_umod, ht]
      rcases hb2 with h0 | h0 <;> rw [h0] at this <;> simp at this <;> omega

/-- C84 (`test_oram_batch_more`): the ignored test, which only reads, passes for every shuffle -- a request that is not served is not checked --
within the noise budget of twenty batches. -/
theorem C84_oram_batch_more {t : Scalar} {E : OramTest n} {B phi : Nat} (hE : E.OK t 1024 B phi)
    (hb : 2 * (B + 20 * (5 * (deltaOp E.ctx n B phi + deltaSel E.ctx n B phi 10)) + 2 ^ 10 * deltaSel E.ctx n B phi 10) < 2 ^ 64 / t.toNat) :
    testOramBatchMore E = some () := by
  obtain ⟨N, hN⟩ : ∃ N, N = 1024 := ⟨_, rfl⟩
  have hN' : N = 2 ^ 10 := hN
  obtain ⟨H, hnew⟩ := hash_new_one E.shuffle 3 N (by decide)
  have hc := hE.ctx
  obtain ⟨T, L⟩ := layout_of_hash E.shuffle hE.perm hnew (rows := 3) (cols := N) (by omega) rfl
  obtain ⟨S, pts, g1, hset, hlen, hg1, hSc, hkeys, hshape, hcons⟩ := setup_consistent hc.codec E.sk_binary E.shuffle hE.perm hnew (D := 10)
    (rows := 3) (by rw [← hN']) (by rw [← hN']; exact L) hc.bl hc.lv hc.lt hc.nbl hc.nlv hc.nlt hE.gen
  have hX : batchStep E.ctx n B phi 10 3 = 5 * (deltaOp E.ctx n B phi + deltaSel E.ctx n B phi 10) := rfl
  obtain ⟨X, hX'⟩ : ∃ X, X = batchStep E.ctx n B phi 10 3 := ⟨_, rfl⟩
  rw [← hX, ← hX'] at hb
  obtain ⟨st, r1, _⟩ := forT_index (f := fun _ (x : Server n × Gen n) => batchReadBlock E 3 N H pts [0, 1] x.1 x.2)
    (P := fun k st => st.2.Bounded B ∧ GridInv E.ctx E.sk T 3 10 3 N B (fun i => pts.getD i 0) (B + k * X) st.1) 20 0 (S, g1)
    ⟨hg1, by simpa using ⟨hSc, hkeys, hshape, hcons⟩⟩ (by
      rintro i ⟨S, g⟩ _ hi ⟨p1, p2⟩
      have hle : (i + 1) * X ≤ 20 * X := Nat.mul_le_mul_right _ (by omega)
      have hs : (i + 1) * X = i * X + X := by ring
      obtain ⟨S1, g2, a1, a2, a3⟩ := batchReadBlock_spec hc hE.ring hE.fft hE.perm hE.order hnew (D := 10) (rows := 3) (cols := N)
        (by decide) (by decide) hN' (by decide) rfl L (by omega) p1 p2 hlen (indices := [0, 1]) (by decide)
        (by intro j hj; simp at hj; omega) (by decide) (by omega)
      refine ⟨(S1, g2), a1, a2, ?_⟩
      rw [hs, ← Nat.add_assoc]
      rw [← hX'] at a3
      exact a3)
  rw [← hN', hN] at hset
  rw [hN] at hnew hlen r1
  unfold testOramBatchMore
  rw [List.range_eq_range']
  exact bind_step hnew (bind_step hset (bind_step (assertT_pos hlen.symm) (bind_step r1 rfl)))

/-- A run of the tests in the ring of size 4: hash maps are iterated by increasing key. -/
def exOramTest (shuffle : List Nat → List Nat) (cols : Nat) : OramTest 4 :=
  ⟨exTreeCtx, exFft, ⟨fun i => BitVec.ofNat 64 (i * i), 3⟩, { exGen with plains := fun _ => ⟨fun _ => 5⟩ }, shuffle, fun _ => foldReducer 4 exTreeCtx cols,
    fun m => (List.range 64).filter fun r => (m r).isSome⟩

theorem exOramTest_ok {shuffle : List Nat → List Nat} (hs : ∀ l, (shuffle l).Perm l) (cols : Nat) : (exOramTest shuffle cols).OK 16 cols 3 5 :=
  ⟨exTreeCtx_good, by decide, exFft_bounded, exGen_bounded, hs, fun _ => foldReducer_valid _ _, fun m r h => by
    simp only [exOramTest, List.mem_filter] at h; exact h.2⟩

/-- The table that exchanges the copies of items 0 and 2. -/
def exBadTable : List Nat := [8, 9, 10, 11, 4, 5, 6, 7, 0, 1, 2, 3] ++ List.range' 12 52
/-- A shuffle producing `exBadTable` for 64 cells. -/
def exBadShuffle (l : List Nat) : List Nat := if l = List.range 64 then exBadTable else l
theorem exBadShuffle_perm (l : List Nat) : (exBadShuffle l).Perm l := by
  unfold exBadShuffle
  split
  · subst l; decide +kernel
  · exact List.Perm.refl l

/-- All five tests pass with the reversing shuffle. -/
example : testOram (exOramTest List.reverse 16) = some () ∧ testOramMulti (exOramTest List.reverse 16) = some () ∧
    testOramMore (exOramTest List.reverse 2048) = some () ∧ testOramBatch (exOramTest List.reverse 8) = some () ∧
    testOramBatchMore (exOramTest List.reverse 1024) = some () := by
  have hr : ∀ l : List Nat, l.reverse.Perm l := fun l => List.reverse_perm l
  refine ⟨C84_oram (exOramTest_ok hr 16) (by decide +kernel), C84_oram_multi (exOramTest_ok hr 16) (by decide +kernel),
    C84_oram_more (exOramTest_ok hr 2048) (by decide +kernel), C84_oram_batch (exOramTest_ok hr 8) (by decide +kernel)
      (H := ⟨(List.range 64).reverse, 4, 16⟩) rfl ?_, C84_oram_batch_more (exOramTest_ok hr 1024) (by decide +kernel)⟩
  exact ⟨0, by decide, by decide⟩

/-- `test_oram_batch` fails with a shuffle that exchanges the copies of two items. -/
example : testOramBatch (exOramTest exBadShuffle 8) = none := by
  refine C84_oram_batch_fails (exOramTest_ok exBadShuffle_perm 8) (by decide +kernel) (H := ⟨exBadTable, 4, 16⟩) (by decide +kernel) ?_ ?_
  · rintro ⟨h, hh, hne⟩
    revert hne
    revert h
    decide
  · intro i
    exact ⟨0, by show 2 ≤ (5 : Scalar).toNat % (16 : Scalar).toNat; decide⟩

end Panacea
