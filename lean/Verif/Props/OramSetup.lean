import Verif.Lemmas.Database
import Verif.Props.Oram

/-!
# C48: the dummy database
-/

namespace Panacea
variable {n : Nat}

theorem genPt_encodable {t : Scalar} {ctx : Ctx} (hc : Codec.new t = some ctx.codec) (g : Gen n) : Spec.Encodable t (genPt ctx g).1 := by
  intro k
  have h := C02_pt_modulus hc
  show (g.plains g.pos k % ctx.codec.ptModulus).toNat < t.toNat
  rw [h.1, BitVec.toNat_umod]
  exact Nat.mod_lt _ (by rw [h.2]; positivity)

/-- First loop: every listed item gets a fresh encryption at its first cell; all other cells are untouched. -/
theorem dummyUnique_spec {t : Scalar} {ctx : Ctx} (hcd : Codec.new t = some ctx.codec) (s : Poly n) {H : NaiveHash} {rows cols hc N : Nat}
    {T : Nat → Nat → Nat × Nat} (L : Layout H rows cols hc N T) (hpos : 0 < hc) {B : Nat} : ∀ (is : List Nat) (db : List (List (RLWE n)))
    (g : Gen n), is.Nodup → (∀ i ∈ is, i < N) → DbShape rows cols db → g.Bounded B →
    ∃ pts db' g', dummyUnique ctx s rows cols H is db g = some (pts, db', g') ∧ g'.Bounded B ∧ DbShape rows cols db' ∧
      List.Forall₂ (fun i pt => Spec.Encodable t pt ∧ ∃ enc ct, ctx.codec.polyEncode pt = some enc ∧ cellAt db' (T 0 i) = some ct ∧ Enc s ct enc B)
        is pts ∧
      ∀ p, (∀ i ∈ is, T 0 i ≠ p) → cellAt db' p = cellAt db p
  | [], db, g, _, _, hsh, hg => ⟨[], db, g, rfl, hg, hsh, .nil, fun _ _ => rfl⟩
  | i :: is, db, g, hnd, hlt, hsh, hg => by
    have hi : i < N := hlt i (by simp)
    obtain ⟨enc, he⟩ := polyEncode_total hcd (genPt_encodable hcd g)
    have hg2 : (genPt ctx g).2.Bounded B := hg
    obtain ⟨hni, hnd'⟩ := List.nodup_cons.mp hnd
    obtain ⟨pts, db', g', e1, e2, e3, e4, e5⟩ := dummyUnique_spec hcd s L hpos is
      (setCell db (T 0 i) (encryptRlwe s enc (genPt ctx g).2).1) (encryptRlwe s enc (genPt ctx g).2).2 hnd'
      (fun j hj => hlt j (by simp [hj])) (setCell_shape hsh _ _) (encryptRlwe_gen hg2)
    have hfree : ∀ j ∈ is, T 0 j ≠ T 0 i := fun j hj heq => by
      have := (L.inj 0 j 0 i hpos (hlt j (by simp [hj])) hpos hi heq).2
      subst this; exact hni hj
    refine ⟨(genPt ctx g).1 :: pts, db', g', ?_, e2, e3, .cons ⟨genPt_encodable hcd g, enc, _, he, ?_, encryptRlwe_enc hg2⟩ e4, ?_⟩
    · rw [dummyUnique]
      simp only [L.tuple 0 i hpos hi]
      rw [if_pos ⟨L.row_lt 0 i hpos hi, L.col_lt 0 i hpos hi⟩]
      simp only [encodeEncryptRlwe, he, e1]
    · rw [e5 _ hfree, cellAt_setCell hsh (L.row_lt 0 i hpos hi) (L.col_lt 0 i hpos hi), if_pos rfl]
    · intro p hp
      rw [e5 p (fun j hj => hp j (by simp [hj])), cellAt_setCell hsh (L.row_lt 0 i hpos hi) (L.col_lt 0 i hpos hi),
        if_neg (fun h => hp i (by simp) h.symm)]

/-- Second loop: every listed item copies plaintext and cell of item `i % 128`. -/
theorem dummyRest_spec {H : NaiveHash} {rows cols hc N : Nat} {T : Nat → Nat → Nat × Nat} (L : Layout H rows cols hc N T) (hpos : 0 < hc)
    {pts : List (Poly n)} (hlen : pts.length = uniqueLimit) (hN : uniqueLimit ≤ N) : ∀ (is : List Nat) (db : List (List (RLWE n))),
    is.Nodup → (∀ i ∈ is, uniqueLimit ≤ i ∧ i < N) → DbShape rows cols db →
    ∃ rest db', dummyRest cols H pts is db = some (rest, db') ∧ DbShape rows cols db' ∧
      List.Forall₂ (fun i pt => pts[i % uniqueLimit]? = some pt ∧ cellAt db' (T 0 i) = cellAt db (T 0 (i % uniqueLimit))) is rest ∧
      ∀ p, (∀ i ∈ is, T 0 i ≠ p) → cellAt db' p = cellAt db p
  | [], db, _, _, hsh => ⟨[], db, rfl, hsh, .nil, fun _ _ => rfl⟩
  | i :: is, db, hnd, hlt, hsh => by
    have hU : 0 < uniqueLimit := by decide
    obtain ⟨hiu, hi⟩ := hlt i (by simp)
    have hm : i % uniqueLimit < uniqueLimit := Nat.mod_lt _ hU
    have hmN : i % uniqueLimit < N := by omega
    obtain ⟨hni, hnd'⟩ := List.nodup_cons.mp hnd
    have hr := L.row_lt 0 i hpos hi
    have hcl := L.col_lt 0 i hpos hi
    obtain ⟨ct, hct⟩ := cellAt_isSome hsh (L.row_lt 0 _ hpos hmN) (L.col_lt 0 _ hpos hmN)
    obtain ⟨ct2, hct2⟩ := cellAt_isSome hsh hr hcl
    obtain ⟨rest, db', e1, e2, e3, e4⟩ := dummyRest_spec L hpos hlen hN is (setCell db (T 0 i) ct) hnd'
      (fun j hj => hlt j (by simp [hj])) (setCell_shape hsh _ _)
    have hp : pts[i % uniqueLimit]? = some pts[i % uniqueLimit] := List.getElem?_eq_getElem (by omega)
    refine ⟨pts[i % uniqueLimit] :: rest, db', ?_, e2, .cons ⟨hp, ?_⟩ ?_, ?_⟩
    · rw [dummyRest]
      simp only [hp, L.tuple 0 i hpos hi, L.tuple 0 _ hpos hmN, hct, hct2, e1]
    · rw [e4 _ (fun j hj heq => by
        have := (L.inj 0 j 0 i hpos (hlt j (by simp [hj])).2 hpos hi heq).2
        subst this; exact hni hj), cellAt_setCell hsh hr hcl, if_pos rfl, hct]
    · refine List.Forall₂.imp (fun j pt hj => ⟨hj.1, ?_⟩) e3
      rw [hj.2, cellAt_setCell hsh hr hcl, if_neg]
      intro heq
      have := (L.inj 0 _ 0 i hpos (lt_of_lt_of_le (Nat.mod_lt _ hU) hN) hpos hi heq).2
      have := Nat.mod_lt j hU
      omega
    · intro p hp'
      rw [e4 p (fun j hj => hp' j (by simp [hj])), cellAt_setCell hsh hr hcl, if_neg (fun h => hp' i (by simp) h.symm)]

/-- Third loop, one item: copies `h ∈ hs` get the content of copy 0. -/
theorem dummyCopy_spec {H : NaiveHash} {rows cols hc N : Nat} {T : Nat → Nat → Nat × Nat} (L : Layout H rows cols hc N T) (hpos : 0 < hc)
    {i : Nat} (hi : i < N) : ∀ (hs : List Nat) (db : List (List (RLWE n))), (∀ h ∈ hs, 1 ≤ h ∧ h < hc) → DbShape rows cols db →
    ∃ db', dummyCopy rows cols H i hs db = some db' ∧ DbShape rows cols db' ∧
      (∀ h ∈ hs, cellAt db' (T h i) = cellAt db (T 0 i)) ∧ ∀ p, (∀ h ∈ hs, T h i ≠ p) → cellAt db' p = cellAt db p
  | [], db, _, hsh => ⟨db, rfl, hsh, by simp, fun _ _ => rfl⟩
  | h :: hs, db, hlt, hsh => by
    obtain ⟨h1, h2⟩ := hlt h (by simp)
    have hr := L.row_lt h i h2 hi
    have hcl := L.col_lt h i h2 hi
    obtain ⟨ct, hct⟩ := cellAt_isSome hsh (L.row_lt 0 i hpos hi) (L.col_lt 0 i hpos hi)
    obtain ⟨db', e1, e2, e3, e4⟩ := dummyCopy_spec L hpos hi hs (setCell db (T h i) ct) (fun k hk => hlt k (by simp [hk]))
      (setCell_shape hsh _ _)
    have hne : ∀ k, 1 ≤ k → k < hc → T 0 i ≠ T k i := fun k hk1 hk2 heq => by
      have := (L.inj 0 i k i hpos hi hk2 hi heq).1; omega
    have h0 : cellAt (setCell db (T h i) ct) (T 0 i) = cellAt db (T 0 i) := by
      rw [cellAt_setCell hsh hr hcl, if_neg (hne h h1 h2)]
    refine ⟨db', ?_, e2, ?_, ?_⟩
    · rw [dummyCopy]
      simp only [L.tuple 0 i hpos hi, L.tuple h i h2 hi]
      rw [if_pos ⟨hr, hcl⟩]
      simp only [hct, e1]
    · intro k hk
      by_cases hkm : k ∈ hs
      · rw [e3 k hkm, h0]
      · have hkh : k = h := by simpa [hkm] using hk
        subst hkh
        rw [e4 _ (fun k' hk' heq => by
          have := (L.inj k' i k i (hlt k' (by simp [hk'])).2 hi h2 hi heq).1
          subst this; exact hkm hk'), cellAt_setCell hsh hr hcl, if_pos rfl, hct]
    · intro p hp
      rw [e4 p (fun k hk => hp k (by simp [hk])), cellAt_setCell hsh hr hcl, if_neg (fun h' => hp h (by simp) h'.symm)]

/-- Third loop, all items. -/
theorem dummyCopies_spec {H : NaiveHash} {rows cols hc N : Nat} {T : Nat → Nat → Nat × Nat} (L : Layout H rows cols hc N T) (hpos : 0 < hc) :
    ∀ (is : List Nat) (db : List (List (RLWE n))), is.Nodup → (∀ i ∈ is, i < N) → DbShape rows cols db →
    ∃ db', dummyCopies rows cols H is db = some db' ∧ DbShape rows cols db' ∧
      (∀ i ∈ is, ∀ h, h < hc → cellAt db' (T h i) = cellAt db (T 0 i)) ∧
      ∀ i h, i ∉ is → i < N → h < hc → cellAt db' (T h i) = cellAt db (T h i)
  | [], db, _, _, hsh => ⟨db, rfl, hsh, by simp, fun _ _ _ _ _ => rfl⟩
  | i :: is, db, hnd, hlt, hsh => by
    have hi := hlt i (by simp)
    obtain ⟨hni, hnd'⟩ := List.nodup_cons.mp hnd
    obtain ⟨db1, c1, c2, c3, c4⟩ := dummyCopy_spec L hpos hi (List.range' 1 (H.hCount - 1)) db (fun h hh => by
      rw [List.mem_range'_1, L.count] at hh; omega) hsh
    obtain ⟨db', e1, e2, e3, e4⟩ := dummyCopies_spec L hpos is db1 hnd' (fun j hj => hlt j (by simp [hj])) c2
    have hother : ∀ j h, j ≠ i → j < N → h < hc → cellAt db1 (T h j) = cellAt db (T h j) := fun j h hj hjN hh =>
      c4 _ (fun k hk heq => by
        rw [List.mem_range'_1, L.count] at hk
        exact hj (L.inj k i h j (by omega) hi hh hjN heq).2.symm)
    have hown : ∀ h, h < hc → cellAt db1 (T h i) = cellAt db (T 0 i) := fun h hh => by
      rcases Nat.eq_zero_or_pos h with h0 | h0
      · subst h0
        exact c4 _ (fun k hk heq => by
          rw [List.mem_range'_1, L.count] at hk
          have := (L.inj k i 0 i (by omega) hi hpos hi heq).1
          omega)
      · exact c3 h (by rw [List.mem_range'_1, L.count]; omega)
    refine ⟨db', ?_, e2, ?_, ?_⟩
    · rw [dummyCopies, c1]; exact e1
    · intro j hj h hh
      by_cases hjm : j ∈ is
      · rw [e3 j hjm h hh]
        have hji : j ≠ i := fun h' => hni (h' ▸ hjm)
        exact hother j 0 hji (hlt j (by simp [hjm])) hpos
      · have hji : j = i := by simpa [hjm] using hj
        subst hji
        rw [e4 j h hjm hi hh, hown h hh]
    · intro j h hj hjN hh
      have hj1 : j ≠ i := fun h' => hj (by simp [h'])
      have hj2 : j ∉ is := fun h' => hj (by simp [h'])
      rw [e4 j h hj2 hjN hh, hother j h hj1 hjN hh]

/-- The database `db` stores item `i` (its encoded plaintext) in all its copies, with noise at most `e`. -/
def Consistent (ctx : Ctx) (s : Poly n) (hc N : Nat) (T : Nat → Nat → Nat × Nat) (db : List (List (RLWE n))) (v : Nat → Poly n) (e : Nat) :
    Prop :=
  ∀ h i, h < hc → i < N → ∃ ct enc, cellAt db (T h i) = some ct ∧ ctx.codec.polyEncode (v i) = some enc ∧ Enc s ct enc e

theorem genDummy_layout {t : Scalar} {ctx : Ctx} (hcd : Codec.new t = some ctx.codec) (s : Poly n) {H : NaiveHash} {rows cols hc N : Nat}
    {T : Nat → Nat → Nat × Nat} (L : Layout H rows cols hc N T) (hpos : 0 < hc) (hsize : rows * cols = hc * N) {g : Gen n} {B : Nat}
    (hg : g.Bounded B) :
    ∃ pts db g', genDummyDatabase ctx s rows cols H g = some (pts, db, g') ∧ g'.Bounded B ∧ pts.length = N ∧ DbShape rows cols db ∧
      (∀ pt ∈ pts, Spec.Encodable t pt) ∧ (∀ i, i < N → pts[i]? = pts[i % uniqueLimit]?) ∧
      Consistent ctx s hc N T db (fun i => pts.getD i 0) B := by
  have hcount : rows * cols / H.hCount = N := by rw [L.count, hsize, Nat.mul_div_cancel_left _ hpos]
  have hU : 0 < uniqueLimit := by decide
  set u := if N < uniqueLimit then N else uniqueLimit with hu
  have huN : u ≤ N := by rw [hu]; split <;> omega
  have huU : u ≤ uniqueLimit := by rw [hu]; split <;> omega
  have hsh0 : DbShape rows cols (List.replicate rows (List.replicate cols (0 : RLWE n))) :=
    ⟨by simp, fun row hrow => by rw [List.eq_of_mem_replicate hrow]; simp⟩
  obtain ⟨pts, db1, g1, a1, a2, a3, a4, _⟩ := dummyUnique_spec hcd s L hpos (List.range u)
    (List.replicate rows (List.replicate cols (0 : RLWE n))) g List.nodup_range (fun i hi => by rw [List.mem_range] at hi; omega) hsh0 hg
  have hplen : pts.length = u := by rw [← a4.length_eq, List.length_range]
  have ha4 : ∀ i pt, pts[i]? = some pt → Spec.Encodable t pt ∧
      ∃ enc ct, ctx.codec.polyEncode pt = some enc ∧ cellAt db1 (T 0 i) = some ct ∧ Enc s ct enc B := fun i pt hi => by
    obtain ⟨a, ha, hq⟩ := forall₂_getElem a4 hi
    have hiu : i < u := by rw [← hplen]; exact (List.getElem?_eq_some_iff.mp hi).1
    rw [List.getElem?_range hiu] at ha
    cases ha; exact hq
  -- second loop
  obtain ⟨rest, db2, b1, b2, b3, b4⟩ : ∃ rest db2, dummyRest cols H pts (List.range' u (N - u)) db1 = some (rest, db2) ∧
      DbShape rows cols db2 ∧
      List.Forall₂ (fun i pt => pts[i % uniqueLimit]? = some pt ∧ cellAt db2 (T 0 i) = cellAt db1 (T 0 (i % uniqueLimit)))
        (List.range' u (N - u)) rest ∧
      ∀ p, (∀ i ∈ List.range' u (N - u), T 0 i ≠ p) → cellAt db2 p = cellAt db1 p := by
    by_cases hlt : N < uniqueLimit
    · have : N - u = 0 := by rw [hu, if_pos hlt]; omega
      rw [this]
      exact ⟨[], db1, rfl, a3, .nil, fun _ _ => rfl⟩
    · have huu : u = uniqueLimit := by rw [hu, if_neg hlt]
      exact dummyRest_spec L hpos (by rw [hplen, huu]) (by omega) _ db1 List.nodup_range'
        (fun i hi => by rw [List.mem_range'_1] at hi; omega) a3
  have hrlen : rest.length = N - u := by rw [← b3.length_eq, List.length_range']
  obtain ⟨db3, c1, c2, c3, _⟩ := dummyCopies_spec L hpos (List.range N) db2 List.nodup_range (fun i hi => by
    rw [List.mem_range] at hi; exact hi) b2
  have hb3 : ∀ k pt, rest[k]? = some pt → pts[(u + k) % uniqueLimit]? = some pt ∧
      cellAt db2 (T 0 (u + k)) = cellAt db1 (T 0 ((u + k) % uniqueLimit)) := fun k pt hk => forall₂_range'_getElem b3 hk
  have hfirst : ∀ i, i < N → ∃ pt, (pts ++ rest)[i]? = some pt ∧ pts[i % uniqueLimit]? = some pt ∧ Spec.Encodable t pt ∧
      ∃ enc ct, ctx.codec.polyEncode pt = some enc ∧ cellAt db2 (T 0 i) = some ct ∧ Enc s ct enc B := by
    intro i hi
    by_cases hiu : i < u
    · have hp : pts[i]? = some pts[i] := List.getElem?_eq_getElem (by omega)
      obtain ⟨q1, enc, ct, q2, q3, q4⟩ := ha4 i _ hp
      refine ⟨pts[i], by rw [List.getElem?_append_left (by omega)]; exact hp, by
        rw [Nat.mod_eq_of_lt (by omega)]; exact hp, q1, enc, ct, q2, ?_, q4⟩
      rw [b4 _ (fun j hj heq => by
        rw [List.mem_range'_1] at hj
        have := (L.inj 0 j 0 i hpos (by omega) hpos hi heq).2
        omega)]
      exact q3
    · have hk : i - u < rest.length := by omega
      obtain ⟨r1, r2⟩ := hb3 (i - u) rest[i - u] (List.getElem?_eq_getElem hk)
      rw [show u + (i - u) = i by omega] at r1 r2
      obtain ⟨q1, enc, ct, q2, q3, q4⟩ := ha4 _ _ r1
      refine ⟨rest[i - u], ?_, r1, q1, enc, ct, q2, by rw [r2]; exact q3, q4⟩
      rw [List.getElem?_append_right (by omega), hplen]
      exact List.getElem?_eq_getElem hk
  have hplen' : (pts ++ rest).length = N := by rw [List.length_append, hplen, hrlen]; omega
  refine ⟨pts ++ rest, db3, g1, ?_, a2, hplen', c2, ?_, ?_, ?_⟩
  · unfold genDummyDatabase
    rw [if_neg (by rw [L.count]; omega)]
    simp only [hcount]
    rw [← hu, a1]
    simp only
    rw [b1]
    simp only [c1]
  · intro pt hpt
    obtain ⟨i, hi⟩ := List.mem_iff_getElem?.mp hpt
    have hiN : i < N := by rw [← hplen']; exact (List.getElem?_eq_some_iff.mp hi).1
    obtain ⟨pt', h1, _, h2, _⟩ := hfirst i hiN
    rw [hi] at h1; cases h1; exact h2
  · intro i hi
    obtain ⟨pt, h1, h2, _⟩ := hfirst i hi
    rw [h1]
    have : i % uniqueLimit < pts.length := (List.getElem?_eq_some_iff.mp h2).1
    rw [List.getElem?_append_left this, h2]
  · intro h i hh hi
    obtain ⟨pt, h1, _, _, enc, ct, q2, q3, q4⟩ := hfirst i hi
    refine ⟨ct, enc, ?_, ?_, q4⟩
    · rw [c3 i (by rw [List.mem_range]; exact hi) h hh]; exact q3
    · simp only [List.getD_eq_getElem?_getD, h1, Option.getD_some]
      exact q2

/-- C48: `gen_dummy_database` never panics when the grid has exactly `h_count * N` cells; it returns `N` encodable plaintexts (item `i`
repeating item `i mod 128`) and a `rows x cols` database in which the cell `hash_to_tuple(h, i, cols)` encrypts `pts[i]`, for *every* hash
function `h` and item `i`, with fresh noise. -/
theorem C48_dummy_database {t : Scalar} {ctx : Ctx} (hcd : Codec.new t = some ctx.codec) (s : Poly n) (shuffle : List Nat → List Nat)
    (hsh : ∀ l, (shuffle l).Perm l) {hc N : Nat} {H : NaiveHash} (hnew : NaiveHash.new shuffle hc N = some H) {rows cols : Nat}
    (hcols : 0 < cols) (hsize : rows * cols = hc * N) {g : Gen n} {B : Nat} (hg : g.Bounded B) :
    ∃ pts db g', genDummyDatabase ctx s rows cols H g = some (pts, db, g') ∧ g'.Bounded B ∧ pts.length = N ∧
      db.length = rows ∧ (∀ row ∈ db, row.length = cols) ∧
      (∀ i, i < N → pts[i]? = pts[i % 128]?) ∧
      ∀ h i, h < hc → i < N → ∃ p ct pt enc, H.hashToTuple h i cols = some p ∧ cellAt db p = some ct ∧ pts[i]? = some pt ∧
        Spec.Encodable t pt ∧ ctx.codec.polyEncode pt = some enc ∧ Enc s ct enc B := by
  have hpos : 0 < hc := by
    rcases Nat.eq_zero_or_pos hc with h0 | h0
    · have := (C09_new_panics shuffle hc N).mpr h0
      rw [hnew] at this; cases this
    · exact h0
  obtain ⟨T, L⟩ := layout_of_hash shuffle hsh hnew hcols hsize
  obtain ⟨pts, db, g', e1, e2, e3, e4, e5, e6, e7⟩ := genDummy_layout hcd s L hpos hsize hg
  refine ⟨pts, db, g', e1, e2, e3, e4.1, e4.2, e6, fun h i hh hi => ?_⟩
  obtain ⟨ct, enc, f1, f2, f3⟩ := e7 h i hh hi
  have hp : pts[i]? = some pts[i] := List.getElem?_eq_getElem (by omega)
  refine ⟨T h i, ct, pts[i], enc, L.tuple h i hh hi, f1, hp, e5 _ (List.getElem_mem _), ?_, f3⟩
  simpa [List.getD_eq_getElem?_getD, hp] using f2

/-- C48 (decryption): in particular, within the noise budget every copy of item `i` decrypts and decodes to `pts[i]`. -/
theorem C48_decodes {t : Scalar} {ctx : Ctx} (hcd : Codec.new t = some ctx.codec) (s : Poly n) (shuffle : List Nat → List Nat)
    (hsh : ∀ l, (shuffle l).Perm l) {hc N : Nat} {H : NaiveHash} (hnew : NaiveHash.new shuffle hc N = some H) {rows cols : Nat}
    (hcols : 0 < cols) (hsize : rows * cols = hc * N) {g : Gen n} {B : Nat} (hg : g.Bounded B) (hb : 2 * B < 2 ^ 64 / t.toNat) :
    ∃ pts db g', genDummyDatabase ctx s rows cols H g = some (pts, db, g') ∧
      ∀ h i, h < hc → i < N → ∃ p ct, H.hashToTuple h i cols = some p ∧ cellAt db p = some ct ∧
        pts[i]? = some (decryptDecodeRlwe ctx s ct) := by
  obtain ⟨pts, db, g', e1, _, _, _, _, _, e7⟩ := C48_dummy_database hcd s shuffle hsh hnew hcols hsize hg
  refine ⟨pts, db, g', e1, fun h i hh hi => ?_⟩
  obtain ⟨p, ct, pt, enc, f1, f2, f3, _, f5, f6⟩ := e7 h i hh hi
  exact ⟨p, ct, f1, f2, by rw [decryptDecode_of_enc hcd f5 f6 hb]; exact f3⟩

/-- C48 (`setup_random_oram`): panics on a size mismatch. -/
theorem C48_setup_size_panics (ctx : Ctx) (s : Poly n) (rows cols : Nat) (H : NaiveHash) (g : Gen n)
    (h : rows * cols ≠ H.inputDomain * H.hCount) : setupRandomOram ctx s rows cols H g = none := by
  unfold setupRandomOram; rw [if_neg h]

/-- The hypotheses are met: 2 copies of 4 items in 2 rows of 4 columns, the example generator. -/
example : ∃ pts db g', genDummyDatabase exCtx exKey 2 4 ⟨(List.range 8).reverse, 2, 4⟩ exGen = some (pts, db, g') ∧ pts.length = 4 ∧
    ∀ h i, h < 2 → i < 4 → ∃ p ct, NaiveHash.hashToTuple ⟨(List.range 8).reverse, 2, 4⟩ h i 4 = some p ∧ cellAt db p = some ct ∧
      pts[i]? = some (decryptDecodeRlwe exCtx exKey ct) := by
  obtain ⟨pts, db, g', e1, e2⟩ := C48_decodes (t := 16) (ctx := exCtx) (by decide) exKey List.reverse (fun l => List.reverse_perm l)
    (hc := 2) (N := 4) (H := ⟨(List.range 8).reverse, 2, 4⟩) rfl (rows := 2) (cols := 4) (by decide) (by decide) exGen_bounded (by decide)
  obtain ⟨pts', db', g'', f1, _, f2, _⟩ := C48_dummy_database (t := 16) (ctx := exCtx) (by decide) exKey List.reverse
    (fun l => List.reverse_perm l) (hc := 2) (N := 4) (H := ⟨(List.range 8).reverse, 2, 4⟩) rfl (rows := 2) (cols := 4) (by decide)
    (by decide) exGen_bounded
  rw [e1] at f1; cases f1
  exact ⟨pts, db, g', e1, f2, e2⟩

/-! ## C43 from the setup -/

/-- `setup_random_oram` for a one-row database of `2^D = h_count * N` columns never panics and establishes the invariant of the accesses. -/
theorem setup_oneInv {t : Scalar} {ctx : Ctx} (hcd : Codec.new t = some ctx.codec)
    {s : Poly n} (hs : Binary s) (shuffle : List Nat → List Nat) (hsh : ∀ l, (shuffle l).Perm l) {hc N : Nat}
    {H : NaiveHash} (hnew : NaiveHash.new shuffle hc N = some H) {D : Nat} (hsize : 2 ^ D = hc * N)
    (h1 : 1 ≤ ctx.baseLog) (h2 : 1 ≤ ctx.levelCount) (h3 : ctx.baseLog * ctx.levelCount < 64)
    (hn1 : ctx.negsBaseLog = ctx.baseLog) (hn2 : 1 ≤ ctx.negsLevelCount) (hn3 : ctx.negsBaseLog * ctx.negsLevelCount < 64)
    {g : Gen n} {B : Nat} (hg : g.Bounded B) :
    ∃ S pts g1, setupRandomOram ctx s 1 (2 ^ D) H g = some (S, pts, g1) ∧ pts.length = N ∧ g1.Bounded B ∧
      OneInv ctx s H D N B (fun i => pts.getD i 0) B S := by
  have hpos : 0 < hc := by
    rcases Nat.eq_zero_or_pos hc with h0 | h0
    · have := (C09_new_panics shuffle hc N).mpr h0
      rw [hnew] at this; cases this
    · exact h0
  obtain ⟨T, L⟩ := layout_of_hash shuffle hsh hnew (rows := 1) (cols := 2 ^ D) (by positivity) (by omega)
  have hN : H.inputDomain = N := by obtain ⟨_, rfl, rfl⟩ := NaiveHash.new_wf hsh hnew; rfl
  obtain ⟨⟨negS, g0⟩, k1, k2, k3, k4, k5⟩ := C21_neg_gsw hn1 hs hg
  obtain ⟨pts, db, g1, e1, e2, e3, e4, _, _, e7⟩ := genDummy_layout hcd s L hpos (by omega) k5
  have hkeys : ServerKeys ctx s negS B :=
    ⟨h1, h2, h3, ⟨by rw [k3, hn1]; exact h1, by rw [k4]; exact hn2, by rw [k3, k4]; exact hn3⟩, k3, k4, k2⟩
  have hset : setupRandomOram ctx s 1 (2 ^ D) H g = some (Server.new db negS ctx, pts, g1) := by
    unfold setupRandomOram
    rw [if_pos (by rw [hN, L.count, Nat.mul_comm N hc]; omega)]
    simp only [k1, e1]
  obtain ⟨row, hrow⟩ : ∃ row, db = [row] := List.length_eq_one_iff.mp e4.1
  have hrl : row.length = 2 ^ D := e4.2 row (by rw [hrow]; simp)
  have hinv : OneInv ctx s H D N B (fun i => pts.getD i 0) B (Server.new db negS ctx) := by
    classical
    refine ⟨rfl, hkeys, row, hrow, hrl, fun j => match row[j]? with
      | some ct => if h : ∃ i enc, i < N ∧ T 0 i = (0, j) ∧ ctx.codec.polyEncode (pts.getD i 0) = some enc then h.choose_spec.choose
        else decryptRlwe s ct
      | none => 0, ?_, ?_⟩
    · intro j c hj
      simp only [hj]
      split
      · rename_i h
        obtain ⟨q1, q2, q3⟩ := h.choose_spec.choose_spec
        obtain ⟨ct, enc, f1, f2, f3⟩ := e7 0 _ hpos q1
        rw [q2, hrow] at f1
        have : ct = c := by
          simp only [cellAt, List.getElem?_cons_zero, hj, Option.some.injEq] at f1
          exact f1.symm
        subst this
        simp only at f2
        rw [q3] at f2
        cases f2
        exact f3
      · unfold Enc; rw [sub_self]; exact Small.zero _
    · intro i c hi ht
      have hT : T 0 i = (0, c) := by
        have := (L.tuple 0 i hpos hi).symm.trans ht
        simpa using this
      have hcl := L.col_lt 0 i hpos hi
      rw [hT] at hcl
      obtain ⟨ct, enc, f1, f2, f3⟩ := e7 0 i hpos hi
      simp only at hcl
      have hrc : row[c]? = some row[c] := List.getElem?_eq_getElem (by rw [hrl]; exact hcl)
      simp only [hrc]
      have hex : ∃ i' enc', i' < N ∧ T 0 i' = (0, c) ∧ ctx.codec.polyEncode (pts.getD i' 0) = some enc' := ⟨i, enc, hi, hT, f2⟩
      rw [dif_pos hex]
      obtain ⟨q1, q2, q3⟩ := hex.choose_spec.choose_spec
      have hii : hex.choose = i := (L.inj 0 _ 0 i hpos q1 hpos hi (q2.trans hT.symm)).2
      rw [← q3, hii]
  exact ⟨_, pts, g1, hset, e3, e2, hinv⟩

/-- C43 (end to end): set up a one-row ORAM with `setup_random_oram` (`2^D = h_count * N` columns), then run any list of valid READ/WRITE
commands through the API.  Nothing panics and every decoded response is the content of its item in the plain-array semantics starting from
the plaintexts returned by the setup. -/
theorem C43_from_setup {t : Scalar} {ctx : Ctx} (hcd : Codec.new t = some ctx.codec) (hn : 0 < n) {fft : Fft n} {phi : Nat}
    (hf : fft.Bounded phi) {s : Poly n} (hs : Binary s) (shuffle : List Nat → List Nat) (hsh : ∀ l, (shuffle l).Perm l) {hc N : Nat}
    {H : NaiveHash} (hnew : NaiveHash.new shuffle hc N = some H) {D : Nat} (hD1 : 1 ≤ D) (hD : D < 64) (hsize : 2 ^ D = hc * N)
    (h1 : 1 ≤ ctx.baseLog) (h2 : 1 ≤ ctx.levelCount) (h3 : ctx.baseLog * ctx.levelCount < 64)
    (hn1 : ctx.negsBaseLog = ctx.baseLog) (hn2 : 1 ≤ ctx.negsLevelCount) (hn3 : ctx.negsBaseLog * ctx.negsLevelCount < 64)
    {g : Gen n} {B : Nat} (hg : g.Bounded B) (cmds : List ((List (RLWE n) → RLWE n) × Cmd n))
    (hval : ∀ c ∈ cmds, IsReduction (· + ·) 0 c.1 ∧ c.2.Valid N t)
    (hb : 2 * (B + cmds.length * (deltaOp ctx n B phi + deltaSel ctx n B phi D) + 2 ^ D * deltaSel ctx n B phi D) < 2 ^ 64 / t.toNat) :
    ∃ S pts g1 S' g', setupRandomOram ctx s 1 (2 ^ D) H g = some (S, pts, g1) ∧ pts.length = N ∧
      runHistory fft ctx s 1 (2 ^ D) H cmds S g1 = some (Spec.run (fun i => pts.getD i 0) (cmds.map Prod.snd), S', g') := by
  obtain ⟨S, pts, g1, hset, e3, e2, hinv⟩ := setup_oneInv hcd hs shuffle hsh hnew hsize h1 h2 h3 hn1 hn2 hn3 hg
  obtain ⟨S', g', r1, _⟩ := C43_history hcd hn hf hs shuffle hsh hnew hD1 hD hsize cmds _ B _ g1 (le_refl B) e2 hinv hval hb
  exact ⟨_, pts, g1, S', g', hset, e3, r1⟩

/-- The sequential sum is a possible outcome of the parallel reduction. -/
theorem fold_isReduction : IsReduction (· + ·) (0 : RLWE n) (fun xs => xs.foldl (· + ·) 0) := fun xs => ParReduce.fold xs

/-- The hypotheses are met: 4 items in 4 columns (budget included), a write then two reads. -/
example : ∃ S pts g1 S' g', setupRandomOram exTreeCtx exKey 1 4 ⟨(List.range 4).reverse, 1, 4⟩ exGen = some (S, pts, g1) ∧
    runHistory exFft exTreeCtx exKey 1 4 ⟨(List.range 4).reverse, 1, 4⟩
      [(fun xs => xs.foldl (· + ·) 0, .write 2 ⟨fun _ => 7⟩), (fun xs => xs.foldl (· + ·) 0, .read 2),
        (fun xs => xs.foldl (· + ·) 0, .read 1)] S g1 = some ([pts.getD 2 0, ⟨fun _ => 7⟩, pts.getD 1 0], S', g') := by
  obtain ⟨S, pts, g1, S', g', h1, _, h2⟩ := C43_from_setup (t := 16) (ctx := exTreeCtx) (by decide) (by decide) exFft_bounded exKey_binary
    List.reverse (fun l => List.reverse_perm l) (hc := 1) (N := 4) (H := ⟨(List.range 4).reverse, 1, 4⟩) rfl (D := 2) (by decide)
    (by decide) (by decide) (by decide) (by decide) (by decide) rfl (by decide) (by decide) exGen_bounded
    [(fun xs => xs.foldl (· + ·) 0, .write 2 ⟨fun _ => 7⟩), (fun xs => xs.foldl (· + ·) 0, .read 2),
      (fun xs => xs.foldl (· + ·) 0, .read 1)]
    (by
      intro c hc
      simp only [List.mem_cons, List.not_mem_nil, or_false] at hc
      rcases hc with rfl | rfl | rfl
      · exact ⟨fold_isReduction, by decide, fun k => by show (7 : Scalar).toNat < _; decide⟩
      · exact ⟨fold_isReduction, by show _ < _; decide⟩
      · exact ⟨fold_isReduction, by show _ < _; decide⟩) (by decide)
  exact ⟨S, pts, g1, S', g', h1, h2⟩

end Panacea
