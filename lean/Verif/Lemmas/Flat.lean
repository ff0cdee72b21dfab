import Verif.Spec.Flat
import Verif.Lemmas.Poly

/-! # Word vectors and the ciphertexts they hold -/

namespace Panacea
namespace Flat
variable {n : Nat}

@[simp] theorem length_out (p : Poly n) : (out p).length = n := by simp [out]

theorem out_getElem? (p : Poly n) (k : Fin n) : (out p)[k.val]? = some (p k) := by
  simp [out]

theorem storesPoly_iff {w : Words} {p : Poly n} : StoresPoly w p ↔ w = out p := by
  constructor
  · intro h
    refine List.ext_getElem? fun i => ?_
    by_cases hi : i < n
    · rw [h.get ⟨i, hi⟩, out_getElem? p ⟨i, hi⟩]
    · rw [List.getElem?_eq_none (by rw [h.length]; omega), List.getElem?_eq_none (by rw [length_out]; omega)]
  · rintro rfl
    exact ⟨length_out p, out_getElem? p⟩

@[simp] theorem poly_out (p : Poly n) : poly n (out p) = p := by
  refine Poly.ext (funext fun k => ?_)
  show (out p)[k.val]?.getD 0 = _
  rw [out_getElem?]; rfl

theorem out_poly {w : Words} (h : w.length = n) : out (poly n w) = w := by
  refine List.ext_getElem? fun i => ?_
  by_cases hi : i < n
  · rw [out_getElem? (poly n w) ⟨i, hi⟩, List.getElem?_eq_getElem (by omega)]
    simp [poly, List.getD, List.getElem?_eq_getElem (show i < w.length by omega)]
  · rw [List.getElem?_eq_none (by rw [length_out]; omega), List.getElem?_eq_none (by omega)]

theorem out_inj {p q : Poly n} (h : out p = out q) : p = q := by
  have := congrArg (poly n) h
  simpa using this

theorem zipWith_out (f : Scalar → Scalar → Scalar) (p q : Poly n) :
    List.zipWith f (out p) (out q) = out (⟨fun k => f (p k) (q k)⟩ : Poly n) := by
  refine List.ext_getElem (by simp) fun i h1 h2 => ?_
  simp [out]

theorem map_out (f : Scalar → Scalar) (p : Poly n) : (out p).map f = out (⟨fun k => f (p k)⟩ : Poly n) := by
  refine List.ext_getElem (by simp) fun i h1 h2 => ?_
  simp [out]

theorem replicate_out : List.replicate n (0 : Scalar) = out (0 : Poly n) := by
  refine List.ext_getElem (by simp) fun i h1 h2 => ?_
  simp [out]

@[simp] theorem add_out (p q : Poly n) : addWords (out p) (out q) = out (p + q) := zipWith_out _ p q
@[simp] theorem sub_out (p q : Poly n) : subWords (out p) (out q) = out (p - q) := zipWith_out _ p q
@[simp] theorem copy_out (p q : Poly n) : fillWithCopy (out p) (out q) = out q := zipWith_out _ p q
@[simp] theorem clear_out (p : Poly n) : clear (out p) = out (0 : Poly n) := map_out _ p
@[simp] theorem mulConst_out (p : Poly n) (c : Scalar) : mulConst (out p) c = out (p.mulConst c) := map_out _ p

theorem set_out (p : Poly n) (j : Nat) (v : Scalar) : (out p).set j v = out (p.set j v) := by
  refine List.ext_getElem (by simp) fun i h1 h2 => ?_
  simp only [List.length_set, length_out] at h1
  simp only [out, List.getElem_set, List.getElem_ofFn, Poly.set]
  by_cases h : j = i
  · simp [h]
  · rw [if_neg h, if_neg (fun e => h e.symm)]

theorem getD_out (p : Poly n) (i : Nat) : (out p).getD i 0 = p.get i := by
  unfold Poly.get List.getD
  split
  next h => rw [out_getElem? p ⟨i, h⟩]; rfl
  next h => rw [List.getElem?_eq_none (by rw [length_out]; omega)]; rfl

/-! ## RLWE -/

@[simp] theorem length_outRlwe (c : RLWE n) : (outRlwe c).length = n * 2 := by simp [outRlwe]; omega

theorem take_outRlwe (c : RLWE n) : (outRlwe c).take n = out c.mask := by
  unfold outRlwe; rw [List.take_append_of_le_length (by simp), List.take_of_length_le (by simp)]

theorem drop_outRlwe (c : RLWE n) : (outRlwe c).drop n = out c.body := by
  unfold outRlwe; rw [List.drop_append_of_le_length (by simp), List.drop_of_length_le (by simp)]; rfl

@[simp] theorem getMask_out (c : RLWE n) : getMask n (outRlwe c) = out c.mask := take_outRlwe c
@[simp] theorem getBody_out (c : RLWE n) : getBody n (outRlwe c) = out c.body := drop_outRlwe c
@[simp] theorem rlwe_out (c : RLWE n) : rlwe n (outRlwe c) = c := by simp [rlwe]

theorem modMask_out {f : Words → Words} (c : RLWE n) {p : Poly n} (h : f (out c.mask) = out p) :
    modMask n f (outRlwe c) = outRlwe ⟨p, c.body⟩ := by
  unfold modMask; rw [take_outRlwe, drop_outRlwe, h]; rfl

theorem modBody_out {f : Words → Words} (c : RLWE n) {p : Poly n} (h : f (out c.body) = out p) :
    modBody n f (outRlwe c) = outRlwe ⟨c.mask, p⟩ := by
  unfold modBody; rw [take_outRlwe, drop_outRlwe, h]; rfl

theorem storesRlwe_iff {w : Words} {c : RLWE n} : StoresRlwe w c ↔ w = outRlwe c := by
  have hl := length_outRlwe c
  constructor
  · intro h
    refine List.ext_getElem? fun i => ?_
    by_cases hi : i < n
    · rw [h.mask ⟨i, hi⟩]; unfold outRlwe
      rw [List.getElem?_append_left (by simpa using hi), out_getElem? c.mask ⟨i, hi⟩]
    · by_cases hi2 : i < 2 * n
      · obtain ⟨j, rfl⟩ : ∃ j, i = n + j := ⟨i - n, by omega⟩
        have hj : j < n := by omega
        rw [h.body ⟨j, hj⟩]; unfold outRlwe
        rw [List.getElem?_append_right (by simp)]
        simp only [length_out, Nat.add_sub_cancel_left]
        rw [out_getElem? c.body ⟨j, hj⟩]
      · rw [List.getElem?_eq_none (by rw [h.length]; omega), List.getElem?_eq_none (by omega)]
  · rintro rfl
    refine ⟨by omega, fun k => ?_, fun k => ?_⟩
    · unfold outRlwe; rw [List.getElem?_append_left (by simp), out_getElem?]
    · unfold outRlwe; rw [List.getElem?_append_right (by simp)]
      simp only [length_out, Nat.add_sub_cancel_left]
      rw [out_getElem?]

theorem outRlwe_rlwe {w : Words} (h : w.length = n * 2) : outRlwe (rlwe n w) = w := by
  unfold outRlwe rlwe getMask getBody
  rw [out_poly (by simp; omega), out_poly (by simp; omega), List.take_append_drop]

theorem zipWith_outRlwe (f : Scalar → Scalar → Scalar) (c d : RLWE n) :
    List.zipWith f (outRlwe c) (outRlwe d) = outRlwe ⟨⟨fun k => f (c.mask k) (d.mask k)⟩, ⟨fun k => f (c.body k) (d.body k)⟩⟩ := by
  unfold outRlwe
  rw [List.zipWith_append (by simp), zipWith_out, zipWith_out]

@[simp] theorem copy_outRlwe (c d : RLWE n) : fillWithCopy (outRlwe c) (outRlwe d) = outRlwe d := zipWith_outRlwe _ c d

theorem allocate_out : allocate n = outRlwe (0 : RLWE n) := by
  unfold allocate outRlwe
  rw [show n * 2 = n + n by omega, ← List.replicate_append_replicate, replicate_out]; rfl

/-! ## RGSW -/

theorem length_flat (R : List (RLWE n × RLWE n)) :
    (R.flatMap fun r => outRlwe r.1 ++ outRlwe r.2).length = R.length * (2 * (n * 2)) := by
  induction R with
  | nil => simp
  | cons r rs ih => simp [List.flatMap_cons, ih, Nat.succ_mul]; omega

theorem drop_flat (R : List (RLWE n × RLWE n)) (l : Nat) :
    (R.flatMap fun r => outRlwe r.1 ++ outRlwe r.2).drop (l * (2 * (n * 2))) =
      (R.drop l).flatMap fun r => outRlwe r.1 ++ outRlwe r.2 := by
  induction l generalizing R with
  | zero => simp
  | succ l ih =>
    cases R with
    | nil => simp
    | cons r rs =>
      rw [List.flatMap_cons, Nat.succ_mul, Nat.add_comm (l * _), ← List.drop_drop]
      rw [List.drop_append_of_le_length (by simp; omega), List.drop_of_length_le (l := outRlwe r.1 ++ outRlwe r.2) (by simp; omega),
        List.nil_append]
      simpa using ih rs

theorem level_flat (R : List (RLWE n × RLWE n)) (l : Nat) (h : l < R.length) :
    ((R.flatMap fun r => outRlwe r.1 ++ outRlwe r.2).drop (l * (2 * (n * 2)))).take (2 * (n * 2)) =
      outRlwe R[l].1 ++ outRlwe R[l].2 := by
  rw [drop_flat, List.drop_eq_getElem_cons h, List.flatMap_cons]
  rw [List.take_append_of_le_length (by simp; omega), List.take_of_length_le (by simp; omega)]

theorem pair_parts (a b : RLWE n) :
    (outRlwe a ++ outRlwe b).take n = out a.mask ∧ ((outRlwe a ++ outRlwe b).drop n).take n = out a.body ∧
    ((outRlwe a ++ outRlwe b).drop (n * 2)).take n = out b.mask ∧ ((outRlwe a ++ outRlwe b).drop (n * 2 + n)).take n = out b.body := by
  have h2 : (outRlwe a ++ outRlwe b).drop (n * 2) = outRlwe b := by
    rw [List.drop_append_of_le_length (by simp), List.drop_of_length_le (by simp), List.nil_append]
  refine ⟨?_, ?_, ?_, ?_⟩
  · rw [List.take_append_of_le_length (by simp; omega), take_outRlwe]
  · rw [List.drop_append_of_le_length (by simp; omega), drop_outRlwe, List.take_append_of_le_length (by simp),
      List.take_of_length_le (by simp)]
  · rw [h2, take_outRlwe]
  · rw [← List.drop_drop, h2, drop_outRlwe, List.take_of_length_le (by simp)]

@[simp] theorem rgsw_out (R : RGSW n) : rgsw n (outRgsw R) = R := by
  unfold rgsw outRgsw
  simp only
  congr 1
  refine List.ext_getElem (by simp) fun l h1 h2 => ?_
  simp only [List.length_map, List.length_range] at h1
  simp only [List.getElem_map, List.getElem_range]
  rw [level_flat R.rows l h1]
  obtain ⟨e1, e2, e3, e4⟩ := pair_parts R.rows[l].1 R.rows[l].2
  rw [e1, e2, e3, e4]
  simp

theorem flat_getElem? (R : List (RLWE n × RLWE n)) (l : Nat) (h : l < R.length) (j : Nat) (hj : j < 2 * (n * 2)) :
    (R.flatMap fun r => outRlwe r.1 ++ outRlwe r.2)[4 * n * l + j]? = (outRlwe R[l].1 ++ outRlwe R[l].2)[j]? := by
  rw [← level_flat R l h, List.getElem?_take, if_pos hj, List.getElem?_drop]
  congr 1; rw [show l * (2 * (n * 2)) = 4 * n * l by ring]

theorem storesRgsw_iff {C : Ggsw} {R : RGSW n} : StoresRgsw C R ↔ C = outRgsw R := by
  have key : ∀ l (hl : l < R.rows.length) (j : Nat) (hj : j < 2 * (n * 2)),
      (outRgsw R).words[4 * n * l + j]? = (outRlwe R.rows[l].1 ++ outRlwe R.rows[l].2)[j]? := flat_getElem? R.rows
  have hw : ∀ l (hl : l < R.rows.length), StoresRlwe (outRlwe R.rows[l].1) R.rows[l].1 ∧ StoresRlwe (outRlwe R.rows[l].2) R.rows[l].2 :=
    fun l hl => ⟨storesRlwe_iff.2 rfl, storesRlwe_iff.2 rfl⟩
  have first : ∀ l (hl : l < R.rows.length) (j : Nat), j < 2 * n → (outRgsw R).words[4 * n * l + j]? = (outRlwe R.rows[l].1)[j]? := by
    intro l hl j hj
    rw [key l hl j (by omega), List.getElem?_append_left (by simp; omega)]
  have second : ∀ l (hl : l < R.rows.length) (j : Nat), j < 2 * n →
      (outRgsw R).words[4 * n * l + 2 * n + j]? = (outRlwe R.rows[l].2)[j]? := by
    intro l hl j hj
    rw [Nat.add_assoc, key l hl (2 * n + j) (by omega), List.getElem?_append_right (by simp; omega)]
    congr 1; simp; omega
  constructor
  · intro h
    obtain ⟨bl, lc, ws⟩ := C
    have e1 := h.baseLog; have e2 := h.levelCount; have e3 := h.length
    simp only at e1 e2 e3
    subst e1 e2
    suffices ws = (outRgsw R).words by rw [this]; rfl
    have hlen : (outRgsw R).words.length = 4 * n * R.rows.length := by
      show (R.rows.flatMap _).length = _
      rw [length_flat]; ring
    refine List.ext_getElem? fun i => ?_
    by_cases hi : i < 4 * n * R.rows.length
    · have hn : 0 < 4 * n := Nat.pos_of_ne_zero fun e => by rw [e] at hi; omega
      have hl : i / (4 * n) < R.rows.length := Nat.div_lt_of_lt_mul hi
      have hj : i % (4 * n) < 4 * n := Nat.mod_lt _ hn
      have ei : i = 4 * n * (i / (4 * n)) + i % (4 * n) := (Nat.div_add_mod i (4 * n)).symm
      generalize i / (4 * n) = l at *
      generalize i % (4 * n) = j at *
      subst ei
      have h0 := h.mask0 ⟨l, hl⟩; have h1 := h.body0 ⟨l, hl⟩; have h2 := h.mask1 ⟨l, hl⟩; have h3 := h.body1 ⟨l, hl⟩
      by_cases c1 : j < n
      · rw [first l hl j (by omega), (hw l hl).1.mask ⟨j, c1⟩]; exact h0 ⟨j, c1⟩
      · by_cases c2 : j < 2 * n
        · obtain ⟨k, rfl⟩ : ∃ k, j = n + k := ⟨j - n, by omega⟩
          rw [first l hl _ c2, (hw l hl).1.body ⟨k, by omega⟩, ← Nat.add_assoc]; exact h1 ⟨k, by omega⟩
        · by_cases c3 : j < 3 * n
          · obtain ⟨k, rfl⟩ : ∃ k, j = 2 * n + k := ⟨j - 2 * n, by omega⟩
            rw [← Nat.add_assoc, second l hl k (by omega), (hw l hl).2.mask ⟨k, by omega⟩]; exact h2 ⟨k, by omega⟩
          · obtain ⟨k, rfl⟩ : ∃ k, j = 3 * n + k := ⟨j - 3 * n, by omega⟩
            rw [show 4 * n * l + (3 * n + k) = 4 * n * l + 2 * n + (n + k) by omega, second l hl (n + k) (by omega),
              (hw l hl).2.body ⟨k, by omega⟩, show 4 * n * l + 2 * n + (n + k) = 4 * n * l + 3 * n + k by omega]
            exact h3 ⟨k, by omega⟩
    · rw [List.getElem?_eq_none (by omega), List.getElem?_eq_none (by omega)]
  · rintro rfl
    refine ⟨rfl, rfl, ?_, fun l k => ?_, fun l k => ?_, fun l k => ?_, fun l k => ?_⟩
    · show (R.rows.flatMap _).length = _
      rw [length_flat]; ring
    · rw [first l.1 l.2 k.1 (by omega)]; exact (hw l.1 l.2).1.mask k
    · rw [Nat.add_assoc, first l.1 l.2 (n + k.1) (by omega)]; exact (hw l.1 l.2).1.body k
    · rw [second l.1 l.2 k.1 (by omega)]; exact (hw l.1 l.2).2.mask k
    · rw [show 4 * n * l.1 + 3 * n + k.1 = 4 * n * l.1 + 2 * n + (n + k.1) by omega, second l.1 l.2 (n + k.1) (by omega)]
      exact (hw l.1 l.2).2.body k

theorem count_out (hn : 0 < n) (R : RGSW n) : ciphertextCount n (outRgsw R) = 2 * R.rows.length := by
  show (R.rows.flatMap _).length / _ = _
  rw [length_flat, show R.rows.length * (2 * (n * 2)) = 2 * R.rows.length * (n * 2) by ring]
  exact Nat.mul_div_cancel _ (by omega)

theorem ggswAllocate_out (bl lc : Nat) : ggswAllocate n bl lc = outRgsw (RGSW.allocate n bl lc) := by
  unfold ggswAllocate outRgsw RGSW.allocate
  simp only [List.length_replicate]
  congr 1
  induction lc with
  | zero => simp
  | succ l ih =>
    rw [List.replicate_succ, List.flatMap_cons, ← ih, Nat.succ_mul, Nat.add_comm, ← List.replicate_append_replicate]
    congr 1
    show _ = outRlwe 0 ++ outRlwe 0
    rw [← allocate_out]; unfold allocate
    rw [List.replicate_append_replicate]; congr 1; omega

/-- Two iterations of the row loop. -/
theorem forRows_pair {σ : Type} {f : Nat → Words → σ → Option (Words × σ)} (c i : Nat) (a b : RLWE n) (rest : Words) (s : σ) :
    forRows (n * 2) f (c + 1 + 1) i (outRlwe a ++ outRlwe b ++ rest) s =
      match f i (outRlwe a) s with
      | none => none
      | some (ra, s1) =>
        match f (i + 1) (outRlwe b) s1 with
        | none => none
        | some (rb, s2) =>
          match forRows (n * 2) f c (i + 1 + 1) rest s2 with
          | none => none
          | some (rs, s3) => some (ra ++ (rb ++ rs), s3) := by
  have e1 : (outRlwe a ++ outRlwe b ++ rest).take (n * 2) = outRlwe a := by
    rw [List.append_assoc, List.take_append_of_le_length (by simp), List.take_of_length_le (by simp)]
  have e2 : (outRlwe a ++ outRlwe b ++ rest).drop (n * 2) = outRlwe b ++ rest := by
    rw [List.append_assoc, List.drop_append_of_le_length (by simp), List.drop_of_length_le (by simp), List.nil_append]
  have e3 : (outRlwe b ++ rest).take (n * 2) = outRlwe b := by
    rw [List.take_append_of_le_length (by simp), List.take_of_length_le (by simp)]
  have e4 : (outRlwe b ++ rest).drop (n * 2) = rest := by
    rw [List.drop_append_of_le_length (by simp), List.drop_of_length_le (by simp), List.nil_append]
  rw [forRows.eq_2, e1, e2]
  cases f i (outRlwe a) s with
  | none => rfl
  | some p =>
    obtain ⟨ra, s1⟩ := p
    simp only
    rw [forRows.eq_2, e3, e4]
    cases f (i + 1) (outRlwe b) s1 with
    | none => rfl
    | some p =>
      obtain ⟨rb, s2⟩ := p
      simp only
      cases forRows (n * 2) f c (i + 1 + 1) rest s2 with
      | none => rfl
      | some p => rfl

/-- The row loop as a loop over levels: if the two iterations of level `l` (from 0) turn row pair `r` into `F l r` (or panic), so does
the loop. `Inv` is an invariant of the loop state. -/
theorem forRows_levels {σ : Type} {f : Nat → Words → σ → Option (Words × σ)} {Inv : σ → Prop}
    {F : Nat → RLWE n × RLWE n → Option (RLWE n × RLWE n)}
    (hf : ∀ l r s, Inv s → match F l r with
      | none => f (2 * l) (outRlwe r.1) s = none
      | some q => ∃ s1 s2, f (2 * l) (outRlwe r.1) s = some (outRlwe q.1, s1) ∧ f (2 * l + 1) (outRlwe r.2) s1 = some (outRlwe q.2, s2) ∧ Inv s2)
    (R : List (RLWE n × RLWE n)) (l : Nat) (s : σ) (hs : Inv s) :
    (forRows (n * 2) f (2 * R.length) (2 * l) (R.flatMap fun r => outRlwe r.1 ++ outRlwe r.2) s).map (·.1) =
      (mapOption (fun p : (RLWE n × RLWE n) × Nat => F p.2 p.1) (R.zipIdx l)).map
        fun Q => Q.flatMap fun r => outRlwe r.1 ++ outRlwe r.2 := by
  induction R generalizing l s with
  | nil => rfl
  | cons r rs ih =>
    rw [List.flatMap_cons, List.length_cons, Nat.mul_succ 2, forRows_pair, List.zipIdx_cons]
    have := hf l r s hs
    unfold mapOption
    cases hF : F l r with
    | none =>
      rw [hF] at this; simp only at this
      rw [this]; rfl
    | some q =>
      rw [hF] at this; simp only at this
      obtain ⟨s1, s2, h1, h2, h3⟩ := this
      rw [h1]; simp only
      rw [h2]; simp only
      have ih := ih (l + 1) s2 h3
      rw [Nat.mul_succ 2] at ih
      cases hR : forRows (n * 2) f (2 * rs.length) (2 * l + 1 + 1) (rs.flatMap fun r => outRlwe r.1 ++ outRlwe r.2) s2 with
      | none =>
        rw [hR] at ih
        simp only [Option.map_none] at ih
        cases hm : mapOption (fun p : (RLWE n × RLWE n) × Nat => F p.2 p.1) (rs.zipIdx (l + 1)) with
        | none => rfl
        | some v => rw [hm] at ih; simp at ih
      | some v =>
        rw [hR] at ih
        cases hm : mapOption (fun p : (RLWE n × RLWE n) × Nat => F p.2 p.1) (rs.zipIdx (l + 1)) with
        | none => rw [hm] at ih; simp at ih
        | some Q =>
          rw [hm] at ih
          simp only [Option.map_some, Option.some.injEq] at ih
          simp [ih]

theorem ggswLoop_levels {σ : Type} (hn : 0 < n) {f : Nat → Words → σ → Option (Words × σ)} {Inv : σ → Prop}
    {F : Nat → RLWE n × RLWE n → Option (RLWE n × RLWE n)}
    (hf : ∀ l r s, Inv s → match F l r with
      | none => f (2 * l) (outRlwe r.1) s = none
      | some q => ∃ s1 s2, f (2 * l) (outRlwe r.1) s = some (outRlwe q.1, s1) ∧ f (2 * l + 1) (outRlwe r.2) s1 = some (outRlwe q.2, s2) ∧ Inv s2)
    (R : RGSW n) (s : σ) (hs : Inv s) :
    ggswLoop n (outRgsw R) f s = (mapOption (fun p : (RLWE n × RLWE n) × Nat => F p.2 p.1) (R.rows.zipIdx)).map
      fun Q => outRgsw ⟨R.baseLog, Q⟩ := by
  have := forRows_levels hf R.rows 0 s hs
  have hlen : ∀ (L : List ((RLWE n × RLWE n) × Nat)) Q, mapOption (fun p : (RLWE n × RLWE n) × Nat => F p.2 p.1) L = some Q →
      Q.length = L.length := by
    intro L
    induction L with
    | nil => intro Q h; simp [mapOption] at h; subst h; rfl
    | cons a as ih =>
      intro Q h
      unfold mapOption at h
      split at h
      · next b bs h1 h2 => simp only [Option.some.injEq] at h; subst h; simp [ih bs h2]
      · simp at h
  unfold ggswLoop
  rw [count_out hn]
  rw [show (outRgsw R).words = R.rows.flatMap fun r => outRlwe r.1 ++ outRlwe r.2 from rfl]
  cases hR : forRows (n * 2) f (2 * R.rows.length) 0 (R.rows.flatMap fun r => outRlwe r.1 ++ outRlwe r.2) s with
  | none =>
    rw [Nat.mul_zero, hR] at this
    cases hm : mapOption (fun p : (RLWE n × RLWE n) × Nat => F p.2 p.1) R.rows.zipIdx with
    | none => rfl
    | some v => rw [hm] at this; simp at this
  | some v =>
    rw [Nat.mul_zero, hR] at this
    cases hm : mapOption (fun p : (RLWE n × RLWE n) × Nat => F p.2 p.1) R.rows.zipIdx with
    | none => rw [hm] at this; simp at this
    | some Q =>
      rw [hm] at this
      simp only [Option.map_some, Option.some.injEq] at this
      obtain ⟨w, s'⟩ := v
      simp only at this
      subst this
      have hq := hlen _ _ hm
      simp only [List.length_zipIdx] at hq
      simp only [Option.map_some]
      congr 1
      show Ggsw.mk _ _ _ = Ggsw.mk _ _ _
      simp [outRgsw, hq]

end Flat
end Panacea
