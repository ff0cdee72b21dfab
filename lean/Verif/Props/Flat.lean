import Verif.Lemmas.Flat

/-!
# C79: the flat word vectors hold what the ciphertexts say

Every wrapper and loop of `Model/Flat` (the code's slice arithmetic), run on vectors that hold some ciphertexts, yields a vector that
holds the result of the corresponding operation of the structured models, or panics exactly when that one does.
-/

namespace Panacea
namespace Flat
variable {n : Nat}

theorem agree_of_eq {α β : Type} {R : α → β → Prop} {x : Option α} {y : Option β} {f : β → α} (h : x = y.map f) (hf : ∀ b, R (f b) b) :
    Agree R x y := by
  subst h; cases y <;> simp [Agree, hf]

theorem storesAll_iff {α β : Type} {R : α → β → Prop} {f : β → α} (hf : ∀ a b, R a b ↔ a = f b) {ws : List α} {cs : List β} :
    StoresAll R ws cs ↔ ws = cs.map f := by
  unfold StoresAll
  induction cs generalizing ws with
  | nil => cases ws <;> simp
  | cons c cs ih =>
    cases ws with
    | nil => simp
    | cons w ws => simp [List.forall₂_cons, hf, ih]

theorem storesKsk_iff {K : Ksk} {L : KeyswitchKey n} : StoresKsk K L ↔ K = outKsk L := by
  constructor
  · rintro ⟨h1, h2, h3, h4⟩
    rw [storesAll_iff (f := outRlwe) (fun a b => storesRlwe_iff)] at h4
    obtain ⟨a, b, c, d⟩ := K
    simp only at h1 h2 h3 h4
    subst h1 h2 h3 h4; rfl
  · rintro rfl
    exact ⟨rfl, rfl, rfl, (storesAll_iff (f := outRlwe) (fun a b => storesRlwe_iff)).2 rfl⟩

/-! ## RLWE operations, as equations -/

theorem updateWithAdd_out (c d : RLWE n) : updateWithAdd n (outRlwe c) (outRlwe d) = outRlwe (c + d) := by
  unfold updateWithAdd updateMaskWithAdd updateBodyWithAdd
  simp only [getMask_out, getBody_out]
  rw [modMask_out c (add_out c.mask d.mask)]
  exact modBody_out ⟨c.mask + d.mask, c.body⟩ (add_out c.body d.body)

theorem updateWithSub_out (c d : RLWE n) : updateWithSub n (outRlwe c) (outRlwe d) = outRlwe (c - d) := by
  unfold updateWithSub updateMaskWithSub updateBodyWithSub
  simp only [getMask_out, getBody_out]
  rw [modMask_out c (sub_out c.mask d.mask)]
  exact modBody_out ⟨c.mask - d.mask, c.body⟩ (sub_out c.body d.body)

theorem leqWords_out (n d : Nat) : leqWords n d = out (RLWE.leqPoly n d) := by
  unfold leqWords
  refine List.ext_getElem (by simp) fun i h1 h2 => ?_
  simp only [length_out] at h2
  simp only [out, List.getElem_ofFn, RLWE.leqPoly]
  by_cases h : n - d ≤ i
  · rw [if_pos h, List.getElem_append_right (by simp; omega)]
    simp
  · rw [if_neg h, List.getElem_append_left (by simp; omega), List.getElem_take, List.getElem_set]
    by_cases h0 : i = 0
    · simp [h0]
    · rw [if_neg (fun e => h0 e.symm), if_neg h0]; simp

theorem eqWords_out (n d : Nat) : eqWords n d = out (RLWE.eqPoly n d) := by
  unfold eqWords RLWE.eqPoly
  split <;> simp only [replicate_out, set_out]

theorem addFirst_out (p : Poly n) (δ : Scalar) : addFirst δ (out p) = out (p.set 0 (p.get 0 + δ)) := by
  cases n with
  | zero => refine List.ext_getElem ?_ (fun i h1 h2 => ?_) <;> simp_all [out, addFirst]
  | succ n =>
    rw [← set_out]
    have : (out p).getD 0 0 = p.get 0 := getD_out p 0
    cases h : out p with
    | nil => have := length_out p; rw [h] at this; simp at this
    | cons x xs => rw [h] at this; simp at this; simp [addFirst, this]

theorem evalXk_out (p : Poly n) (k : Nat) : evalXk n (out p) k = (Panacea.evalXk p k).map out := by
  unfold evalXk Panacea.evalXk evalXkInMemory
  split
  · split
    · simp only [Option.map_some, replicate_out, getD_out, set_out]
      congr 1
      generalize (0 : Poly n).set 0 (p.get 0) = o
      induction List.range' 1 (n - 1) generalizing o with
      | nil => rfl
      | cons i is ih =>
        rw [List.foldl_cons, List.foldl_cons, ← ih]
        congr 1
        unfold evalXkStep Panacea.evalXkStep
        rw [getD_out, set_out]
    · rfl
  · rfl

theorem rgsw_row (C : Ggsw) (l : Nat) (h : l < (rgsw n C).rows.length) : (rgsw n C).rows[l] =
    (⟨poly n (((C.words.drop (l * (2 * (n * 2)))).take (2 * (n * 2))).take n),
      poly n ((((C.words.drop (l * (2 * (n * 2)))).take (2 * (n * 2))).drop n).take n)⟩,
     ⟨poly n ((((C.words.drop (l * (2 * (n * 2)))).take (2 * (n * 2))).drop (n * 2)).take n),
      poly n ((((C.words.drop (l * (2 * (n * 2)))).take (2 * (n * 2))).drop (n * 2 + n)).take n)⟩) := by
  simp only [rgsw, List.getElem_map, List.getElem_range]

/-- **C79** (layout) Every vector of `2n` words holds exactly one RLWE ciphertext, and every ciphertext is held by exactly one vector; the
same for RGSW ciphertexts (`4n` words per level) and LWE ciphertexts (`n+1` words). -/
theorem C79_layout :
    (∀ w : List Scalar, w.length = 2 * n → ∃! c : RLWE n, StoresRlwe w c) ∧ (∀ c : RLWE n, ∃! w, StoresRlwe w c) ∧
    (∀ C : Ggsw, C.words.length = 4 * n * C.levelCount → 0 < n → ∃! R : RGSW n, StoresRgsw C R) ∧
    (∀ R : RGSW n, ∃! C, StoresRgsw C R) ∧
    (∀ c : LWE n, ∃! w, StoresLwe w c) := by
  refine ⟨fun w hw => ?_, fun c => ⟨_, storesRlwe_iff.2 rfl, fun w h => storesRlwe_iff.1 h⟩, fun C hC hn => ?_,
    fun R => ⟨_, storesRgsw_iff.2 rfl, fun C h => storesRgsw_iff.1 h⟩, fun c => ?_⟩
  · refine ⟨rlwe n w, storesRlwe_iff.2 (outRlwe_rlwe (by omega)).symm, fun c h => ?_⟩
    rw [storesRlwe_iff.1 h, rlwe_out]
  · refine ⟨rgsw n C, ?_, fun R h => ?_⟩
    · have hlen : (rgsw n C).rows.length = C.levelCount := by simp [rgsw]
      have hpos : ∀ l < C.levelCount, ∀ j, j < 4 * n → 4 * n * l + j < C.words.length := by
        intro l hl j hj
        rw [hC]
        calc 4 * n * l + j < 4 * n * l + 4 * n := by omega
          _ = 4 * n * (l + 1) := by ring
          _ ≤ 4 * n * C.levelCount := Nat.mul_le_mul_left _ hl
      have hat : ∀ l < C.levelCount, ∀ j, j < 4 * n → C.words[4 * n * l + j]? = some (C.words.getD (4 * n * l + j) 0) := by
        intro l hl j hj
        rw [List.getElem?_eq_getElem (hpos l hl j hj)]
        simp [List.getD, List.getElem?_eq_getElem (hpos l hl j hj)]
      have hg : ∀ (l k o : Nat), k < n → o + n ≤ 4 * n →
          (List.take n (List.drop o (List.take (2 * (n * 2)) (List.drop (l * (2 * (n * 2))) C.words)))).getD k 0 =
            C.words.getD (4 * n * l + (o + k)) 0 := by
        intro l k o hk ho
        simp only [List.getD, List.getElem?_take, List.getElem?_drop]
        rw [if_pos hk, if_pos (by omega), show l * (2 * (n * 2)) + (o + k) = 4 * n * l + (o + k) by ring]
      refine ⟨rfl, hlen.symm, by rw [hC, hlen], fun l k => ?_, fun l k => ?_, fun l k => ?_, fun l k => ?_⟩
      · have hl : l.val < C.levelCount := by have := l.2; omega
        rw [hat l.val hl k.val (by omega)]
        have := hg l.val k.val 0 k.2 (by omega)
        simp only [List.drop_zero, Nat.zero_add] at this
        rw [Fin.getElem_fin, rgsw_row]; simp only [poly]
        rw [this]
      · have hl : l.val < C.levelCount := by have := l.2; omega
        rw [Nat.add_assoc, hat l.val hl (n + k.val) (by omega)]
        rw [Fin.getElem_fin, rgsw_row]; simp only [poly]
        rw [hg l.val k.val n k.2 (by omega)]
      · have hl : l.val < C.levelCount := by have := l.2; omega
        rw [Nat.add_assoc, hat l.val hl (2 * n + k.val) (by omega)]
        rw [Fin.getElem_fin, rgsw_row]; simp only [poly]
        rw [hg l.val k.val (n * 2) k.2 (by omega), Nat.mul_comm n 2]
      · have hl : l.val < C.levelCount := by have := l.2; omega
        rw [Nat.add_assoc, hat l.val hl (3 * n + k.val) (by omega)]
        rw [Fin.getElem_fin, rgsw_row]; simp only [poly]
        rw [hg l.val k.val (n * 2 + n) k.2 (by omega), show n * 2 + n = 3 * n by omega]
    · rw [storesRgsw_iff.1 h, rgsw_out]
  · refine ⟨outLwe c, ⟨by simp [outLwe], fun k => ?_, ?_⟩, fun w h => ?_⟩
    · unfold outLwe; rw [List.getElem?_append_left (by simp), out_getElem?]
    · unfold outLwe; rw [List.getElem?_append_right (by simp)]; simp
    · refine List.ext_getElem? fun i => ?_
      unfold outLwe
      by_cases hi : i < n
      · rw [h.mask ⟨i, hi⟩, List.getElem?_append_left (by simpa using hi), out_getElem? c.mask ⟨i, hi⟩]
      · by_cases e : i = n
        · subst e; rw [h.body, List.getElem?_append_right (by simp)]; simp
        · rw [List.getElem?_eq_none (by rw [h.length]; omega), List.getElem?_eq_none (by simp; omega)]

/-- **C79** (allocation, clearing, copying) -/
theorem C79_buffers {w v : Words} {c d : RLWE n} (hw : StoresRlwe w c) (hv : StoresRlwe v d) (bl lc : Nat) :
    StoresRlwe (allocate n) (0 : RLWE n) ∧ StoresRlwe (clear w) (0 : RLWE n) ∧ StoresRlwe (fillWithCopy w v) d ∧
    StoresPoly (getMask n w) c.mask ∧ StoresPoly (getBody n w) c.body ∧
    StoresRgsw (ggswAllocate n bl lc) (RGSW.allocate n bl lc) ∧ StoresKsk (kskAllocate n bl lc) (KeyswitchKey.allocate n bl lc) := by
  rw [storesRlwe_iff] at hw hv
  subst hw hv
  refine ⟨storesRlwe_iff.2 allocate_out, storesRlwe_iff.2 ?_, storesRlwe_iff.2 (copy_outRlwe c d), storesPoly_iff.2 (getMask_out c),
    storesPoly_iff.2 (getBody_out c), storesRgsw_iff.2 (ggswAllocate_out bl lc), storesKsk_iff.2 ?_⟩
  · unfold clear outRlwe; rw [List.map_append]
    exact congrArg₂ _ (clear_out c.mask) (clear_out c.body)
  · unfold kskAllocate outKsk KeyswitchKey.allocate
    simp [allocate_out]

/-- **C79** (addition and subtraction) of a ciphertext, and of a polynomial to one half. -/
theorem C79_add_sub {w v p : Words} {c d : RLWE n} {q : Poly n} (hw : StoresRlwe w c) (hv : StoresRlwe v d) (hp : StoresPoly p q) :
    StoresRlwe (updateWithAdd n w v) (c + d) ∧ StoresRlwe (updateWithSub n w v) (c - d) ∧
    StoresRlwe (updateMaskWithAdd n w p) ⟨c.mask + q, c.body⟩ ∧ StoresRlwe (updateMaskWithSub n w p) ⟨c.mask - q, c.body⟩ ∧
    StoresRlwe (updateBodyWithAdd n w p) ⟨c.mask, c.body + q⟩ ∧ StoresRlwe (updateBodyWithSub n w p) ⟨c.mask, c.body - q⟩ := by
  rw [storesRlwe_iff] at hw hv; rw [storesPoly_iff] at hp
  subst hw hv hp
  simp only [storesRlwe_iff]
  exact ⟨updateWithAdd_out c d, updateWithSub_out c d, modMask_out c (add_out _ _), modMask_out c (sub_out _ _),
    modBody_out c (add_out _ _), modBody_out c (sub_out _ _)⟩

/-- **C79** (products with a polynomial, monomial division) -/
theorem C79_mul (fft : Fft n) {w p : Words} {c : RLWE n} {q : Poly n} (hw : StoresRlwe w c) (hp : StoresPoly p q) (m : Nat) :
    StoresRlwe (updateMaskWithMul n w p) (c.updateMaskWithMul q) ∧ StoresRlwe (updateBodyWithMul n w p) (c.updateBodyWithMul q) ∧
    StoresRlwe (updateMaskWithMulWithBuf fft w p) ⟨Panacea.fourierUpdateWithMul fft c.mask q, c.body⟩ ∧
    StoresRlwe (updateBodyWithMulWithBuf fft w p) ⟨c.mask, Panacea.fourierUpdateWithMul fft c.body q⟩ ∧
    StoresRlwe (updateWithMonomialDiv n w m) (c.monomialDiv m) := by
  rw [storesRlwe_iff] at hw; rw [storesPoly_iff] at hp
  subst hw hp
  simp only [storesRlwe_iff]
  refine ⟨?_, ?_, modMask_out c ?_, modBody_out c ?_, ?_⟩
  · unfold updateMaskWithMul
    simp only [getMask_out, replicate_out, copy_out]
    rw [modMask_out c (clear_out c.mask)]
    exact modMask_out ⟨0, c.body⟩ (p := 0 + c.mask * q) (by unfold naiveUpdateWithMulAcc; simp only [poly_out, add_out])
  · unfold updateBodyWithMul
    simp only
    rw [modBody_out c (clear_out c.body)]
    exact modBody_out ⟨c.mask, 0⟩ (p := 0 * q) (by unfold naiveUpdateWithMul; simp only [poly_out, copy_out])
  · unfold fourierUpdateWithMul; simp
  · unfold fourierUpdateWithMul; simp
  · unfold updateWithMonomialDiv
    simp only
    rw [modBody_out c (p := RLWE.polyMonomialDiv c.body m) (by simp)]
    exact modMask_out _ (by simp)

/-- **C79** (comparisons) `less_eq_than` and `eq_to`, including their panics. -/
theorem C79_compare (fft : Fft n) {w : Words} {c : RLWE n} (hw : StoresRlwe w c) (d : Nat) :
    Agree StoresRlwe (lessEqThan fft w d) (c.lessEqThan fft d) ∧ Agree StoresRlwe (eqTo fft w d) (c.eqTo fft d) := by
  have hw' := hw
  rw [storesRlwe_iff] at hw; subst hw
  unfold lessEqThan eqTo RLWE.lessEqThan RLWE.eqTo
  constructor
  · split
    · simp only [Agree]
      rw [leqWords_out]
      have h1 := (C79_mul fft hw' (storesPoly_iff.2 rfl : StoresPoly (out (RLWE.leqPoly n d)) _) 0).2.2.2.1
      exact (C79_mul fft h1 (storesPoly_iff.2 rfl : StoresPoly (out (RLWE.leqPoly n d)) _) 0).2.2.1
    · trivial
  · split
    · simp only [Agree]
      rw [eqWords_out]
      have h1 := (C79_mul fft hw' (storesPoly_iff.2 rfl : StoresPoly (out (RLWE.eqPoly n d)) _) 0).2.2.2.1
      exact (C79_mul fft h1 (storesPoly_iff.2 rfl : StoresPoly (out (RLWE.eqPoly n d)) _) 0).2.2.1
    · trivial

/-- **C79** (negation) `not` and `not_in_place`. -/
theorem C79_not {w : Words} {c : RLWE n} (hw : StoresRlwe w c) :
    StoresRlwe (notInPlace n w) c.notInPlace ∧ StoresRlwe (not n w) c.not := by
  rw [storesRlwe_iff] at hw; subst hw
  simp only [storesRlwe_iff]
  constructor
  · unfold notInPlace
    simp only
    have : (outRlwe c).map (fun x => 0 - x) = outRlwe (⟨⟨fun k => 0 - c.mask k⟩, ⟨fun k => 0 - c.body k⟩⟩ : RLWE n) := by
      unfold outRlwe; rw [List.map_append, map_out, map_out]
    rw [this]
    exact modBody_out _ (addFirst_out _ _)
  · unfold not
    simp only
    rw [allocate_out, show subWords (outRlwe (0 : RLWE n)) (outRlwe c) = outRlwe (0 - c) from zipWith_outRlwe _ 0 c]
    exact modBody_out _ (addFirst_out _ _)

/-- **C79** (substitution of the indeterminate on words) `eval_x_k`, including its panics. -/
theorem C79_eval_x_k {w : Words} {p : Poly n} (hw : StoresPoly w p) (k : Nat) :
    Agree StoresPoly (evalXk n w k) (Panacea.evalXk p k) := by
  rw [storesPoly_iff] at hw; subst hw
  exact agree_of_eq (evalXk_out p k) fun b => storesPoly_iff.2 rfl

/-! ## RGSW operations -/

theorem getNthRow_out (hn : 0 < n) (R : RGSW n) (i : Nat) : getNthRow n (outRgsw R) i = (R.getNthRow i).map outRlwe := by
  unfold getNthRow RGSW.getNthRow
  rw [count_out hn]
  by_cases h : i < 2 * R.rows.length
  · have hl : i / 2 < R.rows.length := by omega
    rw [if_pos h, List.getElem?_eq_getElem hl]
    simp only [Option.map_some]
    congr 1
    have hrow : ((outRgsw R).words.drop (i * (n * 2))).take (n * 2) =
        outRlwe (if i % 2 = 0 then R.rows[i / 2].1 else R.rows[i / 2].2) := by
      have hlev := level_flat R.rows (i / 2) hl
      rcases Nat.mod_two_eq_zero_or_one i with h0 | h1
      · rw [if_pos h0]
        have e : i * (n * 2) = i / 2 * (2 * (n * 2)) := by
          conv_lhs => rw [← Nat.div_add_mod i 2, h0]
          ring
        rw [e]
        have := congrArg (List.take (n * 2)) hlev
        rw [List.take_take, Nat.min_eq_left (by omega), List.take_append_of_le_length (by simp),
          List.take_of_length_le (l := outRlwe _) (by simp)] at this
        exact this
      · rw [if_neg (by omega)]
        have e : i * (n * 2) = i / 2 * (2 * (n * 2)) + n * 2 := by
          conv_lhs => rw [← Nat.div_add_mod i 2, h1]
          ring
        rw [e, ← List.drop_drop]
        have := congrArg (List.drop (n * 2)) hlev
        rw [List.drop_take, List.drop_append_of_le_length (by simp), List.drop_of_length_le (l := outRlwe _) (by simp),
          List.nil_append, show 2 * (n * 2) - n * 2 = n * 2 by omega] at this
        exact this
    rw [hrow, allocate_out, copy_outRlwe]
  · rw [if_neg h, List.getElem?_eq_none (by omega)]; rfl

/-- **C79** (rows) `get_nth_row`, `get_last_row`, `ciphertext_count`, including the panic for a row that does not exist. -/
theorem C79_rows (hn : 0 < n) {C : Ggsw} {R : RGSW n} (hC : StoresRgsw C R) (i : Nat) :
    ciphertextCount n C = 2 * R.levelCount ∧ Agree StoresRlwe (getNthRow n C i) (R.getNthRow i) ∧
    Agree StoresRlwe (getLastRow n C) R.getLastRow := by
  rw [storesRgsw_iff] at hC; subst hC
  refine ⟨count_out hn R, agree_of_eq (getNthRow_out hn R i) fun b => storesRlwe_iff.2 rfl,
    agree_of_eq (f := outRlwe) ?_ fun b => storesRlwe_iff.2 rfl⟩
  unfold getLastRow RGSW.getLastRow
  by_cases h : (outRgsw R).levelCount = 0
  · rw [if_pos h, if_pos (show R.levelCount = 0 from h)]; rfl
  · rw [if_neg h, if_neg (show ¬ R.levelCount = 0 from h)]
    exact getNthRow_out hn R _

/-- **C79** (RGSW addition, external product, cmux) -/
theorem C79_rgsw (fft : Fft n) {C D : Ggsw} {R S : RGSW n} {o a b : Words} {co ca cb : RLWE n} (hC : StoresRgsw C R) (hD : StoresRgsw D S)
    (hl : R.rows.length = S.rows.length) (ho : StoresRlwe o co) (ha : StoresRlwe a ca) (hb : StoresRlwe b cb) :
    StoresRgsw (ggswUpdateWithAdd C D) (R.updateWithAdd S) ∧
    StoresRlwe (externalProduct fft C o a) (Panacea.externalProduct fft R co ca) ∧
    StoresRlwe (cmux fft C o a b) (Panacea.cmux fft R co ca cb) := by
  rw [storesRgsw_iff] at hC hD; rw [storesRlwe_iff] at ho ha hb
  subst hC hD ho ha hb
  simp only [storesRgsw_iff, storesRlwe_iff]
  refine ⟨?_, ?_, ?_⟩
  · unfold ggswUpdateWithAdd RGSW.updateWithAdd outRgsw
    simp only [List.length_zipWith]
    rw [← hl, Nat.min_self]
    congr 1
    obtain ⟨_, rs⟩ := R
    obtain ⟨_, ss⟩ := S
    simp only at hl ⊢
    induction rs generalizing ss with
    | nil => simp [addWords]
    | cons r rs ih =>
      cases ss with
      | nil => simp at hl
      | cons s ss =>
        rw [List.flatMap_cons, List.flatMap_cons, List.zipWith_cons_cons, List.flatMap_cons, ← ih ss (by simpa using hl)]
        unfold addWords
        rw [List.zipWith_append (by simp), List.zipWith_append (by simp), zipWith_outRlwe, zipWith_outRlwe]
        rfl
  · unfold externalProduct; simp
  · unfold cmux
    simp only [allocate_out, copy_outRlwe, updateWithSub_out]
    unfold externalProduct; simp; rfl

theorem gadgetWord_some {bl level : Nat} (h0 : 0 < bl) (hl : 0 < level) (h : bl * level ≤ 64) : gadgetWord bl level = some (gadget bl level) := by
  have : 0 < bl * level := Nat.mul_pos h0 hl
  unfold gadgetWord gadget
  rw [if_pos h, if_pos (by omega)]

theorem mapOption_some_iff {α β : Type} {f : α → Option β} {g : α → β} {l : List α} (h : ∀ a ∈ l, f a = some (g a)) :
    mapOption f l = some (l.map g) := by
  induction l with
  | nil => rfl
  | cons a as ih =>
    unfold mapOption
    rw [h a (by simp), ih fun b hb => h b (by simp [hb])]; rfl

/-- Version of `ggswLoop_levels` where the loop cannot panic on the levels that exist. -/
theorem ggswLoop_total {σ : Type} (hn : 0 < n) {f : Nat → Words → σ → Option (Words × σ)} {Inv : σ → Prop}
    {F : Nat → RLWE n × RLWE n → RLWE n × RLWE n} (R : RGSW n)
    (hf : ∀ l r s, l < R.rows.length → Inv s → ∃ s1 s2, f (2 * l) (outRlwe r.1) s = some (outRlwe (F l r).1, s1) ∧
      f (2 * l + 1) (outRlwe r.2) s1 = some (outRlwe (F l r).2, s2) ∧ Inv s2)
    (s : σ) (hs : Inv s) :
    ggswLoop n (outRgsw R) f s = some (outRgsw ⟨R.baseLog, R.rows.zipIdx.map fun p => F p.2 p.1⟩) := by
  have aux : ∀ (rows : List (RLWE n × RLWE n)) (l : Nat) (s : σ), l + rows.length ≤ R.rows.length → Inv s →
      ∃ s', forRows (n * 2) f (2 * rows.length) (2 * l) (rows.flatMap fun r => outRlwe r.1 ++ outRlwe r.2) s =
        some (((rows.zipIdx l).map fun p => F p.2 p.1).flatMap (fun r => outRlwe r.1 ++ outRlwe r.2), s') := by
    intro rows
    induction rows with
    | nil => intro l s _ _; exact ⟨s, rfl⟩
    | cons r rs ih =>
      intro l s hl hs
      simp only [List.length_cons] at hl
      obtain ⟨s1, s2, h1, h2, h3⟩ := hf l r s (by omega) hs
      obtain ⟨s', ih⟩ := ih (l + 1) s2 (by omega) h3
      rw [Nat.mul_succ 2] at ih
      refine ⟨s', ?_⟩
      rw [List.flatMap_cons, List.length_cons, Nat.mul_succ 2, forRows_pair, List.zipIdx_cons, h1]
      simp only
      rw [h2]; simp only
      rw [ih]
      simp
  obtain ⟨s', h⟩ := aux R.rows 0 s (by omega) hs
  unfold ggswLoop
  rw [count_out hn, show (outRgsw R).words = R.rows.flatMap fun r => outRlwe r.1 ++ outRlwe r.2 from rfl]
  rw [Nat.mul_zero] at h
  rw [h]
  simp [outRgsw]

theorem encryptRgswRow_out (ctx : Ctx) (m buf : Poly n) {l : Nat} (h0 : 0 < ctx.baseLog) (h : ctx.baseLog * (l + 1) ≤ 64)
    (r : RLWE n × RLWE n) :
    ∃ s1 s2 : Poly n, encryptRgswRow n ctx (out m) (2 * l) (outRlwe r.1) (out buf) =
        some (outRlwe (encryptRgswLevel ctx m r (l + 1)).1, out s1) ∧
      encryptRgswRow n ctx (out m) (2 * l + 1) (outRlwe r.2) (out s1) =
        some (outRlwe (encryptRgswLevel ctx m r (l + 1)).2, out s2) := by
  refine ⟨m.mulConst (gadget ctx.baseLog (l + 1)), m.mulConst (gadget ctx.baseLog (l + 1)), ?_, ?_⟩
  · unfold encryptRgswRow
    simp only [show 2 * l / 2 = l by omega, gadgetWord_some h0 (Nat.succ_pos l) h, copy_out, mulConst_out,
      show 2 * l % 2 = 0 by omega, if_true]
    exact congrArg (fun w => some (w, _)) (modMask_out r.1 (add_out r.1.mask (m.mulConst (gadget ctx.baseLog (l + 1)))))
  · unfold encryptRgswRow
    simp only [show (2 * l + 1) / 2 = l by omega, gadgetWord_some h0 (Nat.succ_pos l) h, copy_out, mulConst_out,
      show (2 * l + 1) % 2 = 1 by omega]
    rw [if_neg (by omega)]
    exact congrArg (fun w => some (w, _)) (modBody_out r.2 (add_out r.2.body (m.mulConst (gadget ctx.baseLog (l + 1)))))

theorem mapGen_length {α β : Type} (f : α → Gen n → β × Gen n) (l : List α) (g : Gen n) : (mapGen f l g).1.length = l.length := by
  induction l generalizing g with
  | nil => rfl
  | cons a as ih => simp [mapGen, ih]

theorem zipWith_range_zipIdx {α β : Type} (f : α → Nat → β) (l : List α) (k : Nat) :
    List.zipWith f l (List.range' k l.length) = (l.zipIdx k).map fun p => f p.1 p.2 := by
  induction l generalizing k with
  | nil => rfl
  | cons a as ih => simp [List.range'_succ, ih, List.zipIdx_cons]

theorem zipIdx_shift {α β : Type} (f : α → Nat → β) (l : List α) (k : Nat) :
    ((l.zipIdx (k + 1)).map fun p => f p.1 p.2) = (l.zipIdx k).map fun p => f p.1 (p.2 + 1) := by
  induction l generalizing k with
  | nil => rfl
  | cons a as ih => simp [List.zipIdx_cons, ih]

theorem encryptRgsw_out (hn : 0 < n) (ctx : Ctx) (s m : Poly n) (bl lc : Nat) (g : Gen n) (h0 : 0 < ctx.baseLog)
    (h : ctx.baseLog * lc ≤ 64) :
    encryptRgsw ctx s bl lc (out m) g =
      some (outRgsw (Panacea.encryptRgsw ctx s bl lc m g).1, (Panacea.encryptRgsw ctx s bl lc m g).2) := by
  unfold encryptRgsw Panacea.encryptRgsw
  simp only
  have hlen : (encryptConstantRgsw s bl lc 0 g).1.rows.length = lc := by
    show (mapGen _ _ _).1.length = _
    rw [mapGen_length]; simp
  rw [replicate_out, ggswLoop_total hn (Inv := fun w => ∃ p : Poly n, w = out p)
    (F := fun l r => encryptRgswLevel ctx m r (l + 1)) (encryptConstantRgsw s bl lc 0 g).1 ?_ _ ⟨0, rfl⟩]
  · simp only
    congr 2
    congr 1
    rw [← zipIdx_shift (fun r l => encryptRgswLevel ctx m r l)]
    rw [show List.range' 1 lc = List.range' 1 (encryptConstantRgsw s bl lc 0 g).1.rows.length by rw [hlen]]
    rw [zipWith_range_zipIdx]
  · rintro l r _ hl ⟨p, rfl⟩
    obtain ⟨s1, s2, e1, e2⟩ := encryptRgswRow_out ctx m p h0
      (le_trans (Nat.mul_le_mul_left _ (show l + 1 ≤ lc by omega)) h) r
    exact ⟨out s1, out s2, e1, e2, s2, rfl⟩

/-- **C79** (RGSW encryption of a polynomial) for parameters that do not overflow the shift: `encrypt_rgsw`, and `neg_gsw` including
its panic for a key that is not binary. -/
theorem C79_encrypt_rgsw (hn : 0 < n) (ctx : Ctx) {w : Words} {m : Poly n} (hm : StoresPoly w m) (s : Poly n) (bl lc : Nat) (g : Gen n)
    (h0 : 0 < ctx.baseLog) (h : ctx.baseLog * lc ≤ 64) (hneg : ctx.baseLog * ctx.negsLevelCount ≤ 64) :
    Agree (fun a b => StoresRgsw a.1 b.1 ∧ a.2 = b.2) (encryptRgsw ctx s bl lc w g) (some (Panacea.encryptRgsw ctx s bl lc m g)) ∧
    Agree (fun a b => StoresRgsw a.1 b.1 ∧ a.2 = b.2) (negGsw ctx w g) (Panacea.negGsw ctx m g) := by
  rw [storesPoly_iff] at hm; subst hm
  refine ⟨?_, ?_⟩
  · rw [encryptRgsw_out hn ctx s m bl lc g h0 h]
    exact ⟨storesRgsw_iff.2 rfl, rfl⟩
  · unfold negGsw Panacea.negGsw
    have hz : ((List.replicate n (0 : Scalar)).zip (out m)).map (·.2) = out m := by
      apply List.map_snd_zip; simp
    rw [hz]
    by_cases hb : ∀ k, m k = 0 ∨ m k = 1
    · rw [if_pos hb, mapOption_some_iff (g := fun y => y * scalarMAX) (l := out m)]
      · simp only
        rw [poly_out, map_out, encryptRgsw_out hn ctx m _ _ _ g h0 hneg]
        exact ⟨storesRgsw_iff.2 rfl, rfl⟩
      · intro y hy
        simp only [out, List.mem_ofFn] at hy
        obtain ⟨k, rfl⟩ := hy
        exact if_pos (hb k)
    · rw [if_neg hb]
      have : mapOption negWord (out m) = none := by
        push Not at hb
        obtain ⟨k, hk⟩ := hb
        have hmem : m k ∈ out m := by simp [out, List.mem_ofFn]
        revert hmem
        generalize out m = l
        intro hmem
        induction l with
        | nil => simp at hmem
        | cons a as ih =>
          unfold mapOption
          rcases List.mem_cons.1 hmem with e | e
          · rw [← e, show negWord (m k) = none from if_neg (by tauto)]
          · rw [ih e]; cases negWord a <;> rfl
      rw [this]; trivial

/-- **C79** (RGSW encryption, overflow) a level whose shift `64 - base_log * level` is negative is a panic, also through `neg_gsw`: the
context's `base_log` is used with the ciphertext's level count. -/
theorem C79_encrypt_rgsw_overflow (hn : 0 < n) (ctx : Ctx) (w : Words) (s : Poly n) (bl lc : Nat) (g : Gen n)
    (h : 64 < ctx.baseLog * lc) : encryptRgsw ctx s bl lc w g = none := by
  unfold encryptRgsw
  simp only
  have hlen : (encryptConstantRgsw s bl lc 0 g).1.rows.length = lc := by
    show (mapGen _ _ _).1.length = _
    rw [mapGen_length]; simp
  have hlc : 0 < lc := Nat.pos_of_ne_zero fun e => by rw [e] at h; omega
  have aux : ∀ (c i : Nat) (ws : Words) (buf : Words), i ≤ 2 * (lc - 1) → 2 * (lc - 1) < i + c →
      forRows (n * 2) (encryptRgswRow n ctx w) c i ws buf = none := by
    intro c
    induction c with
    | zero => intro i ws buf h1 h2; omega
    | succ c ih =>
      intro i ws buf h1 h2
      rw [forRows.eq_2]
      by_cases hi : i = 2 * (lc - 1)
      · have : encryptRgswRow n ctx w i (ws.take (n * 2)) buf = none := by
          unfold encryptRgswRow
          have e : i / 2 + 1 = lc := by omega
          simp only [e]
          rw [show gadgetWord ctx.baseLog lc = none from if_neg (by omega)]
        rw [this]
      · cases encryptRgswRow n ctx w i (ws.take (n * 2)) buf with
        | none => rfl
        | some p =>
          simp only
          rw [ih (i + 1) _ _ (by omega) (by omega)]
  unfold ggswLoop
  rw [count_out hn, hlen, aux _ _ _ _ (by omega) (by omega)]

end Flat
end Panacea
