import Verif.Model.Context
import Verif.Props.OramSetup

/-!
# C62: the plaintext and key generators of `Context`
-/

namespace Panacea
variable {n : Nat}

/-- C62 (shape): `gen_demuxed_pt(i)` panics iff `i` is not below the ring size, and otherwise is `X^i`; `gen_unit_pt` is the polynomial 1 and
`gen_zero_pt` the polynomial 0. -/
theorem C62_shapes (n : Nat) :
    (∀ i, genDemuxedPt n i = none ↔ n ≤ i) ∧ (∀ i p, genDemuxedPt n i = some p → p = Spec.X n ^ i) ∧
    (0 < n → genUnitPt n = some 1) ∧ (genZeroPt n = 0) := by
  refine ⟨fun i => ?_, fun i p h => ?_, fun h => ?_, rfl⟩
  · unfold genDemuxedPt
    split
    · simp; omega
    · simp; omega
  · unfold genDemuxedPt at h
    split at h
    · rename_i hi
      cases h
      rw [Spec.X, Poly.mono_pow, one_mul]
      refine Poly.ext (funext fun k => ?_)
      show (if k.val = i then (1 : Scalar) else 0) = if i % n = k.val then (-1) ^ (i / n) else 0
      rw [Nat.mod_eq_of_lt hi, Nat.div_eq_of_lt hi, pow_zero]
      by_cases hk : k.val = i
      · rw [if_pos hk, if_pos hk.symm]
      · rw [if_neg hk, if_neg (Ne.symm hk)]
    · cases h
  · unfold genUnitPt
    rw [if_pos h, set_zero_eq_const, Poly.const_one]

/-- A plaintext some generator of the context can produce for the codec of `ctx`. -/
inductive Spec.Generated (ctx : Ctx) : Poly n → Prop
  | binary (g : Gen n) : Spec.Generated ctx (genBinaryPt g).1
  | pt (g : Gen n) : Spec.Generated ctx (genPt ctx g).1
  | demuxed (i : Nat) (p : Poly n) (h : genDemuxedPt n i = some p) : Spec.Generated ctx p
  | unit (p : Poly n) (h : genUnitPt n = some p) : Spec.Generated ctx p
  | zero : Spec.Generated ctx (genZeroPt n)

theorem two_le_modulus {t : Scalar} {c : Codec} (hc : Codec.new t = some c) : 2 ≤ t.toNat := by
  obtain ⟨j, hj1, _, hj⟩ := (C02_new_isSome_iff t).mp (by rw [hc]; rfl)
  rw [hj]
  calc 2 = 2 ^ 1 := rfl
    _ ≤ 2 ^ j := Nat.pow_le_pow_right (by decide) hj1

theorem set_one_encodable {t : Scalar} {c : Codec} (hc : Codec.new t = some c) (i : Nat) : Spec.Encodable t (Poly.set (0 : Poly n) i 1) := by
  intro k
  have h2 := two_le_modulus hc
  show (if k.val = i then (1 : Scalar) else 0).toNat < t.toNat
  split
  · show 1 < t.toNat; omega
  · show 0 < t.toNat; omega

theorem generated_encodable {t : Scalar} {ctx : Ctx} (hc : Codec.new t = some ctx.codec) {p : Poly n} (h : Spec.Generated ctx p) :
    Spec.Encodable t p := by
  cases h with
  | binary g => exact genBinaryPt_encodable hc g
  | pt g => exact genPt_encodable hc g
  | demuxed i p h =>
    unfold genDemuxedPt at h
    split at h
    · cases h; exact set_one_encodable hc i
    · cases h
  | unit p h =>
    unfold genUnitPt at h
    split at h
    · cases h; exact set_one_encodable hc 0
    · cases h
  | zero =>
    intro k
    have h2 := two_le_modulus hc
    show (0 : Scalar).toNat < t.toNat
    show 0 < t.toNat
    omega

/-- C62 (round trip): every plaintext produced by `gen_binary_pt`, `gen_pt`, `gen_demuxed_pt`, `gen_unit_pt` or `gen_zero_pt` is accepted by
`encode_encrypt_rlwe` under every supported plaintext modulus, and is given back by `decrypt_decode_rlwe` whenever the noise stays in the
half-step window. -/
theorem C62_roundtrip {t : Scalar} {ctx : Ctx} (hc : Codec.new t = some ctx.codec) (s : Poly n) {p : Poly n} (h : Spec.Generated ctx p)
    (g : Gen n) (hg : ∀ k, Spec.InWindow t.toNat (g.noises g.pos k).toInt) :
    ∃ r, encodeEncryptRlwe ctx s p g = some r ∧ decryptDecodeRlwe ctx s r.1 = p := by
  rcases hr : encodeEncryptRlwe ctx s p g with _ | r
  · obtain ⟨k, hk⟩ := (C16_panics_iff hc s p g).mp hr
    have := generated_encodable hc h k
    omega
  · exact ⟨r, rfl, (C16_roundtrip_iff hc s p g r hr).mpr hg⟩

/-- C62 (ternary): `gen_ternary_ptxt` yields only -1, 0, 1, is accepted by `ternary_encrypt_rlwe` and given back by `ternary_decrypt_rlwe`
for all noise below `0x2AAAAAAAAAAAA800`. -/
theorem C62_ternary (s : Poly n) (g0 g : Gen n) (hg : Small (g.noises g.pos) (0x2AAAAAAAAAAAA800 - 1)) :
    (∀ k, (genTernaryPtxt g0).1 k = 0 ∨ (genTernaryPtxt g0).1 k = 1 ∨ (genTernaryPtxt g0).1 k = -1) ∧
    ∃ r, ternaryEncryptRlwe s (genTernaryPtxt g0).1 g = some r ∧ ternaryDecryptRlwe s r.1 = (genTernaryPtxt g0).1 := by
  have h : ∀ k, (genTernaryPtxt g0).1 k = 0 ∨ (genTernaryPtxt g0).1 k = 1 ∨ (genTernaryPtxt g0).1 k = -1 := fun k => by
    show ternaryOf _ = 0 ∨ ternaryOf _ = 1 ∨ ternaryOf _ = -1
    unfold ternaryOf
    split
    · exact Or.inl rfl
    · split
      · exact Or.inr (Or.inl rfl)
      · exact Or.inr (Or.inr rfl)
  refine ⟨h, ?_⟩
  obtain ⟨t1, t2⟩ := C16_ternary s (genTernaryPtxt g0).1 g
  rcases hr : ternaryEncryptRlwe s (genTernaryPtxt g0).1 g with _ | r
  · obtain ⟨k, hk⟩ := t1.mp hr
    exact absurd (h k) hk
  · exact ⟨r, rfl, t2 r hr hg⟩

theorem mod_two_bit (x : Scalar) : x % 2 = 0 ∨ x % 2 = 1 := by
  have h : (x % 2).toNat < 2 := by
    rw [BitVec.toNat_umod]
    exact Nat.mod_lt _ (by decide)
  rcases Nat.lt_succ_iff_lt_or_eq.mp h with h | h
  · left; apply BitVec.eq_of_toNat_eq; simpa using h
  · right; apply BitVec.eq_of_toNat_eq; simpa using h

/-- C62 (scalars): the scalar generators yield 0, 1 or a bit, all accepted by `encode_encrypt_lwe` and given back within the noise window. -/
theorem C62_scalar_roundtrip {t : Scalar} {ctx : Ctx} (hc : Codec.new t = some ctx.codec) (s : Poly n) {x : Scalar}
    (hx : x = genScalarZeroPt ∨ x = genScalarUnitPt ∨ ∃ g : Gen n, x = (genScalarBinaryPt g).1) (g : Gen n)
    (hg : Spec.InWindow t.toNat ((g.noises g.pos).get 0).toInt) :
    (x = 0 ∨ x = 1) ∧ ∃ r, encodeEncryptLwe ctx s x g = some r ∧ decodeDecryptLwe ctx s r.1 = x := by
  have hb : x = 0 ∨ x = 1 := by
    rcases hx with rfl | rfl | ⟨g0, rfl⟩
    · exact Or.inl rfl
    · exact Or.inr rfl
    · exact mod_two_bit _
  refine ⟨hb, ?_⟩
  obtain ⟨h1, h2⟩ := C17_roundtrip_iff hc s x g
  rcases hr : encodeEncryptLwe ctx s x g with _ | r
  · have := h1.mp hr
    have h2 := two_le_modulus hc
    rcases hb with rfl | rfl
    · have : t.toNat ≤ 0 := this
      omega
    · have : t.toNat ≤ 1 := this
      omega
  · exact ⟨r, rfl, (h2 r hr).mpr hg⟩

/-- C62 (keys): for every secret generator, `gen_rlwe_sk` and `gen_lwe_sk` are binary, read exactly `n` fresh words (so keys drawn one after
the other share none), and depend on no other generator; `RLWESecretKey::zero` decrypts every ciphertext to its body. -/
theorem C62_keys (n : Nat) (g : SecretGen) :
    Binary (genRlweSk n g).1 ∧ Binary (genLweSk n g).1 ∧ (genRlweSk n g).2.pos = g.pos + n ∧ (genLweSk n g).2.pos = g.pos + n ∧
    (∀ k : Fin n, (genRlweSk n g).1 k = g.words (g.pos + k.val) % 2) ∧
    ∀ c : RLWE n, decryptRlwe (zeroSk n) c = c.body := by
  refine ⟨fun k => mod_two_bit _, fun k => mod_two_bit _, rfl, rfl, fun _ => rfl, fun c => ?_⟩
  unfold decryptRlwe zeroSk
  ring

/-- `gen` makes its value from the plaintext randomness at the current position and from nothing else (so values drawn one after the other come from
different randomness), moves on by one position, and its possible values are exactly `values`, at every position. -/
structure Spec.FreshDraw {α : Type} (gen : Gen n → α × Gen n) (values : α → Prop) : Prop where
  next : ∀ g, (gen g).2 = ⟨g.masks, g.noises, g.plains, g.pos + 1⟩
  here : ∀ g g' : Gen n, g.plains g.pos = g'.plains g'.pos → (gen g).1 = (gen g').1
  range : ∀ g, values (gen g).1
  onto : ∀ (g : Gen n) (a : α), values a → ∃ w, (gen ⟨g.masks, g.noises, Function.update g.plains g.pos w, g.pos⟩).1 = a

theorem Spec.FreshDraw.coeffs (F : Scalar → Scalar) (v : Scalar → Prop) (h1 : ∀ x, v (F x)) (h2 : ∀ y, v y → F y = y) :
    Spec.FreshDraw (n := n) (α := Poly n) (fun g => (⟨fun k => F (g.plains g.pos k)⟩, g.next)) (fun p => ∀ k, v (p k)) where
  next g := rfl
  here g g' h := by dsimp only; rw [h]
  range g k := h1 _
  onto g p hp := ⟨p, by
    refine Poly.ext (funext fun k => ?_)
    show F (Function.update g.plains g.pos p g.pos k) = p k
    rw [Function.update_self]
    exact h2 _ (hp k)⟩

/-- C62 (randomness): `gen_binary_pt` can yield exactly the polynomials with coefficients 0 and 1, `gen_pt` those with coefficients below the plaintext
modulus, `gen_ternary_ptxt` those with coefficients 0, 1 and -1, `gen_scalar_binary_pt` 0 and 1; every call uses randomness no other call uses. -/
theorem C62_draws {t : Scalar} {ctx : Ctx} (hc : Codec.new t = some ctx.codec) :
    Spec.FreshDraw (n := n) genBinaryPt (fun p => ∀ k, p k = 0 ∨ p k = 1) ∧
    Spec.FreshDraw (n := n) (genPt ctx) (fun p => ∀ k, (p k).toNat < t.toNat) ∧
    Spec.FreshDraw (n := n) genTernaryPtxt (fun p => ∀ k, p k = 0 ∨ p k = 1 ∨ p k = -1) ∧
    (0 < n → Spec.FreshDraw (n := n) genScalarBinaryPt (fun x => x = 0 ∨ x = 1)) := by
  have ht : ctx.codec.ptModulus = t := (C02_pt_modulus hc).1
  have h2 := two_le_modulus hc
  refine ⟨Spec.FreshDraw.coeffs (n := n) (fun x => x % 2) (fun y => y = 0 ∨ y = 1) (fun x => mod_two_bit x) (fun y hy => ?_), ?_, ?_, fun hn => ?_⟩
  · rcases hy with rfl | rfl <;> rfl
  · unfold genPt
    rw [ht]
    refine Spec.FreshDraw.coeffs (fun x => x % t) (fun y => y.toNat < t.toNat) (fun x => ?_) (fun y hy => ?_)
    · rw [BitVec.toNat_umod]
      exact Nat.mod_lt _ (by omega)
    · apply BitVec.eq_of_toNat_eq
      rw [BitVec.toNat_umod, Nat.mod_eq_of_lt hy]
  · -- -1 is a multiple of 3, so the values are not fixed points
    have hon : ∀ y : Scalar, (y = 0 ∨ y = 1 ∨ y = -1) → ∃ x, ternaryOf x = y := by
      rintro y (rfl | rfl | rfl)
      · exact ⟨0, rfl⟩
      · exact ⟨1, rfl⟩
      · exact ⟨2, rfl⟩
    refine ⟨fun g => rfl, fun g g' h => ?_, fun g k => ?_, fun g p hp => ?_⟩
    · unfold genTernaryPtxt
      rw [h]
    · show ternaryOf _ = 0 ∨ ternaryOf _ = 1 ∨ ternaryOf _ = -1
      unfold ternaryOf
      split
      · exact Or.inl rfl
      · split
        · exact Or.inr (Or.inl rfl)
        · exact Or.inr (Or.inr rfl)
    · choose x hx using fun k => hon (p k) (hp k)
      refine ⟨⟨x⟩, Poly.ext (funext fun k => ?_)⟩
      show ternaryOf (Function.update g.plains g.pos ⟨x⟩ g.pos k) = p k
      rw [Function.update_self]
      exact hx k
  · refine ⟨fun g => rfl, fun g g' h => ?_, fun g => mod_two_bit _, fun g y hy => ?_⟩
    · unfold genScalarBinaryPt
      rw [h]
    · refine ⟨⟨fun _ => y⟩, ?_⟩
      show (Function.update g.plains g.pos (⟨fun _ => y⟩ : Poly n) g.pos).get 0 % 2 = y
      rw [Function.update_self]
      have : (⟨fun _ => y⟩ : Poly n).get 0 = y := by
        unfold Poly.get
        rw [dif_pos hn]
      rw [this]
      rcases hy with rfl | rfl <;> rfl

example : genDemuxedPt 4 2 = some ⟨fun k => if k.val = 2 then 1 else 0⟩ ∧ genDemuxedPt 4 4 = none := by decide +kernel
example : Spec.Generated (n := 4) exTreeCtx (genPt exTreeCtx exGen).1 := .pt _
example : ∃ r, encodeEncryptRlwe exCtx exKey (genPt exCtx exGen).1 exGen = some r ∧ decryptDecodeRlwe exCtx exKey r.1 = (genPt exCtx exGen).1 :=
  ⟨_, rfl, by decide +kernel⟩

end Panacea
