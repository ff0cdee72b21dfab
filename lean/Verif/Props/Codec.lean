import Verif.Lemmas.CodecDecode

/-!
# C01-C05: codec and log2

Statements are about `Codec.new`, `encode`, `decode`, ... with plaintexts and errors as integers; the only
specification vocabulary is integer arithmetic.  `BitVec.ofInt 64 z` is the 64-bit word congruent to `z`.
-/

namespace Panacea

/-- C01.  For every modulus accepted by `Codec::new`, every plaintext and every centred 64-bit error:
decoding succeeds *iff* the error lies in the half-open half-delta window. -/
theorem C01_decode_iff {t : Scalar} {c : Codec} (hc : Codec.new t = some c)
    (m w : Scalar) (hw : c.encode m = some w) (e : Int) (he1 : -2 ^ 63 ≤ e) (he2 : e < 2 ^ 63) :
    c.decode (w + BitVec.ofInt 64 e) = m ↔ Spec.InWindow t.toNat e := by
  obtain ⟨wf, ht⟩ := Codec.new_wf hc
  have h1 := wf.one_le; have h2 := wf.le
  rw [wf.encode_eq] at hw
  split at hw <;> cases hw
  rename_i hm
  rw [mul_delta_ofInt wf, ← BitVec.ofInt_add, ← BitVec.toNat_inj, ← Int.ofNat_inj, wf.decode_encode_add, ht,
    ← window_div_iff h2]
  have e2 : (2:Int) ^ (64 - c.baseLog) = 2 * 2 ^ (63 - c.baseLog) := by
    rw [← pow_succ']; congr 1; omega
  obtain ⟨K, hK⟩ : ∃ K : Int, (2:Int) ^ c.baseLog = 2 * K := ⟨2 ^ (c.baseLog - 1), by
    rw [← pow_succ']; congr 1; omega⟩
  have h63 : (2:Int) ^ 63 = 2 * K * 2 ^ (63 - c.baseLog) := by rw [← hK, ← pow_add]; congr 1; omega
  have hmK : (m.toNat : Int) < 2 * K := by rw [← hK]; exact_mod_cast hm
  have hDpos : (0:Int) < 2 ^ (63 - c.baseLog) := by positivity
  rw [e2, hK]
  rw [h63] at he1 he2
  generalize (2:Int) ^ (63 - c.baseLog) = D at *
  obtain ⟨F, hF⟩ : ∃ F, (e + D) / (2 * D) = F := ⟨_, rfl⟩
  have hFl : 2 * D * F ≤ e + D := by rw [← hF]; exact Int.mul_ediv_self_le (by omega)
  have hFu : e + D < 2 * D * F + 2 * D := by
    rw [← hF]; exact Int.lt_mul_ediv_self_add (by omega)
  rw [hF]
  have hKpos : 0 < K := by
    have : (0:Int) ≤ m.toNat := by positivity
    omega
  have hFlo : -K ≤ F := by
    by_contra hc
    have : F + 1 ≤ -K := by omega
    nlinarith
  have hFhi : F ≤ K := by
    by_contra hc
    have : K + 1 ≤ F := by omega
    nlinarith
  constructor
  · intro h
    have hd := Int.emod_add_mul_ediv ((m.toNat : Int) + F) (2 * K)
    obtain ⟨q, hq⟩ : ∃ q, ((m.toNat : Int) + F) / (2 * K) = q := ⟨_, rfl⟩
    rw [h, hq] at hd
    have hFq : F = 2 * K * q := by linarith
    have : q = 0 := by
      rcases lt_trichotomy q 0 with h | h | h
      · nlinarith
      · exact h
      · nlinarith
    rw [hFq, this]; ring
  · rintro rfl
    rw [add_zero]; exact Int.emod_eq_of_lt (by positivity) hmK

/-- C01 (second part): `largest_error()` is `delta/2 = 2^64/t/2`. -/
theorem C01_largest_error {t : Scalar} {c : Codec} (hc : Codec.new t = some c) :
    c.largestError.toNat = 2 ^ 64 / t.toNat / 2 := by
  obtain ⟨wf, ht⟩ := Codec.new_wf hc
  have h2 := wf.le
  unfold Codec.largestError
  rw [BitVec.toNat_udiv, wf.delta_toNat, ht, Nat.pow_div (by omega) (by norm_num)]
  rfl

-- Non-vacuity: t = 2^8, m = 255, the extreme errors -delta/2 (recovered) and +delta/2 (not recovered).
example : ∃ c w, Codec.new 256 = some c ∧ c.encode 255 = some w ∧
    c.decode (w + BitVec.ofInt 64 (-2 ^ 55)) = 255 ∧ c.decode (w + BitVec.ofInt 64 (2 ^ 55)) = 0 := by
  refine ⟨⟨8, 1 <<< 56⟩, 255 * (1 <<< 56), ?_, ?_, ?_, ?_⟩ <;> decide +kernel

/-- C02 (constructor): `Codec::new(t)` succeeds iff `t` is a power of two other than 1 (`t = 1` overflows the
shift in a checked build). -/
theorem C02_new_isSome_iff (t : Scalar) :
    (Codec.new t).isSome ↔ ∃ k : Nat, 1 ≤ k ∧ k ≤ 63 ∧ t.toNat = 2 ^ k := by
  constructor
  · intro h
    obtain ⟨c, hc⟩ := Option.isSome_iff_exists.1 h
    obtain ⟨k, h1, h2, h3, _⟩ := Codec.new_eq_some hc
    exact ⟨k, h1, h2, h3⟩
  · rintro ⟨k, h1, h2, h3⟩
    have : t = BitVec.ofNat 64 (2 ^ k) := by rw [← h3]; simp
    rw [this, Codec.new_pow h1 h2]; rfl

/-- C02: the codec remembers its modulus: `pt_modulus() = t` and `pt_modulus_bits() = log2 t`. -/
theorem C02_pt_modulus {t : Scalar} {c : Codec} (hc : Codec.new t = some c) :
    c.ptModulus = t ∧ t.toNat = 2 ^ c.ptModulusBits := by
  obtain ⟨wf, ht⟩ := Codec.new_wf hc
  exact ⟨BitVec.eq_of_toNat_eq (by rw [wf.ptModulus_toNat, ht]), ht⟩

/-- C02 (encode): panics iff the input is `>= t`; otherwise the result is the *integer* product `x * (2^64/t)`
(no overflow). -/
theorem C02_encode {t : Scalar} {c : Codec} (hc : Codec.new t = some c) (x : Scalar) :
    (c.encode x = none ↔ t.toNat ≤ x.toNat) ∧
    (∀ w, c.encode x = some w → w.toNat = x.toNat * (2 ^ 64 / t.toNat)) := by
  obtain ⟨wf, ht⟩ := Codec.new_wf hc
  have h1 := wf.one_le; have h2 := wf.le
  rw [wf.encode_eq, ht]
  constructor
  · split <;> simp <;> omega
  · intro w hw
    split at hw
    · rename_i hx
      injection hw with hw; subst hw
      rw [BitVec.toNat_mul, wf.delta_toNat, Nat.pow_div (by omega) (by norm_num)]
      apply Nat.mod_eq_of_lt
      have hs : (2:Nat) ^ 64 = 2 ^ c.baseLog * 2 ^ (64 - c.baseLog) := by
        rw [← pow_add]; congr 1; omega
      rw [hs]
      exact Nat.mul_lt_mul_of_pos_right hx (by positivity)
    · cases hw

/-- C02 (decode): the result is always a valid plaintext. -/
theorem C02_decode_lt {t : Scalar} {c : Codec} (hc : Codec.new t = some c) (x : Scalar) :
    (c.decode x).toNat < t.toNat ∧ (c.encode (c.decode x)).isSome := by
  obtain ⟨wf, ht⟩ := Codec.new_wf hc
  have : (c.decode x).toNat < 2 ^ c.baseLog := by
    have h := wf.decode_int x.toInt
    rw [ofInt_toInt'] at h
    have := Int.emod_lt_of_pos ((x.toInt + 2 ^ (63 - c.baseLog)) / 2 ^ (64 - c.baseLog))
      (show (0:Int) < 2 ^ c.baseLog by positivity)
    rw [← h] at this
    exact_mod_cast this
  refine ⟨ht ▸ this, ?_⟩
  rw [wf.encode_eq, if_pos this]; rfl

example : Codec.new 1 = none ∧ Codec.new 3 = none ∧ Codec.new 0 = none ∧ (Codec.new 256).isSome := by
  decide +kernel

/-- C03 (round trip): for the three ternary words and every error of magnitude below `0x2AAAAAAAAAAAA800`. -/
theorem C03_ternary_roundtrip (m : Scalar) (hm : m = 0 ∨ m = 1 ∨ m = scalarMAX) (e : Int)
    (he : |e| < 0x2AAAAAAAAAAAA800) :
    ∃ w, ternaryEncode m = some w ∧ ternaryDecode (w + BitVec.ofInt 64 e) = m := by
  rw [abs_lt] at he
  obtain ⟨he1, he2⟩ := he
  have key : ∀ w : Nat, w < 2 ^ 64 → ((BitVec.ofNat 64 w + BitVec.ofInt 64 e).toNat : Int) = (w + e) % 2 ^ 64 := by
    intro w hw
    rw [BitVec.toNat_add, BitVec.toNat_ofInt, BitVec.toNat_ofNat]
    omega
  rcases hm with rfl | rfl | rfl
  · refine ⟨0, rfl, ?_⟩
    have := key 0 (by norm_num)
    unfold ternaryDecode
    have c1 : decSIXTH.toNat = 0x2AAAAAAAAAAAAA00 := rfl
    have c2 : decHALF.toNat = 0x7FFFFFFFFFFFFFFF := rfl
    have c3 : (decHALF + decTHIRD).toNat = 0xD5555555555553FF := by decide +kernel
    have c0 : (0 : Scalar) = BitVec.ofNat 64 0 := rfl
    rw [c0]
    simp only [BitVec.lt_def, BitVec.le_def, c1, c2, c3]
    rw [if_neg (by omega), if_neg (by omega)]
  · refine ⟨encTHIRD, rfl, ?_⟩
    have := key 0x5555555555555400 (by norm_num)
    unfold ternaryDecode
    have c1 : decSIXTH.toNat = 0x2AAAAAAAAAAAAA00 := rfl
    have c2 : decHALF.toNat = 0x7FFFFFFFFFFFFFFF := rfl
    have c0 : encTHIRD = BitVec.ofNat 64 0x5555555555555400 := rfl
    rw [c0]
    simp only [BitVec.lt_def, BitVec.le_def, c1, c2]
    rw [if_pos (by omega)]
  · refine ⟨2 * encTHIRD, rfl, ?_⟩
    have := key 0xAAAAAAAAAAAAA800 (by norm_num)
    unfold ternaryDecode
    have c1 : decSIXTH.toNat = 0x2AAAAAAAAAAAAA00 := rfl
    have c2 : decHALF.toNat = 0x7FFFFFFFFFFFFFFF := rfl
    have c3 : (decHALF + decTHIRD).toNat = 0xD5555555555553FF := by decide +kernel
    have c0 : 2 * encTHIRD = BitVec.ofNat 64 0xAAAAAAAAAAAAA800 := by decide +kernel
    rw [c0]
    simp only [BitVec.lt_def, BitVec.le_def, c1, c2, c3]
    rw [if_neg (by omega), if_pos (by omega)]

/-- C03 (rejection and range). -/
theorem C03_ternary_reject (x : Scalar) :
    (ternaryEncode x = none ↔ ¬ (x = 0 ∨ x = 1 ∨ x = scalarMAX)) ∧
    (ternaryDecode x = 0 ∨ ternaryDecode x = 1 ∨ ternaryDecode x = scalarMAX) := by
  constructor
  · unfold ternaryEncode
    by_cases h0 : x = 0
    · simp only [h0, if_true]; simp
    · by_cases h1 : x = 1
      · simp only [h1]; decide
      · by_cases h2 : x = scalarMAX
        · simp only [h2]; decide
        · rw [if_neg h0, if_neg h1, if_neg h2]; tauto
  · unfold ternaryDecode
    split
    · simp
    · split <;> simp

/-- C03 (the window is tight to within one rounding unit): at error `0x2AAAAAAAAAAAAC00` the value 1 is lost. -/
theorem C03_ternary_tight : ternaryDecode (encTHIRD + BitVec.ofInt 64 0x2AAAAAAAAAAAAC00) ≠ 1 := by
  decide +kernel

/-- C04 (addition): for plaintexts `x, y < t` and an error inside the window, decoding the sum of the encodings
gives `(x + y) mod t`. -/
theorem C04_add {t : Scalar} {c : Codec} (hc : Codec.new t = some c) (x y wx wy : Scalar)
    (hx : c.encode x = some wx) (hy : c.encode y = some wy) (e : Int) (he : Spec.InWindow t.toNat e) :
    (c.decode (wx + wy + BitVec.ofInt 64 e)).toNat = (x.toNat + y.toNat) % t.toNat := by
  obtain ⟨wf, ht⟩ := Codec.new_wf hc
  rw [wf.encode_eq] at hx hy
  split at hx <;> cases hx
  split at hy <;> cases hy
  rw [ht] at he ⊢
  rw [mul_delta_ofInt wf, mul_delta_ofInt wf, ← BitVec.ofInt_add, ← BitVec.ofInt_add, ← add_mul, ← Int.ofNat_inj,
    wf.decode_window _ _ he]
  push_cast; rfl

/-- C04 (subtraction): likewise `(x - y) mod t`. -/
theorem C04_sub {t : Scalar} {c : Codec} (hc : Codec.new t = some c) (x y wx wy : Scalar)
    (hx : c.encode x = some wx) (hy : c.encode y = some wy) (e : Int) (he : Spec.InWindow t.toNat e) :
    ((c.decode (wx - wy + BitVec.ofInt 64 e)).toNat : Int) = ((x.toNat : Int) - y.toNat) % t.toNat := by
  obtain ⟨wf, ht⟩ := Codec.new_wf hc
  rw [wf.encode_eq] at hx hy
  split at hx <;> cases hx
  split at hy <;> cases hy
  rw [ht] at he ⊢
  rw [mul_delta_ofInt wf, mul_delta_ofInt wf, sub_eq_add_neg, ← BitVec.ofInt_neg, ← BitVec.ofInt_add,
    ← BitVec.ofInt_add]
  have : ((x.toNat : Int) * 2 ^ (64 - c.baseLog) + -((y.toNat : Int) * 2 ^ (64 - c.baseLog)))
     = ((x.toNat : Int) - y.toNat) * 2 ^ (64 - c.baseLog) := by ring
  rw [this, wf.decode_window _ _ he]
  push_cast; rfl

example : ∃ c wx wy, Codec.new 256 = some c ∧ c.encode 200 = some wx ∧ c.encode 100 = some wy ∧
    Spec.InWindow 256 (-5) ∧ c.decode (wx + wy + BitVec.ofInt 64 (-5)) = 44 := by
  refine ⟨⟨8, 1 <<< 56⟩, 200 * (1 <<< 56), 100 * (1 <<< 56), ?_, ?_, ?_, ?_, ?_⟩ <;>
    first | decide +kernel | (unfold Spec.InWindow; norm_num)

/-- C05: `log2` of a positive 64-bit word is the unique `k` with `2^k ≤ x < 2^(k+1)`; of zero it panics. -/
theorem C05_log2 (x : Nat) (h1 : x < 2 ^ 64) (k : Nat) :
    log2 x = some k ↔ (2 ^ k ≤ x ∧ x < 2 ^ (k + 1)) := by
  rcases Nat.eq_zero_or_pos x with rfl | h0
  · rw [log2_zero]
    simp
  · rw [log2_eq h0 h1, Option.some_inj, Nat.log2_eq_iff (by omega)]

theorem C05_log2_zero : log2 0 = none := log2_zero

example : log2 2048 = some 11 ∧ log2 2047 = some 10 ∧ log2 1 = some 0 := by decide +kernel

end Panacea
