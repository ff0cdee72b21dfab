import Verif.Spec.Demux
import Verif.Spec.Measured
import Verif.Model.EncEval
import Verif.Lemmas.Encrypt
import Verif.Lemmas.Codec

namespace Panacea
variable {n : Nat}

theorem EncBit.mono {s : Poly n} {C : RGSW n} {b : Bool} {bl lv E E' : Nat} (h : EncBit s C b bl lv E) (hE : E ≤ E') :
    EncBit s C b bl lv E' := ⟨h.wf, h.baseLog, h.levelCount, GadgetEnc.mono h.enc hE⟩

theorem l1_bit (b : Bool) : l1 (if b then 1 else 0 : Poly n) ≤ 1 := by
  cases b
  · simp only [Bool.false_eq_true, if_false]; rw [← Poly.const_zero]
    exact le_trans (l1_const 0) (by decide)
  · exact l1_one

theorem extNoise_mono {n bl lv E phi K K' : Nat} (h : K ≤ K') : extNoise n bl lv E phi K ≤ extNoise n bl lv E phi K' := by
  unfold extNoise
  have := Nat.mul_le_mul_right ((1 + n) * 2 ^ (63 - bl * lv)) h
  omega

/-- External product with an encrypted bit. -/
theorem extBit_enc {fft : Fft n} {phi : Nat} (hf : fft.Bounded phi) {s : Poly n} (hs : Small s 1) {C : RGSW n} {b : Bool}
    {bl lv E : Nat} (h : EncBit s C b bl lv E) (out d : RLWE n) :
    Enc s (externalProduct fft C out d) (decryptRlwe s out + if b then decryptRlwe s d else 0) (extNoise n bl lv E phi 1) := by
  have h1 := externalProduct_enc hf hs h.wf h.enc out d
  rw [h.baseLog, h.levelCount] at h1
  have e : (if b then 1 else 0 : Poly n) * decryptRlwe s d = if b then decryptRlwe s d else 0 := by
    cases b
    · simp only [Bool.false_eq_true, if_false]; ring
    · simp only [if_true]; ring
  rw [e] at h1
  exact h1.mono (extNoise_mono (l1_bit b))

theorem gateOk_worst {fft : Fft n} {phi : Nat} (hf : fft.Bounded phi) {s : Poly n} (hs : Small s 1) (bl lv E : Nat) (C : RGSW n) (d : RLWE n) :
    GateOk fft s bl lv E (extNoise n bl lv E phi 1) C d := by
  intro b hb
  have := extBit_enc hf hs hb 0 d
  rwa [decrypt_zero, zero_add] at this

/-- A product with an encrypted bit, with a message for the operand. -/
theorem gate_msg {fft : Fft n} {s : Poly n} {bl lv E V : Nat} {C : RGSW n} {d : RLWE n} (hg : GateOk fft s bl lv E V C d) {b : Bool}
    (h : EncBit s C b bl lv E) {m : Poly n} {e : Nat} (hd : Enc s d m e) :
    Enc s (externalProduct fft C 0 d) (if b then m else 0) ((if b then e else 0) + V) ∧
    Enc s (d - externalProduct fft C 0 d) (if b then 0 else m) ((if b then 0 else e) + V) := by
  have h1 := hg b h
  unfold Enc at *
  cases b
  · simp only [Bool.false_eq_true, if_false] at h1 ⊢
    refine ⟨h1.mono (by omega), ?_⟩
    rw [decrypt_sub, show decryptRlwe s d - decryptRlwe s (externalProduct fft C 0 d) - m
      = (decryptRlwe s d - m) - (decryptRlwe s (externalProduct fft C 0 d) - 0) by ring]
    exact Small.sub hd h1
  · simp only [if_true] at h1 ⊢
    constructor
    · rw [show decryptRlwe s (externalProduct fft C 0 d) - m
        = (decryptRlwe s d - m) + (decryptRlwe s (externalProduct fft C 0 d) - decryptRlwe s d) by ring]
      exact Small.add hd h1
    · rw [decrypt_sub, show decryptRlwe s d - decryptRlwe s (externalProduct fft C 0 d) - 0
        = -(decryptRlwe s (externalProduct fft C 0 d) - decryptRlwe s d) by ring]
      exact (Small.neg h1).mono (by omega)

/-- Same, worst case. -/
theorem extBit_msg {fft : Fft n} {phi : Nat} (hf : fft.Bounded phi) {s : Poly n} (hs : Small s 1) {C : RGSW n} {b : Bool}
    {bl lv E : Nat} (h : EncBit s C b bl lv E) {d : RLWE n} {m : Poly n} {e : Nat} (hd : Enc s d m e) :
    Enc s (externalProduct fft C 0 d) (if b then m else 0) ((if b then e else 0) + extNoise n bl lv E phi 1) ∧
    Enc s (d - externalProduct fft C 0 d) (if b then 0 else m) ((if b then 0 else e) + extNoise n bl lv E phi 1) :=
  gate_msg (gateOk_worst hf hs bl lv E C d) h hd

theorem msbValue_lt : ∀ bs : List Bool, Spec.msbValue bs < 2 ^ bs.length
  | [] => by simp [Spec.msbValue]
  | b :: bs => by
    have := msbValue_lt bs
    simp only [Spec.msbValue, List.length_cons, pow_succ]
    split <;> omega

theorem demuxRec_of {fft : Fft n} {s : Poly n} {bl lv E δ : Nat} :
    ∀ (ds : List Bool) (bits : List (RGSW n)), List.Forall₂ (fun d C => EncBit s C (!d) bl lv E) ds bits → bits ≠ [] →
    ∀ (b : RLWE n) (m : Poly n) (e : Nat), (∀ x ∈ demuxCalls fft bits b, GateOk fft s bl lv E δ x.1 x.2) → Enc s b m e →
    ∃ out, demuxRec fft bits b = some out ∧ out.length = 2 ^ ds.length ∧
      ∀ j c, out[j]? = some c → Enc s c (if j = Spec.msbValue ds then m else 0)
        ((if j = Spec.msbValue ds then e else 0) + ds.length * δ)
  | [], _, .nil, hne, _, _, _, _, _ => absurd rfl hne
  | d :: ds, _, .cons (b := C) (l₂ := rest) hC hrest, _, b, m, e, hgate, hb => by
    obtain ⟨hl, hr⟩ := gate_msg (hgate (C, b) (by simp [demuxCalls])) hC hb
    have hgl : ∀ x ∈ demuxCalls fft rest (externalProduct fft C 0 b), GateOk fft s bl lv E δ x.1 x.2 := fun x hx =>
      hgate x (by rw [demuxCalls]; simp [hx])
    have hgr : ∀ x ∈ demuxCalls fft rest (b - externalProduct fft C 0 b), GateOk fft s bl lv E δ x.1 x.2 := fun x hx =>
      hgate x (by rw [demuxCalls]; simp [hx])
    set left := externalProduct fft C 0 b
    set right := b - left
    cases hrest with
    | nil =>
      refine ⟨[left, right], rfl, rfl, ?_⟩
      intro j c hj
      simp only [Spec.msbValue, List.length_nil, pow_zero, add_zero, List.length_cons, zero_add, one_mul]
      match j, hj with
      | 0, hj =>
        simp only [List.getElem?_cons_zero, Option.some.injEq] at hj
        subst hj
        cases d
        · simpa using hl
        · simpa using hl
      | 1, hj =>
        simp only [List.getElem?_cons_succ, List.getElem?_cons_zero, Option.some.injEq] at hj
        subst hj
        cases d
        · simpa using hr
        · simpa using hr
      | k + 2, hj => simp at hj
    | cons hC' hrest' =>
      rename_i d' C' ds' rest' _
      obtain ⟨lo, hlo, hlolen, hlo'⟩ := demuxRec_of (d' :: ds') (C' :: rest') (.cons hC' hrest') (by simp) left _ _ hgl hl
      obtain ⟨ro, hro, hrolen, hro'⟩ := demuxRec_of (d' :: ds') (C' :: rest') (.cons hC' hrest') (by simp) right _ _ hgr hr
      refine ⟨lo ++ ro, ?_, ?_, ?_⟩
      · show (match demuxRec fft (C' :: rest') left, demuxRec fft (C' :: rest') right with
          | some lo, some ro => some (lo ++ ro)
          | _, _ => none) = _
        rw [hlo, hro]
      · rw [List.length_append, hlolen, hrolen, List.length_cons (as := d' :: ds'), pow_succ]; omega
      · intro j c hj
        have hlt := msbValue_lt (d' :: ds')
        set L := 2 ^ (d' :: ds').length with hL
        rw [show Spec.msbValue (d :: d' :: ds') = (if d then L else 0) + Spec.msbValue (d' :: ds') from rfl,
          List.length_cons (as := d' :: ds'), show ((d' :: ds').length + 1) * δ = (d' :: ds').length * δ + δ by ring]
        generalize (d' :: ds').length * δ = N at hlo' hro' ⊢
        by_cases hjl : j < L
        · rw [List.getElem?_append_left (by rw [hlolen]; exact hjl)] at hj
          have := hlo' j c hj
          cases d
          · simp only [Bool.false_eq_true, if_false, zero_add, Bool.not_false, if_true] at this ⊢
            by_cases hj2 : j = Spec.msbValue (d' :: ds')
            · rw [if_pos hj2, if_pos hj2] at this ⊢; exact this.mono (by omega)
            · rw [if_neg hj2, if_neg hj2] at this ⊢; exact this.mono (by omega)
          · simp only [Bool.not_true, Bool.false_eq_true, if_false, if_true, ite_self] at this ⊢
            rw [if_neg (by omega), if_neg (by omega)]
            refine this.mono ?_
            split <;> omega
        · rw [List.getElem?_append_right (by rw [hlolen]; omega), hlolen] at hj
          have := hro' (j - L) c hj
          cases d
          · simp only [Bool.not_false, if_true, Bool.false_eq_true, if_false, zero_add, ite_self] at this ⊢
            rw [if_neg (by omega), if_neg (by omega)]
            refine this.mono ?_
            split <;> omega
          · simp only [Bool.not_true, Bool.false_eq_true, if_false, if_true] at this ⊢
            by_cases hj2 : j - L = Spec.msbValue (d' :: ds')
            · have hj3 : j = L + Spec.msbValue (d' :: ds') := by omega
              rw [if_pos hj2, if_pos hj2] at this
              rw [if_pos hj3, if_pos hj3]; exact this.mono (by omega)
            · have hj3 : ¬ j = L + Spec.msbValue (d' :: ds') := by omega
              rw [if_neg hj2, if_neg hj2] at this
              rw [if_neg hj3, if_neg hj3]; exact this.mono (by omega)

theorem demuxRec_spec {fft : Fft n} {phi : Nat} (hf : fft.Bounded phi) {s : Poly n} (hs : Small s 1) {bl lv E : Nat} :
    ∀ (ds : List Bool) (bits : List (RGSW n)), List.Forall₂ (fun d C => EncBit s C (!d) bl lv E) ds bits → bits ≠ [] →
    ∀ (b : RLWE n) (m : Poly n) (e : Nat), Enc s b m e →
    ∃ out, demuxRec fft bits b = some out ∧ out.length = 2 ^ ds.length ∧
      ∀ j c, out[j]? = some c → Enc s c (if j = Spec.msbValue ds then m else 0)
        ((if j = Spec.msbValue ds then e else 0) + ds.length * extNoise n bl lv E phi 1) :=
  fun ds bits h1 h2 b m e h3 => demuxRec_of ds bits h1 h2 b m e (fun x _ => gateOk_worst hf hs bl lv E x.1 x.2) h3

theorem indexBits_length (i D : Nat) : (indexBits i D).length = D := by simp [indexBits]

theorem msbValue_indexBits (i : Nat) : ∀ D, Spec.msbValue (indexBits i D) = i % 2 ^ D
  | 0 => by simp [indexBits, Spec.msbValue, Nat.mod_one]
  | D + 1 => by
    have h : indexBits i (D + 1) = i.testBit D :: indexBits i D := by
      simp [indexBits, List.range_succ]
    rw [h, Spec.msbValue, indexBits_length, msbValue_indexBits i D, pow_succ, Nat.mod_mul, Nat.testBit_eq_decide_div_mod_eq]
    rcases Nat.mod_two_eq_zero_or_one (i / 2 ^ D) with h0 | h0 <;> rw [h0] <;> simp <;> omega

theorem forall₂_of_map {α β : Type} {f : α → Bool} {Q : Bool → β → Prop} : ∀ {l : List α} {m : List β},
    List.Forall₂ (fun a b => Q (f a) b) l m → List.Forall₂ Q (l.map f) m
  | _, _, .nil => .nil
  | _, _, .cons h hs => .cons h (forall₂_of_map hs)

theorem const_bit (b : Bool) : Poly.const n (if b then 1 else 0) = (if b then 1 else 0 : Poly n) := by
  cases b
  · simp only [Bool.false_eq_true, if_false]; exact Poly.const_zero
  · simp only [if_true]; exact Poly.const_one

theorem encryptConstantRgsw_bit {s : Poly n} {bl lv : Nat} (h1 : 1 ≤ bl) (h2 : 1 ≤ lv) (h3 : bl * lv < 64) (b : Bool)
    {g : Gen n} {B : Nat} (hg : g.Bounded B) :
    EncBit s (encryptConstantRgsw s bl lv (if b then 1 else 0) g).1 b bl lv B ∧
    (encryptConstantRgsw s bl lv (if b then 1 else 0) g).2.Bounded B := by
  have h := encryptConstantRgsw_enc (s := s) bl lv (if b then 1 else 0) hg
  refine ⟨⟨encryptConstantRgsw_wf _ _ _ h1 h2 h3, rfl, encryptConstantRgsw_levelCount _ _ _ _ _, ?_⟩, h.2⟩
  rw [← const_bit]; exact h.1

theorem bitDecomposed_spec {ctx : Ctx} (h1 : 1 ≤ ctx.baseLog) (h2 : 1 ≤ ctx.levelCount) (h3 : ctx.baseLog * ctx.levelCount < 64)
    (s : Poly n) (i m D : Nat) (hD : log2 m = some D) {g : Gen n} {B : Nat} (hg : g.Bounded B) :
    ∃ bits g', bitDecomposedRgsw ctx s i m g = some (bits, g') ∧ g'.Bounded B ∧
      EncIndex s bits D (i % 2 ^ D) ctx.baseLog ctx.levelCount B := by
  unfold bitDecomposedRgsw
  rw [hD]
  have h := mapGen_spec (P := fun g : Gen n => g.Bounded B)
    (Q := fun (d : Bool) C => EncBit s C (!d) ctx.baseLog ctx.levelCount B)
    (f := fun (b : Bool) g => encryptConstantRgsw s ctx.baseLog ctx.levelCount (if b then 0 else 1) g)
    (fun d g hg => by
      have := encryptConstantRgsw_bit (s := s) h1 h2 h3 (!d) hg
      cases d <;> simpa using this) (indexBits i D) g hg
  exact ⟨_, _, rfl, h.2, Nat.mod_lt _ (by positivity), indexBits i D, indexBits_length i D, msbValue_indexBits i D, h.1⟩

end Panacea
