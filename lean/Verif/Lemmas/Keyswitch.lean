import Verif.Lemmas.Encrypt
import Verif.Spec.Keyswitch

namespace Panacea
open Finset
variable {n : Nat}

theorem zip_reverse' {α β : Type} : ∀ (l : List α) (m : List β), l.length = m.length → l.reverse.zip m.reverse = (l.zip m).reverse
  | [], [], _ => rfl
  | a :: l, b :: m, h => by
    have h' : l.length = m.length := by simpa using h
    rw [List.reverse_cons, List.reverse_cons, List.zip_append (by simpa using h'), zip_reverse' l m h']
    simp
  | [], _ :: _, h => by simp at h
  | _ :: _, [], h => by simp at h

theorem phaseSum_reverse (s : Poly n) (ts : List (Poly n × RLWE n)) : phaseSum s ts.reverse = phaseSum s ts := by
  induction ts with
  | nil => rfl
  | cons t ts ih => rw [List.reverse_cons, phaseSum_append, ih, phaseSum, phaseSum, phaseSum]; ring

theorem phaseSum_neg (s : Poly n) (ts : List (Poly n × RLWE n)) :
    phaseSum s (ts.map fun t => (-t.1, t.2)) = - phaseSum s ts := by
  induction ts with
  | nil => simp only [List.map_nil, phaseSum]; ring
  | cons t ts ih => rw [List.map_cons, phaseSum, ih, phaseSum]; ring

theorem phaseSum_zip (s : Poly n) (f : Nat → Poly n) (rows : List (RLWE n)) : ∀ a,
    phaseSum s (((List.range' a rows.length).map f).zip rows)
      = ∑ i ∈ range rows.length, f (a + i) * decryptRlwe s (rows.getD i 0) := by
  induction rows with
  | nil => intro a; rfl
  | cons r rows ih =>
    intro a
    rw [List.length_cons, List.range'_succ, List.map_cons, List.zip_cons_cons, phaseSum, ih, Finset.sum_range_succ', add_comm]
    congr 1
    refine Finset.sum_congr rfl fun i _ => ?_
    rw [List.getD_cons_succ, show a + 1 + i = a + (i + 1) by omega]

theorem roundPoly_idem {bl lv : Nat} (h : bl * lv < 64) (p : Poly n) : roundPoly bl lv (roundPoly bl lv p) = roundPoly bl lv p :=
  Poly.ext (funext fun k => closest_idem bl lv h (p k))

/-- The algebraic heart of key switching. -/
theorem ksk_phase {s before : Poly n} {K : KeyswitchKey n} (hK : K.WF) {E : Nat} (hE : IsKsk s K before E) (hb : Small before 1)
    (p : Poly n) :
    Small (phaseSum s ((maskTerms K.baseLog K.levelCount p).zip K.ksks.reverse) - p * before)
      (n * 2 ^ (63 - K.baseLog * K.levelCount) + K.levelCount * (n * 2 ^ (K.baseLog - 1) * E)) := by
  set bl := K.baseLog with hbl
  set lv := K.levelCount with hlv
  have hrnd : (⟨fun k => closestRepresentable bl lv (p k)⟩ : Poly n) = roundPoly bl lv p := rfl
  have h1 : phaseSum s ((maskTerms bl lv p).zip K.ksks.reverse)
      = ∑ i ∈ range lv, digitPoly bl lv (roundPoly bl lv p) (i + 1) * decryptRlwe s (K.ksks.getD i 0) := by
    unfold maskTerms
    simp only [hrnd]
    rw [List.map_reverse, zip_reverse', phaseSum_reverse]
    · have := phaseSum_zip s (digitPoly bl lv (roundPoly bl lv p)) K.ksks 1
      rw [hE.len, ← hlv] at this
      rw [this]
      refine Finset.sum_congr rfl fun i _ => ?_
      rw [Nat.add_comm]
    · rw [List.length_map, List.length_range', hE.len]
  have hblt : bl < 64 := lt_of_le_of_lt (Nat.le_mul_of_pos_right _ hK.lv) hK.lt
  have hrow : ∀ i ∈ range lv, Small (decryptRlwe s (K.ksks.getD i 0) - Poly.const n (gadget bl (i + 1)) * before) E := by
    intro i hi
    have hi' : i < K.ksks.length := by rw [hE.len]; exact Finset.mem_range.mp hi
    refine hE.row i _ ?_
    rw [List.getD_eq_getElem?_getD, List.getElem?_eq_getElem hi', Option.getD_some]
  have h2 : phaseSum s ((maskTerms bl lv p).zip K.ksks.reverse) - p * before
      = (roundPoly bl lv p - p) * before + ∑ i ∈ range lv, digitPoly bl lv (roundPoly bl lv p) (i + 1)
        * (decryptRlwe s (K.ksks.getD i 0) - Poly.const n (gadget bl (i + 1)) * before) := by
    have h3 : ∑ i ∈ range lv, digitPoly bl lv (roundPoly bl lv p) (i + 1)
        * (decryptRlwe s (K.ksks.getD i 0) - Poly.const n (gadget bl (i + 1)) * before)
        = phaseSum s ((maskTerms bl lv p).zip K.ksks.reverse) - roundPoly bl lv p * before := by
      conv_rhs => rw [← roundPoly_idem hK.lt p, ← digitPoly_sum hK.bl hK.lt hK.lv]
      rw [h1, Finset.sum_mul, ← Finset.sum_sub_distrib]
      refine Finset.sum_congr rfl fun i _ => ?_
      ring
    rw [h3]; ring
  rw [h2]
  refine Small.add ?_ ?_
  · exact ((roundPoly_error hK.lt p).mul hb).mono (le_of_eq (by ring))
  · have := Small.sum (range lv) (fun i => digitPoly bl lv (roundPoly bl lv p) (i + 1)
        * (decryptRlwe s (K.ksks.getD i 0) - Poly.const n (gadget bl (i + 1)) * before)) (fun _ => n * 2 ^ (bl - 1) * E)
        (fun i hi => (digitPoly_small lv hK.bl hblt _ (i + 1)).mul (hrow i hi))
    refine this.mono (le_of_eq ?_)
    rw [Finset.sum_const, Finset.card_range, smul_eq_mul]

theorem maskTerms_length (bl lv : Nat) (p : Poly n) : (maskTerms bl lv p).length = lv := by
  unfold maskTerms; simp

theorem maskTerms_small {bl lv : Nat} (h1 : 1 ≤ bl) (h2 : bl < 64) (p : Poly n) : ∀ t ∈ maskTerms bl lv p, Small t (2 ^ (bl - 1)) := by
  intro t ht
  unfold maskTerms at ht
  obtain ⟨l, _, rfl⟩ := List.mem_map.mp ht
  exact digitPoly_small _ h1 h2 _ _

theorem KeyswitchKey.WF.bl_lt {K : KeyswitchKey n} (h : K.WF) : K.baseLog < 64 :=
  lt_of_le_of_lt (Nat.le_mul_of_pos_right _ h.lv) h.lt

theorem keyswitchLoop_spec {fft : Fft n} {phi w : Nat} (hf : fft.Bounded phi) {s : Poly n} (hs : Small s 1) :
    ∀ (rows : List (RLWE n)) (terms : List (Poly n)) (acc : RLWE n), rows.length ≤ terms.length → (∀ t ∈ terms, Small t w) →
    ∃ out, keyswitchLoop fft rows terms acc = some out ∧
      Small (decryptRlwe s out - (decryptRlwe s acc - phaseSum s (terms.zip rows))) (rows.length * fftNoise n phi w)
  | [], terms, acc, _, _ => by
    refine ⟨acc, rfl, ?_⟩
    rw [List.zip_nil_right, phaseSum]
    rw [show decryptRlwe s acc - (decryptRlwe s acc - 0) = 0 by ring]
    exact Small.zero _
  | _ :: _, [], _, h, _ => by simp at h
  | r :: rows, t :: terms, acc, h, hw => by
    rw [List.length_cons, List.length_cons] at h
    obtain ⟨out, h1, h2⟩ := keyswitchLoop_spec hf hs rows terms
      ⟨acc.mask - fourierUpdateWithMulAcc fft 0 r.mask t, acc.body - fourierUpdateWithMulAcc fft 0 r.body t⟩ (by omega)
      fun t ht => hw t (List.mem_cons_of_mem _ ht)
    refine ⟨out, h1, ?_⟩
    have hone : ∀ p : Poly n, FPoly.weight [(p, t)] ≤ w := fun p => by
      have := weight_le (B := w) (ts := [(p, t)]) fun u hu => by
        rw [List.mem_singleton.mp hu]; exact Or.inr (hw t List.mem_cons_self)
      simpa using this
    have h3 : Small (fft.err [(r.body, t)] - fft.err [(r.mask, t)] * s) (fftNoise n phi w) :=
      fft_pair_small hf hs (by simp) (by simp) (hone _) (hone _)
    rw [List.zip_cons_cons, phaseSum]
    have e : decryptRlwe s out - (decryptRlwe s acc - (t * decryptRlwe s r + phaseSum s (terms.zip rows)))
        = (decryptRlwe s out - (decryptRlwe s ⟨acc.mask - fourierUpdateWithMulAcc fft 0 r.mask t,
            acc.body - fourierUpdateWithMulAcc fft 0 r.body t⟩ - phaseSum s (terms.zip rows)))
          - (fft.err [(r.body, t)] - fft.err [(r.mask, t)] * s) := by
      unfold fourierUpdateWithMulAcc Fft.backward decryptRlwe
      simp only [FPoly.eval_cons, FPoly.eval_nil]
      ring
    rw [e]
    exact (h2.sub h3).mono (le_of_eq (by rw [List.length_cons]; ring))

theorem fourierKeyswitchLoop_spec : ∀ (rows : List (RLWE n)) (terms : List (Poly n)) (acc : FRLWE n),
    rows.length ≤ terms.length → fourierKeyswitchLoop rows terms acc
      = some ⟨acc.mask ++ (terms.zip rows).map (fun t => (t.2.mask, t.1)), acc.body ++ (terms.zip rows).map (fun t => (t.2.body, t.1))⟩
  | [], terms, acc, _ => by
    rw [fourierKeyswitchLoop, List.zip_nil_right]; simp
  | [r], terms, acc, h => by
    cases terms with
    | nil => simp at h
    | cons t ts => simp [fourierKeyswitchLoop]
  | r :: r2 :: rows, terms, acc, h => by
    match terms, h with
    | [], h => simp at h
    | [_], h => simp at h
    | t :: t2 :: ts, h =>
      rw [fourierKeyswitchLoop]
      rw [fourierKeyswitchLoop_spec rows ts _ (by simpa using h)]
      simp

theorem eval_swap (ts : List (Poly n × RLWE n)) (f : RLWE n → Poly n) :
    FPoly.eval (ts.map fun t => (f t.2, t.1)) = FPoly.eval (ts.map fun t => (t.1, f t.2)) := by
  induction ts with
  | nil => rfl
  | cons t ts ih => rw [List.map_cons, List.map_cons, FPoly.eval_cons, FPoly.eval_cons, ih, mul_comm]

/-- Key switching, ordinary domain. -/
theorem keyswitchCiphertext_spec {fft : Fft n} {phi : Nat} (hf : fft.Bounded phi) {s before : Poly n} (hs : Small s 1)
    {K : KeyswitchKey n} (hK : K.WF) {E : Nat} (hE : IsKsk s K before E) (hb : Small before 1) (after c : RLWE n) :
    ∃ out, K.keyswitchCiphertext fft after c = some out ∧
      Enc s out (decryptRlwe before c) (ksNoise n K.baseLog K.levelCount E (K.levelCount * fftNoise n phi (2 ^ (K.baseLog - 1)))) := by
  obtain ⟨out, h1, h2⟩ := keyswitchLoop_spec hf hs K.ksks.reverse (maskTerms K.baseLog K.levelCount c.mask) ⟨0, 0 + c.body⟩
    (by rw [List.length_reverse, hE.len, maskTerms_length]) (maskTerms_small hK.bl hK.bl_lt c.mask)
  refine ⟨out, h1, ?_⟩
  have h3 := ksk_phase hK hE hb c.mask
  set P := phaseSum s ((maskTerms K.baseLog K.levelCount c.mask).zip K.ksks.reverse)
  unfold Enc
  have e : decryptRlwe s out - decryptRlwe before c
      = (decryptRlwe s out - (decryptRlwe s ⟨0, 0 + c.body⟩ - P)) - (P - c.mask * before) := by
    unfold decryptRlwe; ring
  rw [e]
  refine (h2.sub h3).mono (le_of_eq ?_)
  rw [List.length_reverse, hE.len]
  unfold ksNoise; ring

/-- The Fourier variant as an exact phase plus one FFT error. -/
theorem fourierKeyswitch_exact {fft : Fft n} {phi : Nat} (hf : fft.Bounded phi) {s : Poly n} (hs : Small s 1)
    {K : KeyswitchKey n} (hK : K.WF) (c : RLWE n) (hlen : K.ksks.length = K.levelCount) :
    ∃ out, (∀ after, K.fourierKeyswitchCiphertext after c = some out) ∧
      Small (decryptRlwe s ⟨fft.backward out.mask, fft.backward out.body⟩ - (decryptRlwe s ⟨0, 0 + c.body⟩
        - phaseSum s ((maskTerms K.baseLog K.levelCount c.mask).zip K.ksks.reverse)))
        (fftNoise n phi (1 + K.levelCount * 2 ^ (K.baseLog - 1))) := by
  unfold KeyswitchKey.fourierKeyswitchCiphertext
  simp only
  rw [fourierKeyswitchLoop_spec _ _ _ (by rw [List.length_reverse, hlen, List.length_map, maskTerms_length])]
  refine ⟨_, fun _ => rfl, ?_⟩
  have hneg : (fun t : Poly n => (⟨fun k => 0 - t k⟩ : Poly n)) = fun t => -t := by
    funext t
    refine Poly.ext (funext fun k => ?_)
    rw [Poly.neg_apply]; exact zero_sub _
  rw [hneg]
  have hz : ((maskTerms K.baseLog K.levelCount c.mask).map fun t => -t).zip K.ksks.reverse
      = ((maskTerms K.baseLog K.levelCount c.mask).zip K.ksks.reverse).map fun t => (-t.1, t.2) := by
    rw [List.zip_map_left]; rfl
  rw [hz]
  set Z := (maskTerms K.baseLog K.levelCount c.mask).zip K.ksks.reverse
  have hph := eval_phase s (Z.map fun t => (-t.1, t.2))
  rw [phaseSum_neg] at hph
  set A := List.map (fun t : Poly n × RLWE n => (t.2.mask, t.1)) (Z.map fun t => (-t.1, t.2)) with hA
  set Bd := List.map (fun t : Poly n × RLWE n => (t.2.body, t.1)) (Z.map fun t => (-t.1, t.2)) with hB
  have eA : FPoly.eval A = FPoly.eval (List.map (fun t : Poly n × RLWE n => (t.1, t.2.mask)) (Z.map fun t => (-t.1, t.2))) :=
    eval_swap _ RLWE.mask
  have eB : FPoly.eval Bd = FPoly.eval (List.map (fun t : Poly n × RLWE n => (t.1, t.2.body)) (Z.map fun t => (-t.1, t.2))) :=
    eval_swap _ RLWE.body
  rw [← eA, ← eB] at hph
  have hZ : Z.length = K.levelCount := by
    rw [List.length_zip, maskTerms_length, List.length_reverse, hlen, min_self]
  have hZs : ∀ f : RLWE n → Poly n, FPoly.weight (List.map (fun t : Poly n × RLWE n => (f t.2, t.1)) (Z.map fun t => (-t.1, t.2)))
      ≤ K.levelCount * 2 ^ (K.baseLog - 1) := fun f => by
    have := weight_le (B := 2 ^ (K.baseLog - 1)) (ts := List.map (fun t : Poly n × RLWE n => (f t.2, t.1)) (Z.map fun t => (-t.1, t.2)))
      fun u hu => by
        obtain ⟨t, ht, rfl⟩ := List.mem_map.mp hu
        obtain ⟨t', ht', rfl⟩ := List.mem_map.mp ht
        exact Or.inr (maskTerms_small hK.bl hK.bl_lt c.mask _ (List.of_mem_zip ht').1).neg
    rwa [List.length_map, List.length_map, hZ] at this
  have hone : FPoly.weight [(c.body, (1 : Poly n))] ≤ 1 := by
    have := weight_le (B := 1) (ts := [(c.body, (1 : Poly n))]) fun u hu => by
      rw [List.mem_singleton.mp hu]
      refine Or.inr fun k => ?_
      rw [Poly.one_apply]; split <;> decide
    simpa using this
  have herr : Small (fft.err ([(c.body, 1)] ++ Bd) - fft.err ([] ++ A) * s)
      (fftNoise n phi (1 + K.levelCount * 2 ^ (K.baseLog - 1))) := by
    have hlv : K.levelCount < 64 := lt_of_le_of_lt (Nat.le_mul_of_pos_left _ hK.bl) hK.lt
    refine fft_pair_small hf hs (by rw [hB]; simp [hZ]; omega) (by rw [hA]; simp [hZ]; omega) ?_ ?_
    · rw [weight_append]; exact Nat.add_le_add hone (hZs _)
    · rw [List.nil_append]; exact le_trans (hZs _) (Nat.le_add_left _ _)
  unfold Fft.backward
  have e : decryptRlwe s ⟨FPoly.eval ([] ++ A) + fft.err ([] ++ A),
      FPoly.eval ([(c.body, 1)] ++ Bd) + fft.err ([(c.body, 1)] ++ Bd)⟩ - (decryptRlwe s ⟨0, 0 + c.body⟩ - phaseSum s Z)
      = fft.err ([(c.body, 1)] ++ Bd) - fft.err ([] ++ A) * s := by
    have hph' : FPoly.eval Bd = - phaseSum s Z + FPoly.eval A * s := by rw [← hph]; ring
    unfold decryptRlwe
    simp only [List.nil_append, FPoly.eval_append, FPoly.eval_cons, FPoly.eval_nil]
    rw [hph']; ring
  rw [e]
  exact herr

/-- Key switching, Fourier domain, followed by the transformation back. -/
theorem fourierKeyswitchCiphertext_spec {fft : Fft n} {phi : Nat} (hf : fft.Bounded phi) {s before : Poly n} (hs : Small s 1)
    {K : KeyswitchKey n} (hK : K.WF) {E : Nat} (hE : IsKsk s K before E) (hb : Small before 1) (after : FRLWE n) (c : RLWE n) :
    ∃ out, K.fourierKeyswitchCiphertext after c = some out ∧
      Enc s ⟨fft.backward out.mask, fft.backward out.body⟩ (decryptRlwe before c)
        (ksNoise n K.baseLog K.levelCount E (fftNoise n phi (1 + K.levelCount * 2 ^ (K.baseLog - 1)))) := by
  obtain ⟨out, h1, h2⟩ := fourierKeyswitch_exact hf hs hK c hE.len
  refine ⟨out, h1 after, ?_⟩
  have h3 := ksk_phase hK hE hb c.mask
  set P := phaseSum s ((maskTerms K.baseLog K.levelCount c.mask).zip K.ksks.reverse)
  set D := decryptRlwe s ⟨fft.backward out.mask, fft.backward out.body⟩
  unfold Enc
  have e : D - decryptRlwe before c = (D - (decryptRlwe s ⟨0, 0 + c.body⟩ - P)) - (P - c.mask * before) := by
    unfold decryptRlwe; ring
  rw [e]
  refine (h2.sub h3).mono (le_of_eq ?_)
  unfold ksNoise; ring

/-- An honestly generated key switching key. -/
theorem fillWithKeyswitchKey_spec (K : KeyswitchKey n) (before s : Poly n) {g : Gen n} {B : Nat} (hg : g.Bounded B) :
    IsKsk s (K.fillWithKeyswitchKey before s g).1 before B ∧ (K.fillWithKeyswitchKey before s g).2.Bounded B := by
  have h := mapGen_spec (P := fun g : Gen n => g.Bounded B)
    (Q := fun l (r : RLWE n) => Enc s r (Poly.const n (gadget K.baseLog l) * before) B)
    (f := fun level g => encryptRlwe s (before.mulConst (gadget K.baseLog level)) g)
    (fun l g hg => ⟨by rw [Poly.mulConst_eq]; exact encryptRlwe_enc hg, hg⟩) (List.range' 1 K.levelCount) g hg
  refine ⟨⟨?_, ?_⟩, h.2⟩
  · unfold KeyswitchKey.fillWithKeyswitchKey
    simp only [mapGen_length, List.length_range']
  · intro i r hr
    have := forall₂_range'_getElem h.1 hr
    rwa [Nat.add_comm] at this

end Panacea
