import Verif.Lemmas.PdteCircuit
import Verif.Props.Oblivious
import Verif.Props.EncEval

/-!
# C66: the decision tree server does the same operations for all feature vectors
-/

namespace Panacea
variable {n : Nat}

open Classical in
/-- The shape of the evaluation keys of `gen_all_subs_ksk`. -/
noncomputable def evalKeyShape (n : Nat) (ctx : Ctx) : KskShape := fun k =>
  if (∃ ln, log2 n = some ln ∧ ∃ i, 1 ≤ i ∧ i ≤ ln ∧ k = traceExp n i) then some (k, ctx.ksLevelCount, ctx.ksLevelCount) else none

theorem fillSubs_shape {K : KeyswitchKey n} {s : Poly n} {k : Nat} {g : Gen n} {r : KeyswitchKey n × Gen n}
    (h : K.fillWithSubsKeyswitchKey s k g = some r) : r.1.subsK = k ∧ r.1.levelCount = K.levelCount ∧ r.1.ksks.length = K.levelCount := by
  unfold KeyswitchKey.fillWithSubsKeyswitchKey at h
  split at h
  · cases h
  · cases h
    refine ⟨rfl, rfl, ?_⟩
    simp [KeyswitchKey.fillWithKeyswitchKey, mapGen_length]

theorem genSubs_shape (ctx : Ctx) (s : Poly n) : ∀ (is : List Nat) (hm : KskMap n) (g : Gen n) (r : KskMap n × Gen n),
    genSubsKskLoop ctx s is hm g = some r → ∀ k, (r.1 k).map (fun K => (K.subsK, K.levelCount, K.ksks.length))
      = if (∃ i ∈ is, k = traceExp n i) then some (k, ctx.ksLevelCount, ctx.ksLevelCount)
        else (hm k).map (fun K => (K.subsK, K.levelCount, K.ksks.length))
  | [], hm, g, r, h, k => by cases h; simp
  | i :: is, hm, g, r, h, k => by
    rw [genSubsKskLoop] at h
    split at h
    · cases h
    · next ksk g' hk =>
      obtain ⟨e1, e2, e3⟩ := fillSubs_shape hk
      have ih := genSubs_shape ctx s is _ g' r h k
      rw [ih]
      simp only [List.mem_cons, exists_eq_or_imp]
      by_cases h1 : ∃ i ∈ is, k = traceExp n i
      · rw [if_pos h1, if_pos (Or.inr h1)]
      · rw [if_neg h1]
        by_cases h2 : k = traceExp n i
        · rw [if_pos h2, if_pos (Or.inl h2)]
          simp only [Option.map_some]
          rw [e1, e2, e3, h2]; rfl
        · rw [if_neg h2, if_neg (by rintro (h | h); exacts [h2 h, h1 h])]

/-- C66 (evaluation keys): which evaluation keys there are, and their shapes, does not depend on the secret key or the randomness. -/
theorem C66_keys {ctx : Ctx} {s : Poly n} {g : Gen n} {r : KskMap n × Gen n} (h : genAllSubsKsk ctx s g = some r) (k : Nat) :
    (r.1 k).map (fun K => (K.subsK, K.levelCount, K.ksks.length)) = evalKeyShape n ctx k := by
  unfold genAllSubsKsk at h
  cases hl : log2 n with
  | none => rw [hl] at h; cases h
  | some ln =>
    rw [hl] at h
    rw [genSubs_shape ctx s _ _ g r h k]
    unfold evalKeyShape
    have e : (∃ i ∈ List.range' 1 ln, k = traceExp n i) ↔ ∃ ln', log2 n = some ln' ∧ ∃ i, 1 ≤ i ∧ i ≤ ln' ∧ k = traceExp n i := by
      rw [hl]
      constructor
      · rintro ⟨i, hi, rfl⟩
        rw [List.mem_range'_1] at hi
        exact ⟨ln, rfl, i, by omega, by omega, rfl⟩
      · rintro ⟨ln', h1, i, h2, h3, rfl⟩
        cases h1
        exact ⟨i, by rw [List.mem_range'_1]; omega, rfl⟩
    by_cases hc : ∃ i ∈ List.range' 1 ln, k = traceExp n i
    · rw [if_pos hc, if_pos (e.mp hc)]
    · rw [if_neg hc, if_neg (fun h => hc (e.mpr h))]; rfl

/-- C66 (client): one list of `level_count` ciphertexts per feature, whatever the values. -/
theorem C66_client {ctx : Ctx} {s : Poly n} {vs : List Nat} {g : Gen n} {r : List (List (RLWE n)) × Gen n}
    (h : encryptFeatureVector ctx s vs g = some r) : r.1.map List.length = List.replicate vs.length ctx.levelCount := by
  unfold encryptFeatureVector at h
  split at h
  · cases h
  · have := mapGenM_forall (Q := fun cs : List (RLWE n) => cs.length = ctx.levelCount) (fun v g x hx => by
      have := (mapGenM_forall (Q := fun _ => True) (fun _ _ _ _ => trivial) hx).1
      rwa [List.length_range'] at this) h
    obtain ⟨h1, h2⟩ := this
    rw [List.eq_replicate_iff]
    refine ⟨by rw [List.length_map, h1], fun b hb => ?_⟩
    obtain ⟨cs, hcs, rfl⟩ := List.mem_map.mp hb
    exact h2 cs hcs

/-- C66: for every tree, parameters and public shape of the inputs there is one list of circuits - or one panic - that gives the server's
output for all ciphertexts, all evaluation keys and all encryptions of the key of that shape. -/
theorem C66_server (n : Nat) (ctx : Ctx) (ceilLog2 : Nat → Nat) (model : Tree) (lens : List Nat) (shape : KskShape) :
    ∃ o : Option (List TCirc), ∀ (fft : Fft n) (I : PdteInputs n), PdteShape lens shape I →
      simulateServer fft ctx ceilLog2 model I.ksks I.negS I.cts = o.map (List.map (TCirc.eval fft I)) :=
  ⟨serverSym n ctx ceilLog2 model shape lens, fun fft I hI => server_sym fft I hI ctx ceilLog2 model⟩

/-- C66 (session): for every tree, parameters and number of features the server's operations are the same for all keys, all randomness and
all feature vectors of that length (and hence the same in a serial and a parallel run over many vectors). -/
theorem C66_session (n : Nat) (ctx : Ctx) (ceilLog2 : Nat → Nat) (model : Tree) (len : Nat) :
    ∃ o : Option (List TCirc), ∀ (fft : Fft n) (s : Poly n) (g g' g1 g2 : Gen n) (negS : RGSW n) (ksks : KskMap n) (vs : List Nat)
      (cts : List (List (RLWE n))), genAllSubsKsk ctx s g = some (ksks, g1) → vs.length = len →
      encryptFeatureVector ctx s vs g' = some (cts, g2) →
      simulateServer fft ctx ceilLog2 model ksks negS cts = o.map (List.map (TCirc.eval fft ⟨cts, ksks, negS⟩)) := by
  obtain ⟨o, ho⟩ := C66_server n ctx ceilLog2 model (List.replicate len ctx.levelCount) (evalKeyShape n ctx)
  refine ⟨o, fun fft s g g' g1 g2 negS ksks vs cts hk hl hv => ho fft ⟨cts, ksks, negS⟩ ⟨?_, fun k => C66_keys hk k⟩⟩
  rw [← hl]; exact C66_client hv

/-- C66 (panics and sizes): for two feature vectors of the same length either both evaluations panic or both return equally many
ciphertexts. -/
theorem C66_same_size {ctx : Ctx} {ceilLog2 : Nat → Nat} {model : Tree} {fft : Fft n} {lens : List Nat} {shape : KskShape}
    {I J : PdteInputs n} (hI : PdteShape lens shape I) (hJ : PdteShape lens shape J) :
    (simulateServer fft ctx ceilLog2 model I.ksks I.negS I.cts).map List.length
      = (simulateServer fft ctx ceilLog2 model J.ksks J.negS J.cts).map List.length := by
  obtain ⟨o, ho⟩ := C66_server n ctx ceilLog2 model lens shape
  rw [ho fft I hI, ho fft J hJ]
  cases o <;> simp

/-- The keys and two feature vectors of the running example exist. -/
example : (genAllSubsKsk exTreeCtx exKey exGen).isSome ∧ (encryptFeatureVector exTreeCtx exKey [3, 0] exGen).isSome ∧
    (encryptFeatureVector exTreeCtx exKey [1, 2] exGen).isSome := by
  refine ⟨?_, by decide +kernel, by decide +kernel⟩
  obtain ⟨r, h, _⟩ := genAllSubsKsk_spec (d := 2) (by omega) exTreeCtx exKey exGen_bounded
  rw [show genAllSubsKsk exTreeCtx exKey exGen = some r from h]; rfl

end Panacea
