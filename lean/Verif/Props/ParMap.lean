import Verif.Spec.ParMap
import Verif.Props.Report
import Verif.Props.Simulate
import Verif.Props.MeasuredTree

/-! # C76: the `parallel` flag of `simulate`, and what a simulation reports -/

namespace Panacea
variable {α β : Type} {n : Nat}

/-- Finished slots hold the value of their item. -/
def ParMapInv (f : α → Option β) (l : List α) (sl : List (Slot β)) : Prop :=
  sl.length = l.length ∧ ∀ (i : Nat) a r, l[i]? = some a → sl[i]? = some (.finished r) → r = f a

theorem parMap_inv {f : α → Option β} {l : List α} {N : Nat} {sl : List (Slot β)}
    (h : Relation.ReflTransGen (ParMapStep f l N) (parMapInit l) sl) : ParMapInv f l sl := by
  induction h with
  | refl =>
    refine ⟨by simp [parMapInit], fun i a r _ h => ?_⟩
    unfold parMapInit at h
    rw [List.getElem?_map] at h
    rcases l[i]? with _ | x <;> simp at h
  | tail _ st ih =>
    obtain ⟨hl, hf⟩ := ih
    cases st with
    | start h1 h2 h3 =>
      refine ⟨by simpa using hl, fun i a r ha hr => ?_⟩
      rw [List.getElem?_set] at hr
      split at hr
      · split at hr <;> simp at hr
      · exact hf i a r ha hr
    | finish h1 h2 =>
      refine ⟨by simpa using hl, fun i a r ha hr => ?_⟩
      rw [List.getElem?_set] at hr
      split at hr
      · rename_i he
        subst he
        split at hr
        · simp only [Option.some.injEq, Slot.finished.injEq] at hr
          rw [h2] at ha
          cases ha
          exact hr.symm
        · cases hr
      · exact hf i a r ha hr

theorem mapOption_of_get {f : α → Option β} : ∀ {l : List α} {vs : List β}, vs.length = l.length →
    (∀ (i : Nat) a v, l[i]? = some a → vs[i]? = some v → f a = some v) → mapOption f l = some vs
  | [], [], _, _ => rfl
  | [], _ :: _, h, _ => by simp at h
  | _ :: _, [], h, _ => by simp at h
  | a :: l, v :: vs, hl, h => by
    rw [mapOption, h 0 a v rfl rfl]
    rw [mapOption_of_get (vs := vs) (by simpa using hl) (fun i a v h1 h2 => h (i + 1) a v h1 h2)]

theorem mapOption_none_of_mem {f : α → Option β} {a : α} : ∀ {l : List α}, a ∈ l → f a = none → mapOption f l = none
  | [], h, _ => by cases h
  | b :: l, h, hf => by
    rw [mapOption]
    rcases List.mem_cons.mp h with rfl | h
    · rw [hf]
    · rcases f b with _ | c
      · rfl
      · simp only [mapOption_none_of_mem h hf]

/-- C76 (parallel map): whatever the number of workers and the order in which they take and finish items, a parallel map returns exactly
what mapping the items one after the other returns, in the order of the items, and panics exactly if some item's computation panics. -/
theorem C76_par_map {f : α → Option β} {l : List α} {N : Nat} {out : Option (List β)} (h : ParMapRun f l N out) :
    out = mapOption f l := by
  obtain ⟨sl, hr, ho⟩ := h
  obtain ⟨hl, hf⟩ := parMap_inv hr
  rcases ho with ⟨vs, rfl, rfl⟩ | ⟨hp, _, rfl⟩
  · symm
    refine mapOption_of_get (by simpa using hl) fun i a v h1 h2 => ?_
    exact (hf i a (some v) h1 (by simp [h2])).symm
  · obtain ⟨i, hi⟩ := List.mem_iff_getElem?.mp hp
    have hlt : i < l.length := by rw [← hl]; exact (List.getElem?_eq_some_iff.mp hi).1
    have hn := hf i l[i] none (List.getElem?_eq_getElem hlt) hi
    exact (mapOption_none_of_mem (List.getElem_mem hlt) hn.symm).symm

/-- Steps still to be made. -/
def Slot.left : Slot β → Nat
  | .pending => 2
  | .running _ => 1
  | .finished _ => 0

/-- Steps still to be made by all items. -/
def slotsLeft (sl : List (Slot β)) : Nat := (sl.map Slot.left).sum

theorem sum_set_lt {sl : List (Slot β)} : ∀ {i : Nat} {x y : Slot β}, sl[i]? = some x → y.left < x.left →
    slotsLeft (sl.set i y) < slotsLeft sl := by
  induction sl with
  | nil => intro i x y h; simp at h
  | cons a sl ih =>
    intro i x y h hlt
    cases i with
    | zero =>
      simp only [List.getElem?_cons_zero, Option.some.injEq] at h
      subst h
      simp only [List.set_cons_zero, slotsLeft, List.map_cons, List.sum_cons]
      omega
    | succ i =>
      have := ih (i := i) (x := x) (y := y) (by simpa using h) hlt
      simp only [List.set_cons_succ, slotsLeft, List.map_cons, List.sum_cons] at this ⊢
      omega

theorem slots_done {sl : List (Slot β)} (h1 : Slot.pending ∉ sl) (h2 : ∀ t, Slot.running t ∉ sl) (h3 : Slot.finished none ∉ sl) :
    ∃ vs : List β, sl = vs.map (fun v => .finished (some v)) := by
  induction sl with
  | nil => exact ⟨[], rfl⟩
  | cons a sl ih =>
    obtain ⟨vs, hvs⟩ := ih (fun h => h1 (List.mem_cons_of_mem _ h)) (fun t h => h2 t (List.mem_cons_of_mem _ h))
      (fun h => h3 (List.mem_cons_of_mem _ h))
    rcases a with _ | t | r
    · exact absurd List.mem_cons_self h1
    · exact absurd List.mem_cons_self (h2 t)
    · rcases r with _ | v
      · exact absurd List.mem_cons_self h3
      · exact ⟨v :: vs, by rw [hvs]; rfl⟩

/-- C76 (no deadlock, no livelock): with at least one worker, every reachable state can return or can make a step, and every step makes
progress towards completion, so every schedule ends, after at most two steps per item. -/
theorem C76_par_map_completes (f : α → Option β) (l : List α) {N : Nat} (hN : 0 < N) :
    (∀ sl, Relation.ReflTransGen (ParMapStep f l N) (parMapInit l) sl →
      (∃ out, ParMapOut sl out) ∨ ∃ sl', ParMapStep f l N sl sl') ∧
    (∃ μ : List (Slot β) → Nat, μ (parMapInit l) = 2 * l.length ∧ ∀ sl sl', ParMapStep f l N sl sl' → μ sl' < μ sl) := by
  refine ⟨fun sl h => ?_, slotsLeft, ?_, ?_⟩
  · have hl := (parMap_inv h).1
    by_cases h2 : ∃ t, Slot.running t ∈ sl
    · obtain ⟨t, ht⟩ := h2
      obtain ⟨i, hi⟩ := List.mem_iff_getElem?.mp ht
      have hlt : i < l.length := by rw [← hl]; exact (List.getElem?_eq_some_iff.mp hi).1
      exact Or.inr ⟨_, .finish hi (List.getElem?_eq_getElem hlt)⟩
    · have h2 : ∀ t, Slot.running t ∉ sl := fun t ht => h2 ⟨t, ht⟩
      by_cases h1 : Slot.pending ∈ sl
      · obtain ⟨i, hi⟩ := List.mem_iff_getElem?.mp h1
        exact Or.inr ⟨_, .start hi hN fun j hj => h2 0 (List.mem_iff_getElem?.mpr ⟨j, hj⟩)⟩
      · left
        by_cases h3 : Slot.finished none ∈ sl
        · exact ⟨none, Or.inr ⟨h3, h2, rfl⟩⟩
        · obtain ⟨vs, hvs⟩ := slots_done h1 h2 h3
          exact ⟨some vs, Or.inl ⟨vs, hvs, rfl⟩⟩
  · unfold slotsLeft parMapInit
    induction l with
    | nil => rfl
    | cons a l ih => simp only [List.map_cons, List.sum_cons, List.length_cons, Slot.left] at ih ⊢; omega
  · intro sl sl' h
    cases h with
    | start h1 h2 h3 => exact sum_set_lt h1 (by simp [Slot.left])
    | finish h1 h2 => exact sum_set_lt h1 (by simp [Slot.left])

/-- Some schedule completes. -/
theorem parMapRun_exists (f : α → Option β) (l : List α) {N : Nat} (hN : 0 < N) : ParMapRun f l N (mapOption f l) := by
  obtain ⟨hp, μ, _, hμ⟩ := C76_par_map_completes f l hN
  have key : ∀ k sl, μ sl ≤ k → Relation.ReflTransGen (ParMapStep f l N) (parMapInit l) sl → ∃ out, ParMapRun f l N out := by
    intro k
    induction k with
    | zero =>
      intro sl hk hr
      rcases hp sl hr with ⟨out, ho⟩ | ⟨sl', hs⟩
      · exact ⟨out, sl, hr, ho⟩
      · have := hμ _ _ hs; omega
    | succ k ih =>
      intro sl hk hr
      rcases hp sl hr with ⟨out, ho⟩ | ⟨sl', hs⟩
      · exact ⟨out, sl, hr, ho⟩
      · have := hμ _ _ hs
        exact ih sl' (by omega) (hr.tail hs)
  obtain ⟨out, ho⟩ := key _ _ le_rfl .refl
  rw [← C76_par_map ho]; exact ho

/-- C76 (the `parallel` flag): for every model, feature vectors, key, randomness, Fourier error and pool size, the outcome of `simulate`
is the same whether `parallel` is set or not and in every schedule: it is the outcome of the sequential computation. -/
theorem C76_simulate_parallel (fft : Fft n) (ctx : Ctx) (ceilLog2 : Nat → Nat) (s : Poly n) (model : Tree) (features : List (List Nat))
    (parallel : Bool) {N : Nat} (hN : 0 < N) (g : Gen n) (out : Option (List Nat)) :
    SimulateRun fft ctx ceilLog2 s model features parallel N g out ↔ out = simulate fft ctx ceilLog2 s model features g := by
  unfold SimulateRun simulate
  rcases negGsw ctx s g with _ | ⟨negS, g⟩
  · rfl
  simp only
  rcases genAllSubsKsk ctx s g with _ | ⟨ksks, g⟩
  · rfl
  simp only
  rcases mapGenM (encryptFeatureVector ctx s) features g with _ | ⟨cts, g⟩
  · rfl
  simp only
  have hb : ∀ o : Option (List (List (RLWE n))), (o.bind fun os => mapOption (simulateCheck ctx s model) (os.zip features)) =
      (match o with
        | none => none
        | some outputs => mapOption (simulateCheck ctx s model) (outputs.zip features)) := by
    intro o; cases o <;> rfl
  constructor
  · rintro ⟨o, ho, rfl⟩
    have : o = mapOption (simulateServer fft ctx ceilLog2 model ksks negS) cts := by
      cases parallel
      · exact ho
      · exact C76_par_map ho
    rw [this]
    exact hb _
  · rintro rfl
    refine ⟨_, ?_, (hb _).symm⟩
    cases parallel
    · rfl
    · exact parMapRun_exists _ _ hN

theorem simulateRun_sound {fft : Fft n} {ctx : Ctx} {ceilLog2 : Nat → Nat} {s : Poly n} {model : Tree}
    {features : List (List Nat)} {parallel : Bool} {N : Nat} (hN : 0 < N) {g : Gen n} {ys : List Nat}
    (hr : SimulateRun fft ctx ceilLog2 s model features parallel N g (some ys)) :
    List.Forall₂ (fun f y => model.eval f = some y) features ys :=
  C60_simulate_sound ((C76_simulate_parallel fft ctx ceilLog2 s model features parallel hN g (some ys)).mp hr).symm

theorem simulateReturnsWith_result {F : Type} {p : TFHEParameters F} {fft : Fft n} {ceilLog2 : Nat → Nat} {s : Poly n} {model : Tree}
    {features : List (List Nat)} {parallel : Bool} {N : Nat} (hN : 0 < N) {g : Gen n} {setup server : List Char} {R : SimulationResult F}
    (h : SimulateReturnsWith p fft ceilLog2 s model features parallel N g setup server R) :
    ∃ ys, R = SimulationResult.new features.length setup server ys p ∧ List.Forall₂ (fun f y => model.eval f = some y) features ys := by
  obtain ⟨ctx, ys, _, hr, rfl⟩ := h
  exact ⟨ys, rfl, simulateRun_sound hN hr⟩

/-- C76 (result): every `SimulationResult` that `simulate` returns counts the feature vectors given, holds one prediction for each of them,
in order, equal to the clear evaluation of the model, and names the default parameters as the ones used. -/
theorem C76_result {F : Type} {m55 : F} {fft : Fft (2 ^ 11)} {ceilLog2 : Nat → Nat} {s : Poly (2 ^ 11)} {model : Tree}
    {features : List (List Nat)} {parallel : Bool} {N : Nat} (hN : 0 < N) {g : Gen (2 ^ 11)} {setup server : List Char} {R : SimulationResult F}
    (h : SimulateReturns m55 fft ceilLog2 s model features parallel N g setup server R) :
    R.inputCount = features.length ∧ R.predictions.length = R.inputCount ∧
    (∀ (i : Nat) f, features[i]? = some f → ∃ y, R.predictions[i]? = some y ∧ model.eval f = some y) ∧
    R.setupDuration = setup ∧ R.serverDuration = server ∧ R.std = m55 ∧ R.polySize = 2048 ∧ R.baseLog = 5 ∧ R.levelCount = 9 ∧
    R.ksBaseLog = 5 ∧ R.ksLevelCount = 11 ∧ R.negsBaseLog = 5 ∧ R.negsLevelCount = 11 := by
  unfold SimulateReturns at h
  obtain ⟨ys, rfl, hs⟩ := simulateReturnsWith_result hN h
  simp only [SimulationResult.new, TFHEParameters.default', true_and, and_true]
  refine ⟨hs.length_eq.symm, fun i f hf => ?_⟩
  have hlt : i < features.length := (List.getElem?_eq_some_iff.mp hf).1
  have hlt' : i < ys.length := by rw [← hs.length_eq]; exact hlt
  have := (List.forall₂_iff_get.mp hs).2 i hlt hlt'
  rw [List.getElem?_eq_getElem hlt] at hf
  cases hf
  exact ⟨ys[i], List.getElem?_eq_getElem hlt', this⟩

theorem lit1 : "input_count=".toList = "input_count".toList ++ ("=".toList) := by decide
theorem lit2 : ", setup_duration=".toList = ", ".toList ++ ("setup_duration".toList ++ ("=".toList)) := by decide
theorem lit3 : ", server_duration=".toList = ", ".toList ++ ("server_duration".toList ++ ("=".toList)) := by decide
theorem lit4 : "q=".toList = "q".toList ++ ("=".toList) := by decide
theorem lit5 : ", poly_size=".toList = ", ".toList ++ ("poly_size".toList ++ ("=".toList)) := by decide
theorem lit6 : ", log_std=".toList = ", ".toList ++ ("log_std".toList ++ ("=".toList)) := by decide
theorem lit7 : ", default_decomp=(".toList = ", ".toList ++ ("default_decomp".toList ++ ("=".toList ++ ("(".toList))) := by decide
theorem lit8 : "), ks_decomp=(".toList = ")".toList ++ (", ".toList ++ ("ks_decomp".toList ++ ("=".toList ++ ("(".toList)))) := by decide
theorem lit9 : "), negs_decomp=(".toList = ")".toList ++ (", ".toList ++ ("negs_decomp".toList ++ ("=".toList ++ ("(".toList)))) := by decide
theorem lit10 : ", pt_modulus=(".toList = ", ".toList ++ ("pt_modulus".toList ++ ("=".toList ++ ("(".toList))) := by decide

theorem toList_pair (a b : Nat) : (Spec.pair a b).toList = "(".toList ++ fmtNat a ++ ",".toList ++ fmtNat b ++ ")".toList := by
  simp [Spec.pair, Spec.dec, fmtNat]

/-- C76 (display): the text of a simulation result lists its entries, and the text of a context lists the parameters it was made from,
including the plaintext modulus. -/
theorem C76_display {F : Type} (fmtF : F → List Char) (inputs : Nat) (setup server : List Char) (ys : List Nat) (p : TFHEParameters F)
    {c : Codec} (hc : Codec.new (BitVec.ofNat 64 p.plaintextModulus) = some c) (hm : p.plaintextModulus < 2 ^ 64) :
    (SimulationResult.new inputs setup server ys p).text fmtF =
      (Spec.listing (Spec.simulationEntries inputs (String.ofList setup) (String.ofList server) (String.ofList (fmtF p.standardDeviation)) p)).toList ∧
    contextText fmtF p c =
      (Spec.listing (Spec.contextEntries (String.ofList (fmtF p.standardDeviation)) p p.plaintextModulus)).toList := by
  have ht : c.ptModulus.toNat = p.plaintextModulus := by
    rw [(C02_pt_modulus hc).1, BitVec.toNat_ofNat, Nat.mod_eq_of_lt hm]
  have e64 : fmtNat 64 = "64".toList := by decide
  constructor
  · unfold Spec.listing Spec.simulationEntries Spec.paramEntries SimulationResult.text SimulationResult.new paramsDisplay Spec.pair Spec.dec
    simp only [List.map_cons, List.map_nil, List.cons_append, List.nil_append, String.toList_intercalate, List.intercalate_cons_cons,
      List.intercalate_singleton, String.toList_append, String.toList_ofList, List.append_assoc, lit1, lit2, lit3, lit4, lit5, lit6, lit7, lit8, lit9, lit10, e64]
    rfl
  · unfold Spec.listing Spec.contextEntries Spec.paramEntries contextText paramsDisplay Spec.pair Spec.dec
    rw [ht]
    simp only [List.map_cons, List.map_nil, List.cons_append, List.nil_append, String.toList_intercalate, List.intercalate_cons_cons,
      List.intercalate_singleton, String.toList_append, String.toList_ofList, List.append_assoc, lit1, lit2, lit3, lit4, lit5, lit6, lit7, lit8, lit9, lit10, e64]
    rfl

/-- The comma separated pieces of a printed simulation result. -/
def simulationFields {F : Type} (fmtF : F → List Char) (R : SimulationResult F) : List (List Char) :=
  ["input_count=".toList ++ fmtNat R.inputCount, " setup_duration=".toList ++ R.setupDuration, " server_duration=".toList ++ R.serverDuration,
   " q=64".toList, " poly_size=".toList ++ fmtNat R.polySize, " log_std=".toList ++ fmtF R.std,
   " default_decomp=(".toList ++ fmtNat R.baseLog, fmtNat R.levelCount ++ ")".toList,
   " ks_decomp=(".toList ++ fmtNat R.ksBaseLog, fmtNat R.ksLevelCount ++ ")".toList,
   " negs_decomp=(".toList ++ fmtNat R.negsBaseLog, fmtNat R.negsLevelCount ++ ")".toList]

theorem append_comma (x y : List Char) : x ++ (",".toList ++ y) = x ++ ',' :: y := rfl

theorem simulation_text_fields {F : Type} (fmtF : F → List Char) (R : SimulationResult F) :
    R.text fmtF = [','].intercalate (simulationFields fmtF R) := by
  have l2 : ", setup_duration=".toList = [','] ++ " setup_duration=".toList := by decide
  have l3 : ", server_duration=".toList = [','] ++ " server_duration=".toList := by decide
  have l4 : ", ".toList ++ ("q=".toList ++ fmtNat 64) = [','] ++ " q=64".toList := by decide
  have l5 : ", poly_size=".toList = [','] ++ " poly_size=".toList := by decide
  have l6 : ", log_std=".toList = [','] ++ " log_std=".toList := by decide
  have l7 : ", default_decomp=(".toList = [','] ++ " default_decomp=(".toList := by decide
  have l8 : "), ks_decomp=(".toList = ")".toList ++ ([','] ++ " ks_decomp=(".toList) := by decide
  have l9 : "), negs_decomp=(".toList = ")".toList ++ ([','] ++ " negs_decomp=(".toList) := by decide
  have l0 : ",".toList = [','] := by decide
  have e : R.text fmtF = "input_count=".toList ++ fmtNat R.inputCount ++ ", setup_duration=".toList ++ R.setupDuration ++
      ", server_duration=".toList ++ R.serverDuration ++ (", ".toList ++ ("q=".toList ++ fmtNat 64)) ++ ", poly_size=".toList ++ fmtNat R.polySize ++ ", log_std=".toList ++ fmtF R.std ++
      ", default_decomp=(".toList ++ fmtNat R.baseLog ++ ",".toList ++ fmtNat R.levelCount ++ "), ks_decomp=(".toList ++ fmtNat R.ksBaseLog ++ ",".toList ++ fmtNat R.ksLevelCount ++
      "), negs_decomp=(".toList ++ fmtNat R.negsBaseLog ++ ",".toList ++ fmtNat R.negsLevelCount ++ ")".toList := by
    unfold SimulationResult.text paramsDisplay
    simp only [List.append_assoc]
  rw [e, l2, l3, l4, l5, l6, l7, l8, l9, l0]
  unfold simulationFields
  simp only [List.intercalate_cons_cons, List.intercalate_singleton, List.append_assoc]

theorem fmtNat_inj {a b : Nat} (h : fmtNat a = fmtNat b) : a = b := by
  unfold fmtNat at h
  simp only [Nat.toString_eq_repr, Nat.toList_repr] at h
  have := congrArg (Nat.ofDigitChars 10 · 0) h
  simpa using this

theorem noComma_append {x y : List Char} (hx : ',' ∉ x) (hy : ',' ∉ y) : ',' ∉ x ++ y := by
  intro h; rcases List.mem_append.mp h with h | h
  · exact hx h
  · exact hy h

theorem simulationFields_noComma {F : Type} {fmtF : F → List Char} {R : SimulationResult F} (h1 : ',' ∉ R.setupDuration)
    (h2 : ',' ∉ R.serverDuration) (h3 : ',' ∉ fmtF R.std) : ∀ t ∈ simulationFields fmtF R, ',' ∉ t := by
  have hN := fun k => (fmtNat_clean k).1
  unfold simulationFields
  simp only [List.forall_mem_cons, List.not_mem_nil, false_imp_iff, implies_true, and_true]
  refine ⟨noComma_append (by decide) (hN _), noComma_append (by decide) h1, noComma_append (by decide) h2, by decide,
    noComma_append (by decide) (hN _), noComma_append (by decide) h3, noComma_append (by decide) (hN _), noComma_append (hN _) (by decide),
    noComma_append (by decide) (hN _), noComma_append (hN _) (by decide), noComma_append (by decide) (hN _), noComma_append (hN _) (by decide)⟩

/-- C76 (display is unambiguous): two results with the same text agree in everything but the predictions (which are not printed): the
number of inputs, the parameters, the texts of the durations and of the noise.  The texts of durations and of `f64` values contain no
comma in Rust. -/
theorem C76_display_injective {F : Type} {fmtF : F → List Char} {R R' : SimulationResult F}
    (hR : ',' ∉ R.setupDuration ∧ ',' ∉ R.serverDuration ∧ ',' ∉ fmtF R.std)
    (hR' : ',' ∉ R'.setupDuration ∧ ',' ∉ R'.serverDuration ∧ ',' ∉ fmtF R'.std) (h : R.text fmtF = R'.text fmtF) :
    R.inputCount = R'.inputCount ∧ R.setupDuration = R'.setupDuration ∧ R.serverDuration = R'.serverDuration ∧ R.polySize = R'.polySize ∧
    fmtF R.std = fmtF R'.std ∧ R.baseLog = R'.baseLog ∧ R.levelCount = R'.levelCount ∧ R.ksBaseLog = R'.ksBaseLog ∧
    R.ksLevelCount = R'.ksLevelCount ∧ R.negsBaseLog = R'.negsBaseLog ∧ R.negsLevelCount = R'.negsLevelCount := by
  rw [simulation_text_fields, simulation_text_fields] at h
  have := congrArg (List.splitOn ',') h
  rw [List.splitOn_intercalate _ (simulationFields_noComma hR.1 hR.2.1 hR.2.2) (by simp [simulationFields]),
    List.splitOn_intercalate _ (simulationFields_noComma hR'.1 hR'.2.1 hR'.2.2) (by simp [simulationFields])] at this
  unfold simulationFields at this
  simp only [List.cons.injEq, List.append_cancel_left_eq, List.append_cancel_right_eq, and_true, true_and] at this
  obtain ⟨a1, a2, a3, a4, a5, a6, a7, a8, a9, a10, a11⟩ := this
  exact ⟨fmtNat_inj a1, a2, a3, fmtNat_inj a4, a5, fmtNat_inj a6, fmtNat_inj a7, fmtNat_inj a8, fmtNat_inj a9, fmtNat_inj a10, fmtNat_inj a11⟩

/-- The predictions are not in the text. -/
theorem C76_predictions_not_printed {F : Type} (fmtF : F → List Char) (R : SimulationResult F) (ys : List Nat) :
    { R with predictions := ys }.text fmtF = R.text fmtF := rfl

/-- A schedule of two workers over three items that finish out of order, and one with a panicking item whose third item never starts. -/
example : ParMapRun (fun k : Nat => some (k * k)) [3, 4, 5] 2 (some [9, 16, 25]) ∧
    ParMapRun (fun k : Nat => if k = 4 then none else some k) [3, 4, 5] 2 none := by
  constructor
  · refine ⟨[.finished (some 9), .finished (some 16), .finished (some 25)], ?_, Or.inl ⟨[9, 16, 25], rfl, rfl⟩⟩
    have s1 := ParMapStep.start (f := fun k : Nat => some (k * k)) (l := [3, 4, 5]) (N := 2) (sl := [.pending, .pending, .pending]) (i := 0) (t := 0) rfl (by decide) (fun j => by rcases j with _ | _ | _ | j <;> simp)
    have s2 := ParMapStep.start (f := fun k : Nat => some (k * k)) (l := [3, 4, 5]) (N := 2) (sl := [.running 0, .pending, .pending]) (i := 1) (t := 1) rfl (by decide) (fun j => by rcases j with _ | _ | _ | j <;> simp)
    have s3 := ParMapStep.finish (f := fun k : Nat => some (k * k)) (l := [3, 4, 5]) (N := 2) (sl := [.running 0, .running 1, .pending]) (i := 1) rfl rfl
    have s4 := ParMapStep.start (f := fun k : Nat => some (k * k)) (l := [3, 4, 5]) (N := 2) (sl := [.running 0, .finished (some 16), .pending]) (i := 2) (t := 1) rfl (by decide) (fun j => by rcases j with _ | _ | _ | j <;> simp)
    have s5 := ParMapStep.finish (f := fun k : Nat => some (k * k)) (l := [3, 4, 5]) (N := 2) (sl := [.running 0, .finished (some 16), .running 1]) (i := 2) rfl rfl
    have s6 := ParMapStep.finish (f := fun k : Nat => some (k * k)) (l := [3, 4, 5]) (N := 2) (sl := [.running 0, .finished (some 16), .finished (some 25)]) (i := 0) rfl rfl
    exact (((((Relation.ReflTransGen.single s1).tail s2).tail s3).tail s4).tail s5).tail s6
  · refine ⟨[.finished (some 3), .finished none, .pending], ?_, Or.inr ⟨by simp, by simp, rfl⟩⟩
    have s1 := ParMapStep.start (f := fun k : Nat => if k = 4 then none else some k) (l := [3, 4, 5]) (N := 2) (sl := [.pending, .pending, .pending]) (i := 1) (t := 0) rfl (by decide) (fun j => by rcases j with _ | _ | _ | j <;> simp)
    have s2 := ParMapStep.start (f := fun k : Nat => if k = 4 then none else some k) (l := [3, 4, 5]) (N := 2) (sl := [.pending, .running 0, .pending]) (i := 0) (t := 1) rfl (by decide) (fun j => by rcases j with _ | _ | _ | j <;> simp)
    have s3 := ParMapStep.finish (f := fun k : Nat => if k = 4 then none else some k) (l := [3, 4, 5]) (N := 2) (sl := [.running 1, .running 0, .pending]) (i := 1) rfl rfl
    have s4 := ParMapStep.finish (f := fun k : Nat => if k = 4 then none else some k) (l := [3, 4, 5]) (N := 2) (sl := [.running 1, .finished none, .pending]) (i := 0) rfl rfl
    exact (((Relation.ReflTransGen.single s1).tail s2).tail s3).tail s4

/-- The text of a concrete result. -/
example : (SimulationResult.new 2 "1.5s".toList "3ms".toList [7, 9] (TFHEParameters.default' "-55.0".toList)).text id =
    "input_count=2, setup_duration=1.5s, server_duration=3ms, q=64, poly_size=2048, log_std=-55.0, default_decomp=(5,9), ks_decomp=(5,11), negs_decomp=(5,11)".toList := by
  decide +kernel

theorem simulateReturnsWith_of {F : Type} {p : TFHEParameters F} {ctx : Ctx} (hp : Ctx.ofParams p = some ctx) {fft : Fft n}
    {ceilLog2 : Nat → Nat} {s : Poly n} {model : Tree} {features : List (List Nat)} (parallel : Bool) {N : Nat} (hN : 0 < N) {g : Gen n}
    (setup server : List Char) {ys : List Nat} (h : simulate fft ctx ceilLog2 s model features g = some ys) :
    SimulateReturnsWith p fft ceilLog2 s model features parallel N g setup server (SimulationResult.new features.length setup server ys p) :=
  ⟨ctx, ys, hp, (C76_simulate_parallel fft ctx ceilLog2 s model features parallel hN g (some ys)).mpr h.symm, rfl⟩

theorem default_ofParams {F : Type} (m55 : F) : Ctx.ofParams (TFHEParameters.default' m55) = some defaultCtx := by
  have : Codec.new (BitVec.ofNat 64 (TFHEParameters.default' m55).plaintextModulus) = some ⟨8, 2 ^ 56⟩ := by
    show Codec.new (BitVec.ofNat 64 (1 <<< 8)) = _
    decide +kernel
  unfold Ctx.ofParams
  rw [this]; rfl

/-- A run of `simulate` with the default parameters, on four workers and on one, returns the result of the tree of C71. -/
theorem C76_witness (parallel : Bool) : SimulateReturns (-55 : Int) treeFft exF64.ceilLog2 treeKey
    (.internal ⟨1500, 0, 0, .leq⟩ (.internal ⟨700, 1, 1, .leq⟩ (.leaf 2) (.leaf 3)) (.leaf 1)) [[1500, 701], [2, 700], [2047, 0]]
    parallel 4 treeGen "1s".toList "2s".toList
    ⟨3, "1s".toList, "2s".toList, [3, 2, 1], -55, 2048, 5, 9, 5, 11, 5, 11⟩ := by
  obtain ⟨ys, h, rfl⟩ := C71_witness
  unfold SimulateReturns
  exact simulateReturnsWith_of (default_ofParams _) parallel (by decide) _ _ h

end Panacea
