import Verif.Props.Flat
import Mathlib.Data.Fin.VecNotation

/-! # C79, continued: key switching, trace, expansion, LWE conversion on word vectors; `izip!` -/

namespace Panacea
namespace Flat
variable {n : Nat}

/-! ## Key switching keys -/

theorem fillWithKeyswitchKey_out (K : KeyswitchKey n) (before after : Poly n) (g : Gen n) (hK : K.ksks.length = K.levelCount)
    (h0 : 0 < K.baseLog) (h : K.baseLog * K.levelCount ≤ 64) :
    fillWithKeyswitchKey (outKsk K) (out before) (out after) g =
      some (outKsk (K.fillWithKeyswitchKey before after g).1, (K.fillWithKeyswitchKey before after g).2) := by
  unfold fillWithKeyswitchKey KeyswitchKey.fillWithKeyswitchKey
  have aux : ∀ (l : Nat) (c : Nat) (ws : List Words) (g : Gen n), 0 < l → l + c ≤ K.levelCount + 1 → ws.length = c →
      mapGenM (fun (lk : Nat × Words) g => kskRow (outKsk K) (out before) (poly n (out after)) lk.1 g) ((List.range' l c).zip ws) g =
      some (((mapGen (fun level g => Panacea.encryptRlwe after (before.mulConst (gadget K.baseLog level)) g) (List.range' l c) g).1).map outRlwe,
        (mapGen (fun level g => Panacea.encryptRlwe after (before.mulConst (gadget K.baseLog level)) g) (List.range' l c) g).2) := by
    intro l c
    induction c generalizing l with
    | zero => intro ws g _ _ hw; rfl
    | succ c ih =>
      intro ws g hl hle hw
      cases ws with
      | nil => simp at hw
      | cons w ws =>
        rw [List.range'_succ, List.zip_cons_cons]
        unfold mapGenM mapGen
        have hrow : kskRow (outKsk K) (out before) (poly n (out after)) l g =
            some (outRlwe (Panacea.encryptRlwe after (before.mulConst (gadget K.baseLog l)) g).1,
              (Panacea.encryptRlwe after (before.mulConst (gadget K.baseLog l)) g).2) := by
          unfold kskRow
          simp only [replicate_out, clear_out, copy_out, poly_out]
          rw [show gadgetWord (outKsk K).baseLog l = some (gadget K.baseLog l) from
            gadgetWord_some h0 hl (le_trans (Nat.mul_le_mul_left _ (show l ≤ K.levelCount by omega)) h)]
          simp only [mulConst_out]
          unfold encryptRlwe
          simp
        simp only [hrow]
        rw [ih (l + 1) ws _ (by omega) (by omega) (by simpa using hw)]
        simp
  have hlen : (outKsk K).ksks.length = K.levelCount := by simp [outKsk, hK]
  rw [show (outKsk K).levelCount = K.levelCount from rfl, aux 1 K.levelCount _ g (by omega) (by omega) hlen]
  simp only
  congr 1
  congr 1
  show Ksk.mk _ _ _ _ = Ksk.mk _ _ _ _
  congr 1
  rw [List.drop_of_length_le (by rw [hlen]), List.append_nil]

/-- **C79** (key switching keys) `fill_with_keyswitch_key` and `fill_with_subs_keyswitch_key`, including the panic for an even exponent. -/
theorem C79_keyswitch_key {K : Ksk} {L : KeyswitchKey n} {b a d : Words} {pb pa pd : Poly n} (hK : StoresKsk K L) (hb : StoresPoly b pb)
    (ha : StoresPoly a pa) (hd : StoresPoly d pd) (hL : L.ksks.length = L.levelCount) (h0 : 0 < L.baseLog)
    (h : L.baseLog * L.levelCount ≤ 64) (k : Nat) (g : Gen n) :
    Agree (fun x y => StoresKsk x.1 y.1 ∧ x.2 = y.2) (fillWithKeyswitchKey K b a g) (some (L.fillWithKeyswitchKey pb pa g)) ∧
    Agree (fun x y => StoresKsk x.1 y.1 ∧ x.2 = y.2) (fillWithSubsKeyswitchKey K d a k g) (L.fillWithSubsKeyswitchKey pa k g) := by
  rw [storesKsk_iff] at hK; rw [storesPoly_iff] at hb ha hd
  subst hK hb ha hd
  refine ⟨?_, ?_⟩
  · rw [fillWithKeyswitchKey_out L pb pa g hL h0 h]
    exact ⟨storesKsk_iff.2 rfl, rfl⟩
  · unfold fillWithSubsKeyswitchKey KeyswitchKey.fillWithSubsKeyswitchKey
    rw [evalXk_out]
    cases Panacea.evalXk pa k with
    | none => trivial
    | some p =>
      simp only [Option.map_some, copy_out]
      rw [fillWithKeyswitchKey_out L p pa g hL h0 h]
      exact ⟨storesKsk_iff.2 rfl, rfl⟩

/-! ## Key switching, substitution, trace -/

theorem keyswitchLoop_out (fft : Fft n) (ks : List (RLWE n)) (ts : List (Poly n)) (after : RLWE n) :
    keyswitchLoop fft (ks.map outRlwe) ts (outRlwe after) = (Panacea.keyswitchLoop fft ks ts after).map outRlwe := by
  induction ks generalizing ts after with
  | nil => rfl
  | cons k ks ih =>
    cases ts with
    | nil => rfl
    | cons t ts =>
      rw [List.map_cons]
      unfold keyswitchLoop Panacea.keyswitchLoop
      simp only [getMask_out, getBody_out, poly_out]
      rw [← ih]
      congr 1
      have h1 : updateMaskWithSub n (outRlwe after) (out (fourierUpdateWithMulAcc fft 0 k.mask t)) =
          outRlwe ⟨after.mask - fourierUpdateWithMulAcc fft 0 k.mask t, after.body⟩ := modMask_out after (sub_out _ _)
      rw [h1]
      exact modBody_out ⟨after.mask - fourierUpdateWithMulAcc fft 0 k.mask t, after.body⟩ (sub_out _ _)

theorem clear_outRlwe (c : RLWE n) : clear (outRlwe c) = outRlwe (0 : RLWE n) := by
  unfold clear outRlwe; rw [List.map_append]
  exact congrArg₂ _ (clear_out c.mask) (clear_out c.body)

theorem keyswitchCiphertext_out (fft : Fft n) (K : KeyswitchKey n) (after before : RLWE n) :
    keyswitchCiphertext fft (outKsk K) (outRlwe after) (outRlwe before) = (K.keyswitchCiphertext fft after before).map outRlwe := by
  unfold keyswitchCiphertext KeyswitchKey.keyswitchCiphertext
  simp only [clear_outRlwe, getMask_out, getBody_out, poly_out]
  have h1 : modBody n (fun b => addWords b (out before.body)) (outRlwe (0 : RLWE n)) = outRlwe ⟨0, 0 + before.body⟩ :=
    modBody_out 0 (add_out 0 before.body)
  rw [h1, ← keyswitchLoop_out]
  congr 1
  simp [outKsk]

theorem subs_out (fft : Fft n) (K : KeyswitchKey n) (after before : RLWE n) :
    subs fft (outKsk K) (outRlwe after) (outRlwe before) = (K.subs fft after before).map outRlwe := by
  unfold subs KeyswitchKey.subs
  simp only [allocate_out, copy_outRlwe, getMask_out, getBody_out, evalXk_out]
  rw [show (outKsk K).subsK = K.subsK from rfl]
  cases Panacea.evalXk before.mask K.subsK with
  | none => rfl
  | some m =>
    cases Panacea.evalXk before.body K.subsK with
    | none => rfl
    | some b =>
      simp only [Option.map_some]
      rw [modMask_out before (copy_out before.mask m), modBody_out ⟨m, before.body⟩ (copy_out before.body b)]
      exact keyswitchCiphertext_out fft K after ⟨m, b⟩

theorem trace1Loop_out (fft : Fft n) (ksks : KskMap n) (is : List Nat) (buf o : RLWE n) :
    trace1Loop fft (fun k => (ksks k).map outKsk) is (outRlwe buf) (outRlwe o) = (Panacea.trace1Loop fft ksks is buf o).map outRlwe := by
  induction is generalizing buf o with
  | nil => rfl
  | cons i is ih =>
    unfold trace1Loop Panacea.trace1Loop
    simp only
    cases ksks (traceExp n i) with
    | none => rfl
    | some K =>
      simp only [Option.map_some]
      by_cases h : K.subsK = traceExp n i
      · rw [if_pos h, if_pos (show (outKsk K).subsK = _ from h), subs_out]
        cases K.subs fft buf o with
        | none => rfl
        | some buf' =>
          simp only [Option.map_some]
          rw [updateWithAdd_out, ih]
      · rw [if_neg h, if_neg (show ¬ (outKsk K).subsK = _ from h)]; rfl

theorem trace1_out (fft : Fft n) (ksks : KskMap n) (c : RLWE n) :
    trace1 fft (fun k => (ksks k).map outKsk) (outRlwe c) = (Panacea.trace1 fft ksks c).map outRlwe := by
  unfold trace1 Panacea.trace1
  cases log2 n with
  | none => rfl
  | some ln =>
    simp only
    rw [allocate_out]; exact trace1Loop_out fft ksks _ 0 c

/-- The keys `M` hold the keys `m`, exponent by exponent. -/
def StoresMap (M : Nat → Option Ksk) (m : KskMap n) : Prop := ∀ k, Agree StoresKsk (M k) (m k)

theorem storesMap_iff {M : Nat → Option Ksk} {m : KskMap n} : StoresMap M m ↔ M = fun k => (m k).map outKsk := by
  constructor
  · intro h
    funext k
    have := h k
    revert this
    cases M k <;> cases m k <;> simp [Agree, storesKsk_iff]
  · rintro rfl k
    exact agree_of_eq rfl fun b => storesKsk_iff.2 rfl

/-- **C79** (key switching, substitution, trace) including every panic; the old contents of the output do not matter. -/
theorem C79_keyswitch (fft : Fft n) {K : Ksk} {L : KeyswitchKey n} {M : Nat → Option Ksk} {m : KskMap n} {w v : Words} {c d : RLWE n}
    (hK : StoresKsk K L) (hM : StoresMap M m) (hw : StoresRlwe w c) (hv : StoresRlwe v d) :
    Agree StoresRlwe (keyswitchCiphertext fft K w v) (L.keyswitchCiphertext fft c d) ∧
    Agree StoresRlwe (subs fft K w v) (L.subs fft c d) ∧
    Agree StoresRlwe (trace1 fft M w) (Panacea.trace1 fft m c) := by
  rw [storesKsk_iff] at hK; rw [storesRlwe_iff] at hw hv; rw [storesMap_iff] at hM
  subst hK hw hv hM
  exact ⟨agree_of_eq (keyswitchCiphertext_out fft L c d) fun _ => storesRlwe_iff.2 rfl,
    agree_of_eq (subs_out fft L c d) fun _ => storesRlwe_iff.2 rfl,
    agree_of_eq (trace1_out fft m c) fun _ => storesRlwe_iff.2 rfl⟩

/-! ## RGSW from a key switching key -/

theorem zipIdx_replicate_map {α β : Type} (f : Nat → β) (x : α) (c k : Nat) :
    ((List.replicate c x).zipIdx k).map (fun p => f p.2) = (List.range' k c).map f := by
  induction c generalizing k with
  | zero => rfl
  | succ c ih => rw [List.replicate_succ, List.zipIdx_cons, List.map_cons, ih, List.range'_succ, List.map_cons]

theorem zipIdx_map_range {α β : Type} (f : α → Nat → β) (l : List α) (k : Nat) (d : α) :
    (l.zipIdx k).map (fun p => f p.1 p.2) = (List.range' 0 l.length).map fun i => f (l.getD i d) (i + k) := by
  refine List.ext_getElem (by simp) fun i h1 h2 => ?_
  simp only [List.length_map, List.length_zipIdx] at h1
  simp [List.getElem?_eq_getElem h1, Nat.add_comm]

/-- **C79** (key switching key as RGSW) `from_keyswitch_key`, including its assertion. -/
theorem C79_from_keyswitch_key (hn : 0 < n) {K : Ksk} {L : KeyswitchKey n} (hK : StoresKsk K L) (h0 : 0 < L.baseLog)
    (h : L.baseLog * L.levelCount ≤ 64) : Agree StoresRgsw (fromKeyswitchKey n K) (RGSW.fromKeyswitchKey L) := by
  rw [storesKsk_iff] at hK; subst hK
  refine agree_of_eq (f := outRgsw) ?_ fun b => storesRgsw_iff.2 rfl
  unfold fromKeyswitchKey RGSW.fromKeyswitchKey
  simp only
  rw [show ggswAllocate n (outKsk L).baseLog (outKsk L).levelCount = outRgsw (RGSW.allocate n L.baseLog L.levelCount) from
    ggswAllocate_out _ _, count_out hn]
  have hal : (RGSW.allocate n L.baseLog L.levelCount).rows.length = L.levelCount := by simp [RGSW.allocate]
  rw [hal]
  by_cases hl : L.ksks.length = L.levelCount
  · rw [if_pos hl, if_pos ⟨rfl, by simpa [outKsk] using hl⟩]
    rw [ggswLoop_total hn (Inv := fun _ => True)
      (F := fun l r => (⟨r.1.mask - (L.ksks.getD l 0).mask, r.1.body - (L.ksks.getD l 0).body⟩, ⟨r.2.mask, r.2.body.set 0 (gadget L.baseLog (l + 1))⟩))
      (RGSW.allocate n L.baseLog L.levelCount) ?_ () trivial]
    · simp only [Option.map_some]
      congr 2
      congr 1
      show ((List.replicate L.levelCount ((0 : RLWE n), (0 : RLWE n))).zipIdx).map _ = _
      have e1 := zipIdx_replicate_map (fun l => ((⟨0 - (L.ksks.getD l 0).mask, 0 - (L.ksks.getD l 0).body⟩ : RLWE n),
        (⟨0, Poly.set 0 0 (gadget L.baseLog (l + 1))⟩ : RLWE n))) ((0 : RLWE n), (0 : RLWE n)) L.levelCount 0
      have e2 := zipIdx_map_range (fun (k : RLWE n) (l : Nat) => ((⟨0 - k.mask, 0 - k.body⟩ : RLWE n),
        (⟨0, Poly.set 0 0 (gadget L.baseLog l)⟩ : RLWE n))) L.ksks 1 0
      rw [e2, hl, ← e1]
      refine List.map_congr_left fun p hp => ?_
      have : p.1 = (0, 0) := by
        have := List.fst_mem_of_mem_zipIdx hp
        exact (List.mem_replicate.1 this).2
      rw [this]; rfl
    · rintro l r ⟨⟩ hl' _
      rw [hal] at hl'
      refine ⟨(), (), ?_, ?_, trivial⟩
      · unfold fromKskRow
        simp only [show 2 * l / 2 = l by omega, show 2 * l % 2 = 0 by omega, if_true]
        have hget : (outKsk L).ksks[l]? = some (outRlwe (L.ksks.getD l 0)) := by
          have : l < L.ksks.length := by omega
          simp [outKsk, List.getElem?_map, List.getElem?_eq_getElem this]
        rw [hget]
        simp only [getMask_out, getBody_out, Option.map_some]
        rw [modMask_out r.1 (sub_out r.1.mask (L.ksks.getD l 0).mask)]
        exact congrArg (fun w => some (w, ())) (modBody_out ⟨_, r.1.body⟩ (sub_out r.1.body (L.ksks.getD l 0).body))
      · unfold fromKskRow
        simp only [show (2 * l + 1) / 2 = l by omega, show (2 * l + 1) % 2 = 1 by omega]
        rw [if_neg (by omega), show gadgetWord (outKsk L).baseLog (l + 1) = some (gadget L.baseLog (l + 1)) from
          gadgetWord_some h0 (Nat.succ_pos l) (le_trans (Nat.mul_le_mul_left _ (show l + 1 ≤ L.levelCount by omega)) h)]
        exact congrArg (fun w => some (w, ())) (modBody_out r.2 (set_out r.2.body 0 _))
  · rw [if_neg hl, if_neg (fun e => hl (by simpa [outKsk] using e.2))]; rfl

/-! ## Expansion -/

theorem mapOption_out {f : Words → Option Words} {F : RLWE n → Option (RLWE n)} (h : ∀ c, f (outRlwe c) = (F c).map outRlwe)
    (cs : List (RLWE n)) : mapOption f (cs.map outRlwe) = (mapOption F cs).map (List.map outRlwe) := by
  induction cs with
  | nil => rfl
  | cons c cs ih =>
    rw [List.map_cons]
    unfold mapOption
    rw [h c, ih]
    cases F c with
    | none => rfl
    | some a => cases mapOption F cs <;> rfl

theorem mapOption_zipIdx_replicate {α β : Type} (G : Nat → Option β) (x : α) (c k : Nat) :
    mapOption (fun p : α × Nat => G p.2) ((List.replicate c x).zipIdx k) = mapOption G (List.range' k c) := by
  induction c generalizing k with
  | zero => rfl
  | succ c ih =>
    rw [List.replicate_succ, List.zipIdx_cons, List.range'_succ]
    unfold mapOption
    rw [ih]

theorem mapOption_congr_mem {α β : Type} {f g : α → Option β} {l : List α} (h : ∀ a ∈ l, f a = g a) : mapOption f l = mapOption g l := by
  induction l with
  | nil => rfl
  | cons a as ih =>
    unfold mapOption
    rw [h a (by simp), ih fun b hb => h b (by simp [hb])]

/-- Looking up the first `c` elements one by one. -/
theorem mapOption_lookup {α β : Type} (f : α → Option β) (l : List α) (c : Nat) :
    mapOption (fun i => (l[i]?).bind f) (List.range' 0 c) = if c ≤ l.length then mapOption f (l.take c) else mapOption (fun i => (l[i]?).bind f) (List.range' 0 c) := by
  split
  · next h =>
    have aux : ∀ (c k : Nat), k + c ≤ l.length → mapOption (fun i => (l[i]?).bind f) (List.range' k c) = mapOption f ((l.drop k).take c) := by
      intro c
      induction c with
      | zero => intro k _; simp [mapOption]
      | succ c ih =>
        intro k hk
        rw [List.range'_succ, List.drop_eq_getElem_cons (by omega), List.take_succ_cons]
        unfold mapOption
        rw [ih (k + 1) (by omega), List.getElem?_eq_getElem (by omega)]
        rfl
    simpa using aux c 0 (by omega)
  · rfl

theorem mapOption_lookup_none {α β : Type} (f : α → Option β) (l : List α) (c : Nat) (h : l.length < c) :
    mapOption (fun i => (l[i]?).bind f) (List.range' 0 c) = none := by
  have aux : ∀ (c k : Nat), k ≤ l.length → l.length < k + c → mapOption (fun i => (l[i]?).bind f) (List.range' k c) = none := by
    intro c
    induction c with
    | zero => intro k h1 h2; omega
    | succ c ih =>
      intro k h1 h2
      rw [List.range'_succ]
      unfold mapOption
      by_cases hk : k = l.length
      · rw [List.getElem?_eq_none (by omega)]; rfl
      · rw [ih (k + 1) (by omega) (by omega)]
        cases (l[k]?).bind f <;> rfl
  exact aux c 0 (by omega) (by omega)

theorem pack_out (hn : 0 < n) (fft : Fft n) (ctx : Ctx) (cs : List (RLWE n)) (negS : RGSW n) :
    ggswLoop n (ggswAllocate n ctx.baseLog ctx.levelCount)
        (fun i c (_ : Unit) => (packRow fft (cs.map outRlwe) (outRgsw negS) i c).map fun w => (w, ())) () =
      (Panacea.decomposedRlweToRgsw fft ctx cs negS).map outRgsw := by
  have hz : ∀ r : RLWE n × RLWE n, r.1 = r.1 := fun _ => rfl
  rw [ggswAllocate_out, ggswLoop_levels hn (Inv := fun _ => True)
    (F := fun l r => (cs[l]?).bind fun c => some (Panacea.externalProduct fft negS r.1 c, c)) ?_ _ () trivial]
  · show (mapOption _ ((List.replicate ctx.levelCount ((0 : RLWE n), (0 : RLWE n))).zipIdx 0)).map _ = _
    have e : mapOption (fun p : (RLWE n × RLWE n) × Nat => (cs[p.2]?).bind fun c => some (Panacea.externalProduct fft negS p.1.1 c, c))
        ((List.replicate ctx.levelCount ((0 : RLWE n), (0 : RLWE n))).zipIdx 0) =
        mapOption (fun l => (cs[l]?).bind fun c => some (Panacea.externalProduct fft negS 0 c, c)) (List.range' 0 ctx.levelCount) := by
      rw [← mapOption_zipIdx_replicate _ ((0 : RLWE n), (0 : RLWE n))]
      refine mapOption_congr_mem fun p hp => ?_
      have : p.1 = (0, 0) := (List.mem_replicate.1 (List.fst_mem_of_mem_zipIdx hp)).2
      rw [this]
    rw [e]
    unfold Panacea.decomposedRlweToRgsw
    by_cases h : ctx.levelCount ≤ cs.length
    · rw [mapOption_lookup, if_pos h, if_pos h, mapOption_some_iff (g := fun c => (Panacea.externalProduct fft negS 0 c, c)) (fun _ _ => rfl)]
      rfl
    · rw [if_neg h, mapOption_lookup_none _ _ _ (by omega)]; rfl
  · rintro l r ⟨⟩ _
    have hget : (cs.map outRlwe)[l]? = (cs[l]?).map outRlwe := by simp
    cases hc : cs[l]? with
    | none =>
      simp only [Option.bind_none]
      unfold packRow
      simp only [show 2 * l / 2 = l by omega, show 2 * l % 2 = 0 by omega, if_true, hget, hc]
      rfl
    | some c =>
      simp only [Option.bind_some]
      refine ⟨(), (), ?_, ?_, trivial⟩
      · unfold packRow
        simp only [show 2 * l / 2 = l by omega, show 2 * l % 2 = 0 by omega, if_true, hget, hc, Option.map_some]
        unfold externalProduct
        simp
      · unfold packRow
        simp only [show (2 * l + 1) / 2 = l by omega, show (2 * l + 1) % 2 = 1 by omega, hget, hc, Option.map_some]
        rw [if_neg (by omega)]
        simp

theorem expandFourier_out (hn : 0 < n) (fft : Fft n) (ctx : Ctx) (cs : List (RLWE n)) (ksks : KskMap n) (negS : RGSW n) :
    expandFourier fft ctx (cs.map outRlwe) ksks (outRgsw negS) = (Panacea.expandFourier fft ctx cs ksks negS).map outRgsw := by
  unfold expandFourier Panacea.expandFourier
  by_cases hnil : cs = []
  · subst hnil; simp
  rw [if_neg hnil, if_neg (by simpa using hnil), ggswAllocate_out, ggswLoop_levels hn (Inv := fun w => ∃ c : RLWE n, w = outRlwe c)
    (F := fun l r => (cs[l]?).bind fun c => (trace1Fourier fft ksks c).bind fun t => some (Panacea.externalProduct fft negS r.1 t, t)) ?_ _
      (allocate n) ⟨0, allocate_out⟩]
  · show (mapOption _ ((List.replicate ctx.levelCount ((0 : RLWE n), (0 : RLWE n))).zipIdx 0)).map _ = _
    have e : mapOption (fun p : (RLWE n × RLWE n) × Nat => (cs[p.2]?).bind fun c => (trace1Fourier fft ksks c).bind fun t =>
          some (Panacea.externalProduct fft negS p.1.1 t, t))
        ((List.replicate ctx.levelCount ((0 : RLWE n), (0 : RLWE n))).zipIdx 0) =
        mapOption (fun l => (cs[l]?).bind fun c => (trace1Fourier fft ksks c).bind fun t => some (Panacea.externalProduct fft negS 0 t, t))
          (List.range' 0 ctx.levelCount) := by
      rw [← mapOption_zipIdx_replicate _ ((0 : RLWE n), (0 : RLWE n))]
      refine mapOption_congr_mem fun p hp => ?_
      have : p.1 = (0, 0) := (List.mem_replicate.1 (List.fst_mem_of_mem_zipIdx hp)).2
      rw [this]
    rw [e]
    by_cases hlv : ctx.levelCount ≤ cs.length
    swap
    · rw [if_neg hlv, mapOption_lookup_none _ _ _ (by omega)]; rfl
    rw [mapOption_lookup, if_pos hlv, if_pos hlv]
    have e2 : mapOption (fun c => (trace1Fourier fft ksks c).bind fun t => some (Panacea.externalProduct fft negS 0 t, t))
        (cs.take ctx.levelCount) = mapOption (Panacea.expandFourierRow fft ksks negS) (cs.take ctx.levelCount) := by
      refine mapOption_congr_mem fun c _ => ?_
      unfold Panacea.expandFourierRow
      cases trace1Fourier fft ksks c <;> rfl
    rw [e2]
    cases mapOption (Panacea.expandFourierRow fft ksks negS) (cs.take ctx.levelCount) <;> rfl
  · rintro l r _ ⟨s, rfl⟩
    have hget : (cs.map outRlwe)[l]? = (cs[l]?).map outRlwe := by simp
    cases hc : cs[l]? with
    | none =>
      simp only [Option.bind_none]
      unfold expandFourierRow
      simp only [show 2 * l / 2 = l by omega, show 2 * l % 2 = 0 by omega, if_true, hget, hc]
      rfl
    | some c =>
      simp only [Option.bind_some]
      cases ht : trace1Fourier fft ksks c with
      | none =>
        simp only [Option.bind_none]
        unfold expandFourierRow
        simp only [show 2 * l / 2 = l by omega, show 2 * l % 2 = 0 by omega, if_true, hget, hc, Option.map_some, rlwe_out, ht]
      | some t =>
        simp only [Option.bind_some]
        refine ⟨outRlwe t, outRlwe t, ?_, ?_, t, rfl⟩
        · unfold expandFourierRow
          simp only [show 2 * l / 2 = l by omega, show 2 * l % 2 = 0 by omega, if_true, hget, hc, Option.map_some, rlwe_out, ht]
          unfold externalProduct
          simp
        · unfold expandFourierRow
          simp only [show (2 * l + 1) % 2 = 1 by omega]
          rw [if_neg (by omega)]
          simp

/-- **C79** (expansion) `expand`, `expand_fourier`, `decomposed_rlwe_to_rgsw`, including every panic (too few ciphertexts, missing keys). -/
theorem C79_expand (hn : 0 < n) (fft : Fft n) (ctx : Ctx) {M : Nat → Option Ksk} {m : KskMap n} {C : Ggsw} {R : RGSW n} {ws : List Words}
    {cs : List (RLWE n)} (hM : StoresMap M m) (hC : StoresRgsw C R) (hw : StoresAll StoresRlwe ws cs) :
    Agree StoresRgsw (decomposedRlweToRgsw fft ctx ws C) (Panacea.decomposedRlweToRgsw fft ctx cs R) ∧
    Agree StoresRgsw (expand fft ctx ws M C) (Panacea.expand fft ctx cs m R) ∧
    Agree StoresRgsw (expandFourier fft ctx ws m C) (Panacea.expandFourier fft ctx cs m R) := by
  rw [storesMap_iff] at hM; rw [storesRgsw_iff] at hC; rw [storesAll_iff (f := outRlwe) (fun a b => storesRlwe_iff)] at hw
  subst hM hC hw
  refine ⟨agree_of_eq (f := outRgsw) (pack_out hn fft ctx cs R) fun _ => storesRgsw_iff.2 rfl, agree_of_eq (f := outRgsw) ?_ fun _ => storesRgsw_iff.2 rfl,
    agree_of_eq (f := outRgsw) ?_ fun _ => storesRgsw_iff.2 rfl⟩
  · unfold expand Panacea.expand
    by_cases h : cs = []
    · subst h; rfl
    · rw [if_neg h, if_neg (by simpa using h), mapOption_out (trace1_out fft m)]
      cases mapOption (Panacea.trace1 fft m) cs with
      | none => rfl
      | some csp => exact pack_out hn fft ctx csp R
  · exact expandFourier_out hn fft ctx cs m R

/-! ## LWE conversion -/

theorem levelRow_out (R : RGSW n) (l : Nat) (h : l < R.rows.length) : levelRow n (outRgsw R) l = outRlwe R.rows[l].2 := by
  unfold levelRow
  rw [show (outRgsw R).words = R.rows.flatMap fun r => outRlwe r.1 ++ outRlwe r.2 from rfl, level_flat R.rows l h]
  have h2 : ((outRlwe R.rows[l].1 ++ outRlwe R.rows[l].2).drop (n * 2)).take (n * 2) = outRlwe R.rows[l].2 := by
    rw [List.drop_append_of_le_length (by simp), List.drop_of_length_le (by simp), List.nil_append, List.take_of_length_le (by simp)]
  simp only [h2, getMask_out, getBody_out, allocate_out]
  unfold updateMaskWithAdd updateBodyWithAdd
  rw [modMask_out (0 : RLWE n) (add_out 0 R.rows[l].2.mask)]
  refine (modBody_out (f := fun b => addWords b (out R.rows[l].2.body)) (⟨0 + R.rows[l].2.mask, (0 : RLWE n).body⟩ : RLWE n)
    (add_out (0 : RLWE n).body R.rows[l].2.body)).trans ?_
  congr 1
  exact RLWE.ext (zero_add _) (zero_add _)

theorem levelRows_out (R : RGSW n) :
    (List.range (outRgsw R).levelCount).reverse.map (levelRow n (outRgsw R)) = (R.rows.reverse.map fun r => r.2).map outRlwe := by
  rw [List.map_reverse, List.map_reverse, List.map_reverse, List.map_map]
  congr 1
  refine List.ext_getElem (by simp [outRgsw]) fun i h1 h2 => ?_
  simp only [List.length_map] at h2
  simp [levelRow_out R i h2]

theorem convStep_out (o c : RLWE n) (d : Scalar) :
    convStep n (outRlwe o) (outRlwe c, d) = outRlwe ⟨o.mask - c.mask.mulConst d, o.body - c.body.mulConst d⟩ := by
  unfold convStep
  simp only
  have e : modBody n (fun b => mulConst b d) (modMask n (fun m => mulConst m d) (outRlwe c)) =
      outRlwe ⟨c.mask.mulConst d, c.body.mulConst d⟩ := by
    have e1 : modMask n (fun m => mulConst m d) (outRlwe c) = outRlwe ⟨c.mask.mulConst d, c.body⟩ := modMask_out c (mulConst_out c.mask d)
    rw [e1]
    exact modBody_out ⟨_, c.body⟩ (mulConst_out c.body d)
  simp only [e, getMask_out, getBody_out]
  rw [modMask_out o (sub_out o.mask (c.mask.mulConst d))]
  exact modBody_out ⟨_, o.body⟩ (sub_out o.body (c.body.mulConst d))

theorem convInner_out (rows : List (RLWE n)) (ds : List Scalar) (o : RLWE n) :
    ((rows.map outRlwe).zip ds).foldl (convStep n) (outRlwe o) = outRlwe (convInner rows ds o) := by
  unfold convInner
  induction rows generalizing ds o with
  | nil => rfl
  | cons r rows ih =>
    cases ds with
    | nil => rfl
    | cons d ds =>
      rw [List.map_cons, List.zip_cons_cons, List.foldl_cons, convStep_out, List.zip_cons_cons, List.foldl_cons]
      exact ih ds _

theorem convOuter_out (ctx : Ctx) (o : RLWE n) (R : RGSW n) (a : Scalar) :
    convOuter n ctx (outRlwe o) (outRgsw R, a) = outRlwe (Panacea.convOuter ctx o (R, a)) := by
  unfold convOuter Panacea.convOuter
  simp only
  rw [levelRows_out]
  exact convInner_out _ _ _

theorem length_outLwe (c : LWE n) : (outLwe c).length = n + 1 := by simp [outLwe]

theorem storesLwe_iff {w : Words} {c : LWE n} : StoresLwe w c ↔ w = outLwe c := by
  obtain ⟨_, _, _, _, h⟩ := C79_layout (n := n)
  obtain ⟨v, hv, hu⟩ := h c
  have h1 : StoresLwe (outLwe c) c := by
    refine ⟨length_outLwe c, fun k => ?_, ?_⟩
    · unfold outLwe; rw [List.getElem?_append_left (by simp), out_getElem?]
    · unfold outLwe; rw [List.getElem?_append_right (by simp)]; simp
  exact ⟨fun h => (hu w h).trans (hu _ h1).symm, fun h => h ▸ h1⟩

theorem convLweToRlwe_out (ctx : Ctx) (ksks : List (RGSW n)) (lwe : LWE n) :
    convLweToRlwe n ctx (ksks.map outRgsw) (outLwe lwe) = outRlwe (Panacea.convLweToRlwe ctx ksks lwe) := by
  unfold convLweToRlwe Panacea.convLweToRlwe
  have hm : lweMask (outLwe lwe) = (List.finRange n).map fun i => lwe.mask i := by
    unfold lweMask
    rw [length_outLwe, Nat.add_sub_cancel]
    unfold outLwe
    rw [List.take_append_of_le_length (by simp), List.take_of_length_le (by simp)]
    unfold out; rw [List.ofFn_eq_map]
  have hb : lweBody (outLwe lwe) = lwe.body := by
    unfold lweBody
    rw [length_outLwe, Nat.add_sub_cancel]
    unfold outLwe
    simp [List.getD]
  have aux : ∀ (ks : List (RGSW n)) (as : List Scalar) (o : RLWE n),
      ((ks.map outRgsw).zip as).foldl (convOuter n ctx) (outRlwe o) = outRlwe ((ks.zip as).foldl (Panacea.convOuter ctx) o) := by
    intro ks
    induction ks with
    | nil => intro as o; rfl
    | cons k ks ih =>
      intro as o
      cases as with
      | nil => rfl
      | cons a as =>
        rw [List.map_cons, List.zip_cons_cons, List.foldl_cons, convOuter_out, List.zip_cons_cons, List.foldl_cons]
        exact ih as _
  simp only [hm, hb, allocate_out]
  rw [aux, replicate_out, set_out]
  exact modBody_out _ (add_out _ _)

/-- **C79** (LWE) `to_rlwe_sk`, `conv_lwe_to_rlwe` and `expand_slow`, including the assertions of the latter. -/
theorem C79_lwe (hn : 0 < n) (fft : Fft n) (ctx : Ctx) {s w : Words} {ps : Poly n} {c : LWE n} {Ks : List Ggsw} {ks : List (RGSW n)}
    {ws : List Words} {cs : List (RLWE n)} {C : Ggsw} {R : RGSW n} (hs : StoresPoly s ps) (hw : StoresLwe w c)
    (hK : StoresAll StoresRgsw Ks ks) (hws : StoresAll StoresRlwe ws cs) (hC : StoresRgsw C R) :
    StoresPoly (toRlweSk s) (Panacea.toRlweSk ps) ∧ StoresRlwe (convLweToRlwe n ctx Ks w) (Panacea.convLweToRlwe ctx ks c) ∧
    Agree StoresRgsw (expandSlow fft ctx ws Ks C) (Panacea.expandSlow fft ctx cs ks R) := by
  rw [storesPoly_iff] at hs; rw [storesLwe_iff] at hw; rw [storesAll_iff (f := outRgsw) (fun a b => storesRgsw_iff)] at hK
  rw [storesAll_iff (f := outRlwe) (fun a b => storesRlwe_iff)] at hws; rw [storesRgsw_iff] at hC
  subst hs hw hK hws hC
  refine ⟨storesPoly_iff.2 ?_, storesRlwe_iff.2 (convLweToRlwe_out ctx ks c), agree_of_eq (f := outRgsw) ?_ fun _ => storesRgsw_iff.2 rfl⟩
  · unfold toRlweSk
    rw [length_out, replicate_out, copy_out]; rfl
  · unfold expandSlow Panacea.expandSlow
    have hcond : (n = (ks.map outRgsw).length ∧ (cs.map outRlwe).length = ctx.levelCount ∧ cs.map outRlwe ≠ []) ↔
        (n = ks.length ∧ cs.length = ctx.levelCount ∧ cs ≠ []) := by simp
    by_cases h : n = ks.length ∧ cs.length = ctx.levelCount ∧ cs ≠ []
    · rw [if_pos h, if_pos (hcond.2 h), ← pack_out hn]
      unfold decomposedRlweToRgsw
      congr 1
      simp only [List.map_map]
      have : ((fun w => convLweToRlwe n ctx (List.map outRgsw ks) (outLwe (constSampleExtract (rlwe n w)))) ∘ outRlwe) =
          (outRlwe ∘ fun c => Panacea.convLweToRlwe ctx ks (constSampleExtract c)) := by
        funext c
        simp [convLweToRlwe_out]
      rw [this]
    · rw [if_neg h, if_neg (fun e => h (hcond.1 e))]; rfl

/-! ## Non-vacuity: a concrete ciphertext in memory -/

/-- Sixteen words: two levels of two rows of mask and body with two coefficients. -/
def exGgsw : Ggsw := ⟨3, 2, [1, 2, 3, 4, 5, 6, 7, 8, 9, 10, 11, 12, 13, 14, 15, 16]⟩

example : ∃! R : RGSW 2, StoresRgsw exGgsw R := (C79_layout (n := 2)).2.2.1 exGgsw (by decide) (by decide)
example : getNthRow 2 exGgsw 2 = some [9, 10, 11, 12] := by decide
example : getNthRow 2 exGgsw 4 = none := by decide
example : getLastRow 2 exGgsw = some [13, 14, 15, 16] := by decide
example : StoresRlwe [9, 10, 11, 12] (⟨⟨![9, 10]⟩, ⟨![11, 12]⟩⟩ : RLWE 2) := ⟨by decide, by decide, by decide⟩
example : updateWithAdd 2 [1, 2, 3, 4] [10, 20, 30, 40] = [11, 22, 33, 44] := by decide
example : leqWords 4 2 = [1, 0, scalarMAX, scalarMAX] := by decide
example : levelRow 2 exGgsw 1 = [13, 14, 15, 16] := by decide
/-- A key switching key with two levels becomes alternating negated rows and gadget rows. -/
example : (fromKeyswitchKey 1 ⟨[[1, 2], [3, 4]], 4, 2, 0⟩).map (·.words) =
    some [-1, -2, 0, 0x1000000000000000, -3, -4, 0, 0x0100000000000000] := by decide

end Flat
end Panacea
