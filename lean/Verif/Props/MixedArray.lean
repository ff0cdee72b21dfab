import Verif.Spec.MixedArray
import Verif.Props.Mixed

/-!
# C99: single and batch calls on the same items
-/

namespace Panacea
variable {n : Nat}

/-- Every copy of an item that is not in `D` holds what the first copy holds. -/
def CopiesAgree (T : Nat → Nat → Nat × Nat) (hc N : Nat) (U : Nat × Nat → Poly n) (v : Nat → Poly n) (D : List Nat) : Prop :=
  (∀ i, i < N → U (T 0 i) = v i) ∧ ∀ h i, h < hc → i < N → i ∉ D → U (T h i) = v i

theorem copies_one {H : NaiveHash} {rows cols hc N : Nat} {T : Nat → Nat → Nat × Nat} (L : Layout H rows cols hc N T) (hpos : 0 < hc)
    {U : Nat × Nat → Poly n} {v : Nat → Poly n} {D : List Nat} (hU : CopiesAgree T hc N U v D) {c : Cmd n} (hlt : c.index < N)
    (h0 : (T 0 c.index).1 = 0) :
    CopiesAgree T hc N (Spec.gridOne H cols U c) (Spec.apply v c) ((MixedStep.one c).singleWrites ++ D) := by
  obtain ⟨u1, u2⟩ := hU
  cases c with
  | read i => exact ⟨u1, u2⟩
  | write i a =>
    have hlt : i < N := hlt
    have h0 : (T 0 i).1 = 0 := h0
    have hg : ∀ p, Spec.gridOne H cols U (.write i a) p = if (T 0 i).1 = 0 ∧ p = T 0 i then a else U p := by
      intro p
      show (if (Spec.firstCell H cols i).1 = 0 ∧ p = Spec.firstCell H cols i then a else U p) = _
      rw [firstCell_eq L hpos hlt]
    refine ⟨fun j hj => ?_, fun h j hh hj hD => ?_⟩
    · rw [hg]
      by_cases hij : j = i
      · subst hij
        rw [if_pos ⟨h0, rfl⟩]; simp [Spec.apply]
      · rw [if_neg (fun h' => hij (L.inj 0 j 0 i hpos hj hpos hlt h'.2).2)]
        simp only [Spec.apply, Function.update_of_ne hij]
        exact u1 j hj
    · simp only [MixedStep.singleWrites, List.cons_append, List.nil_append, List.mem_cons, not_or] at hD
      rw [hg, if_neg (fun h' => hD.1 (L.inj h j 0 i hh hj hpos hlt h'.2).2)]
      simp only [Spec.apply, Function.update_of_ne hD.1]
      exact u2 h j hh hj hD.2

theorem copies_mono {T : Nat → Nat → Nat × Nat} {hc N : Nat} {U : Nat × Nat → Poly n} {v : Nat → Poly n} {D D' : List Nat}
    (h : CopiesAgree T hc N U v D) (hs : ∀ i ∈ D, i ∈ D') : CopiesAgree T hc N U v D' :=
  ⟨h.1, fun k i hk hi hD => h.2 k i hk hi (fun h' => hD (hs i h'))⟩

theorem copies_multi {H : NaiveHash} {rows cols hc N : Nat} {T : Nat → Nat → Nat × Nat} (L : Layout H rows cols hc N T) (hpos : 0 < hc) :
    ∀ (cs : List (Cmd n)) {U : Nat × Nat → Poly n} {v : Nat → Poly n} {D : List Nat}, CopiesAgree T hc N U v D →
    (∀ c ∈ cs, c.index < N) → (∀ c ∈ cs, (T 0 c.index).1 = 0) →
    CopiesAgree T hc N (cs.foldl (Spec.gridOne H cols) U) (cs.foldl Spec.apply v) ((MixedStep.multi cs).singleWrites ++ D)
  | [], _, _, _, hU, _, _ => hU
  | c :: cs, _, _, _, hU, hlt, h0 => by
    have h1 := copies_one L hpos hU (hlt c (by simp)) (h0 c (by simp))
    have h2 := copies_multi L hpos cs h1 (fun c hc => hlt c (by simp [hc])) (fun c hc => h0 c (by simp [hc]))
    refine copies_mono h2 fun i hi => ?_
    cases c with
    | read j => simpa [MixedStep.singleWrites] using hi
    | write j a =>
      simp only [MixedStep.singleWrites, List.mem_append, List.mem_cons, List.not_mem_nil, or_false, List.filterMap_cons] at hi ⊢
      tauto

theorem copies_batch {H : NaiveHash} {rows cols hc N : Nat} {T : Nat → Nat → Nat × Nat} (L : Layout H rows cols hc N T) (hpos : 0 < hc)
    (hdom : H.inputDomain = N) {U : Nat × Nat → Poly n} {v : Nat → Poly n} (hU : ∀ i, i < N → U (T 0 i) = v i) (c : BatchCmd n) :
    CopiesAgree T hc N (Spec.gridBatch H cols U c) (Spec.applyBatch H cols v c) [] := by
  have key : ∀ h i, h < hc → i < N → Spec.gridBatch H cols U c (T h i) = Spec.applyBatch H cols v c i := by
    intro h i hh hi
    unfold Spec.gridBatch
    beta_reduce
    rw [itemAt_eq L hdom hh hi]
    show Spec.applyBatch H cols (fun j => U (Spec.firstCell H cols j)) c i = _
    have he : U (Spec.firstCell H cols i) = v i := by rw [firstCell_eq L hpos hi, hU i hi]
    cases c with
    | read is => exact he
    | write is a =>
      simp only [Spec.applyBatch, he]
  exact ⟨fun i hi => key 0 i hpos hi, fun h i hh hi _ => key h i hh hi⟩

/-- C99 (on grids): if the first copy of every item addressed by a single command lies in row 0, then the answers the grid gives are those of
one array, except in rows of a batch which show another copy than the first of an item written by a single command since the last batch. -/
theorem C99_grid {t : Scalar} (shuffle : List Nat → List Nat) (hshf : ∀ l, (shuffle l).Perm l) {hc N : Nat}
    {H : NaiveHash} (hnew : NaiveHash.new shuffle hc N = some H) {cols rows : Nat} (hcols : 0 < cols)
    (hsize : rows * cols = hc * N) {T : Nat → Nat → Nat × Nat} (L : Layout H rows cols hc N T) :
    ∀ (sts : List (MixedStep n)) (U : Nat × Nat → Poly n) (v : Nat → Poly n) (D : List Nat), CopiesAgree T hc N U v D →
      (∀ st ∈ sts, st.Valid H cols N t) → (∀ st ∈ sts, ∀ c ∈ st.singles, ∃ col, H.hashToTuple 0 c.index cols = some (0, col)) →
      Spec.arrayOk H cols v D sts (Spec.mixed H rows cols U sts) := by
  have hcpos : 0 < hc := by
    rcases Nat.eq_zero_or_pos hc with h0 | h0
    · have := (C09_new_panics shuffle hc N).mpr h0
      rw [hnew] at this; cases this
    · exact h0
  have hdom : H.inputDomain = N := by obtain ⟨_, rfl, rfl⟩ := NaiveHash.new_wf hshf hnew; rfl
  have hrow0 : ∀ i, i < N → (∃ col, H.hashToTuple 0 i cols = some (0, col)) → (T 0 i).1 = 0 := by
    rintro i hi ⟨col, e⟩
    rw [L.tuple 0 i hcpos hi] at e
    rw [Option.some.inj e]
  have htgt : ∀ c : Cmd n, c.index < N → (T 0 c.index).1 = 0 → Spec.target H cols c = T 0 c.index := by
    intro c hi h0
    unfold Spec.target Spec.oneCell
    rw [firstCell_eq L hcpos hi, if_pos h0]
  intro sts
  induction sts with
  | nil => intro U v D _ _ _; trivial
  | cons st sts ih =>
    intro U v D hU hval hrow
    have hv := hval st (by simp)
    have hr := hrow st (by simp)
    have hval' : ∀ st ∈ sts, st.Valid H cols N t := fun x hx => hval x (by simp [hx])
    have hrow' : ∀ st ∈ sts, ∀ c ∈ st.singles, ∃ col, H.hashToTuple 0 c.index cols = some (0, col) := fun x hx => hrow x (by simp [hx])
    cases st with
    | one c =>
      have hlt : c.index < N := Cmd.Valid.lt hv
      have h0 := hrow0 _ hlt (hr c (by simp [MixedStep.singles]))
      refine ⟨?_, ih _ _ _ (copies_one L hcpos hU hlt h0) hval' hrow'⟩
      show [U (Spec.target H cols c)] = [v c.index]
      rw [htgt c hlt h0, hU.1 _ hlt]
    | multi cs =>
      obtain ⟨hv, _⟩ := hv
      have hlt : ∀ c ∈ cs, c.index < N := fun c hc => (hv c hc).lt
      have h0 : ∀ c ∈ cs, (T 0 c.index).1 = 0 := fun c hc => hrow0 _ (hlt c hc) (hr c (by simpa [MixedStep.singles] using hc))
      refine ⟨?_, ih _ _ _ (copies_multi L hcpos cs hU hlt h0) hval' hrow'⟩
      show cs.map (fun c => U (Spec.target H cols c)) = cs.map fun c => v c.index
      exact List.map_congr_left fun c hc => by rw [htgt c (hlt c hc) (h0 c hc), hU.1 _ (hlt c hc)]
    | batch c =>
      have hv : c.Valid N t := hv
      refine ⟨?_, ih _ _ _ (copies_batch L hcpos hdom hU.1 c) hval' hrow'⟩
      intro m r col i hm hmr hclean
      obtain ⟨hsound, _⟩ := C11_mapping_sound shuffle hshf hc N H hnew c.indices cols hcols hv.nodup.2 m hm
      obtain ⟨hi, h, hh, ht⟩ := hsound r col i hmr
      have hiN := hv.nodup.2 i hi
      have hT : T h i = (r, col) := by
        have := (L.tuple h i hh hiN).symm.trans ht
        simpa using this
      have hrl : r < rows := by have := L.row_lt h i hh hiN; rw [hT] at this; exact this
      show ((List.range rows).map fun r => U (Spec.rowCell H cols c r))[r]? = some (v i)
      rw [List.getElem?_map, List.getElem?_range hrl, Option.map_some]
      have hrc : Spec.rowCell H cols c r = (r, col) := by
        unfold Spec.rowCell
        rw [hm, Option.bind_some, hmr]
      rw [hrc, ← hT]
      rcases hclean with hD | h0
      · rw [hU.2 h i hh hiN hD]
      · have hT0 : T 0 i = (r, col) := by
          have := (L.tuple 0 i hcpos hiN).symm.trans h0
          simpa using this
        rw [hT, ← hT0, hU.1 i hiN]

/-- C99: the same for the server, from `setup_random_oram`. -/
theorem C99_from_setup {t : Scalar} {ctx : Ctx} (hcd : Codec.new t = some ctx.codec) (hn : 0 < n) {fft : Fft n} {phi : Nat}
    (hf : fft.Bounded phi) {s : Poly n} (hs : Binary s) (shuffle : List Nat → List Nat) (hshf : ∀ l, (shuffle l).Perm l) {hc N : Nat}
    {H : NaiveHash} (hnew : NaiveHash.new shuffle hc N = some H) {D rows : Nat} (hD1 : 1 ≤ D) (hD : D < 64) (hpos : 0 < rows)
    (hsize : rows * 2 ^ D = hc * N) (h1 : 1 ≤ ctx.baseLog) (h2 : 1 ≤ ctx.levelCount) (h3 : ctx.baseLog * ctx.levelCount < 64)
    (hn1 : ctx.negsBaseLog = ctx.baseLog) (hn2 : 1 ≤ ctx.negsLevelCount) (hn3 : ctx.negsBaseLog * ctx.negsLevelCount < 64)
    {g : Gen n} {B : Nat} (hg : g.Bounded B) (sts : List (Reducer n × MixedStep n))
    (hval : ∀ st ∈ sts, st.1.Valid ctx (2 ^ D) ∧ st.2.Valid H (2 ^ D) N t)
    (hrow : ∀ st ∈ sts, ∀ c ∈ st.2.singles, ∃ col, H.hashToTuple 0 c.index (2 ^ D) = some (0, col))
    (hb : 2 * (B + mixedNoise ctx n B phi D hc (sts.map Prod.snd) + 2 ^ D * deltaSel ctx n B phi D) < 2 ^ 64 / t.toNat) :
    ∃ S pts g1 yss S' g', setupRandomOram ctx s rows (2 ^ D) H g = some (S, pts, g1) ∧ pts.length = N ∧
      runMixed fft ctx s rows (2 ^ D) H sts S g1 = some (yss, S', g') ∧
      Spec.arrayOk H (2 ^ D) (fun i => pts.getD i 0) [] (sts.map Prod.snd) yss := by
  obtain ⟨S, pts, g1, S', g', a1, a2, a3, _⟩ := C98_from_setup hcd hn hf hs shuffle hshf hnew hD1 hD hpos hsize h1 h2 h3 hn1 hn2 hn3 hg sts
    hval hb
  obtain ⟨T, L⟩ := layout_of_hash shuffle hshf hnew (rows := rows) (cols := 2 ^ D) (by positivity) hsize
  have hdom : H.inputDomain = N := by obtain ⟨_, rfl, rfl⟩ := NaiveHash.new_wf hshf hnew; rfl
  have hcpos : 0 < hc := by
    rcases Nat.eq_zero_or_pos hc with h0 | h0
    · have := (C09_new_panics shuffle hc N).mpr h0
      rw [hnew] at this; cases this
    · exact h0
  have hfresh : ∀ h i, h < hc → i < N → Spec.freshGrid H (2 ^ D) pts (T h i) = pts.getD i 0 := fun h i hh hi => by
    unfold Spec.freshGrid
    rw [itemAt_eq L hdom hh hi]
  refine ⟨S, pts, g1, _, S', g', a1, a2, a3, C99_grid (t := t) shuffle hshf hnew (by positivity) hsize L _ _ _ _
    ⟨fun i hi => hfresh 0 i hcpos hi, fun h i hh hi _ => hfresh h i hh hi⟩ ?_ ?_⟩
  · intro st hst
    obtain ⟨x, hx, rfl⟩ := List.mem_map.mp hst
    exact (hval x hx).2
  · intro st hst
    obtain ⟨x, hx, rfl⟩ := List.mem_map.mp hst
    exact hrow x hx

/-- C99 (FINDING): a WRITE of item `i` (first copy in row 0) by a single query, then twice the same batch READ, whose mapping serves item `i` from another cell than its
first copy: the first batch shows the *old* content of the item, the second one the new. -/
theorem C99_stale (shuffle : List Nat → List Nat) (hshf : ∀ l, (shuffle l).Perm l) {hc N : Nat}
    {H : NaiveHash} (hnew : NaiveHash.new shuffle hc N = some H) {cols rows : Nat} (hcols : 0 < cols)
    (hsize : rows * cols = hc * N) {T : Nat → Nat → Nat × Nat} (L : Layout H rows cols hc N T) {U : Nat × Nat → Poly n} {v : Nat → Poly n}
    (hU : ∀ h i, h < hc → i < N → U (T h i) = v i) {i : Nat} {col0 : Nat} (h0 : H.hashToTuple 0 i cols = some (0, col0)) (a : Poly n)
    {is : List Nat} (his : ∀ j ∈ is, j < N) {m : NaiveHash.Mapping} (hm : H.hashToMapping is cols = some m) {r col : Nat} (hr : m r = some (col, i))
    (hne : (r, col) ≠ (0, col0)) :
    ∃ y0 y1 y2, Spec.mixed H rows cols U [.one (.write i a), .batch (.read is), .batch (.read is)] = [y0, y1, y2] ∧
      y1[r]? = some (v i) ∧ y2[r]? = some a := by
  have hcpos : 0 < hc := by
    rcases Nat.eq_zero_or_pos hc with h0 | h0
    · have := (C09_new_panics shuffle hc N).mpr h0
      rw [hnew] at this; cases this
    · exact h0
  have hdom : H.inputDomain = N := by obtain ⟨_, rfl, rfl⟩ := NaiveHash.new_wf hshf hnew; rfl
  obtain ⟨hsound, _⟩ := C11_mapping_sound shuffle hshf hc N H hnew is cols hcols his m hm
  obtain ⟨hi, h, hh, ht⟩ := hsound r col i hr
  have hiN := his i hi
  have hT : T h i = (r, col) := by
    have := (L.tuple h i hh hiN).symm.trans ht
    simpa using this
  have hT0 : T 0 i = (0, col0) := by
    have := (L.tuple 0 i hcpos hiN).symm.trans h0
    simpa using this
  have hrl : r < rows := by have := L.row_lt h i hh hiN; rw [hT] at this; exact this
  have hrc : Spec.rowCell H cols (.read is : BatchCmd n) r = (r, col) := by
    unfold Spec.rowCell
    simp only [BatchCmd.indices, hm, Option.bind_some, hr]
  have hcop : CopiesAgree T hc N U v [] := ⟨fun i hi => hU 0 i hcpos hi, fun h i hh hi _ => hU h i hh hi⟩
  have hc1 := copies_one L hcpos hcop (c := .write i a) hiN (by rw [show (Cmd.write i a).index = i from rfl, hT0])
  have hc2 := copies_batch L hcpos hdom hc1.1 (.read is)
  refine ⟨_, _, _, rfl, ?_, ?_⟩
  · show ((List.range rows).map fun r => Spec.gridOne H cols U (.write i a) (Spec.rowCell H cols (.read is : BatchCmd n) r))[r]? = _
    rw [List.getElem?_map, List.getElem?_range hrl, Option.map_some, hrc]
    show some (if (Spec.firstCell H cols i).1 = 0 ∧ (r, col) = Spec.firstCell H cols i then a else U (r, col)) = _
    rw [firstCell_eq L hcpos hiN, hT0, if_neg (fun h' => hne h'.2), ← hT, hU h i hh hiN]
  · show ((List.range rows).map fun r => Spec.gridBatch H cols (Spec.gridOne H cols U (.write i a)) (.read is)
      (Spec.rowCell H cols (.read is : BatchCmd n) r))[r]? = _
    rw [List.getElem?_map, List.getElem?_range hrl, Option.map_some, hrc, ← hT, hc2.2 h i hh hiN (by simp)]
    simp [Spec.applyBatch, Spec.apply]

/-! ### The example -/

/-- The session of the finding: WRITE 7 to item 1 (single), batch READ of items 0 and 1, the same again. -/
def staleSession : List (Reducer 4 × MixedStep 4) :=
  [(foldReducer 4 exTreeCtx 4, .one (.write 1 ⟨fun _ => 7⟩)), (foldReducer 4 exTreeCtx 4, .batch (.read [0, 1])),
    (foldReducer 4 exTreeCtx 4, .batch (.read [0, 1]))]

theorem staleSession_valid : ∀ st ∈ staleSession, st.1.Valid exTreeCtx (2 ^ 2) ∧ st.2.Valid exHash (2 ^ 2) 4 (16 : Scalar) := by
  intro st hst
  simp only [staleSession, List.mem_cons, List.not_mem_nil, or_false] at hst
  rcases hst with rfl | rfl | rfl
  · exact ⟨foldReducer_valid exTreeCtx 4, by decide, fun k => by show (7 : Scalar).toNat < _; decide⟩
  · exact ⟨foldReducer_valid exTreeCtx 4, (by decide : [0, 1].Nodup ∧ ∀ i ∈ [0, 1], i < 4)⟩
  · exact ⟨foldReducer_valid exTreeCtx 4, (by decide : [0, 1].Nodup ∧ ∀ i ∈ [0, 1], i < 4)⟩

/-- C99 (FINDING, concrete witness, all API calls): three rows of four columns, three hash functions, four items.  Item 1 is written with 7 by
a single query; the batch READ of the items 0 and 1 then answers row 1, which serves item 1, with the content item 1 had at set up; the same
batch READ once more answers 7. -/
theorem C99_witness : ∃ S pts g1 y0 y1 y2 S' g', setupRandomOram exTreeCtx exKey 3 4 exHash exGen = some (S, pts, g1) ∧
    (exHash.hashToMapping [0, 1] 4).bind (fun m => m 1) = some (0, 1) ∧
    runMixed exFft exTreeCtx exKey 3 4 exHash staleSession S g1 = some ([y0, y1, y2], S', g') ∧
    y0 = [pts.getD 1 0] ∧ y1[1]? = some (pts.getD 1 0) ∧ y2[1]? = some ⟨fun _ => 7⟩ := by
  obtain ⟨T, L⟩ := layout_of_hash exShuffle exShuffle_perm exHash_new (rows := 3) (cols := 2 ^ 2) (by decide) (by decide)
  obtain ⟨S, pts, g1, S', g', a1, _, a3, _⟩ := C98_from_setup (t := 16) (ctx := exTreeCtx) (by decide) (by decide) exFft_bounded
    exKey_binary exShuffle exShuffle_perm exHash_new (D := 2) (rows := 3) (by decide) (by decide) (by decide) (by decide) (by decide)
    (by decide) (by decide) rfl (by decide) (by decide) exGen_bounded staleSession staleSession_valid (by decide)
  have hfresh : ∀ h i, h < 3 → i < 4 → Spec.freshGrid exHash (2 ^ 2) pts (T h i) = pts.getD i 0 := fun h i hh hi => by
    unfold Spec.freshGrid
    rw [itemAt_eq L rfl hh hi]
  obtain ⟨m, hm, hm1⟩ : ∃ m, exHash.hashToMapping [0, 1] (2 ^ 2) = some m ∧ m 1 = some (0, 1) := ⟨_, rfl, rfl⟩
  obtain ⟨y0, y1, y2, e, e1, e2⟩ := C99_stale exShuffle exShuffle_perm exHash_new (cols := 2 ^ 2) (rows := 3) (by decide) (by decide) L
    (v := fun i => pts.getD i 0) hfresh (i := 1) (col0 := 1) (by decide) (⟨fun _ => 7⟩ : Poly 4) (is := [0, 1]) (by decide) hm hm1 (by decide)
  have e' : Spec.mixed exHash 3 (2 ^ 2) (Spec.freshGrid exHash (2 ^ 2) pts) (staleSession.map Prod.snd) = [y0, y1, y2] := e
  refine ⟨S, pts, g1, y0, y1, y2, S', g', a1, rfl, by rw [← e']; exact a3, ?_, e1, e2⟩
  have h0 : y0 = [Spec.freshGrid exHash (2 ^ 2) pts (Spec.target exHash (2 ^ 2) (.write 1 ⟨fun _ => 7⟩ : Cmd 4))] := by
    have e := e.symm
    simp only [Spec.mixed, List.cons.injEq] at e
    exact e.1
  rw [h0, show Spec.target exHash (2 ^ 2) (.write 1 ⟨fun _ => 7⟩ : Cmd 4) = Spec.firstCell exHash (2 ^ 2) 1 from rfl,
    firstCell_eq L (by decide) (by decide), hfresh 0 1 (by decide) (by decide)]

/-- The hypotheses of `C99_from_setup` are met by the same session. -/
example : ∃ S pts g1 yss S' g', setupRandomOram exTreeCtx exKey 3 4 exHash exGen = some (S, pts, g1) ∧
    runMixed exFft exTreeCtx exKey 3 4 exHash staleSession S g1 = some (yss, S', g') ∧
    Spec.arrayOk exHash 4 (fun i => pts.getD i 0) [] (staleSession.map Prod.snd) yss := by
  obtain ⟨S, pts, g1, yss, S', g', h1, _, h2, h3⟩ := C99_from_setup (t := 16) (ctx := exTreeCtx) (by decide) (by decide) exFft_bounded
    exKey_binary exShuffle exShuffle_perm exHash_new (D := 2) (rows := 3) (by decide) (by decide) (by decide) (by decide) (by decide)
    (by decide) (by decide) rfl (by decide) (by decide) exGen_bounded staleSession staleSession_valid (by
      intro st hst c hc
      simp only [staleSession, List.mem_cons, List.not_mem_nil, or_false] at hst
      rcases hst with rfl | rfl | rfl
      · simp only [MixedStep.singles, List.mem_cons, List.not_mem_nil, or_false] at hc
        subst hc; exact ⟨1, by decide⟩
      · simp [MixedStep.singles] at hc
      · simp [MixedStep.singles] at hc) (by decide)
  exact ⟨S, pts, g1, yss, S', g', h1, h2, h3⟩

/-- The hypotheses of `C98_from_setup` are met: a multi-query call (WRITE item 1, READ item 3), a batch WRITE of items 2 and 0, a single
READ, a batch READ. -/
example : ∃ S pts g1 S' g', setupRandomOram exTreeCtx exKey 3 4 exHash exGen = some (S, pts, g1) ∧
    runMixed exFft exTreeCtx exKey 3 4 exHash
      [(foldReducer 4 exTreeCtx 4, .multi [.write 1 ⟨fun _ => 7⟩, .read 3]), (foldReducer 4 exTreeCtx 4, .batch (.write [2, 0] ⟨fun _ => 9⟩)),
        (foldReducer 4 exTreeCtx 4, .one (.read 1)), (foldReducer 4 exTreeCtx 4, .batch (.read [1, 2]))] S g1
      = some (Spec.mixed exHash 3 4 (Spec.freshGrid exHash 4 pts)
        [.multi [.write 1 ⟨fun _ => 7⟩, .read 3], .batch (.write [2, 0] ⟨fun _ => 9⟩), .one (.read 1), .batch (.read [1, 2])], S', g') := by
  obtain ⟨S, pts, g1, S', g', a1, _, a3, _⟩ := C98_from_setup (t := 16) (ctx := exTreeCtx) (by decide) (by decide) exFft_bounded
    exKey_binary exShuffle exShuffle_perm exHash_new (D := 2) (rows := 3) (by decide) (by decide) (by decide) (by decide) (by decide)
    (by decide) (by decide) rfl (by decide) (by decide) exGen_bounded
    [(foldReducer 4 exTreeCtx 4, .multi [.write 1 ⟨fun _ => 7⟩, .read 3]), (foldReducer 4 exTreeCtx 4, .batch (.write [2, 0] ⟨fun _ => 9⟩)),
      (foldReducer 4 exTreeCtx 4, .one (.read 1)), (foldReducer 4 exTreeCtx 4, .batch (.read [1, 2]))] (by
      intro st hst
      simp only [List.mem_cons, List.not_mem_nil, or_false] at hst
      rcases hst with rfl | rfl | rfl | rfl
      · refine ⟨foldReducer_valid exTreeCtx 4, ?_, by decide⟩
        intro c hc
        simp only [List.mem_cons, List.not_mem_nil, or_false] at hc
        rcases hc with rfl | rfl
        · exact ⟨by decide, fun k => by show (7 : Scalar).toNat < _; decide⟩
        · exact (by decide : 3 < 4)
      · exact ⟨foldReducer_valid exTreeCtx 4, by decide, fun k => by show (9 : Scalar).toNat < _; decide⟩
      · exact ⟨foldReducer_valid exTreeCtx 4, (by decide : 1 < 4)⟩
      · exact ⟨foldReducer_valid exTreeCtx 4, (by decide : [1, 2].Nodup ∧ ∀ i ∈ [1, 2], i < 4)⟩) (by decide)
  exact ⟨S, pts, g1, S', g', a1, a3⟩

end Panacea
