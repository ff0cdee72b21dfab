import Verif.Spec.View
import Verif.Props.Fresh
import Verif.Lemmas.PdteCircuit

/-!
# C75: everything the server ever receives is fresh RLWE samples plus messages
-/

namespace Panacea
open Spec
variable {n : Nat} {ι : Type} {key : ι → Poly n} {plains : Nat → Poly n}

theorem Spec.Hid.hidden {α : Type} {f : ι → Gen n → Option (α × Gen n)} {v : α → List (RLWE n)} {pos pos' : Nat} {sh : List (RLWE n)} {ps : List Nat}
    (h : Hid key f v plains pos sh ps pos') : Hidden key f v plains pos (fun _ => sh) ps pos' :=
  ⟨h.le, h.fresh, h.range, fun _ => h.len, h.run⟩

/-- Two steps, the second depending on the output of the first. -/
theorem Spec.Hidden.seq {α β γ : Type} {f1 : ι → Gen n → Option (α × Gen n)} {f2 : ι → Gen n → Option (β × Gen n)}
    {F : ι → Gen n → Option (γ × Gen n)} {v1 : α → List (RLWE n)} {v2 : β → List (RLWE n)} {v : γ → List (RLWE n)}
    {pos pos1 pos2 : Nat} {s1 s2 : ι → List (RLWE n)} {p1 p2 : List Nat} (h1 : Hidden key f1 v1 plains pos s1 p1 pos1)
    (h2 : Hidden key f2 v2 plains pos1 s2 p2 pos2)
    (hF : ∀ k g a g1 b g2, f1 k g = some (a, g1) → f2 k g1 = some (b, g2) → ∃ c, F k g = some (c, g2) ∧ v c = v1 a ++ v2 b) :
    Hidden key F v plains pos (fun k => s1 k ++ s2 k) (p1 ++ p2) pos2 := by
  refine ⟨le_trans h1.le h2.le, ?_, ?_, fun k => by simp [h1.len k, h2.len k], fun k masks noises => ?_⟩
  · rw [List.pairwise_append]
    refine ⟨h1.fresh, h2.fresh, fun a ha b hb => ?_⟩
    have := (h1.range a ha).2
    have := (h2.range b hb).1
    omega
  · intro p hp
    have l1 := h1.le
    have l2 := h2.le
    rcases List.mem_append.mp hp with hp | hp
    · have := h1.range p hp; omega
    · have := h2.range p hp; omega
  · obtain ⟨a, e1, e2⟩ := h1.run k masks noises
    obtain ⟨b, e3, e4⟩ := h2.run k masks noises
    obtain ⟨c, e5, e6⟩ := hF k _ a _ b _ e1 e3
    refine ⟨c, e5, ?_⟩
    rw [e6, e2, e4, List.map_append, List.zipWith_append (by simp [h1.len k])]

theorem Spec.Hidden.map {α β : Type} {f : ι → Gen n → Option (α × Gen n)} {F : ι → Gen n → Option (β × Gen n)} {v : α → List (RLWE n)}
    {w : β → List (RLWE n)} {pos pos1 : Nat} {s1 : ι → List (RLWE n)} {p1 : List Nat} (h : Hidden key f v plains pos s1 p1 pos1)
    (hF : ∀ k g a g1, f k g = some (a, g1) → ∃ b, F k g = some (b, g1) ∧ w b = v a) : Hidden key F w plains pos s1 p1 pos1 :=
  ⟨h.le, h.fresh, h.range, h.len, fun k masks noises => by
    obtain ⟨a, e1, e2⟩ := h.run k masks noises
    obtain ⟨b, e3, e4⟩ := hF k _ a _ e1
    exact ⟨b, e3, by rw [e4, e2]⟩⟩

/-! ### Evaluation keys -/

theorem neg_poly (s : Poly n) : (⟨fun k => s k * scalarMAX⟩ : Poly n) = -s := by
  refine Poly.ext (funext fun k => ?_)
  show s k * scalarMAX = -(s k)
  have : (scalarMAX : Scalar) = -1 := by decide
  rw [this]; ring

theorem Spec.Hidden.neg (ctx : Ctx) (pos : Nat) :
    ∃ ps pos', Hidden (fun s : {s : Poly n // Binary s} => s.1) (fun s g => negGsw ctx s.1 g) viewRgsw plains pos (fun s => negShift ctx s.1) ps pos' := by
  obtain ⟨ps, pos', h⟩ := Hid.constRgsw (key := fun s : {s : Poly n // Binary s} => s.1) (plains := plains) ctx.negsBaseLog ctx.negsLevelCount 0 pos
  refine ⟨ps, pos', h.le, h.fresh, h.range, fun k => by rw [h.len, gadgetShift_length, negShift, gadgetShift_length], fun s masks noises => ?_⟩
  obtain ⟨C, e1, e2⟩ := h.run s masks noises
  refine ⟨{ C with rows := List.zipWith (encryptRgswLevel ctx (-s.1)) C.rows (List.range' 1 ctx.negsLevelCount) }, ?_, ?_⟩
  · unfold negGsw
    rw [if_pos (show ∀ k, s.1 k = 0 ∨ s.1 k = 1 from s.2), neg_poly]
    unfold encryptRgsw
    simp only [Option.some.injEq] at e1
    simp only [e1]
  · have hr : C.rows.length = ctx.negsLevelCount := by
      simp only [Option.some.injEq] at e1
      have h2 := congrArg (fun r : RGSW n × Gen n => r.1.rows.length) e1
      simp only [encryptConstantRgsw, mapGen_length, List.length_range'] at h2
      exact h2.symm
    refine Spec.Hid.rgswLevels ctx (-s.1) C.rows (List.range' 1 ctx.negsLevelCount) ps (sample s.1 masks noises) (by simp [hr]) ?_ ?_
    · rw [gadgetShift_zero] at e2
      rw [List.length_range']
      exact e2
    · rw [h.len, gadgetShift_length, List.length_range']

theorem Spec.Hidden.subsKey (bl lv : Nat) {e : Nat} (he : ∀ s : Poly n, evalXk s e ≠ none) (pos : Nat) :
    ∃ ps pos', Hidden (id : Poly n → Poly n) (fun s g => (KeyswitchKey.allocate n bl lv).fillWithSubsKeyswitchKey s e g) KeyswitchKey.ksks plains pos
      (fun s => (List.range' 1 lv).map fun l => ⟨0, ((evalXk s e).getD 0).mulConst ((1 : Scalar) <<< (64 - bl * l))⟩) ps pos' := by
  have key : ∀ (ls : List Nat) (pos : Nat), ∃ ps pos', Hidden (id : Poly n → Poly n)
      (fun s g => some (mapGen (fun l g => encryptRlwe s (((evalXk s e).getD 0).mulConst (gadget bl l)) g) ls g)) id plains pos
      (fun s => ls.map fun l => ⟨0, ((evalXk s e).getD 0).mulConst ((1 : Scalar) <<< (64 - bl * l))⟩) ps pos' := by
    intro ls
    induction ls with
    | nil => exact fun pos => ⟨[], pos, le_refl _, by simp, by simp, fun _ => rfl, fun k masks noises => ⟨[], rfl, rfl⟩⟩
    | cons l ls ih =>
      intro pos
      obtain ⟨ps, pos', h⟩ := ih (pos + 1)
      refine ⟨[pos] ++ ps, pos', ?_⟩
      have h1 : Hidden (id : Poly n → Poly n) (fun s g => some (encryptRlwe s (((evalXk s e).getD 0).mulConst (gadget bl l)) g)) (fun c => [c]) plains
          pos (fun s => [⟨0, ((evalXk s e).getD 0).mulConst ((1 : Scalar) <<< (64 - bl * l))⟩]) [pos] (pos + 1) :=
        ⟨by omega, by simp, by simp, fun _ => rfl, fun s masks noises =>
          (Hid.enc (key := (id : Poly n → Poly n)) (plains := plains) (((evalXk s e).getD 0).mulConst (gadget bl l)) pos).run s masks noises⟩
      refine h1.seq h fun s g a g1 b g2 e1 e2 => ⟨a :: b, ?_, rfl⟩
      simp only [Option.some.injEq] at e1 e2
      simp only [mapGen, e1, e2]
  obtain ⟨ps, pos', h⟩ := key (List.range' 1 lv) pos
  refine ⟨ps, pos', h.map fun s g a g1 e1 => ?_⟩
  obtain ⟨before, hb⟩ := Option.ne_none_iff_exists'.mp (he s)
  simp only [Option.some.injEq, hb, Option.getD_some] at e1
  refine ⟨⟨a, bl, lv, e⟩, ?_, rfl⟩
  unfold KeyswitchKey.fillWithSubsKeyswitchKey KeyswitchKey.fillWithKeyswitchKey KeyswitchKey.allocate
  simp only [hb, e1]

theorem genSubsKskLoop_keep {ctx : Ctx} {s : Poly n} : ∀ {is : List Nat} {hm : KskMap n} {g : Gen n} {m : KskMap n} {g' : Gen n} {e : Nat},
    genSubsKskLoop ctx s is hm g = some (m, g') → (∀ i ∈ is, traceExp n i ≠ e) → m e = hm e
  | [], hm, g, m, g', e, h, _ => by
    simp only [genSubsKskLoop, Option.some.injEq, Prod.mk.injEq] at h
    rw [h.1]
  | i :: is, hm, g, m, g', e, h, hne => by
    rw [genSubsKskLoop] at h
    split at h
    · cases h
    · rw [genSubsKskLoop_keep h fun j hj => hne j (by simp [hj])]
      exact if_neg (hne i (by simp)).symm

theorem Spec.Hidden.subsKeys (ctx : Ctx) : ∀ (is : List Nat), (∀ i ∈ is, ∀ s : Poly n, evalXk s (traceExp n i) ≠ none) →
    is.Pairwise (fun i j => traceExp n i ≠ traceExp n j) → ∀ (hm : Poly n → Gen n → KskMap n) (pos : Nat),
    ∃ ps pos', Hidden (id : Poly n → Poly n) (fun s g => genSubsKskLoop ctx s is (hm s g) g)
      (fun m => is.flatMap fun i => ((m (traceExp n i)).map KeyswitchKey.ksks).getD []) plains pos
      (fun s => is.flatMap fun i => (List.range' 1 ctx.ksLevelCount).map fun l =>
        ⟨0, ((evalXk s (traceExp n i)).getD 0).mulConst ((1 : Scalar) <<< (64 - ctx.ksBaseLog * l))⟩) ps pos'
  | [], _, _, hm, pos => ⟨[], pos, le_refl _, by simp, by simp, fun _ => rfl, fun k masks noises => ⟨_, rfl, rfl⟩⟩
  | i :: is, hev, hpw, hm, pos => by
    rw [List.pairwise_cons] at hpw
    obtain ⟨ps1, pos1, h1⟩ := Hidden.subsKey (plains := plains) ctx.ksBaseLog ctx.ksLevelCount (hev i (by simp)) pos
    -- the map before the recursive call depends on the key made in this round: quantify over it
    have key : ∀ hm' : Poly n → Gen n → KskMap n, ∃ ps pos', Hidden (id : Poly n → Poly n) (fun s g => genSubsKskLoop ctx s is (hm' s g) g)
        (fun m => is.flatMap fun i => ((m (traceExp n i)).map KeyswitchKey.ksks).getD []) plains pos1
        (fun s => is.flatMap fun i => (List.range' 1 ctx.ksLevelCount).map fun l =>
          ⟨0, ((evalXk s (traceExp n i)).getD 0).mulConst ((1 : Scalar) <<< (64 - ctx.ksBaseLog * l))⟩) ps pos' :=
      fun hm' => Hidden.subsKeys ctx is (fun j hj => hev j (by simp [hj])) hpw.2 hm' pos1
    -- the key made in this round, from the streams alone
    obtain ⟨ps2, pos2, h2⟩ := key (fun s g => match (KeyswitchKey.allocate n ctx.ksBaseLog ctx.ksLevelCount).fillWithSubsKeyswitchKey s (traceExp n i)
        ⟨g.masks, g.noises, plains, pos⟩ with
      | none => fun _ => none
      | some (ksk, _) => fun j => if j = traceExp n i then some ksk else hm s ⟨g.masks, g.noises, plains, pos⟩ j)
    refine ⟨ps1 ++ ps2, pos2, le_trans h1.le h2.le, ?_, ?_, fun k => by rw [List.length_append, h1.len k, h2.len k]; simp, fun s masks noises => ?_⟩
    · rw [List.pairwise_append]
      refine ⟨h1.fresh, h2.fresh, fun a ha b hb => ?_⟩
      have := (h1.range a ha).2
      have := (h2.range b hb).1
      omega
    · intro p hp
      have l1 := h1.le
      have l2 := h2.le
      rcases List.mem_append.mp hp with hp | hp
      · have := h1.range p hp; omega
      · have := h2.range p hp; omega
    · obtain ⟨a, e1, e2⟩ := h1.run s masks noises
      obtain ⟨m, e3, e4⟩ := h2.run s masks noises
      simp only [e1] at e3
      refine ⟨m, ?_, ?_⟩
      · rw [genSubsKskLoop]
        simp only [e1]
        exact e3
      · have hk := genSubsKskLoop_keep (e := traceExp n i) e3 fun j hj => (hpw.1 j hj).symm
        rw [if_pos rfl] at hk
        rw [List.flatMap_cons, hk, Option.map_some, Option.getD_some, e4, e2, List.map_append, List.flatMap_cons,
          List.zipWith_append (by simp [h1.len s])]

theorem Spec.Hidden.comap {κ α : Type} (φ : κ → ι) {f : ι → Gen n → Option (α × Gen n)} {v : α → List (RLWE n)} {pos pos' : Nat}
    {sh : ι → List (RLWE n)} {ps : List Nat} (h : Hidden key f v plains pos sh ps pos') :
    Hidden (fun k => key (φ k)) (fun k => f (φ k)) v plains pos (fun k => sh (φ k)) ps pos' :=
  ⟨h.le, h.fresh, h.range, fun k => h.len (φ k), fun k masks noises => h.run (φ k) masks noises⟩

theorem Spec.Hidden.allSubsKeys {d : Nat} (hd : d < 64) {plains : Nat → Poly (2 ^ d)} (ctx : Ctx) (pos : Nat) :
    ∃ ps pos', Hidden (id : Poly (2 ^ d) → Poly (2 ^ d)) (fun s g => genAllSubsKsk ctx s g) (viewKsks d) plains pos (kskShift ctx d) ps pos' := by
  have hmem : ∀ i ∈ List.range' 1 d, 1 ≤ i ∧ i ≤ d := fun i hi => by rw [List.mem_range'_1] at hi; omega
  have hx : ∀ i ∈ List.range' 1 d, ∀ s : Poly (2 ^ d), evalXk s (traceExp (2 ^ d) i) = some (s.subst (traceExp (2 ^ d) i)) := fun i hi s =>
    evalXkInMemory_eq (traceExp_odd (d := d) (hmem i hi).1 (hmem i hi).2) _ s
  obtain ⟨ps, pos', h⟩ := Hidden.subsKeys (n := 2 ^ d) (plains := plains) ctx (List.range' 1 d)
    (fun i hi s => by
      rw [hx i hi s]
      exact Option.some_ne_none _)
    (by
      have hp : (List.range' 1 d).Pairwise (· < ·) := List.pairwise_lt_range'
      refine hp.imp_of_mem fun {i j} hi hj hij => ?_
      have h1 := hmem i hi
      have h2 := hmem j hj
      rw [traceExp_eq h1.1 h1.2, traceExp_eq h2.1 h2.2]
      have := Nat.pow_lt_pow_right (a := 2) (by norm_num) (show d + 1 - j < d + 1 - i by omega)
      omega)
    (fun _ _ _ => none) pos
  have he : (fun s : Poly (2 ^ d) => (List.range' 1 d).flatMap fun i => (List.range' 1 ctx.ksLevelCount).map fun l =>
      (⟨0, ((evalXk s (traceExp (2 ^ d) i)).getD 0).mulConst ((1 : Scalar) <<< (64 - ctx.ksBaseLog * l))⟩ : RLWE (2 ^ d))) = kskShift ctx d := by
    funext s
    refine List.flatMap_congr fun i hi => ?_
    rw [hx i hi s, Option.getD_some, Poly.subst_eq_evalAt]
    rfl
  rw [he] at h
  refine ⟨ps, pos', h.map fun s g a g1 e => ⟨a, ?_, rfl⟩⟩
  unfold genAllSubsKsk
  rw [log2_pow hd]
  exact e

/-- C75 (decision trees): the whole of what the client sends -- the RGSW encryption of the negated key, all substitution keys and all
encrypted feature vectors, for any number of equally long vectors -- are RLWE samples, no two from the same random values, plus the messages;
or it panics, whatever the key and the masks and noises.  Only the messages of the evaluation keys depend on the key, as `negShift` and
`kskShift` say. -/
theorem C75_tree_view {d : Nat} (hd : d < 64) (ctx : Ctx) (len : Nat) (vss : List (List Nat)) (hlen : ∀ vs ∈ vss, vs.length = len)
    (plains : Nat → Poly (2 ^ d)) (pos : Nat) :
    (∀ s masks noises, Binary s → treeClient ctx s vss ⟨masks, noises, plains, pos⟩ = none) ∨
    ∃ shift ps pos', shift.length = vss.length * (len * ctx.levelCount) ∧
      Hidden (fun s : {s : Poly (2 ^ d) // Binary s} => s.1) (fun s g => treeClient ctx s.1 vss g)
        (fun r => viewRgsw r.1 ++ (viewKsks d r.2.1 ++ r.2.2.flatMap fun cts => cts.flatMap id)) plains pos
        (fun s => negShift ctx s.1 ++ (kskShift ctx d s.1 ++ shift)) ps pos' := by
  obtain ⟨ps1, pos1, h1⟩ := Hidden.neg (plains := plains) ctx pos
  obtain ⟨ps2, pos2, h2'⟩ := Hidden.allSubsKeys hd (plains := plains) ctx pos1
  have h2 := h2'.comap (fun s : {s : Poly (2 ^ d) // Binary s} => s.1)
  rcases C64_features ctx len vss hlen plains pos2 with hn | ⟨shift, ps3, pos3, hl, h3'⟩
  · left
    intro s masks noises hs
    obtain ⟨a, e1, _⟩ := h1.run ⟨s, hs⟩ masks noises
    obtain ⟨b, e2, _⟩ := h2.run ⟨s, hs⟩ masks noises
    unfold treeClient
    simp only [id_eq] at e1 e2
    simp only [e1, e2, hn]
  · right
    have h3 := h3'.hidden.comap (fun s : {s : Poly (2 ^ d) // Binary s} => s.1)
    refine ⟨shift, _, pos3, hl, h1.seq (h2.seq h3 (F := fun s g => match genAllSubsKsk ctx s.1 g with
      | none => none
      | some (ksks, g) =>
        match mapGenM (encryptFeatureVector ctx s.1) vss g with
        | none => none
        | some (cts, g) => some ((ksks, cts), g)) (v := fun r => viewKsks d r.1 ++ r.2.flatMap fun cts => cts.flatMap id)
        fun s g a g1 b g2 e1 e2 => ⟨(a, b), ?_, rfl⟩) fun s g a g1 b g2 e1 e2 => ⟨(a, b), ?_, rfl⟩⟩
    · simp only [e1, e2]
    · unfold treeClient
      simp only [e1]
      revert e2
      rcases genAllSubsKsk ctx s.1 g1 with _ | ⟨x, y⟩
      · simp
      · dsimp only
        rcases mapGenM (encryptFeatureVector ctx s.1) vss y with _ | ⟨x', y'⟩
        · simp
        · dsimp only
          intro h
          injection h with h
          injection h with h4 h5
          rw [← h4, ← h5]

/-! ### The dummy database -/

/-- The fresh ciphertexts of the dummy database. -/
def dummyCts (ctx : Ctx) (s : Poly n) : List Nat → Gen n → Option (List (RLWE n) × Gen n) :=
  mapGenM fun _ g => encodeEncryptRlwe ctx s (genPt ctx g).1 (genPt ctx g).2

theorem dummyCts_hidOrPanic (key : ι → Poly n) (ctx : Ctx) (is : List Nat) :
    HidOrPanic key (fun k g => dummyCts ctx (key k) is g) id is.length := by
  have h := HidOrPanic.list (key := key) (f := fun (_ : Nat) k g => encodeEncryptRlwe ctx (key k) (genPt ctx g).1 (genPt ctx g).2)
    (v := fun c => [c]) (L := 1) is (fun i _ => by
      intro plains pos
      rcases henc : ctx.codec.polyEncode ⟨fun k => plains pos k % ctx.codec.ptModulus⟩ with _ | enc
      · left
        intro k masks noises
        unfold encodeEncryptRlwe genPt
        simp only [henc]
      · right
        refine ⟨[⟨0, enc⟩], [pos + 1], pos + 2, rfl, Hid.skip (Hid.enc enc (pos + 1)) fun k masks noises => ?_⟩
        unfold encodeEncryptRlwe genPt Gen.next
        simp only [henc])
  simp only [List.flatMap_singleton', mul_one] at h
  exact h

/-- Every index of the layout is below `L`. -/
def LayoutLt (layout : List (List (Option Nat))) (L : Nat) : Prop := ∀ row ∈ layout, ∀ j, some j ∈ row → j < L

theorem place_append {layout : List (List (Option Nat))} {cts : List (RLWE n)} (h : LayoutLt layout cts.length) (more : List (RLWE n)) :
    place layout (cts ++ more) = place layout cts := by
  unfold place
  refine List.map_congr_left fun row hr => List.map_congr_left fun o ho => ?_
  rcases o with _ | j
  · rfl
  · have := h row hr j ho
    simp only [pick, List.getD_eq_getElem?_getD, List.getElem?_append_left this]

theorem cellAt_place (layout : List (List (Option Nat))) (cts : List (RLWE n)) (p : Nat × Nat) :
    cellAt (place layout cts) p = ((layout[p.1]?).bind fun row => row[p.2]?).map (pick cts) := by
  unfold cellAt place
  rw [List.getElem?_map]
  rcases layout[p.1]? with _ | row
  · rfl
  · simp only [Option.map_some, List.getElem?_map, Option.bind_some]

/-- Overwriting a cell of a layout. -/
def setLayout (layout : List (List (Option Nat))) (p : Nat × Nat) (o : Option Nat) : List (List (Option Nat)) :=
  layout.modify p.1 fun row => row.set p.2 o

theorem setCell_place (layout : List (List (Option Nat))) (cts : List (RLWE n)) (p : Nat × Nat) (o : Option Nat) :
    setCell (place layout cts) p (pick cts o) = place (setLayout layout p o) cts := by
  unfold setCell place setLayout
  refine List.ext_getElem? fun i => ?_
  rw [List.getElem?_modify, List.getElem?_map, List.getElem?_map, List.getElem?_modify]
  rcases layout[i]? with _ | row
  · simp
  · simp only [Option.map_some, Option.map_eq_map]
    congr 1
    split
    · rw [List.map_set]
    · rfl

theorem LayoutLt.set {layout : List (List (Option Nat))} {L L' : Nat} (h : LayoutLt layout L) (hL : L ≤ L') {p : Nat × Nat} {j : Nat} (hj : j < L') :
    LayoutLt (setLayout layout p (some j)) L' := by
  intro row hr k hk
  obtain ⟨i, hi⟩ := List.mem_iff_getElem?.mp hr
  unfold setLayout at hi
  rw [List.getElem?_modify] at hi
  rcases hl : layout[i]? with _ | row0
  · rw [hl] at hi; simp at hi
  · have hm := List.mem_of_getElem? hl
    rw [hl, Option.map_eq_map, Option.map_some, Option.some.injEq] at hi
    rw [← hi] at hk
    split at hk
    · rcases List.mem_or_eq_of_mem_set hk with hk | hk
      · exact lt_of_lt_of_le (h row0 hm k hk) hL
      · injection hk with hk; omega
    · exact lt_of_lt_of_le (h row0 hm k hk) hL

theorem dummyUnique_place (ctx : Ctx) (rows cols : Nat) (H : NaiveHash) : ∀ (is : List Nat) (layout : List (List (Option Nat))) (L : Nat), LayoutLt layout L →
    (∀ (s : Poly n) g db, dummyUnique ctx s rows cols H is db g = none) ∨
    ∃ layout', LayoutLt layout' (L + is.length) ∧ ∀ (s : Poly n) g (cts : List (RLWE n)), cts.length = L →
      (dummyCts ctx s is g = none → dummyUnique ctx s rows cols H is (place layout cts) g = none) ∧
      ∀ new g', dummyCts ctx s is g = some (new, g') → ∃ pts : List (Poly n), pts.length = is.length ∧
        dummyUnique ctx s rows cols H is (place layout cts) g = some (pts, place layout' (cts ++ new), g')
  | [], layout, L, hl => Or.inr ⟨layout, hl, fun s g cts hc => ⟨fun h => by simp [dummyCts, mapGenM] at h, fun new g' h => by
      simp only [dummyCts, mapGenM, Option.some.injEq, Prod.mk.injEq] at h
      obtain ⟨rfl, rfl⟩ := h
      exact ⟨[], rfl, by rw [List.append_nil]; rfl⟩⟩⟩
  | i :: is, layout, L, hl => by
    rcases hp : H.hashToTuple 0 i cols with _ | p
    · left
      intro s g db
      rw [dummyUnique]
      simp only [hp]
    by_cases hb : p.1 < rows ∧ p.2 < cols
    swap
    · left
      intro s g db
      rw [dummyUnique]
      simp only [hp, if_neg hb]
    rcases dummyUnique_place ctx rows cols H is (setLayout layout p (some L)) (L + 1) (hl.set (by omega) (by omega)) with hn | ⟨layout', hl', h⟩
    · left
      intro s g db
      rw [dummyUnique]
      simp only [hp, if_pos hb]
      rcases encodeEncryptRlwe ctx s (genPt ctx g).1 (genPt ctx g).2 with _ | ⟨ct, g1⟩
      · rfl
      · simp only [hn]
    · right
      refine ⟨layout', by rw [List.length_cons, show L + (is.length + 1) = L + 1 + is.length by omega]; exact hl', fun s g cts hc => ?_⟩
      have hd : dummyCts ctx s (i :: is) g = match encodeEncryptRlwe ctx s (genPt ctx g).1 (genPt ctx g).2 with
          | none => none
          | some (b, g1) => match dummyCts ctx s is g1 with
            | none => none
            | some (bs, g2) => some (b :: bs, g2) := by
        unfold dummyCts
        rw [mapGenM]
        rcases encodeEncryptRlwe ctx s (genPt ctx g).1 (genPt ctx g).2 with _ | ⟨b, g1⟩
        · rfl
        · dsimp only
          rcases mapGenM (fun _ g => encodeEncryptRlwe ctx s (genPt ctx g).1 (genPt ctx g).2) is g1 with _ | ⟨bs, g2⟩ <;> rfl
      rw [hd, dummyUnique]
      simp only [hp, if_pos hb]
      rcases encodeEncryptRlwe ctx s (genPt ctx g).1 (genPt ctx g).2 with _ | ⟨ct, g1⟩
      · exact ⟨fun _ => rfl, fun new g' h => by simp at h⟩
      · simp only
        have hset : setCell (place layout cts) p ct = place (setLayout layout p (some L)) (cts ++ [ct]) := by
          have h1 := setCell_place layout (cts ++ [ct]) p (some L)
          rw [place_append (by rw [hc]; exact hl)] at h1
          rw [← h1]
          congr 1
          simp [pick, List.getD_eq_getElem?_getD, ← hc]
        rw [hset]
        obtain ⟨h1, h2⟩ := h s g1 (cts ++ [ct]) (by simp [hc])
        rcases hc2 : dummyCts ctx s is g1 with _ | ⟨bs, g2⟩
        · rw [h1 hc2]
          exact ⟨fun _ => rfl, fun new g' h => by simp at h⟩
        · obtain ⟨pts, e1, e2⟩ := h2 bs g2 hc2
          rw [e2]
          refine ⟨fun h => by simp at h, fun new g' h => ?_⟩
          simp only [Option.some.injEq, Prod.mk.injEq] at h
          obtain ⟨rfl, rfl⟩ := h
          exact ⟨(genPt ctx g).1 :: pts, by simp [e1], by simp⟩

theorem dummyRest_place (cols : Nat) (H : NaiveHash) (m : Nat) : ∀ (is : List Nat) (layout : List (List (Option Nat))),
    (∀ (pts : List (Poly n)) cts, pts.length = m → dummyRest cols H pts is (place layout cts) = none) ∨
    ∃ layout', ∀ (pts : List (Poly n)) cts, pts.length = m → ∃ rest, dummyRest cols H pts is (place layout cts) = some (rest, place layout' cts)
  | [], layout => Or.inr ⟨layout, fun pts cts h => ⟨[], rfl⟩⟩
  | i :: is, layout => by
    rcases h1 : H.hashToTuple 0 (i % uniqueLimit) cols with _ | orig
    · left
      intro pts cts h
      rw [dummyRest, h1]
      rcases pts[i % uniqueLimit]? <;> rfl
    rcases h2 : H.hashToTuple 0 i cols with _ | p
    · left
      intro pts cts h
      rw [dummyRest, h1, h2]
      rcases pts[i % uniqueLimit]? <;> rfl
    by_cases hm : i % uniqueLimit < m
    swap
    · left
      intro pts cts h
      rw [dummyRest, List.getElem?_eq_none (by omega)]
    rcases h3 : ((layout[orig.1]?).bind fun row => row[orig.2]?) with _ | o
    · left
      intro pts cts h
      rw [dummyRest, List.getElem?_eq_getElem (by omega)]
      simp only [h1, h2, cellAt_place, h3, Option.map_none]
    rcases h4 : ((layout[p.1]?).bind fun row => row[p.2]?) with _ | o'
    · left
      intro pts cts h
      rw [dummyRest, List.getElem?_eq_getElem (by omega)]
      simp only [h1, h2, cellAt_place, h3, h4, Option.map_none, Option.map_some]
    rcases dummyRest_place cols H m is (setLayout layout p o) with hn | ⟨layout', hl⟩
    · left
      intro pts cts h
      rw [dummyRest, List.getElem?_eq_getElem (by omega)]
      simp only [h1, h2, cellAt_place, h3, h4, Option.map_some, setCell_place, hn pts cts h]
    · right
      refine ⟨layout', fun pts cts h => ?_⟩
      obtain ⟨rest, e⟩ := hl pts cts h
      rw [dummyRest, List.getElem?_eq_getElem (by omega)]
      simp only [h1, h2, cellAt_place, h3, h4, Option.map_some, setCell_place, e]
      exact ⟨_, rfl⟩

theorem dummyCopy_place (rows cols : Nat) (H : NaiveHash) (i : Nat) : ∀ (hs : List Nat) (layout : List (List (Option Nat))),
    (∀ cts : List (RLWE n), dummyCopy rows cols H i hs (place layout cts) = none) ∨
    ∃ layout', ∀ cts : List (RLWE n), dummyCopy rows cols H i hs (place layout cts) = some (place layout' cts)
  | [], layout => Or.inr ⟨layout, fun cts => rfl⟩
  | h :: hs, layout => by
    rcases h1 : H.hashToTuple 0 i cols with _ | first
    · left
      intro cts
      rw [dummyCopy]
      simp only [h1]
    rcases h2 : H.hashToTuple h i cols with _ | p
    · left
      intro cts
      rw [dummyCopy]
      simp only [h1, h2]
    by_cases hb : p.1 < rows ∧ p.2 < cols
    swap
    · left
      intro cts
      rw [dummyCopy]
      simp only [h1, h2, if_neg hb]
    rcases h3 : ((layout[first.1]?).bind fun row => row[first.2]?) with _ | o
    · left
      intro cts
      rw [dummyCopy]
      simp only [h1, h2, if_pos hb, cellAt_place, h3, Option.map_none]
    rcases dummyCopy_place rows cols H i hs (setLayout layout p o) with hn | ⟨layout', hl⟩
    · left
      intro cts
      rw [dummyCopy]
      simp only [h1, h2, if_pos hb, cellAt_place, h3, Option.map_some, setCell_place, hn]
    · right
      refine ⟨layout', fun cts => ?_⟩
      rw [dummyCopy]
      simp only [h1, h2, if_pos hb, cellAt_place, h3, Option.map_some, setCell_place, hl]

theorem dummyCopies_place (rows cols : Nat) (H : NaiveHash) : ∀ (is : List Nat) (layout : List (List (Option Nat))),
    (∀ cts : List (RLWE n), dummyCopies rows cols H is (place layout cts) = none) ∨
    ∃ layout', ∀ cts : List (RLWE n), dummyCopies rows cols H is (place layout cts) = some (place layout' cts)
  | [], layout => Or.inr ⟨layout, fun cts => rfl⟩
  | i :: is, layout => by
    rcases dummyCopy_place (n := n) rows cols H i (List.range' 1 (H.hCount - 1)) layout with h1 | ⟨l1, h1⟩
    · left
      intro cts
      rw [dummyCopies, h1]
    rcases dummyCopies_place rows cols H is l1 with h2 | ⟨l2, h2⟩
    · left
      intro cts
      rw [dummyCopies, h1]
      exact h2 cts
    · right
      refine ⟨l2, fun cts => ?_⟩
      rw [dummyCopies, h1]
      exact h2 cts

/-- The database is laid out by public data; the fresh ciphertexts come from the random streams. -/
theorem genDummy_place (ctx : Ctx) (rows cols : Nat) (H : NaiveHash) :
    ∃ is : List Nat, is.length = min (rows * cols / H.hCount) 128 ∧
    ((∀ (s : Poly n) g, genDummyDatabase ctx s rows cols H g = none) ∨
    ∃ layout, ∀ (s : Poly n) g, (dummyCts ctx s is g = none → genDummyDatabase ctx s rows cols H g = none) ∧
      ∀ cts g', dummyCts ctx s is g = some (cts, g') → ∃ pts, genDummyDatabase ctx s rows cols H g = some (pts, place layout cts, g')) := by
  set U := if rows * cols / H.hCount < uniqueLimit then rows * cols / H.hCount else uniqueLimit with hU
  refine ⟨List.range U, by rw [List.length_range, hU]; unfold uniqueLimit; split <;> omega, ?_⟩
  by_cases h0 : H.hCount = 0
  · left
    intro s g
    unfold genDummyDatabase
    rw [if_pos h0]
  have hz : (List.replicate rows (List.replicate cols (0 : RLWE n))) = place (List.replicate rows (List.replicate cols none)) [] := by
    unfold place
    simp [pick]
  rcases dummyUnique_place (n := n) ctx rows cols H (List.range U) (List.replicate rows (List.replicate cols none)) 0
    (by intro row hr j hj
        rw [List.eq_of_mem_replicate hr] at hj
        have := List.eq_of_mem_replicate hj
        simp at this) with h1 | ⟨l1, _, h1⟩
  · left
    intro s g
    unfold genDummyDatabase
    rw [if_neg h0]
    simp only [← hU, h1]
  rcases dummyRest_place (n := n) cols H U (List.range' U (rows * cols / H.hCount - U)) l1 with h2 | ⟨l2, h2⟩
  · left
    intro s g
    unfold genDummyDatabase
    rw [if_neg h0]
    simp only [← hU, hz]
    obtain ⟨a, b⟩ := h1 s g [] rfl
    rcases hc : dummyCts ctx s (List.range U) g with _ | ⟨cts, g'⟩
    · rw [a hc]
    · obtain ⟨pts, e1, e2⟩ := b cts g' hc
      rw [e2]
      simp only [List.nil_append]
      rw [h2 pts cts (by simp [e1])]
  rcases dummyCopies_place (n := n) rows cols H (List.range (rows * cols / H.hCount)) l2 with h3 | ⟨l3, h3⟩
  · left
    intro s g
    unfold genDummyDatabase
    rw [if_neg h0]
    simp only [← hU, hz]
    obtain ⟨a, b⟩ := h1 s g [] rfl
    rcases hc : dummyCts ctx s (List.range U) g with _ | ⟨cts, g'⟩
    · rw [a hc]
    · obtain ⟨pts, e1, e2⟩ := b cts g' hc
      obtain ⟨rest, e3⟩ := h2 pts cts (by simp [e1])
      rw [e2]
      simp only [List.nil_append, e3, h3]
  · right
    refine ⟨l3, fun s g => ?_⟩
    obtain ⟨a, b⟩ := h1 s g [] rfl
    unfold genDummyDatabase
    rw [if_neg h0]
    simp only [← hU, hz]
    refine ⟨fun hc => by rw [a hc], fun cts g' hc => ?_⟩
    obtain ⟨pts, e1, e2⟩ := b cts g' hc
    obtain ⟨rest, e3⟩ := h2 pts cts (by simp [e1])
    rw [e2]
    simp only [List.nil_append, e3, h3]
    exact ⟨_, rfl⟩

/-- C75 (ORAM): the whole of what the client sends in a session -- the initial database with the RGSW encryption of the negated key, and then
all queries of any list of READ and WRITE batches.  Either the client panics, whatever the key, the masks and the noises, or: every cell of the
database holds one of `min (rows*cols/h) 128` ciphertexts or zero, which one depends on the sizes and the hash functions only; these ciphertexts, the encryption of the negated key and
all ciphertexts of all queries are RLWE samples, no two from the same random values, plus the messages.  Only the messages of the encryption of
the negated key depend on the key; their number depends on the sizes and on the number of batches only. -/
theorem C75_oram_view (ctx : Ctx) (rows cols : Nat) (H : NaiveHash) :
    ∃ layout : List (List (Option Nat)), ∀ (cmds : List (BatchCmd n)) (plains : Nat → Poly n) (pos : Nat),
    (∀ s masks noises, Binary s → oramClient ctx s rows cols H cmds ⟨masks, noises, plains, pos⟩ = none) ∨
    ∃ (shift : List (RLWE n)) (ps : List Nat) (pos' : Nat),
      shift.length = min (rows * cols / H.hCount) 128 + cmds.length * (rows * (2 * ctx.levelCount * ((log2 cols).getD 0 + 1) + 1)) ∧
      ps.Pairwise (· < ·) ∧ (∀ p ∈ ps, pos ≤ p ∧ p < pos') ∧ (∀ s : Poly n, ps.length = (negShift ctx s ++ shift).length) ∧
      ∀ s masks noises, Binary s → ∃ S qss cts,
        oramClient ctx s rows cols H cmds ⟨masks, noises, plains, pos⟩ = some ((S, qss), ⟨masks, noises, plains, pos'⟩) ∧
        S.data = place layout cts ∧ cts.length = min (rows * cols / H.hCount) 128 ∧
        viewRgsw S.negS ++ (cts ++ qss.flatMap fun qs => qs.flatMap viewQuery) =
          List.zipWith (· + ·) (ps.map (sample s masks noises)) (negShift ctx s ++ shift) := by
  by_cases hsize : rows * cols = H.inputDomain * H.hCount
  swap
  · refine ⟨[], fun cmds plains pos => Or.inl ?_⟩
    intro s masks noises _
    unfold oramClient setupRandomOram
    rw [if_neg hsize]
  obtain ⟨is, his, hd⟩ := genDummy_place (n := n) ctx rows cols H
  rcases hd with hn | ⟨layout, hd⟩
  · refine ⟨[], fun cmds plains pos => Or.inl ?_⟩
    obtain ⟨ps1, pos1, h1⟩ := Hidden.neg (plains := plains) ctx pos
    intro s masks noises hs
    obtain ⟨a, e1, _⟩ := h1.run ⟨s, hs⟩ masks noises
    unfold oramClient setupRandomOram
    rw [if_pos hsize]
    dsimp only at e1
    simp only [e1, hn]
  refine ⟨layout, fun cmds plains pos => ?_⟩
  obtain ⟨ps1, pos1, h1⟩ := Hidden.neg (plains := plains) ctx pos
  rcases dummyCts_hidOrPanic (fun s : {s : Poly n // Binary s} => s.1) ctx is plains pos1 with hn | ⟨shift2, ps2, pos2, l2, h2⟩
  · left
    intro s masks noises hs
    obtain ⟨a, e1, _⟩ := h1.run ⟨s, hs⟩ masks noises
    unfold oramClient setupRandomOram
    rw [if_pos hsize]
    dsimp only at e1
    simp only [e1]
    rw [(hd s _).1 (hn ⟨s, hs⟩ masks noises)]
  rcases C64_history ctx rows cols H cmds plains pos2 with hn | ⟨shift3, ps3, pos3, l3, h3⟩
  · left
    intro s masks noises hs
    obtain ⟨a, e1, _⟩ := h1.run ⟨s, hs⟩ masks noises
    obtain ⟨b, e2, _⟩ := h2.run ⟨s, hs⟩ masks noises
    obtain ⟨pts, e3⟩ := (hd s _).2 b _ e2
    unfold oramClient setupRandomOram
    rw [if_pos hsize]
    dsimp only at e1
    simp only [e1, e3, hn]
  right
  have hh := h1.seq (h2.hidden.seq (h3.hidden.comap (fun s : {s : Poly n // Binary s} => s.1))
    (F := fun s g => match dummyCts ctx s.1 is g with
      | none => none
      | some (cts, g) =>
        match mapGenM (clientBatch ctx s.1 rows cols H) cmds g with
        | none => none
        | some (qss, g) => some ((cts, qss), g))
    (v := fun r => r.1 ++ r.2.flatMap fun qs => qs.flatMap viewQuery)
    fun s g a g1 b g2 e1 e2 => ⟨(a, b), by simp only [e1, e2], rfl⟩)
    (F := fun s g => match negGsw ctx s.1 g with
      | none => none
      | some (negS, g) =>
        match dummyCts ctx s.1 is g with
        | none => none
        | some (cts, g) =>
          match mapGenM (clientBatch ctx s.1 rows cols H) cmds g with
          | none => none
          | some (qss, g) => some ((negS, cts, qss), g))
    (v := fun r => viewRgsw r.1 ++ (r.2.1 ++ r.2.2.flatMap fun qs => qs.flatMap viewQuery))
    fun s g a g1 b g2 e1 e2 => ⟨(a, b), by
      simp only [e1]
      revert e2
      rcases dummyCts ctx s.1 is g1 with _ | ⟨x, y⟩
      · simp
      · dsimp only
        rcases mapGenM (clientBatch ctx s.1 rows cols H) cmds y with _ | ⟨x', y'⟩
        · simp
        · dsimp only
          intro h
          injection h with h
          injection h with h4 h5
          rw [← h4, ← h5], rfl⟩
  refine ⟨shift2 ++ shift3, _, pos3, by rw [List.length_append, l2, l3, his], hh.fresh, hh.range, fun s => ?_, fun s masks noises hs => ?_⟩
  · have : Binary (0 : Poly n) := fun k => Or.inl rfl
    rw [hh.len ⟨0, this⟩]
    simp only [List.length_append, negShift, gadgetShift_length]
  · obtain ⟨⟨negS, cts, qss⟩, e1, e2⟩ := hh.run ⟨s, hs⟩ masks noises
    revert e1
    obtain ⟨a, f1, _⟩ := h1.run ⟨s, hs⟩ masks noises
    obtain ⟨b, f2, f2'⟩ := h2.run ⟨s, hs⟩ masks noises
    obtain ⟨c, f3, _⟩ := h3.run s masks noises
    dsimp only at f1 f2 f3
    simp only [f1, f2, f3]
    intro h
    simp only [Option.some.injEq, Prod.mk.injEq, and_true] at h
    obtain ⟨rfl, rfl, rfl⟩ := h
    obtain ⟨pts, e3⟩ := (hd s _).2 b _ f2
    refine ⟨Server.new (place layout b) a ctx, c, b, ?_, rfl, ?_, e2⟩
    · unfold oramClient setupRandomOram
      rw [if_pos hsize]
      simp only [f1, e3, f3]
    · have h5 := congrArg List.length f2'
      rw [List.length_zipWith, List.length_map, h2.len, min_self, l2, his] at h5
      exact h5

/-- A session that does not panic: a database of 3 times 4 cells, a READ and a WRITE batch. -/
theorem C75_oram_witness : oramClient exTreeCtx exKey 3 4 exHash [.read [0, 1], .write [2] (Poly.const 4 7)] exGen ≠ none := by
  have h : (oramClient exTreeCtx exKey 3 4 exHash [.read [0, 1], .write [2] (Poly.const 4 7)] exGen).isSome := by decide +kernel
  exact Option.isSome_iff_ne_none.mp h

/-- A decision-tree session that does not panic: keys and two feature vectors. -/
theorem C75_tree_witness : treeClient (n := 2 ^ 2) exTreeCtx exKey [[0, 3], [2, 1]] exGen ≠ none := by
  have h : (treeClient (n := 2 ^ 2) exTreeCtx exKey [[0, 3], [2, 1]] exGen).isSome := by decide +kernel
  exact Option.isSome_iff_ne_none.mp h

end Panacea
