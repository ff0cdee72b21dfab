import Verif.Spec.FlatOram
import Verif.Props.FlatTree
import Verif.Lemmas.Database
import Verif.Props.Sched
import Verif.Props.DecryptDb
import Verif.Lemmas.Poison

/-! # Lemmas for C86: the ORAM on word vectors -/

namespace Panacea
namespace Flat
variable {n : Nat}

/-! ## Loops -/

theorem loop_push {α β : Type} {f : α → Option β} {g : α → List β → Option (List β)} (hg : ∀ a acc, g a acc = (f a).map fun b => acc ++ [b]) :
    ∀ (l : List α) (acc : List β), loop g l acc = (mapOption f l).map (acc ++ ·) := by
  intro l
  induction l with
  | nil => intro acc; simp [loop, mapOption]
  | cons a l ih =>
    intro acc
    rw [loop, mapOption, hg]
    cases f a with
    | none => rfl
    | some b =>
      simp only [Option.map_some]
      rw [ih]
      cases mapOption f l <;> simp

theorem mapOption_index {α β : Type} {f : Nat → Option β} {F : α → Option β} : ∀ (L : List α) (k : Nat),
    (∀ (i : Nat) (x : α), L[i]? = some x → f (k + i) = F x) → mapOption f (List.range' k L.length) = mapOption F L := by
  intro L
  induction L with
  | nil => intro k _; rfl
  | cons x L ih =>
    intro k h
    have h' := ih (k + 1) (fun i y hy => by
      rw [← h (i + 1) y (by simpa using hy)]
      congr 1; omega)
    have hx : F x = f k := (h 0 x rfl).symm
    rw [List.length_cons, List.range'_succ, mapOption, mapOption, hx, h']

theorem map_fst_zip' {α β γ : Type} (e : α → γ) : ∀ (a : List α) (b : List β), a.length ≤ b.length → (a.zip b).map (fun x => e x.1) = a.map e
  | [], _, _ => by simp
  | x :: a, [], h => by simp at h
  | x :: a, y :: b, h => by simp [map_fst_zip' e a b (by simpa using h)]

theorem map_zipWith_zip {α β γ δ : Type} (f : α → β → γ) (e : γ → δ) : ∀ (a : List α) (b : List β),
    (List.zipWith f a b).map e = (a.zip b).map fun x => e (f x.1 x.2)
  | [], _ => by simp
  | _ :: _, [] => by simp
  | x :: a, y :: b => by simp [map_zipWith_zip f e a b]

/-- A loop whose iteration `i` overwrites element `i` of a vector, that element and the loop item being what they are before the loop. -/
theorem loop_fill {ι κ A : Type} (a b : ι → A) (f : κ → List A → Option (List A)) : ∀ (L : List ι) (ks : List κ) (done : List A),
    ks.length = L.length →
    (∀ (i : Nat) (x : ι) (k : κ), L[i]? = some x → ks[i]? = some k → ∀ l : List A, l[done.length + i]? = some (a x) →
      f k l = some (l.set (done.length + i) (b x))) →
    loop f ks (done ++ L.map a) = some (done ++ L.map b) := by
  intro L
  induction L with
  | nil =>
    intro ks done hk _
    rw [List.eq_nil_of_length_eq_zero hk]; rfl
  | cons x L ih =>
    intro ks done hk h
    cases ks with
    | nil => cases hk
    | cons k ks =>
      have h0 := h 0 x k rfl rfl (done ++ List.map a (x :: L)) (by simp)
      rw [loop, h0]
      have e : (done ++ List.map a (x :: L)).set (done.length + 0) (b x) = (done ++ [b x]) ++ L.map a := by simp
      simp only
      rw [e, ih ks (done ++ [b x]) (by simpa using hk)]
      · simp
      · intro i y k' hy hk' l hl
        rw [List.length_append, List.length_singleton] at hl ⊢
        have := h (i + 1) y k' (by simpa using hy) (by simpa using hk') l (by rw [← hl]; congr 1; omega)
        rw [this]; congr 2; omega

theorem loop_fill_range {ι A : Type} (a b : ι → A) (f : Nat → List A → Option (List A)) (L : List ι)
    (h : ∀ (i : Nat) (x : ι), L[i]? = some x → ∀ l : List A, l[i]? = some (a x) → f i l = some (l.set i (b x))) :
    loop f (List.range L.length) (L.map a) = some (L.map b) := by
  have := loop_fill a b f L (List.range L.length) [] (by simp) (by
    intro i x k hx hk l hl
    rw [List.length_nil, Nat.zero_add] at hl ⊢
    have hi := (List.getElem?_eq_some_iff.1 hk).2
    rw [List.getElem_range] at hi
    subst hi
    exact h i x hx l hl)
  simpa using this

/-! ## Reductions -/

theorem parReduceM_out {α β : Type} {op : β → β → Option β} {op' : α → α → α} {id' : α} {e : α → β} {P : α → Prop} (hid : P id')
    (hop : ∀ a b, P a → P b → P (op' a b)) (he : ∀ a b, P a → P b → op (e a) (e b) = some (e (op' a b))) {ys : List β} {r : Option β}
    (h : ParReduceM op (e id') ys r) : ∀ xs : List α, ys = xs.map e → (∀ x ∈ xs, P x) → ∃ a, P a ∧ ParReduce op' id' xs a ∧ r = some (e a) := by
  induction h with
  | fold ys =>
    intro xs hy hx
    subst hy
    have : ∀ (xs : List α) (a : α), P a → (∀ x ∈ xs, P x) → P (xs.foldl op' a) ∧ (xs.map e).foldlM op (e a) = some (e (xs.foldl op' a)) := by
      intro xs
      induction xs with
      | nil => intro a ha _; exact ⟨ha, rfl⟩
      | cons x xs ih =>
        intro a ha hx
        rw [List.map_cons, List.foldlM_cons, he a x ha (hx x (by simp)), List.foldl_cons]
        exact ih _ (hop _ _ ha (hx x (by simp))) (fun z hz => hx z (by simp [hz]))
    obtain ⟨h1, h2⟩ := this xs id' hid hx
    exact ⟨_, h1, .fold xs, h2⟩
  | split _ _ iha ihb =>
    intro xs hy hx
    obtain ⟨x1, x2, rfl, e1, e2⟩ := List.map_eq_append_iff.1 hy.symm
    obtain ⟨a, p1, h1, rfl⟩ := iha x1 e1.symm (fun x h => hx x (by simp [h]))
    obtain ⟨b, p2, h2, rfl⟩ := ihb x2 e2.symm (fun x h => hx x (by simp [h]))
    exact ⟨op' a b, hop _ _ p1 p2, .split h1 h2, by simp [he a b p1 p2]⟩

theorem reduceOne_out {reduce : List Words → Option Words} (hr : IsReductionM (fun a b => some (updateWithAdd n a b)) (allocate n) reduce)
    (xs : List (RLWE n)) : reduce (xs.map outRlwe) = some (outRlwe (xs.foldl (· + ·) 0)) := by
  have h := hr (xs.map outRlwe)
  rw [allocate_out] at h
  obtain ⟨a, _, h1, h2⟩ := parReduceM_out (P := fun _ => True) (op' := (· + ·)) trivial (fun _ _ _ _ => trivial)
    (fun a b _ _ => by rw [updateWithAdd_out]) h xs rfl (fun _ _ => trivial)
  rw [h2]
  have := (parReduce_unique (P := fun _ => True) trivial (fun _ _ _ _ => trivial) (fun a b c _ _ _ => add_assoc a b c) (fun a _ => zero_add a)
    (fun a _ => add_zero a) h1 (fun _ _ => trivial)).1
  rw [this]

theorem addVec_out (xs ys : List (RLWE n)) (h : xs.length = ys.length) :
    addVec n (xs.map outRlwe) (ys.map outRlwe) = some ((Panacea.addVec xs ys).map outRlwe) := by
  have := loop_fill_range (fun x : RLWE n × RLWE n => outRlwe x.1) (fun x => outRlwe (x.1 + x.2)) (fun i xs =>
    match xs[i]? with
    | none => none
    | some x =>
      match (ys.map outRlwe)[i]? with
      | none => none
      | some y => some (xs.set i (updateWithAdd n x y))) (xs.zip ys) (by
      intro i x hx l hl
      rw [List.getElem?_zip_eq_some] at hx
      simp only [hl, List.getElem?_map, hx.2, Option.map_some, updateWithAdd_out])
  unfold addVec Panacea.addVec
  rw [map_zipWith_zip]
  rw [List.length_zip, ← h, Nat.min_self] at this
  have e : (xs.zip ys).map (fun x => outRlwe x.1) = xs.map outRlwe := by
    exact map_fst_zip' _ _ _ (by omega)
  rw [e] at this
  rw [List.length_map]
  exact this

theorem addGswVec_out (xs ys : List (RGSW n)) (h : xs.length = ys.length)
    (hs : ∀ x ∈ xs.zip ys, x.1.rows.length = x.2.rows.length) :
    addGswVec (xs.map outRgsw) (ys.map outRgsw) = some ((Panacea.addGswVec xs ys).map outRgsw) := by
  have := loop_fill_range (fun x : RGSW n × RGSW n => outRgsw x.1) (fun x => outRgsw (x.1.updateWithAdd x.2)) (fun i xs =>
    match xs[i]? with
    | none => none
    | some x =>
      match (ys.map outRgsw)[i]? with
      | none => none
      | some y => some (xs.set i (ggswUpdateWithAdd x y))) (xs.zip ys) (by
      intro i x hx l hl
      have hm := hs x (List.mem_of_getElem? hx)
      rw [List.getElem?_zip_eq_some] at hx
      simp only [hl, List.getElem?_map, hx.2, Option.map_some, ggswAdd_out _ _ hm])
  unfold addGswVec Panacea.addGswVec
  rw [map_zipWith_zip]
  rw [List.length_zip, ← h, Nat.min_self] at this
  have e : (xs.zip ys).map (fun x => outRgsw x.1) = xs.map outRgsw := by
    exact map_fst_zip' _ _ _ (by omega)
  rw [e] at this
  rw [List.length_map]
  exact this

theorem reduceVec_out {cols : Nat} {reduce : List (List Words) → Option (List Words)}
    (hr : IsReductionM (addVec n) (List.replicate cols (allocate n)) reduce) (xs : List (List (RLWE n))) (hx : ∀ x ∈ xs, x.length = cols) :
    reduce (xs.map (List.map outRlwe)) = some ((xs.foldl Panacea.addVec (List.replicate cols 0)).map outRlwe) := by
  have h := hr (xs.map (List.map outRlwe))
  rw [show List.replicate cols (allocate n) = (List.replicate cols (0 : RLWE n)).map outRlwe by rw [List.map_replicate, allocate_out]] at h
  obtain ⟨a, _, h1, h2⟩ := parReduceM_out (P := fun l : List (RLWE n) => l.length = cols) (op' := Panacea.addVec) (by simp)
    (fun a b ha hb => by simp [Panacea.addVec, ha, hb]) (fun a b ha hb => addVec_out a b (ha.trans hb.symm)) h xs rfl hx
  rw [h2]
  have := (parReduce_unique (P := fun l : List (RLWE n) => l.length = cols) (by simp) (fun a b ha hb => by simp [Panacea.addVec, ha, hb])
    (fun a b c _ _ _ => addVec_assoc a b c)
    (fun a h => by rw [← h]; exact zero_addVec a) (fun a h => by rw [← h]; exact addVec_zero a) h1 hx).1
  rw [this]

theorem reduceGsw_out {cols bl lv : Nat} {reduce : List (List Ggsw) → Option (List Ggsw)}
    (hr : IsReductionM addGswVec (List.replicate cols (ggswAllocate n bl lv)) reduce) (xs : List (List (RGSW n)))
    (hx : ∀ x ∈ xs, SelShape cols bl lv x) : ∃ a, SelShape cols bl lv a ∧
    ParReduce Panacea.addGswVec (List.replicate cols (RGSW.allocate n bl lv)) xs a ∧ reduce (xs.map (List.map outRgsw)) = some (a.map outRgsw) := by
  have h := hr (xs.map (List.map outRgsw))
  rw [show List.replicate cols (ggswAllocate n bl lv) = (List.replicate cols (RGSW.allocate n bl lv)).map outRgsw by
    rw [List.map_replicate, ggswAllocate_out]] at h
  refine parReduceM_out (P := SelShape cols bl lv) (op' := Panacea.addGswVec) ?_ (fun a b ha hb => selShape_add ha hb) ?_ h xs rfl hx
  · refine ⟨by simp, fun l hl => ?_⟩
    rw [List.eq_of_mem_replicate hl]
    exact ⟨rfl, by simp [RGSW.allocate]⟩
  · intro a b ha hb
    refine addGswVec_out a b (ha.1.trans hb.1.symm) ?_
    intro x hx
    rw [(ha.2 _ (List.of_mem_zip hx).1).2, (hb.2 _ (List.of_mem_zip hx).2).2]

/-! ## process_one -/

/-- The memory image of a query. -/
def outQuery (q : Panacea.ClientQuery n) : ClientQuery := ⟨q.a.map outRgsw, outRgsw q.op, outRlwe q.data⟩

/-- The memory image of a server. -/
def outServer (S : Panacea.Server n) : Server := ⟨S.data.map (List.map outRlwe), outRgsw S.negS, S.ctx⟩

theorem storesQuery_iff {Q : ClientQuery} {q : Panacea.ClientQuery n} : StoresQuery Q q ↔ Q = outQuery q := by
  constructor
  · rintro ⟨h1, h2, h3⟩
    rw [storesRgsws] at h1; rw [storesRgsw_iff] at h2; rw [storesRlwe_iff] at h3
    cases Q; simp only at h1 h2 h3; subst h1 h2 h3; rfl
  · rintro rfl
    exact ⟨storesRgsws.2 rfl, storesRgsw_iff.2 rfl, storesRlwe_iff.2 rfl⟩

theorem storesServer_iff {T : Server} {S : Panacea.Server n} : StoresServer T S ↔ T = outServer S := by
  constructor
  · rintro ⟨h1, h2, h3⟩
    rw [storesTable] at h1; rw [storesRgsw_iff] at h2
    cases T; simp only at h1 h2 h3; subst h1 h2 h3; rfl
  · rintro rfl
    exact ⟨storesTable.2 rfl, storesRgsw_iff.2 rfl, rfl⟩

theorem rw_out (fft : Fft n) (op : RGSW n) (a b : RLWE n) : rw fft (outRgsw op) (outRlwe a) (outRlwe b) = outRlwe (Panacea.rw fft op a b) := by
  unfold rw Panacea.rw; rw [allocate_out, cmux_out]

theorem demuxLevel_out (fft : Fft n) (ctx : Ctx) (a : List (RGSW n)) (level : Nat) :
    demuxLevel fft ctx (a.map outRgsw) level = (Panacea.demuxLevel fft ctx a level).map (List.map outRlwe) := by
  unfold demuxLevel Panacea.demuxLevel
  by_cases h : ctx.baseLog * level = 0 ∨ 64 < ctx.baseLog * level
  · rw [if_pos h]
    have : gadgetWord ctx.baseLog level = none := by
      unfold gadgetWord
      split
      · rw [if_neg (by omega)]
      · rfl
    rw [this]; rfl
  · have hg : gadgetWord ctx.baseLog level = some (gadget ctx.baseLog level) := by
      unfold gadgetWord gadget
      rw [if_pos (by omega), if_pos (by omega)]
    rw [hg, if_neg h]
    simp only
    rw [trivial_words, demuxWith_out]
    cases Panacea.demuxWith fft ⟨0, Poly.set 0 0 (gadget ctx.baseLog level)⟩ a with
    | none => rfl
    | some tmp =>
      simp only [Option.map_some, List.length_map]
      split <;> rfl

theorem selectors_out (fft : Fft n) (ctx : Ctx) (a : List (RGSW n)) (op : RGSW n) (d : RLWE n) (cols : Nat) :
    (match mapOption (demuxLevel fft ctx (a.map outRgsw)) (List.range' 1 ctx.levelCount) with
      | none => none
      | some demuxRes =>
        match transpose demuxRes with
        | none => none
        | some decomposedL => if decomposedL.length = cols then some decomposedL else none)
      = (decomposedSelectors fft ctx ⟨a, op, d⟩ cols).map (List.map (List.map outRlwe)) := by
  have h := mapOption_comm (f := demuxLevel fft ctx (a.map outRgsw)) (fs := Panacea.demuxLevel fft ctx a) (ea := id) (eb := List.map outRlwe)
    (demuxLevel_out fft ctx a) (List.range' 1 ctx.levelCount)
  rw [List.map_id] at h
  rw [h]
  unfold decomposedSelectors
  cases mapOption (Panacea.demuxLevel fft ctx a) (List.range' 1 ctx.levelCount) with
  | none => rfl
  | some res =>
    simp only [Option.map_some]
    rw [transpose_comm]
    cases transpose res with
    | none => rfl
    | some L =>
      simp only [Option.map_some, List.length_map]
      split <;> rfl

/-- The control flow shared by `process_one_mt` and `process_one_st`. -/
theorem gate_bind {α : Type} (X : Option (List (List Words))) (cols : Nat) (K : List (List Words) → Option α) :
    (match X with
      | none => none
      | some demuxRes =>
        match transpose demuxRes with
        | none => none
        | some decomposedL => if decomposedL.length = cols then K decomposedL else none)
    = (match X with
      | none => none
      | some demuxRes =>
        match transpose demuxRes with
        | none => none
        | some decomposedL => if decomposedL.length = cols then some decomposedL else none).bind K := by
  cases X with
  | none => rfl
  | some r =>
    simp only
    cases transpose r with
    | none => rfl
    | some L => simp only; split <;> rfl

theorem selectors_length {fft : Fft n} {ctx : Ctx} {q : Panacea.ClientQuery n} {cols : Nat} {L : List (List (RLWE n))}
    (h : decomposedSelectors fft ctx q cols = some L) : L.length = cols := by
  unfold decomposedSelectors at h
  split at h
  · cases h
  · split at h
    · cases h
    · split at h
      · cases h; assumption
      · cases h

theorem mtColumn_out (hn : 0 < n) (fft : Fft n) (ctx : Ctx) (negS : RGSW n) (L : List (List (RLWE n))) (data : List (RLWE n))
    (h : L.length = data.length) :
    mapOption (mtColumn fft ctx (outRgsw negS) (L.map (List.map outRlwe)) (data.map outRlwe)) (List.range data.length)
      = (mapOption (partialResponse fft ctx negS) (L.zip data)).map (List.map fun x => (outRlwe x.1, outRgsw x.2)) := by
  have e := mapOption_index (f := mtColumn fft ctx (outRgsw negS) (L.map (List.map outRlwe)) (data.map outRlwe))
    (F := fun x => (partialResponse fft ctx negS x).map fun x => (outRlwe x.1, outRgsw x.2)) (L.zip data) 0 (by
      intro i x hx
      rw [List.getElem?_zip_eq_some] at hx
      unfold mtColumn partialResponse
      simp only [Nat.zero_add, List.getElem?_map, hx.1, hx.2, Option.map_some]
      have hp : decomposedRlweToRgsw fft ctx (x.1.map outRlwe) (outRgsw negS) = _ := pack_out hn fft ctx x.1 negS
      rw [hp]
      cases Panacea.decomposedRlweToRgsw fft ctx x.1 negS with
      | none => rfl
      | some l => simp only [Option.map_some]; rw [allocate_out, ext_out])
  rw [List.length_zip, h, Nat.min_self, ← List.range_eq_range'] at e
  rw [e]
  have := mapOption_comm (f := fun x => (partialResponse fft ctx negS x).map fun x => (outRlwe x.1, outRgsw x.2))
    (fs := partialResponse fft ctx negS) (ea := id) (eb := fun x => (outRlwe x.1, outRgsw x.2)) (fun _ => rfl) (L.zip data)
  rwa [List.map_id] at this

theorem processOneMt_out (hn : 0 < n) {reduce : List Words → Option Words}
    (hr : IsReductionM (fun a b => some (updateWithAdd n a b)) (allocate n) reduce) {reduce' : List (RLWE n) → RLWE n}
    (hr' : IsReduction (· + ·) 0 reduce') (fft : Fft n) (ctx : Ctx) (q : Panacea.ClientQuery n) (data : List (RLWE n)) (negS : RGSW n) :
    processOneMt reduce fft ctx (outQuery q) (data.map outRlwe) (outRgsw negS)
      = (Panacea.processOneMt reduce' fft ctx q data negS).map fun x => (outRlwe x.1, x.2.map outRgsw) := by
  obtain ⟨a, op, d⟩ := q
  have hs := selectors_out fft ctx a op d data.length
  unfold processOneMt Panacea.processOneMt
  simp only [outQuery, List.length_map]
  refine (gate_bind _ data.length _).trans ?_
  rw [hs]
  cases hL : decomposedSelectors fft ctx ⟨a, op, d⟩ data.length with
  | none => rfl
  | some L =>
    simp only [Option.map_some, Option.bind_some]
    rw [mtColumn_out hn fft ctx negS L data (selectors_length hL)]
    cases mapOption (partialResponse fft ctx negS) (L.zip data) with
    | none => rfl
    | some rs =>
      simp only [Option.map_some]
      rw [map_fst_comm, map_snd_comm, reduceOne_out hr, reduce_eq_fold hr']

theorem stColumn_out (hn : 0 < n) (fft : Fft n) (ctx : Ctx) (negS : RGSW n) (dl : List (List Words)) (data : List Words) (c0 : Ggsw) :
    ∀ (L : List (List (RLWE n) × RLWE n)) (done : List (RGSW n)) (y : RLWE n),
    (∀ (i : Nat) (x : List (RLWE n) × RLWE n), L[i]? = some x → dl[done.length + i]? = some (x.1.map outRlwe) ∧
      data[done.length + i]? = some (outRlwe x.2)) →
    loop (stColumn fft ctx (outRgsw negS) dl data) (List.range' done.length L.length) (outRlwe y, done.map outRgsw ++ List.replicate L.length c0)
      = (responseLoop fft ctx negS L y done).map fun r => (outRlwe r.1, r.2.map outRgsw) := by
  intro L
  induction L with
  | nil => intro done y _; simp [loop, responseLoop]
  | cons x L ih =>
    intro done y h
    obtain ⟨h1, h2⟩ := h 0 x rfl
    rw [Nat.add_zero] at h1 h2
    rw [List.length_cons, List.range'_succ, loop, responseLoop, stColumn]
    have hp : decomposedRlweToRgsw fft ctx (x.1.map outRlwe) (outRgsw negS) = _ := pack_out hn fft ctx x.1 negS
    simp only [h1, h2, hp]
    cases Panacea.decomposedRlweToRgsw fft ctx x.1 negS with
    | none => rfl
    | some l =>
      simp only [Option.map_some]
      rw [if_pos (by simp)]
      have e : (done.map outRgsw ++ List.replicate (L.length + 1) c0).set done.length (outRgsw l)
          = (done ++ [l]).map outRgsw ++ List.replicate L.length c0 := by
        rw [List.replicate_succ]
        have := List.set_append_right (s := done.map outRgsw) (t := c0 :: List.replicate L.length c0) done.length (outRgsw l) (by simp)
        rw [this]; simp
      rw [e]
      have e2 : ((done ++ [l]).map outRgsw ++ List.replicate L.length c0)[done.length]? = some (outRgsw l) := by
        rw [List.getElem?_append_left (by simp)]; simp
      rw [e2]
      simp only [ext_out]
      have := ih (done ++ [l]) (Panacea.externalProduct fft l y x.2) (by
        intro i z hz
        have := h (i + 1) z (by simpa using hz)
        rw [List.length_append, List.length_singleton, Nat.add_assoc, Nat.add_comm 1 i]
        exact this)
      rw [List.length_append, List.length_singleton] at this
      exact this

theorem processOneSt_out (hn : 0 < n) (fft : Fft n) (ctx : Ctx) (q : Panacea.ClientQuery n) (data : List (RLWE n)) (negS : RGSW n) :
    processOneSt fft ctx (outQuery q) (data.map outRlwe) (outRgsw negS)
      = (Panacea.processOneSt fft ctx q data negS).map fun x => (outRlwe x.1, x.2.map outRgsw) := by
  obtain ⟨a, op, d⟩ := q
  have hs := selectors_out fft ctx a op d data.length
  unfold processOneSt Panacea.processOneSt
  have hp' : loop (stLevel fft ctx (outQuery ⟨a, op, d⟩).a) (List.range' 1 ctx.levelCount) []
      = mapOption (demuxLevel fft ctx (a.map outRgsw)) (List.range' 1 ctx.levelCount) := by
    rw [loop_push (f := demuxLevel fft ctx (a.map outRgsw)) (fun l acc => by
      unfold stLevel; simp only [outQuery]; cases demuxLevel fft ctx (a.map outRgsw) l <;> rfl)]
    cases mapOption (demuxLevel fft ctx (a.map outRgsw)) (List.range' 1 ctx.levelCount) <;> simp
  rw [hp']
  simp only [List.length_map]
  refine (gate_bind _ data.length _).trans ?_
  rw [hs]
  cases hL : decomposedSelectors fft ctx ⟨a, op, d⟩ data.length with
  | none => rfl
  | some L =>
    simp only [Option.map_some, Option.bind_some]
    have := stColumn_out hn fft ctx negS (L.map (List.map outRlwe)) (data.map outRlwe) (ggswAllocate n ctx.baseLog ctx.levelCount)
      (L.zip data) [] 0 (by
        intro i x hx
        rw [List.getElem?_zip_eq_some] at hx
        simp only [List.length_nil, Nat.zero_add, List.getElem?_map, hx.1, hx.2, Option.map_some, and_self])
    rw [List.length_zip, selectors_length hL, Nat.min_self, List.length_nil, ← List.range_eq_range', ← allocate_out] at this
    exact this

theorem updateColumn_out (fft : Fft n) (q : Panacea.ClientQuery n) (l : RGSW n) (c : RLWE n) (j : Nat) (data : List Words)
    (h : data[j]? = some (outRlwe c)) :
    updateColumn fft (outQuery q) (outRgsw l) j data = some (data.set j (outRlwe (updateCell fft q l c c))) := by
  unfold updateColumn updateCell
  simp only [h, outQuery, rw_out]
  rw [allocate_out, cmux_out, copy_outRlwe]

theorem updateDb_out (fft : Fft n) (q : Panacea.ClientQuery n) (data : List (RLWE n)) (ls : List (RGSW n)) (h : ls.length = data.length) :
    updateDbMt fft (outQuery q) (data.map outRlwe) (ls.map outRgsw) = some ((updateDb fft q data ls).map outRlwe) ∧
    updateDbSt fft (outQuery q) (data.map outRlwe) (ls.map outRgsw) = some ((updateDb fft q data ls).map outRlwe) := by
  have e : (data.zip ls).map (fun x => outRlwe x.1) = data.map outRlwe := by
    exact map_fst_zip' _ _ _ (by omega)
  have e2 : (data.zip ls).map (fun x => outRlwe (updateCell fft q x.2 x.1 x.1)) = (updateDb fft q data ls).map outRlwe := by
    unfold updateDb
    rw [map_zipWith_zip]
  have hz : (data.zip ls).length = data.length := by rw [List.length_zip, h, Nat.min_self]
  constructor
  · unfold updateDbMt
    have := loop_fill (fun x : RLWE n × RGSW n => outRlwe x.1) (fun x => outRlwe (updateCell fft q x.2 x.1 x.1))
      (fun (x : Nat × Ggsw) data => updateColumn fft (outQuery q) x.2 x.1 data) (data.zip ls) ((List.range data.length).zip (ls.map outRgsw)) []
      (by simp [h]) (by
        intro i x k hx hk l hl
        rw [List.getElem?_zip_eq_some] at hx hk
        rw [List.length_nil, Nat.zero_add] at hl ⊢
        have hi := (List.getElem?_eq_some_iff.1 hk.1).2
        rw [List.getElem_range] at hi
        have h2 := hk.2
        rw [List.getElem?_map, hx.2] at h2
        rw [← hi, ← Option.some.inj h2]
        exact updateColumn_out fft q x.2 x.1 i l hl)
    rw [List.nil_append, List.nil_append, e, e2] at this
    rw [List.length_map]
    exact this
  · unfold updateDbSt
    have := loop_fill_range (fun x : RLWE n × RGSW n => outRlwe x.1) (fun x => outRlwe (updateCell fft q x.2 x.1 x.1))
      (fun j data =>
        match (ls.map outRgsw)[j]? with
        | none => none
        | some l => updateColumn fft (outQuery q) l j data) (data.zip ls) (by
        intro i x hx l hl
        rw [List.getElem?_zip_eq_some] at hx
        simp only [List.getElem?_map, hx.2, Option.map_some]
        exact updateColumn_out fft q x.2 x.1 i l hl)
    rw [e, e2, hz] at this
    rw [List.length_map]
    exact this

theorem processOneMt_length {reduce : List (RLWE n) → RLWE n} {fft : Fft n} {ctx : Ctx} {q : Panacea.ClientQuery n} {data : List (RLWE n)}
    {negS : RGSW n} {r : RLWE n × List (RGSW n)} (h : Panacea.processOneMt reduce fft ctx q data negS = some r) : r.2.length = data.length := by
  unfold Panacea.processOneMt at h
  split at h
  · cases h
  · rename_i L hL
    split at h
    · cases h
    · rename_i rs hrs
      cases h
      have := mapOption_length hrs
      have hl := selectors_length hL
      simp only [List.length_map, List.length_zip] at this ⊢
      omega

theorem processOne_out (hn : 0 < n) {reduce : List Words → Option Words}
    (hr : IsReductionM (fun a b => some (updateWithAdd n a b)) (allocate n) reduce) {reduce' : List (RLWE n) → RLWE n}
    (hr' : IsReduction (· + ·) 0 reduce') (fft : Fft n) (S : Panacea.Server n) (q : Panacea.ClientQuery n) :
    (outServer S).processOne reduce fft (outQuery q) = (S.processOne reduce' fft q).map fun x => (outRlwe x.1, outServer x.2) := by
  obtain ⟨data, negS, ctx⟩ := S
  unfold Server.processOne Panacea.Server.processOne
  cases data with
  | nil => rfl
  | cons row rest =>
    simp only [outServer, List.map_cons, List.getElem?_cons_zero]
    rw [processOneMt_out hn hr hr' fft ctx q row negS]
    cases hm : Panacea.processOneMt reduce' fft ctx q row negS with
    | none => rfl
    | some r =>
      simp only [Option.map_some]
      rw [(updateDb_out fft q row r.2 (processOneMt_length hm)).1]
      rfl

/-! ## process_multi -/

theorem multiTmps_out (fft : Fft n) (data : List (RLWE n)) (q : Panacea.ClientQuery n) (ls : List (RGSW n)) (h : ls.length = data.length) :
    multiTmps fft data.length (data.map outRlwe) (outQuery q, ls.map outRgsw) = some ((Panacea.multiTmps fft data q ls).map outRlwe) := by
  unfold multiTmps Panacea.multiTmps
  have := loop_fill_range (fun _ : RGSW n × RLWE n => allocate n)
    (fun x => outRlwe (Panacea.externalProduct fft x.1 0 (Panacea.rw fft q.op q.data x.2)))
    (fun j (out : List Words) =>
      match (data.map outRlwe)[j]? with
      | none => none
      | some cell =>
        match (ls.map outRgsw)[j]? with
        | none => none
        | some l =>
          match out[j]? with
          | none => none
          | some o => some (out.set j (externalProduct fft l o (rw fft (outRgsw q.op) (outRlwe q.data) cell)))) (ls.zip data) (by
      intro i x hx l hl
      rw [List.getElem?_zip_eq_some] at hx
      simp only [List.getElem?_map, hx.1, hx.2, hl, Option.map_some, rw_out]
      rw [allocate_out, ext_out])
  rw [List.length_zip, h, Nat.min_self, List.map_const', List.length_zip, h, Nat.min_self] at this
  rw [map_zipWith_zip]
  exact this

theorem multiColumns_out (fft : Fft n) (data : List (RLWE n)) (sl : List (RGSW n)) (st : List (RLWE n)) (h1 : sl.length = data.length)
    (h2 : st.length = data.length) :
    loop (multiColumn fft (sl.map outRgsw) (st.map outRlwe)) (List.range data.length) (data.map outRlwe)
      = some ((List.zipWith (fun cell (x : RGSW n × RLWE n) => Panacea.cmux fft x.1 0 cell x.2) data (sl.zip st)).map outRlwe) := by
  have hz : (sl.zip st).length = data.length := by rw [List.length_zip, h1, h2, Nat.min_self]
  have := loop_fill_range (fun x : RLWE n × RGSW n × RLWE n => outRlwe x.1) (fun x => outRlwe (Panacea.cmux fft x.2.1 0 x.1 x.2.2))
    (multiColumn fft (sl.map outRgsw) (st.map outRlwe)) (data.zip (sl.zip st)) (by
      intro i x hx l hl
      rw [List.getElem?_zip_eq_some, List.getElem?_zip_eq_some] at hx
      unfold multiColumn
      simp only [List.getElem?_map, hx.2.1, hx.2.2, hl, Option.map_some]
      rw [allocate_out, cmux_out, copy_outRlwe])
  rw [List.length_zip, hz, Nat.min_self, map_fst_zip' _ _ _ (by omega)] at this
  rw [map_zipWith_zip]
  exact this

theorem processMulti_out (hn : 0 < n) {reduceV : List (List Words) → Option (List Words)} {reduceG : List (List Ggsw) → Option (List Ggsw)}
    {reduceV' : List (List (RLWE n)) → List (RLWE n)} {reduceG' : List (List (RGSW n)) → List (RGSW n)} (S : Panacea.Server n)
    (hV : ∀ cols, S.cols = some cols → IsReductionM (addVec n) (List.replicate cols (allocate n)) reduceV)
    (hG : ∀ cols, S.cols = some cols → IsReductionM addGswVec (List.replicate cols (ggswAllocate n S.ctx.baseLog S.ctx.levelCount)) reduceG)
    (hV' : ∀ cols, S.cols = some cols → IsReduction Panacea.addVec (List.replicate cols 0) reduceV')
    (hG' : ∀ cols, S.cols = some cols →
      IsReduction Panacea.addGswVec (List.replicate cols (RGSW.allocate n S.ctx.baseLog S.ctx.levelCount)) reduceG')
    (fft : Fft n) (qs : List (Panacea.ClientQuery n)) :
    (outServer S).processMulti reduceV reduceG fft (qs.map outQuery)
      = (S.processMulti reduceV' reduceG' fft qs).map fun x => (x.1.map outRlwe, outServer x.2) := by
  obtain ⟨data, negS, ctx⟩ := S
  unfold Server.processMulti Panacea.Server.processMulti
  cases data with
  | nil => rfl
  | cons row rest =>
    have hV := hV row.length rfl
    have hG := hG row.length rfl
    have hV' := hV' row.length rfl
    have hG' := hG' row.length rfl
    simp only at hV hG hV' hG'
    simp only [outServer, List.map_cons, List.getElem?_cons_zero, List.length_map]
    rw [mapOption_comm (fs := fun q => Panacea.processOneSt fft ctx q row negS) (eb := fun x => (outRlwe x.1, x.2.map outRgsw))
      (fun q => processOneSt_out hn fft ctx q row negS)]
    cases hm : mapOption (fun q => Panacea.processOneSt fft ctx q row negS) qs with
    | none => rfl
    | some rs =>
      simp only [Option.map_some]
      rw [map_fst_comm, map_snd_comm (eb := List.map outRgsw), zip_comm]
      have hsh : ∀ x ∈ rs.map Prod.snd, SelShape row.length ctx.baseLog ctx.levelCount x := by
        intro x hx
        obtain ⟨y, hy, rfl⟩ := List.mem_map.1 hx
        obtain ⟨q, _, hq⟩ := mapOption_inv_mem hm hy
        exact processOneSt_selShape fft hq
      have ht : mapOption (multiTmps fft row.length (row.map outRlwe)) ((qs.zip (rs.map Prod.snd)).map fun x => (outQuery x.1, x.2.map outRgsw))
          = some ((List.zipWith (Panacea.multiTmps fft row) qs (rs.map Prod.snd)).map (List.map outRlwe)) := by
        rw [map_zipWith_zip]
        have : ∀ l : List (Panacea.ClientQuery n × List (RGSW n)), (∀ x ∈ l, x.2.length = row.length) →
            mapOption (multiTmps fft row.length (row.map outRlwe)) (l.map fun x => (outQuery x.1, x.2.map outRgsw))
              = some (l.map fun x => (Panacea.multiTmps fft row x.1 x.2).map outRlwe) := by
          intro l
          induction l with
          | nil => intro _; rfl
          | cons x l ih =>
            intro hl
            rw [List.map_cons, mapOption, multiTmps_out fft row x.1 x.2 (hl x (by simp)), ih (fun y hy => hl y (by simp [hy]))]
            rfl
        exact this _ (fun x hx => (hsh x.2 (List.of_mem_zip hx).2).1)
      have hlen : ∀ x ∈ List.zipWith (Panacea.multiTmps fft row) qs (rs.map Prod.snd), x.length = row.length := by
        intro x hx
        obtain ⟨i, hi, rfl⟩ := List.getElem_of_mem hx
        rw [List.length_zipWith] at hi
        rw [List.getElem_zipWith, Panacea.multiTmps, List.length_zipWith]
        have := (hsh _ (List.getElem_mem (l := rs.map Prod.snd) (n := i) (by omega))).1
        omega
      obtain ⟨a, ha, hpa, hra⟩ := reduceGsw_out hG (rs.map Prod.snd) hsh
      have hga : a = reduceG' (rs.map Prod.snd) := by
        rw [reduceG_eq_fold hG' hsh]
        have hG2 : IsReduction Panacea.addGswVec (List.replicate row.length (RGSW.allocate n ctx.baseLog ctx.levelCount))
            (fun xs => if xs = rs.map Prod.snd then a else reduceG' xs) := by
          classical
          intro xs
          by_cases hx : xs = rs.map Prod.snd
          · simp only [hx, if_true]; exact hpa
          · simp only [hx, if_false]; exact hG' xs
        have := reduceG_eq_fold hG2 hsh
        simpa using this
      rw [ht]
      simp only
      rw [reduceVec_out hV _ hlen, hra]
      simp only
      rw [reduceV_eq_fold hV' hlen, ← hga]
      have hsl : (List.foldl Panacea.addVec (List.replicate row.length 0)
          (List.zipWith (Panacea.multiTmps fft row) qs (rs.map Prod.snd))).length = row.length := by
        have : ∀ (l : List (List (RLWE n))) (b : List (RLWE n)), (∀ x ∈ l, x.length = row.length) → b.length = row.length →
            (l.foldl Panacea.addVec b).length = row.length := by
          intro l
          induction l with
          | nil => intro b _ h; exact h
          | cons x l ih =>
            intro b hx hb
            exact ih _ (fun y hy => hx y (by simp [hy])) (by simp [Panacea.addVec, hb, hx x (by simp)])
        exact this _ _ hlen (by simp)
      rw [multiColumns_out fft row a _ ha.1 hsl]
      rfl

/-! ## process_batch -/

theorem at2_rlwe (data : List (List (RLWE n))) (r c : Nat) : at2 (data.map (List.map outRlwe)) r c = (cellAt data (r, c)).map outRlwe := by
  unfold at2 cellAt
  rw [List.getElem?_map]
  simp only
  cases data[r]? with
  | none => rfl
  | some row => simp

theorem at2_rgsw (ls : List (List (RGSW n))) (r c : Nat) :
    at2 (ls.map (List.map outRgsw)) r c = (flagProduct.cellSel ls (r, c)).map outRgsw := by
  unfold at2 flagProduct.cellSel
  rw [List.getElem?_map]
  simp only
  cases ls[r]? with
  | none => rfl
  | some row => simp

theorem put2_out (data : List (List (RLWE n))) (r c : Nat) (v : RLWE n) :
    put2 (data.map (List.map outRlwe)) r c (outRlwe v) =
      if (cellAt data (r, c)).isSome then some ((setCell data (r, c) v).map (List.map outRlwe)) else none := by
  unfold put2 cellAt setCell
  rw [List.getElem?_map]
  simp only
  cases h : data[r]? with
  | none => rfl
  | some row =>
    simp only [Option.map_some, List.length_map]
    by_cases hc : c < row.length
    · rw [if_pos hc, if_pos (by simp [hc])]
      congr 1
      refine List.ext_getElem? fun i => ?_
      rw [List.getElem?_set, List.getElem?_map, List.getElem?_map, List.getElem?_modify]
      obtain ⟨hr, hr2⟩ := (List.getElem?_eq_some_iff.1 h)
      by_cases hi : r = i
      · subst hi
        simp [hr, hr2, List.map_set]
      · simp [hi]
    · rw [if_neg hc, if_neg (by simp [hc])]

theorem flagProduct_out (fft : Fft n) (data : List (List (RLWE n))) (ls : List (List (RGSW n))) (flags : List (RGSW n)) (r c r' c' : Nat) :
    flagProduct fft (data.map (List.map outRlwe)) (ls.map (List.map outRgsw)) (flags.map outRgsw) r c r' c'
      = ((cellAt data (r', c')).bind fun v => Panacea.flagProduct fft ls flags (r, c) v).map outRlwe := by
  unfold flagProduct Panacea.flagProduct
  rw [at2_rlwe, at2_rgsw, List.getElem?_map]
  simp only
  cases flags[r]? with
  | none => cases cellAt data (r', c') <;> rfl
  | some fl =>
    cases cellAt data (r', c') with
    | none => rfl
    | some v =>
      simp only [Option.map_some, Option.bind_some]
      cases flagProduct.cellSel ls (r, c) with
      | none => rfl
      | some l =>
        simp only [Option.map_some]
        rw [allocate_out, ext_out, ext_out]

theorem correctConsistency_out (fft : Fft n) (data : List (List (RLWE n))) (ls : List (List (RGSW n))) (flags : List (RGSW n))
    (positions : List (Nat × Nat)) :
    correctConsistency fft positions (data.map (List.map outRlwe)) (ls.map (List.map outRgsw)) (flags.map outRgsw)
      = (Panacea.correctConsistency fft data ls flags positions).map outRlwe := by
  unfold correctConsistency Panacea.correctConsistency
  cases positions with
  | nil => rfl
  | cons p ps =>
    obtain ⟨r, c⟩ := p
    rw [List.getElem?_cons_zero, mapOption]
    simp only [flagProduct_out, at2_rlwe]
    cases hc : cellAt data (r, c) with
    | none =>
      simp only [Option.bind_none, Option.map_none]
      rw [mapOption]
    | some v =>
      simp only [Option.bind_some]
      have h1 := mapOption_comm (f := fun p : Nat × Nat => (Panacea.flagProduct fft ls flags (p.1, p.2) v).map outRlwe)
        (fs := fun p => Panacea.flagProduct fft ls flags p v) (ea := id) (eb := outRlwe) (fun _ => rfl) ((r, c) :: ps)
      rw [List.map_id] at h1
      rw [h1]
      -- the second loop
      have h2 : ∀ (ps : List (Nat × Nat)) (acc : RLWE n),
          loop (secondStep fft (data.map (List.map outRlwe)) (ls.map (List.map outRgsw)) (flags.map outRgsw)) ps (outRlwe acc)
          = (match mapOption (cellAt data) ps with
            | none => none
            | some vs =>
              (mapOption (fun (x : (Nat × Nat) × RLWE n) => Panacea.flagProduct fft ls flags x.1 x.2) (ps.zip vs)).map
                fun terms => outRlwe (terms.foldl (fun acc v => acc + v) acc)) := by
        intro ps
        induction ps with
        | nil => intro acc; rfl
        | cons p ps ih =>
          intro acc
          obtain ⟨r', c'⟩ := p
          rw [loop, mapOption, secondStep, flagProduct_out]
          cases hv : cellAt data (r', c') with
          | none => rfl
          | some v =>
            simp only [Option.bind_some]
            cases hf : Panacea.flagProduct fft ls flags (r', c') v with
            | none =>
              simp only [Option.map_none]
              cases mapOption (cellAt data) ps with
              | none => rfl
              | some vs =>
                simp only
                rw [List.zip_cons_cons, mapOption, hf]
                rfl
            | some t =>
              simp only [Option.map_some]
              rw [updateWithAdd_out, ih]
              cases mapOption (cellAt data) ps with
              | none => rfl
              | some vs =>
                simp only
                rw [List.zip_cons_cons, mapOption, hf]
                cases mapOption (fun (x : (Nat × Nat) × RLWE n) => Panacea.flagProduct fft ls flags x.1 x.2) (ps.zip vs) <;> rfl
      simp only [List.drop_one, List.tail_cons]
      cases hv1 : mapOption (fun p => Panacea.flagProduct fft ls flags p v) ((r, c) :: ps) with
      | none =>
        simp only [Option.map_none]
        cases mapOption (cellAt data) ps with
        | none => rfl
        | some vs => simp only [correctValue, hv1]; rfl
      | some v1s =>
        cases v1s with
        | nil => have := mapOption_length hv1; simp at this
        | cons v1 v1s =>
          simp only [Option.map_some, List.map_cons, List.getElem?_cons_zero]
          rw [h2]
          cases mapOption (cellAt data) ps with
          | none => rfl
          | some vs =>
            simp only [correctValue, hv1, List.drop_one, List.tail_cons]
            cases mapOption (fun (x : (Nat × Nat) × RLWE n) => Panacea.flagProduct fft ls flags x.1 x.2) (ps.zip vs) with
            | none => rfl
            | some terms =>
              simp only [Option.map_some]
              have h3 : List.foldl (updateWithSub n) (outRlwe v) (outRlwe v1 :: v1s.map outRlwe)
                  = outRlwe ((v1 :: v1s).foldl (fun acc v => acc - v) v) := by
                rw [← List.map_cons, foldl_comm (fs := fun acc v => acc - v) (fun a b => updateWithSub_out a b)]
              rw [h3, updateWithAdd_out]

theorem colsOf_out (data : List (List (RLWE n))) : colsOf (data.map (List.map outRlwe)) = data.head?.map List.length := by
  unfold colsOf
  cases data with
  | nil => rfl
  | cons r rs => simp

theorem putAll_out (v : RLWE n) : ∀ (ps : List (Nat × Nat)) (data : List (List (RLWE n))), (∀ p ∈ ps, (cellAt data p).isSome) →
    loop (fun (p : Nat × Nat) data => put2 data p.1 p.2 (outRlwe v)) ps (data.map (List.map outRlwe))
      = some ((ps.foldl (fun d p => setCell d p v) data).map (List.map outRlwe)) := by
  intro ps
  induction ps with
  | nil => intro data _; rfl
  | cons p ps ih =>
    intro data h
    rw [loop, put2_out, if_pos (h p (by simp)), List.foldl_cons]
    exact ih _ (fun q hq => SameShape.cell (m := data) (m' := setCell data p v) (show SameShape _ _ from (setCell_sameShape data p v).symm) (h q (by simp [hq])))

theorem head_length_of_sameShape {m m' : Mem n} (h : SameShape m m') : m.head?.map List.length = m'.head?.map List.length := by
  unfold SameShape at h
  rw [← List.head?_map, ← List.head?_map, h]

theorem correctItem_out (fft : Fft n) (H : NaiveHash) {cols : Nat} (ls : List (List (RGSW n))) (flags : List (RGSW n))
    (data : List (List (RLWE n))) (hc : data.head?.map List.length = some cols) (i : Nat) :
    correctItem fft H (ls.map (List.map outRgsw)) (flags.map outRgsw) i (data.map (List.map outRlwe))
      = (Panacea.correctItem fft H cols ls flags data i).map (List.map (List.map outRlwe)) := by
  unfold correctItem Panacea.correctItem itemPositions
  simp only [colsOf_out, hc]
  cases mapOption (fun h => H.hashToTuple h i cols) (List.range H.hCount) with
  | none => rfl
  | some ps =>
    simp only
    rw [correctConsistency_out]
    cases hv : Panacea.correctConsistency fft data ls flags ps with
    | none => rfl
    | some v =>
      simp only [Option.map_some]
      rw [putAll_out]
      intro p hp
      unfold Panacea.correctConsistency at hv
      cases hm : mapOption (cellAt data) ps with
      | none => rw [hm] at hv; cases hv
      | some vs =>
        by_contra hno
        have := mapOption_none (f := cellAt data) hp (by simpa using hno)
        rw [this] at hm; cases hm

theorem correctAll_out (fft : Fft n) (H : NaiveHash) {cols : Nat} (ls : List (List (RGSW n))) (flags : List (RGSW n)) :
    ∀ (is : List Nat) (data : List (List (RLWE n))), data.head?.map List.length = some cols →
    loop (correctItem fft H (ls.map (List.map outRgsw)) (flags.map outRgsw)) is (data.map (List.map outRlwe))
      = (Panacea.correctAll fft H cols ls flags is data).map (List.map (List.map outRlwe)) := by
  intro is
  induction is with
  | nil => intro data _; rfl
  | cons i is ih =>
    intro data hc
    rw [loop, Panacea.correctAll, correctItem_out fft H ls flags data hc]
    cases hi : Panacea.correctItem fft H cols ls flags data i with
    | none => rfl
    | some data' =>
      simp only [Option.map_some]
      refine ih data' ?_
      rw [← hc]
      refine head_length_of_sameShape ?_
      unfold Panacea.correctItem at hi
      split at hi
      · cases hi
      · split at hi
        · cases hi
        · cases hi
          rename_i ps _ _ v _
          have : ∀ (ps : List (Nat × Nat)) (d : List (List (RLWE n))), SameShape (ps.foldl (fun d p => setCell d p v) d) d := by
            intro ps
            induction ps with
            | nil => intro d; rfl
            | cons p ps ih => intro d; exact (ih _).trans (setCell_sameShape d p v)
          exact this _ _

theorem batchRow_out (hn : 0 < n) (fft : Fft n) (S : Panacea.Server n) (qs : List (Panacea.ClientQuery n)) (hl : qs.length = S.data.length) :
    mapOption (batchRow fft (outServer S)) ((qs.map outQuery).zip (List.range S.data.length))
      = (mapOption (Panacea.batchRow fft S) (qs.zip S.data)).map (List.map fun x => (outRlwe x.1, x.2.map outRgsw)) := by
  have key : ∀ (qs : List (Panacea.ClientQuery n)) (rows : List (List (RLWE n))) (k : Nat), qs.length = rows.length →
      (∀ i : Nat, S.data[k + i]? = rows[i]?) →
      mapOption (batchRow fft (outServer S)) ((qs.map outQuery).zip (List.range' k rows.length))
        = (mapOption (Panacea.batchRow fft S) (qs.zip rows)).map (List.map fun x => (outRlwe x.1, x.2.map outRgsw)) := by
    intro qs
    induction qs with
    | nil => intro rows k _ _; simp [mapOption]
    | cons q qs ih =>
      intro rows k hlen hrows
      cases rows with
      | nil => simp at hlen
      | cons row rows =>
        have h0 := hrows 0
        rw [Nat.add_zero, List.getElem?_cons_zero] at h0
        rw [List.map_cons, List.length_cons, List.range'_succ, List.zip_cons_cons, List.zip_cons_cons, mapOption, mapOption]
        rw [ih rows (k + 1) (by simpa using hlen) (fun i => by
          have := hrows (i + 1)
          rw [List.getElem?_cons_succ] at this
          rw [← this]; congr 1; omega)]
        have hb : batchRow fft (outServer S) (outQuery q, k) = (Panacea.batchRow fft S (q, row)).map fun x => (outRlwe x.1, x.2.map outRgsw) := by
          unfold batchRow Panacea.batchRow
          simp only [outServer, List.getElem?_map, h0, Option.map_some]
          exact processOneSt_out hn fft S.ctx q row S.negS
        rw [hb]
        cases Panacea.batchRow fft S (q, row) with
        | none => rfl
        | some x =>
          simp only [Option.map_some]
          cases mapOption (Panacea.batchRow fft S) (qs.zip rows) <;> rfl
  rw [List.range_eq_range']
  exact key qs S.data 0 hl (fun i => by rw [Nat.zero_add])

theorem batchUpdate_out (fft : Fft n) (qs : List (Panacea.ClientQuery n)) (data : List (List (RLWE n))) (ls : List (List (RGSW n)))
    (h1 : qs.length = data.length) (h2 : ls.length = data.length) (h3 : ∀ x ∈ data.zip ls, x.2.length = x.1.length) :
    loop (batchUpdate fft) (((ls.map (List.map outRgsw)).zip (qs.map outQuery)).zip (List.range data.length)) (data.map (List.map outRlwe))
      = some ((List.zipWith (fun (x : Panacea.ClientQuery n × List (RLWE n)) l => updateDb fft x.1 x.2 l) (qs.zip data) ls).map (List.map outRlwe)) := by
  let L := (qs.zip data).zip ls
  have hL : L.length = data.length := by simp [L, h1, h2]
  have hq : ∀ (i : Nat) (x : (Panacea.ClientQuery n × List (RLWE n)) × List (RGSW n)), L[i]? = some x →
      qs[i]? = some x.1.1 ∧ data[i]? = some x.1.2 ∧ ls[i]? = some x.2 := by
    intro i x hx
    simp only [L] at hx
    rw [List.getElem?_zip_eq_some, List.getElem?_zip_eq_some] at hx
    exact ⟨hx.1.1, hx.1.2, hx.2⟩
  have := loop_fill (fun x : (Panacea.ClientQuery n × List (RLWE n)) × List (RGSW n) => x.1.2.map outRlwe)
    (fun x => (updateDb fft x.1.1 x.1.2 x.2).map outRlwe) (batchUpdate fft) L
    (((ls.map (List.map outRgsw)).zip (qs.map outQuery)).zip (List.range data.length)) [] (by simp [hL, h1, h2]) (by
      intro i x k hx hk l hl
      obtain ⟨e1, e2, e3⟩ := hq i x hx
      simp only [List.length_nil, Nat.zero_add] at hl ⊢
      rw [List.getElem?_zip_eq_some, List.getElem?_zip_eq_some, List.getElem?_map, List.getElem?_map, e1, e3] at hk
      obtain ⟨⟨k1, k2⟩, k3⟩ := hk
      obtain ⟨⟨ka, kb⟩, kc⟩ := k
      simp only [Option.map_some, Option.some.injEq] at k1 k2
      rw [List.getElem?_range (by have := (List.getElem?_eq_some_iff.1 e2).1; omega)] at k3
      simp only [Option.some.injEq] at k3
      subst k1 k2 k3
      unfold batchUpdate
      simp only [hl]
      rw [(updateDb_out fft x.1.1 x.1.2 x.2 (h3 (x.1.2, x.2) (List.mem_iff_getElem?.2 ⟨i, by
        rw [List.getElem?_zip_eq_some]; exact ⟨e2, e3⟩⟩))).2])
  rw [List.nil_append, List.nil_append] at this
  have e1 : L.map (fun x => x.1.2.map outRlwe) = data.map (List.map outRlwe) := by
    refine List.ext_getElem? fun i => ?_
    rw [List.getElem?_map, List.getElem?_map]
    cases hx : L[i]? with
    | none =>
      have := List.getElem?_eq_none_iff.1 hx
      rw [List.getElem?_eq_none (by omega)]; rfl
    | some x => rw [(hq i x hx).2.1]; rfl
  rw [e1] at this
  rw [this, map_zipWith_zip]

theorem processBatch_out (hn : 0 < n) (fft : Fft n) (S : Panacea.Server n) (qs : List (Panacea.ClientQuery n)) (H : NaiveHash) :
    (outServer S).processBatch fft (qs.map outQuery) H = (S.processBatch fft qs H).map fun x => (x.1.map outRlwe, outServer x.2) := by
  unfold Server.processBatch Panacea.Server.processBatch
  have e0 : (outServer S).data.length = S.data.length := by simp [outServer]
  rw [e0, List.length_map]
  by_cases hl : qs.length = S.data.length
  · rw [if_pos hl, if_pos hl, batchRow_out hn fft S qs hl]
    cases hr : mapOption (Panacea.batchRow fft S) (qs.zip S.data) with
    | none => rfl
    | some rs =>
      simp only [Option.map_some]
      rw [map_fst_comm, map_snd_comm (eb := List.map outRgsw)]
      have hrl := mapOption_length hr
      rw [List.length_zip, hl, Nat.min_self] at hrl
      have h3 : ∀ x ∈ S.data.zip (rs.map Prod.snd), x.2.length = x.1.length := by
        intro x hx
        obtain ⟨i, hi⟩ := List.mem_iff_getElem?.1 hx
        rw [List.getElem?_zip_eq_some, List.getElem?_map] at hi
        obtain ⟨i1, i2⟩ := hi
        cases hri : rs[i]? with
        | none => rw [hri] at i2; cases i2
        | some y =>
          rw [hri] at i2
          have hq := mapOption_getElem? hr i y hri
          obtain ⟨q, hq1, hq2⟩ := hq
          rw [List.getElem?_zip_eq_some] at hq1
          have : q.2 = x.1 := by have := hq1.2; rw [i1] at this; exact (Option.some.inj this).symm
          have h := (processOneSt_selShape fft hq2).1
          have i3 : y.2 = x.2 := Option.some.inj i2
          rw [← i3, ← this]; exact h
      have hd : (outServer S).data = S.data.map (List.map outRlwe) := rfl
      rw [hd, batchUpdate_out fft qs S.data (rs.map Prod.snd) hl (by simp [hrl]) h3]
      simp only
      rw [show (qs.map outQuery).map ClientQuery.op = (qs.map Panacea.ClientQuery.op).map outRgsw by simp [outQuery]]
      have hcols : ∀ D : List (List (RLWE n)), D.map List.length = S.data.map List.length →
          colsOf (D.map (List.map outRlwe)) = S.cols ∧ D.length = S.data.length := by
        intro D hD
        refine ⟨?_, by have := congrArg List.length hD; simpa using this⟩
        rw [colsOf_out, Server.cols, ← List.head?_map, ← List.head?_map, hD]
      have hD : (List.zipWith (fun (x : Panacea.ClientQuery n × List (RLWE n)) l => updateDb fft x.1 x.2 l) (qs.zip S.data)
          (rs.map Prod.snd)).map List.length = S.data.map List.length := by
        refine List.ext_getElem? fun i => ?_
        rw [map_zipWith_zip, List.getElem?_map, List.getElem?_map]
        cases hx : ((qs.zip S.data).zip (rs.map Prod.snd))[i]? with
        | none =>
          have := List.getElem?_eq_none_iff.1 hx
          simp only [List.length_zip, List.length_map, hl, hrl, Nat.min_self] at this
          rw [List.getElem?_eq_none this]; rfl
        | some x =>
          rw [List.getElem?_zip_eq_some, List.getElem?_zip_eq_some] at hx
          have := h3 (x.1.2, x.2) (List.mem_iff_getElem?.2 ⟨i, by rw [List.getElem?_zip_eq_some]; exact ⟨hx.1.2, hx.2⟩⟩)
          rw [hx.1.2]
          simp only [Option.map_some, updateDb, List.length_zipWith]
          simp only at this
          rw [this, Nat.min_self]
      obtain ⟨hc1, hc2⟩ := hcols _ hD
      rw [hc1, List.length_map, hc2]
      cases hsc : S.cols with
      | none => rfl
      | some cols =>
        simp only
        by_cases h0 : H.hCount = 0
        · rw [if_pos h0, if_pos h0]; rfl
        · rw [if_neg h0, if_neg h0, correctAll_out (cols := cols) fft H _ _ _ _ (by rw [← colsOf_out, hc1, hsc])]
          cases Panacea.correctAll fft H cols (rs.map Prod.snd) (qs.map Panacea.ClientQuery.op) (List.range (S.data.length * cols / H.hCount)) _ <;> rfl
  · rw [if_neg hl, if_neg hl]; rfl

theorem decryptDb_out (S : Panacea.Server n) (s : Poly n) : (outServer S).decryptDb s = S.decryptDb s := by
  unfold Server.decryptDb Panacea.Server.decryptDb
  have h1 : ∀ row : List (RLWE n), mapOption (fun v => ptToLossyU64 (decryptDecodeRlwe (outServer S).ctx s (List.replicate n 0) v)) (row.map outRlwe)
      = mapOption (fun v => ptToLossyU64 ((List.finRange n).map fun k => (Panacea.decryptDecodeRlwe S.ctx s v) k)) row := by
    intro row
    have := mapOption_comm (f := fun v => ptToLossyU64 (decryptDecodeRlwe (outServer S).ctx s (List.replicate n 0) v))
      (fs := fun v => ptToLossyU64 ((List.finRange n).map fun k => (Panacea.decryptDecodeRlwe S.ctx s v) k)) (ea := outRlwe) (eb := id) (fun v => by
        rw [decryptDecode_out (ctx := (outServer S).ctx) s (List.length_replicate ..)]
        rw [Option.map_id]
        simp only [id]
        rw [out, List.ofFn_eq_map]; rfl) row
    rw [this]; simp
  have h2 := mapOption_comm (f := fun row => mapOption (fun v => ptToLossyU64 (decryptDecodeRlwe (outServer S).ctx s (List.replicate n 0) v)) row)
    (fs := fun row => mapOption (fun v => ptToLossyU64 ((List.finRange n).map fun k => (Panacea.decryptDecodeRlwe S.ctx s v) k)) row)
    (ea := List.map outRlwe) (eb := id) (fun row => by rw [h1]; simp) S.data
  rw [show (outServer S).data = S.data.map (List.map outRlwe) from rfl, h2]; simp

/-! ## Client -/

theorem polyEncode_out (c : Codec) (p : Poly n) : mapOption c.encode (out p) = (c.polyEncode p).map out := by
  unfold Codec.polyEncode
  by_cases h : ∀ k, (c.encode (p k)).isSome
  · rw [if_pos h]
    have : ∀ l : List (Fin n), mapOption c.encode (l.map fun k => p k) = some (l.map fun k => (c.encode (p k)).getD 0) := by
      intro l
      induction l with
      | nil => rfl
      | cons k l ih =>
        obtain ⟨v, hv⟩ := Option.isSome_iff_exists.1 (h k)
        rw [List.map_cons, mapOption, hv, ih, List.map_cons, hv]; rfl
    have := this (List.finRange n)
    rw [Option.map_some, out, out, List.ofFn_eq_map, List.ofFn_eq_map]
    exact this
  · rw [if_neg h]
    push Not at h
    obtain ⟨k, hk⟩ := h
    rw [Option.map_none]
    refine mapOption_none (a := p k) ?_ (by simpa using hk)
    rw [out, List.mem_ofFn]; exact ⟨k, rfl⟩

theorem encodeEncrypt_out (ctx : Ctx) (s : Poly n) (ct : RLWE n) (pt : Poly n) (g : Gen n) :
    encodeEncryptRlwe ctx s (outRlwe ct) (out pt) g = (Panacea.encodeEncryptRlwe ctx s pt g).map fun x => (outRlwe x.1, x.2) := by
  unfold encodeEncryptRlwe Panacea.encodeEncryptRlwe
  rw [polyEncode_out]
  cases ctx.codec.polyEncode pt with
  | none => rfl
  | some e =>
    simp only [Option.map_some]
    unfold encryptRlwe
    simp only [poly_out, copy_outRlwe]

theorem genEncOp_out (ctx : Ctx) (s : Poly n) (op : Access) (g : Gen n) :
    genEncOp ctx s op g = (outRgsw (Panacea.genEncOp ctx s op g).1, (Panacea.genEncOp ctx s op g).2) := by
  unfold genEncOp Panacea.genEncOp encryptConstantRgsw ggswAllocate
  cases op <;> rfl

theorem makeReadQuery_out (ctx : Ctx) (s : Poly n) (cols i : Nat) (g : Gen n) :
    makeReadQuery ctx s cols i g = (Panacea.makeReadQuery ctx s cols i g).map fun x => (outQuery x.1, x.2) := by
  unfold makeReadQuery Panacea.makeReadQuery
  rw [bitDecomposedRgsw_out]
  cases Panacea.bitDecomposedRgsw ctx s i cols g with
  | none => rfl
  | some r =>
    obtain ⟨a, g⟩ := r
    simp only [Option.map_some, genEncOp_out, genBinaryPt, encDataRlwe, allocate_out, encodeEncrypt_out]
    cases Panacea.encodeEncryptRlwe ctx s (Panacea.genBinaryPt g).1 (Panacea.genEncOp ctx s .read (Panacea.genBinaryPt g).2).2 <;> rfl

theorem makeWriteQuery_out (ctx : Ctx) (s : Poly n) (cols i : Nat) (alpha : Poly n) (g : Gen n) :
    makeWriteQuery ctx s cols i (out alpha) g = (Panacea.makeWriteQuery ctx s cols i alpha g).map fun x => (outQuery x.1, x.2) := by
  unfold makeWriteQuery Panacea.makeWriteQuery
  rw [bitDecomposedRgsw_out]
  cases Panacea.bitDecomposedRgsw ctx s i cols g with
  | none => rfl
  | some r =>
    obtain ⟨a, g⟩ := r
    simp only [Option.map_some, genEncOp_out, encDataRlwe, allocate_out, encodeEncrypt_out]
    cases Panacea.encodeEncryptRlwe ctx s alpha (Panacea.genEncOp ctx s .write g).2 <;> rfl

theorem genReadQueryBatch_out (ctx : Ctx) (s : Poly n) (rows cols : Nat) (H : NaiveHash) (indices : List Nat) (g : Gen n) :
    genReadQueryBatch ctx s rows cols H indices g = (Panacea.genReadQueryBatch ctx s rows cols H indices g).map fun x => (x.1.map outQuery, x.2) := by
  unfold genReadQueryBatch Panacea.genReadQueryBatch
  cases H.hashToMapping indices cols with
  | none => rfl
  | some m =>
    simp only
    refine collect_eq_mapGenM (eb := outQuery) (F := readQueryRow ctx s cols m) (fun r g => ?_) _ _
    unfold readQueryRow
    cases m r with
    | none => exact makeReadQuery_out ctx s cols 0 g
    | some c => exact makeReadQuery_out ctx s cols c.1 g

theorem genWriteQueryBatch_out (ctx : Ctx) (s : Poly n) (rows cols : Nat) (H : NaiveHash) (indices : List Nat) (alpha : Poly n) (g : Gen n) :
    genWriteQueryBatch ctx s rows cols H indices (out alpha) g
      = (Panacea.genWriteQueryBatch ctx s rows cols H indices alpha g).map fun x => (x.1.map outQuery, x.2) := by
  unfold genWriteQueryBatch Panacea.genWriteQueryBatch
  cases H.hashToMapping indices cols with
  | none => rfl
  | some m =>
    simp only
    refine collect_eq_mapGenM (eb := outQuery) (F := writeQueryRow ctx s cols alpha m) (fun r g => ?_) _ _
    unfold writeQueryRow
    cases m r with
    | none => exact makeReadQuery_out ctx s cols 0 g
    | some c => exact makeWriteQuery_out ctx s cols c.1 alpha g

theorem dummyUnique_out (ctx : Ctx) (s : Poly n) (rows cols : Nat) (H : NaiveHash) : ∀ (is : List Nat) (db : List (List (RLWE n))) (g : Gen n),
    DbShape rows cols db →
    collect (dummyUniqueStep ctx s rows cols H) is (db.map (List.map outRlwe), g)
        = (Panacea.dummyUnique ctx s rows cols H is db g).map (fun x => (x.1.map out, x.2.1.map (List.map outRlwe), x.2.2)) ∧
      ∀ x, Panacea.dummyUnique ctx s rows cols H is db g = some x → DbShape rows cols x.2.1 := by
  intro is
  induction is with
  | nil =>
    intro db g h
    refine ⟨rfl, fun x hx => ?_⟩
    cases hx; exact h
  | cons i is ih =>
    intro db g h
    rw [collect, dummyUnique, dummyUniqueStep]
    simp only [genPt]
    cases H.hashToTuple 0 i cols with
    | none => exact ⟨rfl, fun x hx => by cases hx⟩
    | some p =>
      obtain ⟨r, c⟩ := p
      simp only
      by_cases hp : r < rows ∧ c < cols
      · rw [if_pos hp, if_pos hp]
        obtain ⟨cell, hcell⟩ := cellAt_isSome h (p := (r, c)) hp.1 hp.2
        rw [at2_rlwe, hcell]
        simp only [Option.map_some, encodeEncrypt_out]
        cases Panacea.encodeEncryptRlwe ctx s (Panacea.genPt ctx g).1 (Panacea.genPt ctx g).2 with
        | none => exact ⟨rfl, fun x hx => by cases hx⟩
        | some y =>
          obtain ⟨ct, g'⟩ := y
          simp only [Option.map_some]
          rw [put2_out, if_pos (by rw [hcell]; rfl)]
          obtain ⟨i1, i2⟩ := ih (setCell db (r, c) ct) g' (setCell_shape h _ _)
          simp only [i1]
          cases hd : Panacea.dummyUnique ctx s rows cols H is (setCell db (r, c) ct) g' with
          | none => exact ⟨rfl, fun x hx => by cases hx⟩
          | some z => exact ⟨rfl, fun x hx => by cases hx; exact i2 z hd⟩
      · rw [if_neg hp, if_neg hp]
        exact ⟨rfl, fun x hx => by cases hx⟩

theorem dummyRest_out (cols : Nat) (H : NaiveHash) (pts : List (Poly n)) {rows' cols' : Nat} : ∀ (is : List Nat) (db : List (List (RLWE n))),
    DbShape rows' cols' db →
    collect (dummyRestStep cols H (pts.map out)) is (db.map (List.map outRlwe))
        = (Panacea.dummyRest cols H pts is db).map (fun x => (x.1.map out, x.2.map (List.map outRlwe))) ∧
      ∀ x, Panacea.dummyRest cols H pts is db = some x → DbShape rows' cols' x.2 := by
  intro is
  induction is with
  | nil =>
    intro db h
    refine ⟨rfl, fun x hx => ?_⟩
    cases hx; exact h
  | cons i is ih =>
    intro db h
    rw [collect, dummyRest, dummyRestStep, List.getElem?_map]
    cases pts[i % uniqueLimit]? with
    | none => exact ⟨rfl, fun x hx => by cases hx⟩
    | some item =>
      simp only [Option.map_some]
      cases H.hashToTuple 0 (i % uniqueLimit) cols with
      | none => exact ⟨rfl, fun x hx => by cases hx⟩
      | some orig =>
        obtain ⟨ro, co⟩ := orig
        cases H.hashToTuple 0 i cols with
        | none => exact ⟨rfl, fun x hx => by cases hx⟩
        | some p =>
          obtain ⟨r, c⟩ := p
          simp only
          rw [at2_rlwe]
          cases cellAt db (ro, co) with
          | none => exact ⟨rfl, fun x hx => by cases hx⟩
          | some ct =>
            simp only [Option.map_some]
            rw [put2_out]
            cases hcp : cellAt db (r, c) with
            | none => exact ⟨rfl, fun x hx => by cases hx⟩
            | some _ =>
              obtain ⟨i1, i2⟩ := ih (setCell db (r, c) ct) (setCell_shape h _ _)
              simp only [Option.isSome_some, if_true, i1]
              cases hd : Panacea.dummyRest cols H pts is (setCell db (r, c) ct) with
              | none => exact ⟨rfl, fun x hx => by cases hx⟩
              | some z => exact ⟨rfl, fun x hx => by cases hx; exact i2 z hd⟩

theorem dummyCopy_out (rows cols : Nat) (H : NaiveHash) (i : Nat) : ∀ (hs : List Nat) (db : List (List (RLWE n))),
    DbShape rows cols db →
    loop (dummyCopyStep rows cols H i) hs (db.map (List.map outRlwe))
        = (Panacea.dummyCopy rows cols H i hs db).map (List.map (List.map outRlwe)) ∧
      ∀ x, Panacea.dummyCopy rows cols H i hs db = some x → DbShape rows cols x := by
  intro hs
  induction hs with
  | nil =>
    intro db h
    refine ⟨rfl, fun x hx => ?_⟩
    cases hx; exact h
  | cons k hs ih =>
    intro db h
    rw [loop, dummyCopy, dummyCopyStep]
    cases H.hashToTuple 0 i cols with
    | none => exact ⟨rfl, fun x hx => by cases hx⟩
    | some first =>
      obtain ⟨rf, cf⟩ := first
      cases H.hashToTuple k i cols with
      | none => exact ⟨rfl, fun x hx => by cases hx⟩
      | some p =>
        obtain ⟨r, c⟩ := p
        simp only
        by_cases hp : r < rows ∧ c < cols
        · rw [if_pos hp, if_pos hp, at2_rlwe]
          cases cellAt db (rf, cf) with
          | none => exact ⟨rfl, fun x hx => by cases hx⟩
          | some ct =>
            obtain ⟨cell, hcell⟩ := cellAt_isSome h (p := (r, c)) hp.1 hp.2
            simp only [Option.map_some]
            rw [put2_out, if_pos (by rw [hcell]; rfl)]
            exact ih _ (setCell_shape h _ _)
        · rw [if_neg hp, if_neg hp]
          exact ⟨rfl, fun x hx => by cases hx⟩

theorem dummyCopies_out (rows cols : Nat) (H : NaiveHash) : ∀ (is : List Nat) (db : List (List (RLWE n))), DbShape rows cols db →
    loop (fun i db => loop (dummyCopyStep rows cols H i) (List.range' 1 (H.hCount - 1)) db) is (db.map (List.map outRlwe))
      = (Panacea.dummyCopies rows cols H is db).map (List.map (List.map outRlwe)) := by
  intro is
  induction is with
  | nil => intro db _; rfl
  | cons i is ih =>
    intro db h
    obtain ⟨i1, i2⟩ := dummyCopy_out rows cols H i (List.range' 1 (H.hCount - 1)) db h
    rw [loop, dummyCopies, i1]
    cases hd : Panacea.dummyCopy rows cols H i (List.range' 1 (H.hCount - 1)) db with
    | none => rfl
    | some db' => exact ih db' (i2 db' hd)

theorem genDummyDatabase_out (ctx : Ctx) (s : Poly n) (rows cols : Nat) (H : NaiveHash) (g : Gen n) :
    genDummyDatabase ctx s rows cols H g
      = (Panacea.genDummyDatabase ctx s rows cols H g).map fun x => (x.1.map out, x.2.1.map (List.map outRlwe), x.2.2) := by
  unfold genDummyDatabase Panacea.genDummyDatabase
  by_cases h0 : H.hCount = 0
  · rw [if_pos h0, if_pos h0]; rfl
  · rw [if_neg h0, if_neg h0]
    simp only
    have hdb : List.replicate rows (List.replicate cols (allocate n)) = (List.replicate rows (List.replicate cols (0 : RLWE n))).map (List.map outRlwe) := by
      rw [List.map_replicate, List.map_replicate, allocate_out]
    obtain ⟨u1, u2⟩ := dummyUnique_out ctx s rows cols H (List.range (if rows * cols / H.hCount < uniqueLimit then rows * cols / H.hCount else uniqueLimit))
      (List.replicate rows (List.replicate cols (0 : RLWE n))) g ⟨by simp, fun row hrow => by rw [List.eq_of_mem_replicate hrow]; simp⟩
    rw [hdb, u1]
    cases hu : Panacea.dummyUnique ctx s rows cols H _ _ g with
    | none => rfl
    | some x =>
      obtain ⟨pts, db, g'⟩ := x
      simp only [Option.map_some]
      obtain ⟨r1, r2⟩ := dummyRest_out cols H pts (List.range' (if rows * cols / H.hCount < uniqueLimit then rows * cols / H.hCount else uniqueLimit)
        (rows * cols / H.hCount - if rows * cols / H.hCount < uniqueLimit then rows * cols / H.hCount else uniqueLimit)) db (u2 _ hu)
      rw [r1]
      cases hr : Panacea.dummyRest cols H pts _ db with
      | none => rfl
      | some y =>
        obtain ⟨rest, db2⟩ := y
        simp only [Option.map_some]
        rw [dummyCopies_out rows cols H _ db2 (r2 _ hr)]
        cases Panacea.dummyCopies rows cols H (List.range (rows * cols / H.hCount)) db2 with
        | none => rfl
        | some db3 => simp

theorem setup_out (hn : 0 < n) (ctx : Ctx) (s : Poly n) (rows cols : Nat) (H : NaiveHash) (g : Gen n) (h0 : 0 < ctx.baseLog)
    (hneg : ctx.baseLog * ctx.negsLevelCount ≤ 64) :
    setupRandomOram ctx (out s) rows cols H g
      = (Panacea.setupRandomOram ctx s rows cols H g).map fun x => (outServer x.1, x.2.1.map out, x.2.2) := by
  unfold setupRandomOram Panacea.setupRandomOram
  by_cases h : rows * cols = H.inputDomain * H.hCount
  · rw [if_pos h, if_pos h, negGsw_out hn ctx s g h0 hneg]
    cases Panacea.negGsw ctx s g with
    | none => rfl
    | some x =>
      obtain ⟨negS, g'⟩ := x
      simp only [Option.map_some, poly_out, genDummyDatabase_out]
      cases Panacea.genDummyDatabase ctx s rows cols H g' <;> rfl
  · rw [if_neg h, if_neg h]; rfl

/-! ## Sessions -/

theorem loop_length {κ A : Type} {f : κ → List A → Option (List A)} (h : ∀ k l l', f k l = some l' → l'.length = l.length) :
    ∀ (ks : List κ) (l l' : List A), loop f ks l = some l' → l'.length = l.length := by
  intro ks
  induction ks with
  | nil => intro l l' e; cases e; rfl
  | cons k ks ih =>
    intro l l' e
    rw [loop] at e
    cases hf : f k l with
    | none => rw [hf] at e; cases e
    | some l1 => rw [hf] at e; rw [ih l1 l' e, h k l l1 hf]

theorem updateColumn_length {fft : Fft n} {q : ClientQuery} {l : Ggsw} {j : Nat} {d d' : List Words} (h : updateColumn fft q l j d = some d') :
    d'.length = d.length := by
  unfold updateColumn at h
  split at h
  · cases h
  · cases h; simp

theorem processOne_shape {reduce : List Words → Option Words} {fft : Fft n} {S S' : Server} {q : ClientQuery} {y : Words}
    (h : S.processOne reduce fft q = some (y, S')) : colsOf S'.data = colsOf S.data ∧ S'.ctx = S.ctx := by
  unfold Server.processOne at h
  cases h0 : S.data[0]? with
  | none => rw [h0] at h; cases h
  | some row =>
    rw [h0] at h
    simp only at h
    split at h
    · cases h
    · cases hu : updateDbMt fft q row _ with
      | none => rw [hu] at h; cases h
      | some row' =>
        rw [hu] at h
        cases h
        refine ⟨?_, rfl⟩
        have hl := loop_length (fun k l l' e => updateColumn_length e) _ _ _ hu
        unfold colsOf
        rw [List.getElem?_set, h0, if_pos rfl, if_pos (List.getElem?_eq_some_iff.1 h0).1]
        simp only [hl]

theorem processMulti_shape {rv : List (List Words) → Option (List Words)} {rg : List (List Ggsw) → Option (List Ggsw)} {fft : Fft n}
    {S S' : Server} {qs : List ClientQuery} {y : List Words}
    (h : S.processMulti rv rg fft qs = some (y, S')) : colsOf S'.data = colsOf S.data ∧ S'.ctx = S.ctx := by
  unfold Server.processMulti at h
  cases h0 : S.data[0]? with
  | none => rw [h0] at h; cases h
  | some row =>
    rw [h0] at h
    simp only at h
    split at h
    · cases h
    · split at h
      · cases h
      · split at h
        · cases h
        · rename_i sT _
          split at h
          · cases h
          · rename_i sL _
            cases hu : loop (multiColumn fft sL sT) (List.range row.length) row with
            | none => rw [hu] at h; cases h
            | some row' =>
              rw [hu] at h
              cases h
              refine ⟨?_, rfl⟩
              have hl := loop_length (fun k l l' e => by
                unfold multiColumn at e
                split at e
                · cases e
                · split at e
                  · cases e
                  · split at e
                    · cases e
                    · cases e; simp) _ _ _ hu
              unfold colsOf
              rw [List.getElem?_set, h0, if_pos rfl, if_pos (List.getElem?_eq_some_iff.1 h0).1]
              simp only [hl]

theorem removeFirst_out (r : Option (List (Panacea.ClientQuery n) × Gen n)) :
    removeFirst (r.map fun x => (x.1.map outQuery, x.2)) = (Panacea.removeFirst r).map fun x => (outQuery x.1, x.2) := by
  cases r with
  | none => rfl
  | some x =>
    obtain ⟨qs, g⟩ := x
    cases qs <;> rfl

theorem clientQuery_out (ctx : Ctx) (s : Poly n) (rows cols : Nat) (H : NaiveHash) (c : Cmd n) (g : Gen n) :
    clientQuery ctx s rows cols H c g = (Panacea.clientQuery ctx s rows cols H c g).map fun x => (outQuery x.1, x.2) := by
  cases c with
  | read i =>
    show removeFirst _ = (Panacea.removeFirst _).map _
    rw [genReadQueryBatch_out, removeFirst_out]
  | write i a =>
    show removeFirst _ = (Panacea.removeFirst _).map _
    rw [genWriteQueryBatch_out, removeFirst_out]

theorem clientBatch_out (ctx : Ctx) (s : Poly n) (rows cols : Nat) (H : NaiveHash) (c : BatchCmd n) (g : Gen n) :
    clientBatch ctx s rows cols H c g = (Panacea.clientBatch ctx s rows cols H c g).map fun x => (x.1.map outQuery, x.2) := by
  cases c with
  | read is => exact genReadQueryBatch_out ctx s rows cols H is g
  | write is a => exact genWriteQueryBatch_out ctx s rows cols H is a g

theorem reveal_out (ctx : Ctx) (s : Poly n) (c : RLWE n) : reveal ctx s (outRlwe c) = out (Panacea.decryptDecodeRlwe ctx s c) :=
  decryptDecode_out ctx s (List.length_replicate ..) c

theorem runBatches_out (hn : 0 < n) (fft : Fft n) (ctx : Ctx) (s : Poly n) (rows cols : Nat) (H : NaiveHash) :
    ∀ (cs : List (BatchCmd n)) (S : Panacea.Server n) (g : Gen n),
    runBatches fft ctx s rows cols H cs (outServer S) g
      = (Panacea.runBatches fft ctx s rows cols H cs S g).map fun x => (x.1.map (List.map out), outServer x.2.1, x.2.2) := by
  intro cs
  induction cs with
  | nil => intro S g; rfl
  | cons c cs ih =>
    intro S g
    rw [runBatches, Panacea.runBatches, clientBatch_out]
    cases Panacea.clientBatch ctx s rows cols H c g with
    | none => rfl
    | some x =>
      obtain ⟨qs, g1⟩ := x
      simp only [Option.map_some]
      rw [processBatch_out hn]
      cases S.processBatch fft qs H with
      | none => rfl
      | some y =>
        obtain ⟨ys, S1⟩ := y
        simp only [Option.map_some]
        rw [ih S1 g1]
        cases Panacea.runBatches fft ctx s rows cols H cs S1 g1 with
        | none => rfl
        | some z =>
          obtain ⟨yss, S2, g2⟩ := z
          simp only [Option.map_some, List.map_cons, List.map_map]
          rw [show List.map (reveal ctx s ∘ outRlwe) ys = List.map (out ∘ Panacea.decryptDecodeRlwe ctx s) ys from
            List.map_congr_left fun c _ => reveal_out ctx s c]

/-- The reductions of the session may be any valid ones, in memory and in the other model. -/
theorem runSession_out (hn : 0 < n) (fft : Fft n) (ctx : Ctx) (s : Poly n) (cols : Nat) (H : NaiveHash) :
    ∀ (sts : List (FlatReducer × Panacea.Reducer n × Call n)) (S : Panacea.Server n) (g : Gen n),
    (∀ x ∈ sts, x.1.Valid n ctx cols ∧ x.2.1.Valid ctx cols) → colsOf (outServer S).data = some cols → S.ctx = ctx →
    runSession fft ctx s cols H (sts.map fun x => (x.1, x.2.2)) (outServer S) g
      = (Panacea.runSession fft ctx s cols H (sts.map Prod.snd) S g).map fun x => (x.1.map (List.map out), outServer x.2.1, x.2.2) := by
  intro sts
  induction sts with
  | nil => intro S g _ _ _; rfl
  | cons st sts ih =>
    intro S g hv hc hctx
    obtain ⟨R, R', call⟩ := st
    have hv1 := hv (R, R', call) (by simp)
    have ih' := fun S g => ih S g (fun x hx => hv x (by simp [hx]))
    cases call with
    | one c =>
      rw [List.map_cons, List.map_cons, runSession, Panacea.runSession, clientQuery_out]
      cases Panacea.clientQuery ctx s 1 cols H c g with
      | none => rfl
      | some x =>
        obtain ⟨q, g1⟩ := x
        simp only [Option.map_some]
        have e := processOne_out hn hv1.1.one hv1.2.one fft S q
        cases hp : S.processOne R'.one fft q with
        | none => rw [hp] at e; rw [e]; rfl
        | some y =>
          obtain ⟨y, S1⟩ := y
          rw [hp] at e
          rw [e]
          simp only [Option.map_some]
          obtain ⟨h1, h2⟩ := processOne_shape e
          rw [ih' S1 g1 (h1.trans hc) (by have := h2; simp only [outServer] at this; rw [this, hctx])]
          cases Panacea.runSession fft ctx s cols H (sts.map Prod.snd) S1 g1 with
          | none => rfl
          | some z =>
            obtain ⟨yss, S2, g2⟩ := z
            simp only [Option.map_some, List.map_cons, List.map_nil, reveal_out]
    | multi cs =>
      rw [List.map_cons, List.map_cons, runSession, Panacea.runSession,
        collect_eq_mapGenM (eb := outQuery) (F := Panacea.clientQuery ctx s 1 cols H) (fun c g => clientQuery_out ctx s 1 cols H c g)]
      cases mapGenM (Panacea.clientQuery ctx s 1 cols H) cs g with
      | none => rfl
      | some x =>
        obtain ⟨qs, g1⟩ := x
        simp only [Option.map_some]
        have hcols : ∀ k, S.cols = some k → k = cols := by
          intro k hk
          have : colsOf (outServer S).data = S.cols := colsOf_out S.data
          rw [this, hk] at hc
          exact Option.some.inj hc
        have e := processMulti_out hn (reduceV := R.vec) (reduceG := R.gsw) (reduceV' := R'.vec) (reduceG' := R'.gsw) S
          (fun k hk => by rw [hcols k hk]; exact hv1.1.vec) (fun k hk => by rw [hcols k hk, hctx]; exact hv1.1.gsw)
          (fun k hk => by rw [hcols k hk]; exact hv1.2.vec) (fun k hk => by rw [hcols k hk, hctx]; exact hv1.2.gsw) fft qs
        cases hp : S.processMulti R'.vec R'.gsw fft qs with
        | none => rw [hp] at e; rw [e]; rfl
        | some y =>
          obtain ⟨y, S1⟩ := y
          rw [hp] at e
          rw [e]
          simp only [Option.map_some]
          obtain ⟨h1, h2⟩ := processMulti_shape e
          rw [ih' S1 g1 (h1.trans hc) (by have := h2; simp only [outServer] at this; rw [this, hctx])]
          cases Panacea.runSession fft ctx s cols H (sts.map Prod.snd) S1 g1 with
          | none => rfl
          | some z =>
            obtain ⟨yss, S2, g2⟩ := z
            simp only [Option.map_some, List.map_cons, List.map_map]
            rw [show List.map (reveal ctx s ∘ outRlwe) y = List.map (out ∘ Panacea.decryptDecodeRlwe ctx s) y from
              List.map_congr_left fun c _ => reveal_out ctx s c]

end Flat
end Panacea
