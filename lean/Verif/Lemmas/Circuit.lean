import Verif.Spec.Circuit
import Verif.Lemmas.Multi
import Verif.Spec.Oram

/-!
# Symbolic execution of the server: every model function commutes with circuit evaluation
-/

namespace Panacea
variable {n : Nat}

/-! ## Generic -/

theorem mapOption_comm {α β α' β' : Type} {f : α → Option β} {fs : α' → Option β'} {ea : α' → α} {eb : β' → β}
    (h : ∀ a, f (ea a) = (fs a).map eb) : ∀ as : List α', mapOption f (as.map ea) = (mapOption fs as).map (List.map eb)
  | [] => rfl
  | a :: as => by
    rw [List.map_cons, mapOption, mapOption, h a, mapOption_comm h as]
    cases fs a <;> cases mapOption fs as <;> rfl

theorem nextAll_comm {α β : Type} (e : α → β) : ∀ v : List (List α),
    nextAll (v.map (List.map e)) = (nextAll v).map fun x => (x.1.map e, x.2.map (List.map e))
  | [] => rfl
  | [] :: v => rfl
  | (x :: xs) :: v => by
    rw [List.map_cons, List.map_cons, nextAll, nextAll, nextAll_comm e v]
    cases nextAll v <;> rfl

theorem transposeLoop_comm {α β : Type} (e : α → β) : ∀ (k : Nat) (v : List (List α)),
    transposeLoop k (v.map (List.map e)) = (transposeLoop k v).map (List.map (List.map e))
  | 0, _ => rfl
  | k + 1, v => by
    rw [transposeLoop, transposeLoop, nextAll_comm]
    cases nextAll v with
    | none => rfl
    | some x =>
      simp only [Option.map_some]
      rw [transposeLoop_comm e k x.2]
      cases transposeLoop k x.2 <;> rfl

theorem transpose_comm {α β : Type} (e : α → β) (v : List (List α)) :
    transpose (v.map (List.map e)) = (transpose v).map (List.map (List.map e)) := by
  cases v with
  | nil => rfl
  | cons r v =>
    rw [List.map_cons, transpose, transpose, List.length_map, ← List.map_cons, transposeLoop_comm]

theorem zipWith_comm {α β γ α' β' γ' : Type} {f : α → β → γ} {fs : α' → β' → γ'} {ea : α' → α} {eb : β' → β} {ec : γ' → γ}
    (h : ∀ a b, f (ea a) (eb b) = ec (fs a b)) : ∀ (as : List α') (bs : List β'),
    List.zipWith f (as.map ea) (bs.map eb) = (List.zipWith fs as bs).map ec
  | [], _ => by simp
  | _ :: _, [] => by simp
  | a :: as, b :: bs => by simp [h, zipWith_comm h as bs]

theorem foldl_comm {α β α' β' : Type} {f : β → α → β} {fs : β' → α' → β'} {ea : α' → α} {eb : β' → β}
    (h : ∀ b a, f (eb b) (ea a) = eb (fs b a)) : ∀ (as : List α') (b : β'), (as.map ea).foldl f (eb b) = eb (as.foldl fs b)
  | [], _ => rfl
  | a :: as, b => by rw [List.map_cons, List.foldl_cons, List.foldl_cons, h, foldl_comm h as]

theorem zip_comm {α β α' β' : Type} (ea : α' → α) (eb : β' → β) : ∀ (as : List α') (bs : List β'),
    (as.map ea).zip (bs.map eb) = (as.zip bs).map fun x => (ea x.1, eb x.2)
  | [], _ => by simp
  | _ :: _, [] => by simp
  | a :: as, b :: bs => by simp [zip_comm ea eb as bs]

theorem mapOption_inv_mem {α β : Type} {f : α → Option β} : ∀ {l : List α} {bs : List β} {b : β}, mapOption f l = some bs → b ∈ bs →
    ∃ a ∈ l, f a = some b
  | [], bs, b, h, hb => by cases h; cases hb
  | a :: l, bs, b, h, hb => by
    rw [mapOption] at h
    cases ha : f a with
    | none => rw [ha] at h; cases h
    | some c =>
      cases hl : mapOption f l with
      | none => rw [ha, hl] at h; cases h
      | some cs =>
        rw [ha, hl] at h
        cases h
        rcases List.mem_cons.mp hb with rfl | hb
        · exact ⟨a, by simp, ha⟩
        · obtain ⟨a', h1, h2⟩ := mapOption_inv_mem hl hb
          exact ⟨a', by simp [h1], h2⟩

/-! ## Symbolic server functions -/

/-- Symbolic `demuxRec`. -/
def demuxSym : List GCirc → RCirc → Option (List RCirc)
  | [], _ => none
  | c :: rest, b =>
    let left := RCirc.ext c .zero b
    let right := RCirc.sub b left
    match rest with
    | [] => some [left, right]
    | _ :: _ =>
      match demuxSym rest left, demuxSym rest right with
      | some lo, some ro => some (lo ++ ro)
      | _, _ => none

variable (fft : Fft n) (I : Inputs n)

theorem demux_sym : ∀ (cs : List GCirc) (b : RCirc),
    demuxRec fft (cs.map (GCirc.eval fft I)) (b.eval fft I) = (demuxSym cs b).map (List.map (RCirc.eval fft I))
  | [], _ => rfl
  | [c], b => rfl
  | c :: c' :: rest, b => by
    have e1 := demux_sym (c' :: rest) (RCirc.ext c .zero b)
    have e2 := demux_sym (c' :: rest) (RCirc.sub b (RCirc.ext c .zero b))
    simp only [List.map_cons, RCirc.eval] at e1 e2
    rw [demuxSym, List.map_cons, List.map_cons, demuxRec]
    rw [e1, e2]
    cases demuxSym (c' :: rest) (RCirc.ext c .zero b) <;> cases demuxSym (c' :: rest) (RCirc.sub b (RCirc.ext c .zero b)) <;>
      simp

/-- Symbolic `demuxLevel`. -/
def demuxLevelSym (ctx : Ctx) (a : List GCirc) (level : Nat) : Option (List RCirc) :=
  if ctx.baseLog * level = 0 ∨ 64 < ctx.baseLog * level then none
  else match demuxSym a (.const (gadget ctx.baseLog level)) with
  | none => none
  | some tmp => if tmp.length = 2 ^ a.length then some tmp else none

theorem demuxLevel_sym (ctx : Ctx) (a : List GCirc) (level : Nat) :
    demuxLevel fft ctx (a.map (GCirc.eval fft I)) level = (demuxLevelSym ctx a level).map (List.map (RCirc.eval fft I)) := by
  unfold demuxLevel demuxLevelSym demuxWith
  have h := demux_sym fft I a (.const (gadget ctx.baseLog level))
  simp only [RCirc.eval] at h
  rw [h]
  split
  · rfl
  · cases demuxSym a (.const (gadget ctx.baseLog level)) with
    | none => rfl
    | some tmp => simp only [Option.map_some, List.length_map]; split <;> rfl

/-- Symbolic query. -/
structure QCirc where
  a : List GCirc
  op : GCirc
  data : RCirc

/-- Its value. -/
def QCirc.eval (q : QCirc) : ClientQuery n := ⟨q.a.map (GCirc.eval fft I), q.op.eval fft I, q.data.eval fft I⟩

/-- Symbolic `decomposedSelectors`. -/
def selectorsSym (ctx : Ctx) (q : QCirc) (cols : Nat) : Option (List (List RCirc)) :=
  match mapOption (demuxLevelSym ctx q.a) (List.range' 1 ctx.levelCount) with
  | none => none
  | some demuxRes =>
    match transpose demuxRes with
    | none => none
    | some decomposedL => if decomposedL.length = cols then some decomposedL else none

theorem selectors_sym (ctx : Ctx) (q : QCirc) (cols : Nat) :
    decomposedSelectors fft ctx (q.eval fft I) cols = (selectorsSym ctx q cols).map (List.map (List.map (RCirc.eval fft I))) := by
  unfold decomposedSelectors selectorsSym
  have h := mapOption_comm (ea := id) (fun l => demuxLevel_sym fft I ctx q.a l) (List.range' 1 ctx.levelCount)
  rw [List.map_id] at h
  show (match mapOption (demuxLevel fft ctx (q.a.map (GCirc.eval fft I))) (List.range' 1 ctx.levelCount) with
    | none => none
    | some demuxRes => _) = _
  rw [h]
  cases mapOption (demuxLevelSym ctx q.a) (List.range' 1 ctx.levelCount) with
  | none => rfl
  | some d =>
    simp only [Option.map_some]
    rw [transpose_comm]
    cases transpose d with
    | none => rfl
    | some l => simp only [Option.map_some, List.length_map]; split <;> rfl

/-- Symbolic `decomposedRlweToRgsw`. -/
def rgswSym (ctx : Ctx) (cs : List RCirc) : Option GCirc :=
  if ctx.levelCount ≤ cs.length then
    some ((cs.take ctx.levelCount).foldl (fun C c => .level C (.ext .negS .zero c) c) (.empty ctx.baseLog))
  else none

theorem levels_eval : ∀ (cs : List RCirc) (C : GCirc),
    (cs.foldl (fun C c => GCirc.level C (.ext .negS .zero c) c) C).eval fft I
      = ⟨(C.eval fft I).baseLog, (C.eval fft I).rows ++ (cs.map (RCirc.eval fft I)).map fun c => (externalProduct fft I.negS 0 c, c)⟩
  | [], C => by simp
  | c :: cs, C => by
    rw [List.foldl_cons, levels_eval cs]
    simp [GCirc.eval, RCirc.eval]

theorem rgsw_sym (ctx : Ctx) (cs : List RCirc) :
    decomposedRlweToRgsw fft ctx (cs.map (RCirc.eval fft I)) I.negS = (rgswSym ctx cs).map (GCirc.eval fft I) := by
  unfold decomposedRlweToRgsw rgswSym
  rw [List.length_map]
  split
  · simp only [Option.map_some, levels_eval]
    simp [GCirc.eval, List.map_take]
  · rfl

/-- Symbolic `partialResponse`. -/
def partialSym (ctx : Ctx) (x : List RCirc × RCirc) : Option (RCirc × GCirc) :=
  match rgswSym ctx x.1 with
  | none => none
  | some l => some (.ext l .zero x.2, l)

theorem partial_sym (ctx : Ctx) (x : List RCirc × RCirc) :
    partialResponse fft ctx I.negS (x.1.map (RCirc.eval fft I), x.2.eval fft I)
      = (partialSym ctx x).map fun y => (y.1.eval fft I, y.2.eval fft I) := by
  unfold partialResponse partialSym
  simp only
  rw [rgsw_sym]
  cases rgswSym ctx x.1 <;> rfl

/-- Symbolic `processOneMt`, the reduction done from the left. -/
def mtSym (ctx : Ctx) (q : QCirc) (row : List RCirc) : Option (RCirc × List GCirc) :=
  match selectorsSym ctx q row.length with
  | none => none
  | some L =>
    match mapOption (partialSym ctx) (L.zip row) with
    | none => none
    | some rs => some ((rs.map Prod.fst).foldl .add .zero, rs.map Prod.snd)

theorem parReduce_unique {α : Type} {op : α → α → α} {id : α} {P : α → Prop} (hid : P id) (hop : ∀ a b, P a → P b → P (op a b))
    (hassoc : ∀ a b c, P a → P b → P c → op (op a b) c = op a (op b c)) (hl : ∀ a, P a → op id a = a) (hr : ∀ a, P a → op a id = a)
    {xs : List α} {a : α} (h : ParReduce op id xs a) (hx : ∀ x ∈ xs, P x) : a = xs.foldl op id ∧ P a := by
  have hP : ∀ (ys : List α) (a : α), P a → (∀ y ∈ ys, P y) → P (ys.foldl op a) := by
    intro ys
    induction ys with
    | nil => exact fun a h _ => h
    | cons y ys ih => exact fun a h hy => ih _ (hop _ _ h (hy y (by simp))) (fun z hz => hy z (by simp [hz]))
  have key : ∀ (ys : List α) (a : α), P a → (∀ y ∈ ys, P y) → ys.foldl op a = op a (ys.foldl op id) := by
    intro ys
    induction ys with
    | nil => exact fun a h _ => (hr a h).symm
    | cons y ys ih =>
      intro a h hy
      have h1 := hy y (by simp)
      have h2 : ∀ z ∈ ys, P z := fun z hz => hy z (by simp [hz])
      rw [List.foldl_cons, List.foldl_cons, ih _ (hop _ _ h h1) h2, hl y h1, ih y h1 h2, hassoc _ _ _ h h1 (hP ys id hid h2)]
  induction h with
  | fold xs => exact ⟨rfl, hP xs id hid hx⟩
  | split ha hb iha ihb =>
    obtain ⟨e1, p1⟩ := iha (fun x h => hx x (by simp [h]))
    obtain ⟨e2, p2⟩ := ihb (fun x h => hx x (by simp [h]))
    refine ⟨?_, hop _ _ p1 p2⟩
    rw [List.foldl_append, key _ _ (e1 ▸ p1) (fun x h => hx x (by simp [h])), ← e1, ← e2]

theorem reduce_eq_fold {reduce : List (RLWE n) → RLWE n} (hr : IsReduction (· + ·) 0 reduce) (xs : List (RLWE n)) :
    reduce xs = xs.foldl (· + ·) 0 :=
  (parReduce_unique (P := fun _ => True) trivial (fun _ _ _ _ => trivial) (fun a b c _ _ _ => add_assoc a b c) (fun a _ => zero_add a)
    (fun a _ => add_zero a) (hr xs) (fun _ _ => trivial)).1

theorem map_fst_comm {α β α' β' : Type} (ea : α' → α) (eb : β' → β) (l : List (α' × β')) :
    (l.map fun x => (ea x.1, eb x.2)).map Prod.fst = (l.map Prod.fst).map ea := by simp
theorem map_snd_comm {α β α' β' : Type} (ea : α' → α) (eb : β' → β) (l : List (α' × β')) :
    (l.map fun x => (ea x.1, eb x.2)).map Prod.snd = (l.map Prod.snd).map eb := by simp

theorem mt_sym {reduce : List (RLWE n) → RLWE n} (hr : IsReduction (· + ·) 0 reduce) (ctx : Ctx) (q : QCirc) (row : List RCirc) :
    processOneMt reduce fft ctx (q.eval fft I) (row.map (RCirc.eval fft I)) I.negS
      = (mtSym ctx q row).map fun x => (x.1.eval fft I, x.2.map (GCirc.eval fft I)) := by
  unfold processOneMt mtSym
  rw [List.length_map, selectors_sym]
  cases selectorsSym ctx q row.length with
  | none => rfl
  | some L =>
    simp only [Option.map_some]
    rw [zip_comm, mapOption_comm (partial_sym fft I ctx)]
    cases mapOption (partialSym ctx) (L.zip row) with
    | none => rfl
    | some rs =>
      simp only [Option.map_some]
      rw [map_fst_comm, map_snd_comm, reduce_eq_fold hr,
        show (0 : RLWE n) = RCirc.eval fft I .zero from rfl, foldl_comm (fs := RCirc.add) (fun b a => rfl)]

/-- Symbolic `responseLoop`. -/
def loopSym (ctx : Ctx) : List (List RCirc × RCirc) → RCirc → List GCirc → Option (RCirc × List GCirc)
  | [], y, ls => some (y, ls)
  | x :: xs, y, ls =>
    match rgswSym ctx x.1 with
    | none => none
    | some l => loopSym ctx xs (.ext l y x.2) (ls ++ [l])

theorem loop_sym (ctx : Ctx) : ∀ (xs : List (List RCirc × RCirc)) (y : RCirc) (ls : List GCirc),
    responseLoop fft ctx I.negS (xs.map fun x => (x.1.map (RCirc.eval fft I), x.2.eval fft I)) (y.eval fft I) (ls.map (GCirc.eval fft I))
      = (loopSym ctx xs y ls).map fun x => (x.1.eval fft I, x.2.map (GCirc.eval fft I))
  | [], _, _ => rfl
  | x :: xs, y, ls => by
    rw [List.map_cons, responseLoop, loopSym]
    simp only
    rw [rgsw_sym]
    cases rgswSym ctx x.1 with
    | none => rfl
    | some l =>
      have := loop_sym ctx xs (.ext l y x.2) (ls ++ [l])
      simpa [RCirc.eval] using this

/-- Symbolic `processOneSt`. -/
def stSym (ctx : Ctx) (q : QCirc) (row : List RCirc) : Option (RCirc × List GCirc) :=
  match selectorsSym ctx q row.length with
  | none => none
  | some L => loopSym ctx (L.zip row) .zero []

theorem st_sym (ctx : Ctx) (q : QCirc) (row : List RCirc) :
    processOneSt fft ctx (q.eval fft I) (row.map (RCirc.eval fft I)) I.negS
      = (stSym ctx q row).map fun x => (x.1.eval fft I, x.2.map (GCirc.eval fft I)) := by
  unfold processOneSt stSym
  rw [List.length_map, selectors_sym]
  cases selectorsSym ctx q row.length with
  | none => rfl
  | some L =>
    simp only [Option.map_some]
    rw [zip_comm]
    exact loop_sym fft I ctx (L.zip row) .zero []

/-- Symbolic `cmux`. -/
def cmuxSym (C : GCirc) (ct0 ct1 : RCirc) : RCirc := .ext C ct0 (.sub ct1 ct0)

theorem cmux_sym (C : GCirc) (o : RLWE n) (a b : RCirc) :
    cmux fft (C.eval fft I) o (a.eval fft I) (b.eval fft I) = (cmuxSym C a b).eval fft I := rfl

/-- Symbolic `updateDb`. -/
def updateSym (q : QCirc) (row : List RCirc) (ls : List GCirc) : List RCirc :=
  List.zipWith (fun cell l => cmuxSym l cell (cmuxSym q.op cell q.data)) row ls

theorem update_sym (q : QCirc) (row : List RCirc) (ls : List GCirc) :
    updateDb fft (q.eval fft I) (row.map (RCirc.eval fft I)) (ls.map (GCirc.eval fft I)) = (updateSym q row ls).map (RCirc.eval fft I) := by
  unfold updateDb updateSym
  refine zipWith_comm (f := fun cell l => updateCell fft (q.eval fft I) l cell cell) (ec := RCirc.eval fft I) ?_ row ls
  exact fun _ _ => rfl

/-! ## process_multi -/

/-- Symbolic `multiTmps`. -/
def tmpsSym (row : List RCirc) (q : QCirc) (ls : List GCirc) : List RCirc :=
  List.zipWith (fun l cell => .ext l .zero (cmuxSym q.op cell q.data)) ls row

theorem tmps_sym (row : List RCirc) (q : QCirc) (ls : List GCirc) :
    multiTmps fft (row.map (RCirc.eval fft I)) (q.eval fft I) (ls.map (GCirc.eval fft I)) = (tmpsSym row q ls).map (RCirc.eval fft I) := by
  unfold multiTmps tmpsSym
  refine zipWith_comm (f := fun l cell => externalProduct fft l 0 (rw fft (q.eval fft I).op (q.eval fft I).data cell))
    (ec := RCirc.eval fft I) ?_ ls row
  exact fun _ _ => rfl

/-- Symbolic `allocate`. -/
def allocSym (bl lv : Nat) : GCirc := (List.replicate lv ()).foldl (fun C _ => .level C .zero .zero) (.empty bl)

theorem alloc_sym (bl lv : Nat) : (allocSym bl lv).eval fft I = RGSW.allocate n bl lv := by
  have : ∀ (us : List Unit) (C : GCirc), (us.foldl (fun C _ => GCirc.level C .zero .zero) C).eval fft I
      = ⟨(C.eval fft I).baseLog, (C.eval fft I).rows ++ List.replicate us.length (0, 0)⟩ := by
    intro us
    induction us with
    | nil => intro C; simp
    | cons u us ih => intro C; rw [List.foldl_cons, ih]; simp [GCirc.eval, RCirc.eval, List.replicate_succ]
  unfold allocSym
  rw [this]
  simp [GCirc.eval, RGSW.allocate]

/-- Symbolic `processMulti` on row 0, the reductions done from the left. -/
def multiSym (ctx : Ctx) (data : List (List RCirc)) (qs : List QCirc) : Outcome :=
  match data with
  | [] => none
  | row :: rest =>
    match mapOption (fun q => stSym ctx q row) qs with
    | none => none
    | some rs =>
      let tmps := (List.zipWith (tmpsSym row) qs (rs.map Prod.snd)).foldl (List.zipWith RCirc.add) (List.replicate row.length .zero)
      let sels := (rs.map Prod.snd).foldl (List.zipWith GCirc.add) (List.replicate row.length (allocSym ctx.baseLog ctx.levelCount))
      some (rs.map Prod.fst, List.zipWith (fun cell (x : GCirc × RCirc) => cmuxSym x.1 cell x.2) row (sels.zip tmps) :: rest)

theorem addVec_assoc : ∀ a b c : List (RLWE n), addVec (addVec a b) c = addVec a (addVec b c)
  | [], _, _ => by simp [addVec]
  | _ :: _, [], _ => by simp [addVec]
  | _ :: _, _ :: _, [] => by simp [addVec]
  | x :: a, y :: b, z :: c => by
    have := addVec_assoc a b c
    simp only [addVec, List.zipWith_cons_cons] at this ⊢
    rw [this, add_assoc]

theorem addVec_zero : ∀ a : List (RLWE n), addVec a (List.replicate a.length 0) = a
  | [] => rfl
  | x :: a => by
    have := addVec_zero a
    simp only [addVec, List.length_cons, List.replicate_succ, List.zipWith_cons_cons] at this ⊢
    rw [this, add_zero]
theorem zero_addVec : ∀ a : List (RLWE n), addVec (List.replicate a.length 0) a = a
  | [] => rfl
  | x :: a => by
    have := zero_addVec a
    simp only [addVec, List.length_cons, List.replicate_succ, List.zipWith_cons_cons] at this ⊢
    rw [this, zero_add]

theorem reduceV_eq_fold {cols : Nat} {reduce : List (List (RLWE n)) → List (RLWE n)} (hr : IsReduction addVec (List.replicate cols 0) reduce)
    {xs : List (List (RLWE n))} (hx : ∀ x ∈ xs, x.length = cols) : reduce xs = xs.foldl addVec (List.replicate cols 0) :=
  (parReduce_unique (P := fun l => l.length = cols) (by simp) (fun a b ha hb => by simp [addVec, ha, hb]) (fun a b c _ _ _ => addVec_assoc a b c)
    (fun a h => by rw [← h]; exact zero_addVec a) (fun a h => by rw [← h]; exact addVec_zero a) (hr xs) hx).1

theorem rowsAdd_assoc : ∀ a b c : List (RLWE n × RLWE n),
    List.zipWith (fun r q => (r.1 + q.1, r.2 + q.2)) (List.zipWith (fun r q => (r.1 + q.1, r.2 + q.2)) a b) c
      = List.zipWith (fun r q => (r.1 + q.1, r.2 + q.2)) a (List.zipWith (fun r q => (r.1 + q.1, r.2 + q.2)) b c)
  | [], _, _ => by simp
  | _ :: _, [], _ => by simp
  | _ :: _, _ :: _, [] => by simp
  | x :: a, y :: b, z :: c => by
    simp only [List.zipWith_cons_cons]
    rw [rowsAdd_assoc a b c, add_assoc, add_assoc]

theorem rowsAdd_zero : ∀ a : List (RLWE n × RLWE n),
    List.zipWith (fun r q => (r.1 + q.1, r.2 + q.2)) a (List.replicate a.length (0, 0)) = a
  | [] => rfl
  | x :: a => by
    simp only [List.length_cons, List.replicate_succ, List.zipWith_cons_cons]
    rw [rowsAdd_zero a, add_zero, add_zero]
theorem zero_rowsAdd : ∀ a : List (RLWE n × RLWE n),
    List.zipWith (fun r q => (r.1 + q.1, r.2 + q.2)) (List.replicate a.length (0, 0)) a = a
  | [] => rfl
  | x :: a => by
    simp only [List.length_cons, List.replicate_succ, List.zipWith_cons_cons]
    rw [zero_rowsAdd a, zero_add, zero_add]

theorem zipWith_id_left {α : Type} {f : α → α → α} {e : α} : ∀ {l : List α}, (∀ a ∈ l, f e a = a) → List.zipWith f (List.replicate l.length e) l = l
  | [], _ => rfl
  | a :: l, h => by
    rw [List.length_cons, List.replicate_succ, List.zipWith_cons_cons, h a (by simp), zipWith_id_left (fun b hb => h b (by simp [hb]))]
theorem zipWith_id_right {α : Type} {f : α → α → α} {e : α} : ∀ {l : List α}, (∀ a ∈ l, f a e = a) → List.zipWith f l (List.replicate l.length e) = l
  | [], _ => rfl
  | a :: l, h => by
    rw [List.length_cons, List.replicate_succ, List.zipWith_cons_cons, h a (by simp), zipWith_id_right (fun b hb => h b (by simp [hb]))]
theorem zipWith_assoc {α : Type} {f : α → α → α} (h : ∀ a b c, f (f a b) c = f a (f b c)) : ∀ a b c : List α,
    List.zipWith f (List.zipWith f a b) c = List.zipWith f a (List.zipWith f b c)
  | [], _, _ => by simp
  | _ :: _, [], _ => by simp
  | _ :: _, _ :: _, [] => by simp
  | x :: a, y :: b, z :: c => by
    simp only [List.zipWith_cons_cons]
    rw [zipWith_assoc h a b c, h]

theorem selShape_add {cols bl lv : Nat} {a b : List (RGSW n)} (ha : SelShape cols bl lv a) (hb : SelShape cols bl lv b) :
    SelShape cols bl lv (addGswVec a b) := by
  refine ⟨by simp [addGswVec, ha.1, hb.1], ?_⟩
  intro l hl
  unfold addGswVec at hl
  obtain ⟨i, hi, rfl⟩ := List.getElem_of_mem hl
  rw [List.length_zipWith] at hi
  rw [List.getElem_zipWith]
  have h1 := ha.2 a[i] (List.getElem_mem (by omega))
  have h2 := hb.2 b[i] (List.getElem_mem (by omega))
  exact ⟨h1.1, by simp [RGSW.updateWithAdd, h1.2, h2.2]⟩

theorem reduceG_eq_fold {cols bl lv : Nat} {reduce : List (List (RGSW n)) → List (RGSW n)}
    (hr : IsReduction addGswVec (List.replicate cols (RGSW.allocate n bl lv)) reduce) {xs : List (List (RGSW n))}
    (hx : ∀ x ∈ xs, SelShape cols bl lv x) : reduce xs = xs.foldl addGswVec (List.replicate cols (RGSW.allocate n bl lv)) := by
  refine (parReduce_unique (P := SelShape cols bl lv) ?_ (fun a b ha hb => selShape_add ha hb) ?_ ?_ ?_ (hr xs) hx).1
  · refine ⟨by simp, fun l hl => ?_⟩
    rw [List.eq_of_mem_replicate hl]
    exact ⟨rfl, by simp [RGSW.allocate]⟩
  · intro a b c _ _ _
    refine zipWith_assoc (fun x y z => ?_) a b c
    unfold RGSW.updateWithAdd
    simp only
    rw [rowsAdd_assoc]
  · intro a h
    unfold addGswVec
    rw [← h.1]
    apply zipWith_id_left
    intro C hC
    obtain ⟨h1, h2⟩ := h.2 C hC
    unfold RGSW.updateWithAdd RGSW.allocate
    simp only
    rw [← h2, zero_rowsAdd, ← h1]
  · intro a h
    unfold addGswVec
    rw [← h.1]
    apply zipWith_id_right
    intro C hC
    obtain ⟨h1, h2⟩ := h.2 C hC
    unfold RGSW.updateWithAdd RGSW.allocate
    simp only
    rw [← h2, rowsAdd_zero]

/-- Selectors of `process_one_st` have the context's shape, whatever the inputs. -/
theorem responseLoop_selShape {ctx : Ctx} {negS : RGSW n} : ∀ {xs : List (List (RLWE n) × RLWE n)} {y : RLWE n} {ls : List (RGSW n)}
    {r : RLWE n × List (RGSW n)}, responseLoop fft ctx negS xs y ls = some r →
    (∀ l ∈ ls, l.baseLog = ctx.baseLog ∧ l.rows.length = ctx.levelCount) →
    r.2.length = ls.length + xs.length ∧ ∀ l ∈ r.2, l.baseLog = ctx.baseLog ∧ l.rows.length = ctx.levelCount
  | [], y, ls, r, h, hl => by cases h; exact ⟨rfl, hl⟩
  | x :: xs, y, ls, r, h, hl => by
    rw [responseLoop] at h
    cases hd : decomposedRlweToRgsw fft ctx x.1 negS with
    | none => rw [hd] at h; cases h
    | some l =>
      rw [hd] at h
      have hl' : l.baseLog = ctx.baseLog ∧ l.rows.length = ctx.levelCount := by
        unfold decomposedRlweToRgsw at hd
        split at hd
        · cases hd; rename_i hc; exact ⟨rfl, by simp [hc]⟩
        · cases hd
      obtain ⟨h1, h2⟩ := responseLoop_selShape h (by
        intro k hk
        rcases List.mem_append.mp hk with hk | hk
        · exact hl k hk
        · simp only [List.mem_singleton] at hk; subst hk; exact hl')
      exact ⟨by rw [h1]; simp only [List.length_append, List.length_cons, List.length_nil]; omega, h2⟩

theorem processOneSt_selShape {ctx : Ctx} {negS : RGSW n} {q : ClientQuery n} {row : List (RLWE n)} {r : RLWE n × List (RGSW n)}
    (h : processOneSt fft ctx q row negS = some r) : SelShape row.length ctx.baseLog ctx.levelCount r.2 := by
  unfold processOneSt at h
  cases hd : decomposedSelectors fft ctx q row.length with
  | none => rw [hd] at h; cases h
  | some L =>
    rw [hd] at h
    have hL : L.length = row.length := by
      unfold decomposedSelectors at hd
      split at hd
      · cases hd
      · split at hd
        · cases hd
        · split at hd
          · cases hd; assumption
          · cases hd
    obtain ⟨h1, h2⟩ := responseLoop_selShape fft h (by simp)
    exact ⟨by rw [h1]; simp [hL], h2⟩

theorem multi_sym {reduceV : List (List (RLWE n)) → List (RLWE n)} {reduceG : List (List (RGSW n)) → List (RGSW n)} (S : Server n)
    (data : List (List RCirc)) (qs : List QCirc) (hS : S.data = data.map (List.map (RCirc.eval fft I))) (hI : S.negS = I.negS)
    (hV : ∀ row rest, S.data = row :: rest → IsReduction addVec (List.replicate row.length 0) reduceV)
    (hG : ∀ row rest, S.data = row :: rest →
      IsReduction addGswVec (List.replicate row.length (RGSW.allocate n S.ctx.baseLog S.ctx.levelCount)) reduceG) :
    (S.processMulti reduceV reduceG fft (qs.map (QCirc.eval fft I))).map (fun r => (r.1, r.2.data))
      = (multiSym S.ctx data qs).eval fft I := by
  unfold Server.processMulti multiSym
  cases data with
  | nil => simp only [List.map_nil] at hS; rw [hS]; rfl
  | cons row rest =>
    simp only [List.map_cons] at hS
    have hV' := hV _ _ hS
    have hG' := hG _ _ hS
    rw [List.length_map] at hV' hG'
    rw [hS, hI]
    simp only
    have hm := mapOption_comm (f := fun q => processOneSt fft S.ctx q (row.map (RCirc.eval fft I)) I.negS)
      (fs := fun q => stSym S.ctx q row) (fun q => st_sym fft I S.ctx q row) qs
    rw [hm]
    cases hrs : mapOption (fun q => stSym S.ctx q row) qs with
    | none => rfl
    | some rs =>
      rw [hrs] at hm
      simp only [Option.map_some, Outcome.eval]
      have hsh : ∀ x ∈ (rs.map Prod.snd).map (List.map (GCirc.eval fft I)), SelShape row.length S.ctx.baseLog S.ctx.levelCount x := by
        intro x hx
        rw [← map_snd_comm (RCirc.eval fft I), List.mem_map] at hx
        obtain ⟨y, hy, rfl⟩ := hx
        obtain ⟨q, _, hq⟩ := mapOption_inv_mem hm hy
        have := processOneSt_selShape fft hq
        rwa [List.length_map] at this
      have hlen : ∀ x ∈ (List.zipWith (tmpsSym row) qs (rs.map Prod.snd)).map (List.map (RCirc.eval fft I)), x.length = row.length := by
        intro x hx
        rw [List.mem_map] at hx
        obtain ⟨y, hy, rfl⟩ := hx
        obtain ⟨i, hi, rfl⟩ := List.getElem_of_mem hy
        rw [List.length_zipWith] at hi
        rw [List.getElem_zipWith, List.length_map, tmpsSym, List.length_zipWith]
        have := (hsh _ (List.mem_map_of_mem (List.getElem_mem (l := rs.map Prod.snd) (n := i) (by omega)))).1
        rw [List.length_map] at this
        omega
      rw [map_snd_comm (RCirc.eval fft I), map_fst_comm (RCirc.eval fft I),
        zipWith_comm (fs := tmpsSym row) (ec := List.map (RCirc.eval fft I)) (fun q ls => tmps_sym fft I row q ls),
        reduceV_eq_fold hV' hlen, reduceG_eq_fold hG' hsh,
        show (List.replicate row.length (0 : RLWE n)) = (List.replicate row.length RCirc.zero).map (RCirc.eval fft I) by
          rw [List.map_replicate]; rfl,
        show (List.replicate row.length (RGSW.allocate n S.ctx.baseLog S.ctx.levelCount))
          = (List.replicate row.length (allocSym S.ctx.baseLog S.ctx.levelCount)).map (GCirc.eval fft I) by
          rw [List.map_replicate, alloc_sym],
        foldl_comm (f := addVec) (fs := List.zipWith RCirc.add) (ea := List.map (RCirc.eval fft I)) (eb := List.map (RCirc.eval fft I))
          (fun b a => zipWith_comm (f := (· + ·)) (ec := RCirc.eval fft I) (fun _ _ => by simp only [RCirc.eval]) b a),
        foldl_comm (f := addGswVec) (fs := List.zipWith GCirc.add) (ea := List.map (GCirc.eval fft I)) (eb := List.map (GCirc.eval fft I))
          (fun b a => zipWith_comm (f := RGSW.updateWithAdd) (ec := GCirc.eval fft I) (fun _ _ => by simp only [GCirc.eval]) b a),
        zip_comm, zipWith_comm (fs := fun cell (x : GCirc × RCirc) => cmuxSym x.1 cell x.2) (ec := RCirc.eval fft I)
          (fun a b => by rw [cmux_sym])]
      rfl

/-! ## process_batch -/

/-- Symbolic `cellAt`. -/
def cellSym (data : List (List RCirc)) (p : Nat × Nat) : Option RCirc :=
  match data[p.1]? with
  | none => none
  | some row => row[p.2]?

theorem cell_sym (data : List (List RCirc)) (p : Nat × Nat) :
    cellAt (data.map (List.map (RCirc.eval fft I))) p = (cellSym data p).map (RCirc.eval fft I) := by
  unfold cellAt cellSym
  rw [List.getElem?_map]
  cases data[p.1]? <;> simp

/-- Symbolic `ls[r][c]`. -/
def selSym (ls : List (List GCirc)) (p : Nat × Nat) : Option GCirc :=
  match ls[p.1]? with
  | none => none
  | some row => row[p.2]?

theorem sel_sym (ls : List (List GCirc)) (p : Nat × Nat) :
    flagProduct.cellSel (ls.map (List.map (GCirc.eval fft I))) p = (selSym ls p).map (GCirc.eval fft I) := by
  unfold flagProduct.cellSel selSym
  rw [List.getElem?_map]
  cases ls[p.1]? <;> simp

/-- Symbolic `setCell`. -/
def setSym (data : List (List RCirc)) (p : Nat × Nat) (v : RCirc) : List (List RCirc) := data.modify p.1 fun row => row.set p.2 v

theorem modify_comm {α β : Type} {f : β → β} {fs : α → α} {e : α → β} (h : ∀ a, f (e a) = e (fs a)) (l : List α) (i : Nat) :
    (l.map e).modify i f = (l.modify i fs).map e := by
  apply List.ext_getElem
  · simp
  · intro j h1 h2
    simp only [List.getElem_modify, List.getElem_map]
    split
    · exact h _
    · rfl

theorem set_sym (data : List (List RCirc)) (p : Nat × Nat) (v : RCirc) :
    setCell (data.map (List.map (RCirc.eval fft I))) p (v.eval fft I) = (setSym data p v).map (List.map (RCirc.eval fft I)) := by
  unfold setCell setSym
  exact modify_comm (fun row => by rw [List.map_set]) data p.1

/-- Symbolic `flagProduct`. -/
def flagSym (ls : List (List GCirc)) (flags : List GCirc) (p : Nat × Nat) (v : RCirc) : Option RCirc :=
  match flags[p.1]?, selSym ls p with
  | some fl, some l => some (.ext l .zero (.ext fl .zero v))
  | _, _ => none

theorem flag_sym (ls : List (List GCirc)) (flags : List GCirc) (p : Nat × Nat) (v : RCirc) :
    flagProduct fft (ls.map (List.map (GCirc.eval fft I))) (flags.map (GCirc.eval fft I)) p (v.eval fft I)
      = (flagSym ls flags p v).map (RCirc.eval fft I) := by
  unfold flagProduct flagSym
  rw [sel_sym, List.getElem?_map]
  cases flags[p.1]? <;> cases selSym ls p <;> simp [RCirc.eval]

/-- Symbolic `correctValue`. -/
def valueSym (ls : List (List GCirc)) (flags : List GCirc) (positions : List (Nat × Nat)) (vFirst : RCirc) (vs : List RCirc) : Option RCirc :=
  match mapOption (fun p => flagSym ls flags p vFirst) positions with
  | none => none
  | some [] => none
  | some (v1 :: v1s) =>
    let firstTerm := (v1 :: v1s).foldl (fun acc v => RCirc.sub acc v) vFirst
    match mapOption (fun (x : (Nat × Nat) × RCirc) => flagSym ls flags x.1 x.2) ((positions.drop 1).zip vs) with
    | none => none
    | some terms => some (.add (terms.foldl (fun acc v => RCirc.add acc v) v1) firstTerm)

theorem value_sym (ls : List (List GCirc)) (flags : List GCirc) (positions : List (Nat × Nat)) (vFirst : RCirc) (vs : List RCirc) :
    correctValue fft (ls.map (List.map (GCirc.eval fft I))) (flags.map (GCirc.eval fft I)) positions (vFirst.eval fft I)
      (vs.map (RCirc.eval fft I)) = (valueSym ls flags positions vFirst vs).map (RCirc.eval fft I) := by
  unfold correctValue valueSym
  have h1 := mapOption_comm (f := fun p => flagProduct fft (ls.map (List.map (GCirc.eval fft I))) (flags.map (GCirc.eval fft I)) p
    (vFirst.eval fft I)) (fs := fun p => flagSym ls flags p vFirst) (ea := id) (fun p => flag_sym fft I ls flags p vFirst) positions
  rw [List.map_id] at h1
  have h2 := mapOption_comm (f := fun (x : (Nat × Nat) × RLWE n) => flagProduct fft (ls.map (List.map (GCirc.eval fft I)))
    (flags.map (GCirc.eval fft I)) x.1 x.2) (fs := fun (x : (Nat × Nat) × RCirc) => flagSym ls flags x.1 x.2)
    (ea := fun x => (x.1, x.2.eval fft I)) (fun x => flag_sym fft I ls flags x.1 x.2) ((positions.drop 1).zip vs)
  have h3 : (positions.drop 1).zip (vs.map (RCirc.eval fft I)) = ((positions.drop 1).zip vs).map fun x => (x.1, x.2.eval fft I) := by
    have := zip_comm (id : Nat × Nat → Nat × Nat) (RCirc.eval fft I) (positions.drop 1) vs
    rwa [List.map_id] at this
  rw [h1, h3, h2]
  cases mapOption (fun p => flagSym ls flags p vFirst) positions with
  | none => rfl
  | some l =>
    cases l with
    | nil => rfl
    | cons v1 v1s =>
      simp only [Option.map_some, List.map_cons]
      cases mapOption (fun (x : (Nat × Nat) × RCirc) => flagSym ls flags x.1 x.2) ((positions.drop 1).zip vs) with
      | none => rfl
      | some terms =>
        simp only [Option.map_some, RCirc.eval]
        rw [foldl_comm (fs := RCirc.add) (eb := RCirc.eval fft I) (fun _ _ => by simp only [RCirc.eval]), ← List.map_cons (f := RCirc.eval fft I),
          foldl_comm (fs := RCirc.sub) (eb := RCirc.eval fft I) (fun _ _ => by simp only [RCirc.eval])]

/-- Symbolic `correctItem`. -/
def itemSym (H : NaiveHash) (cols : Nat) (ls : List (List GCirc)) (flags : List GCirc) (data : List (List RCirc)) (i : Nat) :
    Option (List (List RCirc)) :=
  match itemPositions H cols i with
  | none => none
  | some positions =>
    match mapOption (cellSym data) positions with
    | none => none
    | some [] => none
    | some (vFirst :: vs) =>
      match valueSym ls flags positions vFirst vs with
      | none => none
      | some v => some (positions.foldl (fun d p => setSym d p v) data)

theorem item_sym (H : NaiveHash) (cols : Nat) (ls : List (List GCirc)) (flags : List GCirc) (data : List (List RCirc)) (i : Nat) :
    correctItem fft H cols (ls.map (List.map (GCirc.eval fft I))) (flags.map (GCirc.eval fft I)) (data.map (List.map (RCirc.eval fft I))) i
      = (itemSym H cols ls flags data i).map (List.map (List.map (RCirc.eval fft I))) := by
  unfold correctItem itemSym correctConsistency
  cases itemPositions H cols i with
  | none => rfl
  | some positions =>
    have h1 := mapOption_comm (ea := id) (fun p => cell_sym fft I data p) positions
    rw [List.map_id] at h1
    simp only at h1 ⊢
    rw [h1]
    cases mapOption (cellSym data) positions with
    | none => rfl
    | some l =>
      cases l with
      | nil => rfl
      | cons vFirst vs =>
        simp only [Option.map_some, List.map_cons]
        rw [value_sym]
        cases valueSym ls flags positions vFirst vs with
        | none => rfl
        | some v =>
          simp only [Option.map_some]
          have := foldl_comm (f := fun d p => setCell d p (v.eval fft I)) (ea := id) (fs := fun d p => setSym d p v) (eb := List.map (List.map (RCirc.eval fft I)))
            (fun d p => set_sym fft I d p v) positions data
          rw [List.map_id] at this
          rw [← this]

/-- Symbolic `correctAll`. -/
def allSym (H : NaiveHash) (cols : Nat) (ls : List (List GCirc)) (flags : List GCirc) : List Nat → List (List RCirc) →
    Option (List (List RCirc))
  | [], data => some data
  | i :: is, data =>
    match itemSym H cols ls flags data i with
    | none => none
    | some data' => allSym H cols ls flags is data'

theorem all_sym (H : NaiveHash) (cols : Nat) (ls : List (List GCirc)) (flags : List GCirc) : ∀ (is : List Nat) (data : List (List RCirc)),
    correctAll fft H cols (ls.map (List.map (GCirc.eval fft I))) (flags.map (GCirc.eval fft I)) is (data.map (List.map (RCirc.eval fft I)))
      = (allSym H cols ls flags is data).map (List.map (List.map (RCirc.eval fft I)))
  | [], _ => rfl
  | i :: is, data => by
    rw [correctAll, allSym, item_sym]
    cases itemSym H cols ls flags data i with
    | none => rfl
    | some d => exact all_sym H cols ls flags is d

/-- Symbolic `processBatch`. -/
def batchSym (ctx : Ctx) (data : List (List RCirc)) (qs : List QCirc) (H : NaiveHash) : Outcome :=
  if qs.length = data.length then
    match mapOption (fun (x : QCirc × List RCirc) => stSym ctx x.1 x.2) (qs.zip data) with
    | none => none
    | some rs =>
      let ls := rs.map Prod.snd
      let data1 := List.zipWith (fun (x : QCirc × List RCirc) l => updateSym x.1 x.2 l) (qs.zip data) ls
      let flags := qs.map QCirc.op
      match data.head?.map List.length with
      | none => none
      | some cols =>
        if H.hCount = 0 then none
        else
          match allSym H cols ls flags (List.range (data.length * cols / H.hCount)) data1 with
          | none => none
          | some data2 => some (rs.map Prod.fst, data2)
  else none

theorem batch_sym (S : Server n) (data : List (List RCirc)) (qs : List QCirc) (H : NaiveHash)
    (hS : S.data = data.map (List.map (RCirc.eval fft I))) (hI : S.negS = I.negS) :
    (S.processBatch fft (qs.map (QCirc.eval fft I)) H).map (fun r => (r.1, r.2.data)) = (batchSym S.ctx data qs H).eval fft I := by
  unfold Server.processBatch batchSym
  rw [List.length_map, hS, List.length_map]
  by_cases hq : qs.length = data.length
  · rw [if_pos hq, if_pos hq, zip_comm,
      mapOption_comm (f := batchRow fft S) (fs := fun (x : QCirc × List RCirc) => stSym S.ctx x.1 x.2)
        (fun x => by unfold batchRow; rw [hI]; exact st_sym fft I S.ctx x.1 x.2)]
    cases mapOption (fun (x : QCirc × List RCirc) => stSym S.ctx x.1 x.2) (qs.zip data) with
    | none => rfl
    | some rs =>
      simp only [Option.map_some]
      have hc : S.cols = data.head?.map List.length := by
        unfold Server.cols
        rw [hS]
        cases data <;> simp
      rw [hc]
      cases data.head?.map List.length with
      | none => rfl
      | some cols =>
        simp only
        by_cases hh : H.hCount = 0
        · rw [if_pos hh, if_pos hh]; rfl
        · rw [if_neg hh, if_neg hh, map_snd_comm (RCirc.eval fft I), map_fst_comm (RCirc.eval fft I),
            zipWith_comm (fs := fun (x : QCirc × List RCirc) l => updateSym x.1 x.2 l) (ec := List.map (RCirc.eval fft I))
              (fun x l => update_sym fft I x.1 x.2 l),
            show (qs.map (QCirc.eval fft I)).map ClientQuery.op = (qs.map QCirc.op).map (GCirc.eval fft I) by
              rw [List.map_map, List.map_map]; rfl,
            all_sym]
          cases allSym H cols (rs.map Prod.snd) (qs.map QCirc.op) (List.range (data.length * cols / H.hCount))
            (List.zipWith (fun (x : QCirc × List RCirc) l => updateSym x.1 x.2 l) (qs.zip data) (rs.map Prod.snd)) <;> rfl
  · rw [if_neg hq, if_neg hq]; rfl

/-! ## The inputs as circuits -/

/-- The database as circuits. -/
def dataCircs (lens : List Nat) : List (List RCirc) := lens.mapIdx fun r len => (List.range len).map (RCirc.cell r)
/-- The queries as circuits. -/
def queryCircs (addrs : List Nat) : List QCirc := addrs.mapIdx fun k D => ⟨(List.range D).map (GCirc.addr k), .op k, .data k⟩

theorem dataCircs_eval (S : Server n) (qs : List (ClientQuery n)) :
    (dataCircs (S.data.map List.length)).map (List.map (RCirc.eval fft (inputsOf S qs))) = S.data := by
  apply List.ext_getElem
  · simp [dataCircs]
  · intro r h1 h2
    apply List.ext_getElem
    · simp [dataCircs]
    · intro c h3 h4
      simp only [dataCircs, List.getElem_map, List.getElem_mapIdx, List.getElem_range, RCirc.eval, inputsOf, cellAt]
      rw [List.getElem?_eq_getElem h2]
      simp only
      rw [List.getElem?_eq_getElem h4]
      rfl

theorem queryCircs_eval (S : Server n) (qs : List (ClientQuery n)) :
    (queryCircs (qs.map fun q => q.a.length)).map (QCirc.eval fft (inputsOf S qs)) = qs := by
  apply List.ext_getElem
  · simp [queryCircs]
  · intro k h1 h2
    simp only [queryCircs, List.getElem_map, List.getElem_mapIdx, QCirc.eval, RCirc.eval, GCirc.eval, inputsOf]
    rw [List.getElem?_eq_getElem h2]
    have ha : ((List.range qs[k].a.length).map (GCirc.addr k)).map (GCirc.eval fft (inputsOf S qs)) = qs[k].a := by
      apply List.ext_getElem
      · simp
      · intro b h3 h4
        simp only [List.getElem_map, List.getElem_range, GCirc.eval, inputsOf]
        rw [List.getElem?_eq_getElem h2]
        simp only [Option.bind_some]
        rw [List.getElem?_eq_getElem h4]
        rfl
    unfold inputsOf at ha
    rw [ha]
    rfl

/-- Symbolic `processOne`. -/
def oneSym (ctx : Ctx) (data : List (List RCirc)) (q : QCirc) : Outcome :=
  match data with
  | [] => none
  | row :: rest =>
    match mtSym ctx q row with
    | none => none
    | some (y, ls) => some ([y], updateSym q row ls :: rest)

theorem one_sym {reduce : List (RLWE n) → RLWE n} (hr : IsReduction (· + ·) 0 reduce) (S : Server n) (data : List (List RCirc)) (q : QCirc)
    (hS : S.data = data.map (List.map (RCirc.eval fft I))) (hI : S.negS = I.negS) :
    (S.processOne reduce fft (q.eval fft I)).map (fun r => ([r.1], r.2.data)) = (oneSym S.ctx data q).eval fft I := by
  unfold Server.processOne oneSym
  cases data with
  | nil => simp only [List.map_nil] at hS; rw [hS]; rfl
  | cons row rest =>
    rw [hS, List.map_cons, hI]
    simp only
    rw [mt_sym fft I hr]
    cases mtSym S.ctx q row with
    | none => rfl
    | some x =>
      simp only [Option.map_some, Outcome.eval]
      rw [update_sym]
      rfl

end Panacea
