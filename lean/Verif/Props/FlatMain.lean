import Verif.Spec.FlatMain
import Verif.Props.FlatOram
import Verif.Props.MeasuredMain
import Verif.Lemmas.Database

/-!
# C101: the binary in memory completes or panics exactly when the other model of it does
-/

namespace Panacea

/-! ### The set-up database has the sizes it was asked for -/

theorem dummyUnique_shape {n : Nat} {ctx : Ctx} {s : Poly n} {rows cols : Nat} {H : NaiveHash} : ∀ (is : List Nat) (db : List (List (RLWE n))) (g : Gen n)
    (pts : List (Poly n)) (db' : List (List (RLWE n))) (g' : Gen n), DbShape rows cols db → dummyUnique ctx s rows cols H is db g = some (pts, db', g') →
    DbShape rows cols db'
  | [], db, g, pts, db', g', hd, h => by
    rw [dummyUnique] at h; cases h; exact hd
  | i :: is, db, g, pts, db', g', hd, h => by
    rw [dummyUnique] at h
    split at h
    · cases h
    · split at h
      · split at h
        · cases h
        · split at h
          · cases h
          · rename_i e
            cases h
            exact dummyUnique_shape is _ _ _ _ _ (setCell_shape hd _ _) e
      · cases h

theorem dummyRest_shape {n rows cols : Nat} {H : NaiveHash} {pts : List (Poly n)} : ∀ (is : List Nat) (db : List (List (RLWE n)))
    (rest : List (Poly n)) (db' : List (List (RLWE n))), DbShape rows cols db → dummyRest cols H pts is db = some (rest, db') → DbShape rows cols db'
  | [], db, rest, db', hd, h => by
    rw [dummyRest] at h; cases h; exact hd
  | i :: is, db, rest, db', hd, h => by
    rw [dummyRest] at h
    split at h
    · split at h
      · cases h
      · split at h
        · cases h
        · split at h
          · cases h
          · rename_i e
            cases h
            exact dummyRest_shape is _ _ _ (setCell_shape hd _ _) e
    · cases h

theorem dummyCopy_shape {n rows cols : Nat} {H : NaiveHash} {i : Nat} : ∀ (hs : List Nat) (db db' : List (List (RLWE n))),
    DbShape rows cols db → dummyCopy rows cols H i hs db = some db' → DbShape rows cols db'
  | [], db, db', hd, h => by
    rw [dummyCopy] at h; cases h; exact hd
  | k :: hs, db, db', hd, h => by
    rw [dummyCopy] at h
    split at h
    · split at h
      · split at h
        · cases h
        · exact dummyCopy_shape hs _ _ (setCell_shape hd _ _) h
      · cases h
    · cases h

theorem dummyCopies_shape {n rows cols : Nat} {H : NaiveHash} : ∀ (is : List Nat) (db db' : List (List (RLWE n))),
    DbShape rows cols db → dummyCopies rows cols H is db = some db' → DbShape rows cols db'
  | [], db, db', hd, h => by
    rw [dummyCopies] at h; cases h; exact hd
  | i :: is, db, db', hd, h => by
    rw [dummyCopies] at h
    split at h
    · cases h
    · rename_i e
      exact dummyCopies_shape is _ _ (dummyCopy_shape _ _ _ hd e) h

/-- Whatever the hash table, a set-up server has `rows` rows of `cols` cells. -/
theorem setupRandomOram_shape {n : Nat} {ctx : Ctx} {s : Poly n} {rows cols : Nat} {H : NaiveHash} {g g' : Gen n} {S : Server n} {pts : List (Poly n)}
    (h : setupRandomOram ctx s rows cols H g = some (S, pts, g')) : DbShape rows cols S.data ∧ S.ctx = ctx := by
  unfold setupRandomOram at h
  split at h
  · split at h
    · cases h
    · split at h
      · cases h
      · rename_i e
        cases h
        refine ⟨?_, rfl⟩
        unfold genDummyDatabase at e
        split at e
        · cases e
        · dsimp only at e
          split at e
          · cases e
          · rename_i e1
            split at e
            · cases e
            · rename_i e2
              split at e
              · cases e
              · rename_i e3
                cases e
                exact dummyCopies_shape _ _ _ (dummyRest_shape _ _ _ _ (dummyUnique_shape _ _ _ _ _ _
                  ⟨by simp, fun row hrow => by rw [List.eq_of_mem_replicate hrow]; simp⟩ e1) e2) e3
  · cases h

namespace Flat
variable {n : Nat}

/-! ### Checks -/

theorem multiCheck_out (ctx : Ctx) (s : Poly n) (pts : List (Poly n)) (ys : List (RLWE n)) : ∀ (is : List Nat) (pt : Words), pt.length = n →
    multiCheck ctx s (pts.map out) (ys.map outRlwe) is pt = is.all (Panacea.multiCheck ctx s pts ys)
  | [], _, _ => rfl
  | i :: is, pt, hpt => by
    rw [multiCheck, List.all_cons, List.getElem?_map]
    unfold Panacea.multiCheck
    cases ys[i]? with
    | none => rfl
    | some y =>
      simp only [Option.map_some, List.getElem?_map, decryptDecode_out ctx s hpt y]
      cases pts[i + 1]? with
      | none => rfl
      | some p =>
        simp only [Option.map_some]
        by_cases hp : p = Panacea.decryptDecodeRlwe ctx s y
        · rw [if_pos (by rw [hp]), decide_eq_true hp, Bool.true_and]
          exact multiCheck_out ctx s pts ys is _ (length_out _)
        · rw [if_neg (fun h => hp (out_inj h)), decide_eq_false hp, Bool.false_and]

theorem batchCheck_out (ctx : Ctx) (s : Poly n) (pts : List (Poly n)) (indices : List Nat) (ys : List (RLWE n)) :
    ∀ (es : List (Nat × Nat × Nat)) (pt : Words), pt.length = n →
    (batchCheck ctx s (pts.map out) indices (ys.map outRlwe) es pt = true ↔
      ∀ r c i, (r, c, i) ∈ es → ∃ y j p, ys[r]? = some y ∧ indices[i]? = some j ∧ pts[j]? = some p ∧ p = Panacea.decryptDecodeRlwe ctx s y)
  | [], _, _ => by simp [batchCheck]
  | (r, c, i) :: es, pt, hpt => by
    have hsplit : (∀ r' c' i', (r', c', i') ∈ (r, c, i) :: es → ∃ y j p, ys[r']? = some y ∧ indices[i']? = some j ∧ pts[j]? = some p ∧
          p = Panacea.decryptDecodeRlwe ctx s y) ↔
        (∃ y j p, ys[r]? = some y ∧ indices[i]? = some j ∧ pts[j]? = some p ∧ p = Panacea.decryptDecodeRlwe ctx s y) ∧
        ∀ r' c' i', (r', c', i') ∈ es → ∃ y j p, ys[r']? = some y ∧ indices[i']? = some j ∧ pts[j]? = some p ∧
          p = Panacea.decryptDecodeRlwe ctx s y := by
      constructor
      · intro h
        exact ⟨h r c i (by simp), fun r' c' i' h' => h r' c' i' (List.mem_cons_of_mem _ h')⟩
      · rintro ⟨h1, h2⟩ r' c' i' h'
        rcases List.mem_cons.mp h' with e | h'
        · cases e; exact h1
        · exact h2 r' c' i' h'
    rw [hsplit, batchCheck, List.getElem?_map]
    cases hy : ys[r]? with
    | none => simp
    | some y =>
      simp only [Option.map_some]
      cases hj : indices[i]? with
      | none => simp
      | some j =>
        simp only [List.getElem?_map, decryptDecode_out ctx s hpt y]
        cases hp0 : pts[j]? with
        | none => simp [hp0]
        | some p =>
          simp only [Option.map_some]
          by_cases hp : p = Panacea.decryptDecodeRlwe ctx s y
          · rw [if_pos (by rw [hp]), batchCheck_out ctx s pts indices ys es _ (length_out _)]
            constructor
            · exact fun h => ⟨⟨y, j, p, rfl, rfl, hp0, hp⟩, h⟩
            · exact fun h => h.2
          · rw [if_neg (fun h => hp (out_inj h))]
            refine ⟨fun h => absurd h (by decide), fun h => ?_⟩
            obtain ⟨⟨y', j', p', a1, a2, a3, a4⟩, _⟩ := h
            cases a1; cases a2
            rw [hp0] at a3
            cases a3
            exact absurd a4 hp

/-! ### Iterations -/

/-- The memory image of the state of a benchmark loop. -/
def outState (st : Panacea.RunState n) : RunState n := (outServer st.1, st.2)

theorem iterM_out {σ τ : Type} {φ : τ → σ} {f : Nat → σ → Option σ} {f' : Nat → τ → Option τ} {I : τ → Prop}
    (h : ∀ k st, I st → f k (φ st) = (f' k st).map φ) (hI : ∀ k st st', I st → f' k st = some st' → I st') :
    ∀ (ks : List Nat) (st : τ), I st → iterM f ks (φ st) = (iterM f' ks st).map φ
  | [], st, _ => rfl
  | k :: ks, st, hst => by
    rw [iterM, iterM, h k st hst]
    cases e : f' k st with
    | none => rfl
    | some st' => exact iterM_out h hI ks st' (hI k st st' hst e)

/-- The state of the server during a loop: `cols` columns, the parameters of the context. -/
def Sized (ctx : Ctx) (cols : Nat) (st : Panacea.RunState n) : Prop := (∀ k, st.1.cols = some k → k = cols) ∧ st.1.ctx = ctx

theorem singleIter_out (hn : 0 < n) {E : Env n} {E' : Panacea.Env n} (hE : E.Same E') {ctx : Ctx} {cols : Nat} (hred : E.Possible ctx cols)
    (hred' : ∀ k, (E'.red k).Valid ctx cols) (H : NaiveHash) (pts : List (Poly n)) (k : Nat) (st : Panacea.RunState n) :
    singleIter E ctx cols H (pts.map out) k (outState st) = (Panacea.singleIter E' ctx cols H pts k st).map outState := by
  have hs : E.s = out E'.s := storesPoly_iff.1 hE.key
  have hq := clientQuery_out ctx E'.s 1 cols H (.read 0 : Cmd n) st.2.1
  rw [show clientQuery ctx E'.s 1 cols H (.read 0 : Cmd n) st.2.1 = genReadQueryOne ctx E'.s 1 cols H 0 st.2.1 from rfl,
    show Panacea.clientQuery ctx E'.s 1 cols H (.read 0 : Cmd n) st.2.1 = Panacea.genReadQueryOne ctx E'.s 1 cols H 0 st.2.1 from rfl] at hq
  unfold singleIter Panacea.singleIter
  rw [hs, poly_out, show (outState st).2 = st.2 from rfl, hq]
  cases Panacea.genReadQueryOne ctx E'.s 1 cols H 0 st.2.1 with
  | none => rfl
  | some x =>
    obtain ⟨q, g1⟩ := x
    simp only [Option.map_some]
    have e := processOne_out hn (hred.red k).one (hred' k).one E'.fft st.1 q
    rw [show (E.red k).one = E.redOne k from rfl] at e
    rw [show (outState st).1 = outServer st.1 from rfl, hE.fft, e]
    cases st.1.processOne (E'.red k).one E'.fft q with
    | none => rfl
    | some y =>
      obtain ⟨y, S⟩ := y
      simp only [Option.map_some, List.getElem?_map, decryptDecode_out ctx E'.s (List.length_replicate ..) y]
      cases pts[0]? with
      | none => rfl
      | some p =>
        simp only [Option.map_some]
        by_cases hp : p = Panacea.decryptDecodeRlwe ctx E'.s y
        · rw [if_pos (by rw [hp]), if_pos hp]; rfl
        · rw [if_neg (fun h => hp (out_inj h)), if_neg hp]; rfl

theorem multiIter_out (hn : 0 < n) {E : Env n} {E' : Panacea.Env n} (hE : E.Same E') {ctx : Ctx} {cols : Nat} (hred : E.Possible ctx cols)
    (hred' : ∀ k, (E'.red k).Valid ctx cols) (qc : Nat) (H : NaiveHash) (pts : List (Poly n)) (k : Nat) (st : Panacea.RunState n)
    (hst : Sized ctx cols st) :
    multiIter E ctx cols qc H (pts.map out) k (outState st) = (Panacea.multiIter E' ctx cols qc H pts k st).map outState := by
  have hs : E.s = out E'.s := storesPoly_iff.1 hE.key
  have hq : ∀ (i : Nat) (g : Gen n), genReadQueryOne ctx E'.s 1 cols H (i + 1) g
      = (Panacea.genReadQueryOne ctx E'.s 1 cols H (i + 1) g).map fun x => (outQuery x.1, x.2) :=
    fun i g => clientQuery_out ctx E'.s 1 cols H (.read (i + 1) : Cmd n) g
  unfold multiIter Panacea.multiIter
  rw [hs, poly_out, show (outState st).2 = st.2 from rfl,
    collect_eq_mapGenM (eb := outQuery) (F := fun i => Panacea.genReadQueryOne ctx E'.s 1 cols H (i + 1))
      hq]
  cases mapGenM (fun i => Panacea.genReadQueryOne ctx E'.s 1 cols H (i + 1)) (List.range qc) st.2.1 with
  | none => rfl
  | some x =>
    obtain ⟨qs, g1⟩ := x
    simp only [Option.map_some]
    have e := processMulti_out hn (reduceV := (E.red k).vec) (reduceG := (E.red k).gsw) (reduceV' := (E'.red k).vec) (reduceG' := (E'.red k).gsw) st.1
      (fun j h => by rw [hst.1 j h]; exact (hred.red k).vec) (fun j h => by rw [hst.1 j h, hst.2]; exact (hred.red k).gsw)
      (fun j h => by rw [hst.1 j h]; exact (hred' k).vec) (fun j h => by rw [hst.1 j h, hst.2]; exact (hred' k).gsw) E'.fft qs
    rw [show (E.red k).vec = E.redVec k from rfl, show (E.red k).gsw = E.redGsw k from rfl] at e
    rw [show (outState st).1 = outServer st.1 from rfl, hE.fft, e]
    cases st.1.processMulti (E'.red k).vec (E'.red k).gsw E'.fft qs with
    | none => rfl
    | some y =>
      obtain ⟨ys, S⟩ := y
      simp only [Option.map_some]
      rw [multiCheck_out ctx E'.s pts ys _ _ (List.length_replicate ..)]
      split <;> rfl

theorem batchIter_out (hn : 0 < n) {E : Env n} {E' : Panacea.Env n} (hE : E.Same E') {ctx : Ctx} {cols : Nat} (hred : E.Possible ctx cols)
    (rows : Nat) (H : NaiveHash) (pts : List (Poly n)) (st : Panacea.RunState n) :
    batchIter E ctx rows cols H (pts.map out) (outState st) = (Panacea.batchIter E' ctx rows cols H pts st).map outState := by
  have hs : E.s = out E'.s := storesPoly_iff.1 hE.key
  unfold batchIter Panacea.batchIter
  dsimp only
  rw [hs, poly_out, show (outState st).2 = st.2 from rfl, genReadQueryBatch_out]
  cases Panacea.genReadQueryBatch ctx E'.s rows cols H [0, 1] st.2.1 with
  | none => rfl
  | some x =>
    obtain ⟨qs, g1⟩ := x
    simp only [Option.map_some]
    rw [show (outState st).1 = outServer st.1 from rfl, hE.fft, processBatch_out hn]
    cases st.1.processBatch E'.fft qs H with
    | none => rfl
    | some y =>
      obtain ⟨ys, S⟩ := y
      simp only [Option.map_some]
      cases hm : H.hashToMapping [0, 1] cols with
      | none => rfl
      | some m =>
        simp only
        have hcheck := batchCheck_out ctx E'.s pts [0, 1] ys (E.entries m) (List.replicate n 0) (List.length_replicate ..)
        have hiff : (batchCheck ctx E'.s (pts.map out) [0, 1] (ys.map outRlwe) (E.entries m) (List.replicate n 0) = true) ↔
            BatchCheck ctx E'.s pts [0, 1] m ys := by
          rw [hcheck]
          unfold BatchCheck
          exact forall_congr' fun r => forall_congr' fun c => forall_congr' fun i => by rw [hred.entries H [0, 1] cols m hm r c i]
        by_cases hb : BatchCheck ctx E'.s pts [0, 1] m ys
        · rw [if_pos (hiff.2 hb), if_pos hb]; rfl
        · rw [if_neg (fun h => hb (hiff.1 h)), if_neg hb]; rfl

theorem multiIter_sized (hn : 0 < n) {E' : Panacea.Env n} {ctx : Ctx} {cols : Nat} (hred' : ∀ k, (E'.red k).Valid ctx cols) {qc : Nat}
    {H : NaiveHash} {pts : List (Poly n)} {k : Nat} {st st' : Panacea.RunState n} (hst : Sized ctx cols st)
    (h : Panacea.multiIter E' ctx cols qc H pts k st = some st') : Sized ctx cols st' := by
  unfold Panacea.multiIter at h
  split at h
  · cases h
  · rename_i qs g1 _
    have e := processMulti_out hn (reduceV := (foldFlat n ctx cols).vec) (reduceG := (foldFlat n ctx cols).gsw) (reduceV' := (E'.red k).vec)
      (reduceG' := (E'.red k).gsw) st.1
      (fun j h => by rw [hst.1 j h]; exact (foldFlat_valid ctx cols).vec) (fun j h => by rw [hst.1 j h, hst.2]; exact (foldFlat_valid ctx cols).gsw)
      (fun j h => by rw [hst.1 j h]; exact (hred' k).vec) (fun j h => by rw [hst.1 j h, hst.2]; exact (hred' k).gsw) E'.fft qs
    split at h
    · cases h
    · rename_i ys S hp
      split at h
      · cases h
        rw [hp] at e
        obtain ⟨h1, h2⟩ := processMulti_shape e
        refine ⟨fun j hj => hst.1 j ?_, ?_⟩
        · have a1 : colsOf (outServer S).data = S.cols := colsOf_out S.data
          have a2 : colsOf (outServer st.1).data = st.1.cols := colsOf_out st.1.data
          rw [← a2, ← h1, a1]
          exact hj
        · have h3 : S.ctx = st.1.ctx := h2
          rw [h3]
          exact hst.2
      · cases h

/-! ### Modes -/

/-- The key of the server fits the word: the condition under which setting up in memory is the same (it fails only for parameters for which the
shift of the key encryption overflows). -/
def Fits (ctx : Ctx) : Prop := 0 < ctx.baseLog ∧ ctx.baseLog * ctx.negsLevelCount ≤ 64

theorem setup_same (hn : 0 < n) {E : Env n} {E' : Panacea.Env n} (hE : E.Same E') {ctx : Ctx} (hfit : Fits ctx) (rows cols : Nat) (H : NaiveHash) :
    setupRandomOram ctx E.s rows cols H E.g
      = (Panacea.setupRandomOram ctx E'.s rows cols H E'.g).map fun x => (outServer x.1, x.2.1.map out, x.2.2) := by
  rw [storesPoly_iff.1 hE.key, hE.g, setup_out hn ctx E'.s rows cols H E'.g hfit.1 hfit.2]

theorem singleQuery_out (hn : 0 < n) {E : Env n} {E' : Panacea.Env n} (hE : E.Same E') {octx : Option Ctx} {cols : Nat}
    (hctx : ∀ ctx, octx = some ctx → Fits ctx ∧ E.Possible ctx cols ∧ ∀ k, (E'.red k).Valid ctx cols) (iterations : Nat) (dryrun : Bool) :
    singleQuery E octx cols iterations dryrun = Panacea.singleQuery E' octx cols iterations dryrun := by
  unfold singleQuery Panacea.singleQuery
  split
  · cases log2 cols with
    | none => rfl
    | some l =>
      simp only
      cases dryrun with
      | true => rfl
      | false =>
        simp only [Bool.false_eq_true, if_false]
        rw [hE.shuffle]
        cases NaiveHash.new E'.shuffle 1 cols with
        | none => rfl
        | some H =>
          cases octx with
          | none => rfl
          | some ctx =>
            obtain ⟨hfit, hpos, hred'⟩ := hctx ctx rfl
            simp only
            rw [setup_same hn hE hfit]
            cases hset : Panacea.setupRandomOram ctx E'.s 1 cols H E'.g with
            | none => rfl
            | some x =>
              obtain ⟨S, pts, g⟩ := x
              simp only [Option.map_some]
              have e := iterM_out (φ := outState) (f := singleIter E ctx cols H (pts.map out)) (f' := Panacea.singleIter E' ctx cols H pts)
                (I := fun _ => True) (fun k st _ => singleIter_out hn hE hpos hred' H pts k st) (fun _ _ _ _ _ => trivial)
                (List.range iterations) (S, g, 0) trivial
              rw [show ((outServer S, g, 0) : RunState n) = outState (S, g, 0) from rfl, e]
              cases iterM (Panacea.singleIter E' ctx cols H pts) (List.range iterations) (S, g, 0) with
              | none => rfl
              | some st => rfl
  · rfl

theorem multiQuery_out (hn : 0 < n) {E : Env n} {E' : Panacea.Env n} (hE : E.Same E') {octx : Option Ctx} {cols : Nat}
    (hctx : ∀ ctx, octx = some ctx → Fits ctx ∧ E.Possible ctx cols ∧ ∀ k, (E'.red k).Valid ctx cols) (qc iterations : Nat) (dryrun : Bool) :
    multiQuery E octx cols qc iterations dryrun = Panacea.multiQuery E' octx cols qc iterations dryrun := by
  unfold multiQuery Panacea.multiQuery
  split
  · cases log2 cols with
    | none => rfl
    | some l =>
      simp only
      cases dryrun with
      | true => rfl
      | false =>
        simp only [Bool.false_eq_true, if_false]
        rw [hE.shuffle]
        cases NaiveHash.new E'.shuffle 1 cols with
        | none => rfl
        | some H =>
          cases octx with
          | none => rfl
          | some ctx =>
            obtain ⟨hfit, hpos, hred'⟩ := hctx ctx rfl
            simp only
            rw [setup_same hn hE hfit]
            cases hset : Panacea.setupRandomOram ctx E'.s 1 cols H E'.g with
            | none => rfl
            | some x =>
              obtain ⟨S, pts, g⟩ := x
              simp only [Option.map_some, List.length_map]
              split
              · obtain ⟨hsh, hS⟩ := setupRandomOram_shape hset
                have hsized : Sized ctx cols (S, g, 0) := by
                  refine ⟨fun k hk => ?_, hS⟩
                  unfold Panacea.Server.cols at hk
                  rcases hd : S.data with _ | ⟨row, rest⟩
                  · simp only at hk; rw [hd] at hk; cases hk
                  · simp only at hk; rw [hd] at hk
                    have hrow := hsh.2 row (by rw [hd]; simp)
                    simp only [List.head?_cons, Option.map_some, Option.some.injEq] at hk
                    omega
                have e := iterM_out (φ := outState) (f := multiIter E ctx cols qc H (pts.map out)) (f' := Panacea.multiIter E' ctx cols qc H pts)
                  (I := Sized ctx cols) (fun k st hst => multiIter_out hn hE hpos hred' qc H pts k st hst)
                  (fun k st st' hst h => multiIter_sized hn hred' hst h) (List.range iterations) (S, g, 0) hsized
                rw [show ((outServer S, g, 0) : RunState n) = outState (S, g, 0) from rfl, e]
                cases iterM (Panacea.multiIter E' ctx cols qc H pts) (List.range iterations) (S, g, 0) with
                | none => rfl
                | some st => rfl
              · rfl
  · rfl

theorem batchQuery_out (hn : 0 < n) {E : Env n} {E' : Panacea.Env n} (hE : E.Same E') {octx : Option Ctx} {rows cols : Nat}
    (hctx : ∀ ctx, octx = some ctx → Fits ctx ∧ E.Possible ctx cols) (iterations : Nat) (dryrun : Bool) :
    batchQuery E octx rows cols iterations dryrun = Panacea.batchQuery E' octx rows cols iterations dryrun := by
  unfold batchQuery Panacea.batchQuery
  split
  · dsimp only
    cases log2 (rows * cols / 3) with
    | none => rfl
    | some l =>
      simp only
      cases dryrun with
      | true => rfl
      | false =>
        simp only [Bool.false_eq_true, if_false]
        rw [hE.shuffle]
        cases NaiveHash.new E'.shuffle 3 (rows * cols / 3) with
        | none => rfl
        | some H =>
          cases octx with
          | none => rfl
          | some ctx =>
            obtain ⟨hfit, hpos⟩ := hctx ctx rfl
            simp only
            rw [setup_same hn hE hfit]
            cases hset : Panacea.setupRandomOram ctx E'.s rows cols H E'.g with
            | none => rfl
            | some x =>
              obtain ⟨S, pts, g⟩ := x
              simp only [Option.map_some]
              have e := iterM_out (φ := outState) (f := fun _ => batchIter E ctx rows cols H (pts.map out))
                (f' := fun _ => Panacea.batchIter E' ctx rows cols H pts)
                (I := fun _ => True) (fun k st _ => batchIter_out hn hE hpos rows H pts st) (fun _ _ _ _ _ => trivial)
                (List.range iterations) (S, g, 0) trivial
              rw [show ((outServer S, g, 0) : RunState n) = outState (S, g, 0) from rfl, e]
              cases iterM (fun _ => Panacea.batchIter E' ctx rows cols H pts) (List.range iterations) (S, g, 0) with
              | none => rfl
              | some st => rfl
  · rfl

/-! ### The binary -/

/-- **C101** (one parameter set) With the same shuffle, key, random streams and Fourier rounding, and any possible reductions and visiting orders on
either side, a run of the binary in memory panics exactly when the run of the other model does, and otherwise prints as many lines. -/
theorem C101_run {F : Type} {E : (n : Nat) → Env n} {E' : (n : Nat) → Panacea.Env n} {p : ServerParams F} (hn : 0 < p.tfhe.polynomialSize)
    (hbl : 0 < p.tfhe.baseLog) (hneg : p.tfhe.baseLog * p.tfhe.negsLevelCount ≤ 64) (hE : (E p.tfhe.polynomialSize).Same (E' p.tfhe.polynomialSize))
    (hctx : ∀ ctx, Ctx.ofParams p.tfhe = some ctx →
      (E p.tfhe.polynomialSize).Possible ctx p.oram.columns ∧ ∀ k, ((E' p.tfhe.polynomialSize).red k).Valid ctx p.oram.columns) (dryrun : Bool) :
    runParams E dryrun p = Panacea.runParams E' dryrun p := by
  have hc : ∀ ctx, Ctx.ofParams p.tfhe = some ctx → Fits ctx ∧ (E p.tfhe.polynomialSize).Possible ctx p.oram.columns ∧
      ∀ k, ((E' p.tfhe.polynomialSize).red k).Valid ctx p.oram.columns := by
    intro ctx h
    refine ⟨?_, hctx ctx h⟩
    unfold Ctx.ofParams at h
    split at h
    · cases h
    · cases h
      exact ⟨hbl, hneg⟩
  unfold runParams Panacea.runParams
  cases log2 p.tfhe.plaintextModulus with
  | none => rfl
  | some l =>
    simp only
    rcases ho : p.oram with ⟨ic, it⟩ | ⟨ic, qc, it⟩ | ⟨rows, cols, it⟩
    · rw [ho] at hc
      exact singleQuery_out hn hE hc it dryrun
    · rw [ho] at hc
      exact multiQuery_out hn hE hc qc it dryrun
    · rw [ho] at hc
      exact batchQuery_out hn hE (fun ctx h => ⟨(hc ctx h).1, (hc ctx h).2.1⟩) it dryrun

/-- **C101** (all parameter sets) The same for the whole binary: the total number of lines, or a panic in the same cases. -/
theorem C101_main {F : Type} (dryrun : Bool) : ∀ (xs : List ((((n : Nat) → Env n) × ((n : Nat) → Panacea.Env n)) × ServerParams F)),
    (∀ x ∈ xs, 0 < x.2.tfhe.polynomialSize ∧ 0 < x.2.tfhe.baseLog ∧ x.2.tfhe.baseLog * x.2.tfhe.negsLevelCount ≤ 64 ∧
      (x.1.1 x.2.tfhe.polynomialSize).Same (x.1.2 x.2.tfhe.polynomialSize) ∧
      ∀ ctx, Ctx.ofParams x.2.tfhe = some ctx → (x.1.1 x.2.tfhe.polynomialSize).Possible ctx x.2.oram.columns ∧
        ∀ k, ((x.1.2 x.2.tfhe.polynomialSize).red k).Valid ctx x.2.oram.columns) →
    runAll dryrun (xs.map fun x => (x.1.1, x.2)) = Panacea.runAll dryrun (xs.map fun x => (x.1.2, x.2))
  | [], _ => rfl
  | x :: xs, h => by
    obtain ⟨h1, h2, h3, h4, h5⟩ := h x (by simp)
    rw [List.map_cons, List.map_cons, runAll, Panacea.runAll, C101_run h1 h2 h3 h4 h5,
      C101_main dryrun xs fun y hy => h y (by simp [hy])]
    rfl

/-- The environment of the other model with the same random choices and left folds as reductions. -/
def Env.fair (ctx : Ctx) (cols : Nat) (E : Env n) : Panacea.Env n := ⟨E.shuffle, poly n E.s, E.g, E.fft, fun _ => foldReducer n ctx cols⟩

/-- **C101** (the repository's params.json, in memory, end to end) For every shuffle, every binary key with at most one 1, all masks, noise of at most 1
per coefficient, exact Fourier products, and any possible outcome of the parallel reductions and visiting order of the hash maps: the binary, run on
word vectors with the repository's params.json, passes all its assertions and completes its seven runs. -/
theorem C101_params_json {F : Type} (mk : List Char → Option F) (ofInt : Int → F) (m55 : F) (cli : Cli F)
    (hmk : mk ['-', '5', '5', '.', '0'] = some m55) (xs : List (((n : Nat) → Env n) × ServerParams F))
    (hxs : xs.map Prod.snd = textParams mk ofInt m55 cli (some repoParamsText))
    (h : ∀ x ∈ xs, (x.1 2048).Possible defaultCtx x.2.oram.columns ∧ (∀ l, ((x.1 2048).shuffle l).Perm l) ∧
      (∃ s : Poly 2048, StoresPoly (x.1 2048).s s ∧ Binary s ∧ l1 s ≤ 1) ∧ (x.1 2048).g.Bounded 1 ∧ (x.1 2048).fft.Bounded 0) :
    runAll false xs = some 7 := by
  have hrepo := (C87_repo_params mk ofInt m55 cli hmk).2
  have htf : ∀ x ∈ xs, x.2.tfhe = TFHEParameters.default' m55 := by
    intro x hx
    have hin := List.mem_map_of_mem (f := Prod.snd) hx
    rw [hxs, hrepo, List.mem_map] at hin
    obtain ⟨o, _, e⟩ := hin
    rw [← e]
  let ys := xs.map fun x => ((x.1, fun n => (x.1 n).fair ((Ctx.ofParams x.2.tfhe).getD defaultCtx) x.2.oram.columns), x.2)
  have e1 : ys.map (fun x => (x.1.1, x.2)) = xs := by
    simp only [ys, List.map_map]; exact List.map_id xs
  have hsame : ∀ x ∈ xs, ∃ s : Poly 2048, (x.1 2048).s = out s ∧ Binary s ∧ l1 s ≤ 1 := by
    intro x hx
    obtain ⟨_, _, ⟨s, a, b, c⟩, _⟩ := h x hx
    exact ⟨s, storesPoly_iff.1 a, b, c⟩
  have hmain := C101_main false ys (by
    intro y hy
    obtain ⟨x, hx, rfl⟩ := List.mem_map.mp hy
    have ht := htf x hx
    obtain ⟨s, hs, _⟩ := hsame x hx
    simp only
    rw [ht]
    refine ⟨(by show 0 < 2048; decide), (by show 0 < 5; decide), (by show 5 * 11 ≤ 64; decide), ⟨rfl, ?_, rfl, rfl⟩, fun ctx hctx => ?_⟩
    · show StoresPoly (x.1 2048).s (poly 2048 (x.1 2048).s)
      rw [hs, poly_out]
      exact storesPoly_iff.2 rfl
    · rw [defaultCtx_ofParams m55] at hctx ⊢
      cases hctx
      exact ⟨(h x hx).1, fun _ => foldReducer_valid _ _⟩)
  rw [e1] at hmain
  rw [hmain]
  refine C93_params_json_sparse mk ofInt m55 cli hmk _ ?_ ?_
  · rw [← hxs]
    simp only [ys, List.map_map]
    rfl
  · intro z hz
    obtain ⟨y, hy, rfl⟩ := List.mem_map.mp hz
    obtain ⟨x, hx, rfl⟩ := List.mem_map.mp hy
    obtain ⟨s, hs, hbin, hl1⟩ := hsame x hx
    obtain ⟨_, a2, _, a4, a5⟩ := h x hx
    have hp : poly 2048 (x.1 2048).s = s := by rw [hs, poly_out]
    have hctx : (Ctx.ofParams x.2.tfhe).getD defaultCtx = defaultCtx := by rw [htf x hx, defaultCtx_ofParams m55]; rfl
    simp only
    rw [hctx]
    unfold Env.fair
    rw [hp]
    exact ⟨⟨a2, hbin, a4, fun _ => foldReducer_valid _ _⟩, hl1, a5⟩

/-! ### The hypotheses hold: visiting orders exist, and a concrete run with the repository's params.json -/

theorem mapOne_finite {H : NaiveHash} {d i : Nat} : ∀ (hs : List Nat) (m m' : NaiveHash.Mapping), {r | m r ≠ none}.Finite →
    H.mapOne d i hs m = some m' → {r | m' r ≠ none}.Finite
  | [], m, m', hm, h => by
    rw [NaiveHash.mapOne] at h; cases h; exact hm
  | k :: hs, m, m', hm, h => by
    rw [NaiveHash.mapOne] at h
    split at h
    · cases h
    · rename_i r c _
      split at h
      · cases h
        refine (hm.insert r).subset fun x hx => ?_
        by_cases e : x = r
        · exact Or.inl e
        · refine Or.inr ?_
          have hx' : (m.insert r (c, i)) x ≠ none := hx
          rw [NaiveHash.Mapping.insert, if_neg e] at hx'
          exact hx'
      · split at h
        · cases h
        · exact mapOne_finite hs m m' hm h

theorem mapAll_finite {H : NaiveHash} {d : Nat} : ∀ (is : List Nat) (m m' : NaiveHash.Mapping), {r | m r ≠ none}.Finite →
    H.mapAll d is m = some m' → {r | m' r ≠ none}.Finite
  | [], m, m', hm, h => by
    rw [NaiveHash.mapAll] at h; cases h; exact hm
  | i :: is, m, m', hm, h => by
    rw [NaiveHash.mapAll] at h
    split at h
    · cases h
    · rename_i m1 e
      exact mapAll_finite is m1 m' (mapOne_finite _ _ _ hm e) h

open Classical in
/-- Some enumeration of the entries of a finite mapping. -/
noncomputable def someEntries (m : NaiveHash.Mapping) : List (Nat × Nat × Nat) :=
  if h : {r | m r ≠ none}.Finite then h.toFinset.toList.filterMap fun r => (m r).map fun v => (r, v) else []

theorem mem_someEntries {H : NaiveHash} {is : List Nat} {d : Nat} {m : NaiveHash.Mapping} (hm : H.hashToMapping is d = some m) (r c i : Nat) :
    (r, c, i) ∈ someEntries m ↔ m r = some (c, i) := by
  have hf : {r | m r ≠ none}.Finite := mapAll_finite is _ m (by simp) hm
  unfold someEntries
  rw [dif_pos hf]
  simp only [List.mem_filterMap, Finset.mem_toList, Set.Finite.mem_toFinset]
  constructor
  · rintro ⟨r', _, h⟩
    rw [Option.map_eq_some_iff] at h
    obtain ⟨v, hv, e⟩ := h
    cases e
    exact hv
  · intro h
    refine ⟨r, ?_, ?_⟩
    · show m r ≠ none
      rw [h]; simp
    · rw [h]; rfl

/-- A concrete environment in memory: the table reversed, the key `X`, masks and noise of `smallGen`, an exact Fourier transform, left folds as
reductions, and some visiting order. -/
noncomputable def smallFlatEnv (cols : Nat) : (n : Nat) → Env n := fun n =>
  if h : n = 2048 then h ▸ (⟨List.reverse, out oneKey, smallGen, ⟨fun _ => 0⟩, fun _ => (foldFlat 2048 defaultCtx cols).one,
    fun _ => (foldFlat 2048 defaultCtx cols).vec, fun _ => (foldFlat 2048 defaultCtx cols).gsw, someEntries⟩ : Env 2048)
  else ⟨id, [], ⟨fun _ => 0, fun _ => 0, fun _ => 0, 0⟩, ⟨fun _ => 0⟩, fun _ _ => none, fun _ _ => none, fun _ _ => none, fun _ => []⟩

theorem storesPoly_out (s : Poly n) : StoresPoly (out s) s := storesPoly_iff.2 rfl

/-- **C101** The hypotheses of `C101_params_json` hold for this environment: with it the binary completes the seven runs of params.json in memory. -/
theorem C101_params_json_witness {F : Type} (mk : List Char → Option F) (ofInt : Int → F) (m55 : F) (cli : Cli F)
    (hmk : mk ['-', '5', '5', '.', '0'] = some m55) :
    runAll false ((textParams mk ofInt m55 cli (some repoParamsText)).map fun p => (smallFlatEnv p.oram.columns, p)) = some 7 := by
  refine C101_params_json mk ofInt m55 cli hmk _ ?_ ?_
  · rw [List.map_map]
    exact List.map_id _
  · intro x hx
    obtain ⟨p, _, rfl⟩ := List.mem_map.mp hx
    have e : smallFlatEnv p.oram.columns 2048 = ⟨List.reverse, out oneKey, smallGen, ⟨fun _ => 0⟩,
        fun _ => (foldFlat 2048 defaultCtx p.oram.columns).one, fun _ => (foldFlat 2048 defaultCtx p.oram.columns).vec,
        fun _ => (foldFlat 2048 defaultCtx p.oram.columns).gsw, someEntries⟩ := by
      unfold smallFlatEnv
      rw [dif_pos rfl]
    simp only
    rw [e]
    refine ⟨⟨fun _ => foldFlat_valid _ _, fun H is d m hm r c i => mem_someEntries hm r c i⟩, fun l => List.reverse_perm l,
      ⟨oneKey, ?_, oneKey_binary, oneKey_l1⟩, smallGen_bounded, fun ts _ k => ?_⟩
    · simp only
      exact storesPoly_out oneKey
    show (BitVec.toInt (0 : Scalar)).natAbs ≤ _
    simp

end Flat
end Panacea
