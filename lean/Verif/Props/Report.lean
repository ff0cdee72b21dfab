import Verif.Spec.Report
import Verif.Props.Main

/-! # C72: the report printed by the benchmark binary -/

namespace Panacea
open Spec
variable {n : Nat}

/-- A text that is one field of one line. -/
def Clean (t : List Char) : Prop := ',' ∉ t ∧ '\n' ∉ t

/-- The texts of the measured values are single fields. -/
def Report.Clean (R : Report) : Prop := Panacea.Clean R.setup ∧ Panacea.Clean R.server ∧ Panacea.Clean R.response ∧ ∀ k, Panacea.Clean (R.noise k)

theorem fmtNat_clean (k : Nat) : Clean (fmtNat k) := by
  have : ∀ {c : Char}, c.isDigit = false → c ∉ fmtNat k := by
    intro c hc h
    unfold fmtNat at h
    simp only [Nat.toString_eq_repr, Nat.toList_repr] at h
    have := Nat.isDigit_of_mem_toDigits (by decide) (by decide) h
    rw [hc] at this; cases this
  exact ⟨this (by decide), this (by decide)⟩

theorem pow_clean (k : Nat) : Clean ("2^".toList ++ fmtNat k) := by
  obtain ⟨h1, h2⟩ := fmtNat_clean k
  constructor <;> intro h <;> rw [List.mem_append] at h <;> rcases h with h | h
  · revert h; decide
  · exact h1 h
  · revert h; decide
  · exact h2 h

/-- The fields of a line, as lists of characters. -/
def rowFields {F : Type} (std : List Char) (p : TFHEParameters F) (o : ORAMParameters) (l m : Nat) (times : List (List Char)) : List (List Char) :=
  [std, fmtNat p.polynomialSize, fmtNat p.baseLog, fmtNat p.levelCount, fmtNat p.keySwitchBaseLog, fmtNat p.keySwitchLevelCount,
    fmtNat p.negsBaseLog, fmtNat p.negsLevelCount, "2^".toList ++ fmtNat l, fmtBool p.secureSeed] ++
  (match o with
   | .singleQuery items _ => ["0".toList, fmtNat items, "-".toList, "-".toList, "-".toList]
   | .multiQuery items queries _ => ["1".toList, fmtNat items, fmtNat queries, "-".toList, "-".toList]
   | .batched rows cols _ => ["2".toList, fmtNat (rows * cols / 3), "-".toList, fmtNat rows, fmtNat cols]) ++
  ["2^".toList ++ fmtNat m] ++ times

theorem rowFields_clean {F : Type} {std : List Char} (hs : Clean std) (p : TFHEParameters F) (o : ORAMParameters) (l m : Nat)
    {times : List (List Char)} (ht : ∀ t ∈ times, Clean t) : ∀ f ∈ rowFields std p o l m times, Clean f := by
  have hb : Clean (fmtBool p.secureSeed) := by
    unfold fmtBool Clean; cases p.secureSeed <;> decide
  have h0 : Clean "0".toList := by unfold Clean; decide
  have h1 : Clean "1".toList := by unfold Clean; decide
  have h2 : Clean "2".toList := by unfold Clean; decide
  have hd : Clean "-".toList := by unfold Clean; decide
  have hN := fmtNat_clean
  unfold rowFields
  simp only [List.forall_mem_append, List.forall_mem_cons, List.not_mem_nil, false_imp_iff, implies_true, and_true]
  refine ⟨⟨⟨⟨hs, hN _, hN _, hN _, hN _, hN _, hN _, hN _, pow_clean _, hb⟩, ?_⟩, pow_clean _⟩, ht⟩
  cases o with
  | singleQuery items _ =>
    simp only [List.forall_mem_cons, List.not_mem_nil, false_imp_iff, implies_true, and_true]
    exact ⟨h0, hN _, hd, hd, hd⟩
  | multiQuery items queries _ =>
    simp only [List.forall_mem_cons, List.not_mem_nil, false_imp_iff, implies_true, and_true]
    exact ⟨h1, hN _, hN _, hd, hd⟩
  | batched rows cols _ =>
    simp only [List.forall_mem_cons, List.not_mem_nil, false_imp_iff, implies_true, and_true]
    exact ⟨h2, hN _, hd, hN _, hN _⟩

/-- The printed block of one parameter set: a row and the lines of the further iterations. -/
def blockText (row : List Char) (ns : List (List Char)) : List Char := row ++ '\n' :: (ns.map fun l => l ++ ['\n']).flatten

/-- The text of a note without its line end. -/
def noteBody (mode k : Nat) (noise : List Char) : List Char :=
  "### mode=".toList ++ fmtNat mode ++ ", iter=".toList ++ fmtNat k ++ ", noise=".toList ++ noise

theorem notes_text {σ : Type} (mode : Nat) (R : Report) (f : Nat → σ → Option σ) : ∀ (ks : List Nat) (st : σ),
    (notes mode R f ks st).2 = (iterM f ks st).isSome ∧
    ((notes mode R f ks st).2 = true → (notes mode R f ks st).1 = ((ks.map fun k => noteBody mode k (R.noise k)).map fun l => l ++ ['\n']).flatten)
  | [], st => ⟨rfl, fun _ => rfl⟩
  | k :: ks, st => by
    rw [notes, iterM]
    rcases h : f k st with _ | st'
    · exact ⟨rfl, fun h => by cases h⟩
    · obtain ⟨h1, h2⟩ := notes_text mode R f ks st'
      simp only
      refine ⟨h1, fun hok => ?_⟩
      rw [h2 hok, List.map_cons, List.map_cons, List.flatten_cons]
      rfl

/-- The row of the result of a run. -/
theorem iterations_text {σ : Type} (mode : Nat) (R : Report) (f : Nat → σ → Option σ) {its : Nat} (hi : 0 < its) (st : σ) :
    (iterations mode R f its st).2 = (iterM f (List.range its) st).isSome ∧
    ((iterations mode R f its st).2 = true → (iterations mode R f its st).1 =
      blockText ([','].intercalate [R.setup, R.server, R.response, R.noise 0])
        ((List.range' 1 (its - 1)).map fun k => noteBody mode k (R.noise k))) := by
  obtain ⟨i, rfl⟩ : ∃ i, its = i + 1 := ⟨its - 1, by omega⟩
  rw [iterations, List.range_eq_range', List.range'_succ, iterM]
  rcases h : f 0 st with _ | st'
  · exact ⟨rfl, fun h => by cases h⟩
  · obtain ⟨h1, h2⟩ := notes_text mode R f (List.range' 1 i) st'
    simp only [Nat.add_sub_cancel]
    refine ⟨h1, fun hok => ?_⟩
    rw [h2 hok]
    simp [resultText, blockText, List.intercalate]

theorem inter_append {c : Char} : ∀ {P T : List (List Char)}, P ≠ [] → T ≠ [] →
    [c].intercalate P ++ c :: [c].intercalate T = [c].intercalate (P ++ T)
  | [], _, h, _ => absurd rfl h
  | [a], t :: T, _, _ => by simp [List.intercalate]
  | a :: b :: P, T, _, hT => by
    have ih := inter_append (c := c) (P := b :: P) (T := T) (by simp) hT
    rw [List.intercalate_cons_cons, List.cons_append, List.cons_append, List.intercalate_cons_cons, ← List.cons_append, ← ih]
    simp
  | _, [], _, h => absurd rfl h

/-- The measured columns. -/
def times (R : Report) (dryrun : Bool) : List (List Char) :=
  if dryrun then ["-".toList, "-".toList, "-".toList, "-".toList] else [R.setup, R.server, R.response, R.noise 0]

/-- The lines of the further iterations. -/
def noteBodies (mode : Nat) (R : Report) (dryrun : Bool) (its : Nat) : List (List Char) :=
  if dryrun then [] else (List.range' 1 (its - 1)).map fun k => noteBody mode k (R.noise k)

theorem afterPrefix_text {P : List (List Char)} (hP : P ≠ []) {pre : List Char} (hpre : pre = [','].intercalate P ++ [',']) (R : Report)
    (mode its : Nat) (dryrun : Bool) {rest : Printed}
    (h : rest.2 = true → rest.1 = blockText ([','].intercalate [R.setup, R.server, R.response, R.noise 0])
      ((List.range' 1 (its - 1)).map fun k => noteBody mode k (R.noise k))) :
    (afterPrefix pre dryrun rest).2 = true →
      (afterPrefix pre dryrun rest).1 = blockText ([','].intercalate (P ++ times R dryrun)) (noteBodies mode R dryrun its) := by
  unfold afterPrefix times noteBodies
  cases dryrun with
  | true =>
    intro _
    simp only [if_true]
    rw [← inter_append hP (by simp), hpre]
    unfold blockText
    rw [show "-,-,-,-\n".toList = [','].intercalate ["-".toList, "-".toList, "-".toList, "-".toList] ++ ['\n'] by decide]
    simp
  | false =>
    simp only [Bool.false_eq_true, if_false]
    intro hok
    rw [← inter_append hP (by simp), hpre, h hok]
    unfold blockText
    simp

/-- The fields that the mode prints. -/
def modeFields (o : ORAMParameters) (m : Nat) : List (List Char) :=
  (match o with
   | .singleQuery items _ => ["0".toList, fmtNat items, "-".toList, "-".toList, "-".toList]
   | .multiQuery items queries _ => ["1".toList, fmtNat items, fmtNat queries, "-".toList, "-".toList]
   | .batched rows cols _ => ["2".toList, fmtNat (rows * cols / 3), "-".toList, fmtNat rows, fmtNat cols]) ++
  ["2^".toList ++ fmtNat m]

theorem singleText_spec (E : Env n) (R : Report) (ctx : Option Ctx) (items its : Nat) (dry : Bool) :
    (singleText E R ctx items its dry).2 = (singleQuery E ctx items its dry).isSome ∧
    ((singleText E R ctx items its dry).2 = true → ∃ m, log2 items = some m ∧ (singleText E R ctx items its dry).1 =
      blockText ([','].intercalate (modeFields (.singleQuery items its) m ++ times R dry)) (noteBodies 0 R dry its)) := by
  unfold singleText singleQuery
  by_cases hi : its > 0
  · rw [if_pos hi, if_pos hi]
    rcases hl : log2 items with _ | m
    · exact ⟨rfl, fun h => by cases h⟩
    · simp only
      constructor
      · cases dry with
        | true => rfl
        | false =>
          simp only [afterPrefix, Bool.false_eq_true, if_false]
          rcases NaiveHash.new E.shuffle 1 items with _ | H
          · rfl
          · rcases ctx with _ | ctx
            · rfl
            · simp only
              rcases setupRandomOram ctx E.s 1 items H E.g with _ | ⟨S, pts, g⟩
              · rfl
              · simp only
                rw [(iterations_text 0 R (singleIter E ctx items H pts) hi (S, g, 0)).1]
                rcases iterM (singleIter E ctx items H pts) (List.range its) (S, g, 0) with _ | st <;> rfl
      · intro hok
        refine ⟨m, rfl, ?_⟩
        refine afterPrefix_text (by simp [modeFields]) (by simp [modeFields, List.intercalate]) R 0 its dry ?_ hok
        rcases NaiveHash.new E.shuffle 1 items with _ | H
        · exact fun h => by cases h
        · rcases ctx with _ | ctx
          · exact fun h => by cases h
          · simp only
            rcases setupRandomOram ctx E.s 1 items H E.g with _ | ⟨S, pts, g⟩
            · exact fun h => by cases h
            · simp only
              intro h
              exact (iterations_text 0 R (singleIter E ctx items H pts) hi (S, g, 0)).2 h
  · rw [if_neg hi, if_neg hi]
    exact ⟨rfl, fun h => by cases h⟩

theorem multiText_spec (E : Env n) (R : Report) (ctx : Option Ctx) (items queries its : Nat) (dry : Bool) :
    (multiText E R ctx items queries its dry).2 = (multiQuery E ctx items queries its dry).isSome ∧
    ((multiText E R ctx items queries its dry).2 = true → ∃ m, log2 items = some m ∧ (multiText E R ctx items queries its dry).1 =
      blockText ([','].intercalate (modeFields (.multiQuery items queries its) m ++ times R dry)) (noteBodies 1 R dry its)) := by
  unfold multiText multiQuery
  by_cases hi : its > 0
  · rw [if_pos hi, if_pos hi]
    rcases hl : log2 items with _ | m
    · exact ⟨rfl, fun h => by cases h⟩
    · simp only
      constructor
      · cases dry with
        | true => rfl
        | false =>
          simp only [afterPrefix, Bool.false_eq_true, if_false]
          rcases NaiveHash.new E.shuffle 1 items with _ | H
          · rfl
          · rcases ctx with _ | ctx
            · rfl
            · simp only
              rcases setupRandomOram ctx E.s 1 items H E.g with _ | ⟨S, pts, g⟩
              · rfl
              · simp only
                split
                · rw [(iterations_text 1 R (multiIter E ctx items queries H pts) hi (S, g, 0)).1]
                  rcases iterM (multiIter E ctx items queries H pts) (List.range its) (S, g, 0) with _ | st <;> rfl
                · rfl
      · intro hok
        refine ⟨m, rfl, ?_⟩
        refine afterPrefix_text (by simp [modeFields]) (by simp [modeFields, List.intercalate]) R 1 its dry ?_ hok
        rcases NaiveHash.new E.shuffle 1 items with _ | H
        · exact fun h => by cases h
        · rcases ctx with _ | ctx
          · exact fun h => by cases h
          · simp only
            rcases setupRandomOram ctx E.s 1 items H E.g with _ | ⟨S, pts, g⟩
            · exact fun h => by cases h
            · simp only
              split
              · intro h
                exact (iterations_text 1 R (multiIter E ctx items queries H pts) hi (S, g, 0)).2 h
              · exact fun h => by cases h
  · rw [if_neg hi, if_neg hi]
    exact ⟨rfl, fun h => by cases h⟩

theorem batchText_spec (E : Env n) (R : Report) (ctx : Option Ctx) (rows cols its : Nat) (dry : Bool) :
    (batchText E R ctx rows cols its dry).2 = (batchQuery E ctx rows cols its dry).isSome ∧
    ((batchText E R ctx rows cols its dry).2 = true → ∃ m, log2 (rows * cols / 3) = some m ∧ (batchText E R ctx rows cols its dry).1 =
      blockText ([','].intercalate (modeFields (.batched rows cols its) m ++ times R dry)) (noteBodies 2 R dry its)) := by
  unfold batchText batchQuery
  by_cases hi : its > 0
  · rw [if_pos hi, if_pos hi]
    dsimp only
    rcases hl : log2 (rows * cols / 3) with _ | m
    · exact ⟨rfl, fun h => by cases h⟩
    · simp only
      constructor
      · cases dry with
        | true => rfl
        | false =>
          simp only [afterPrefix, Bool.false_eq_true, if_false]
          rcases NaiveHash.new E.shuffle 3 (rows * cols / 3) with _ | H
          · rfl
          · rcases ctx with _ | ctx
            · rfl
            · simp only
              rcases setupRandomOram ctx E.s rows cols H E.g with _ | ⟨S, pts, g⟩
              · rfl
              · simp only
                rw [(iterations_text 2 R (fun _ => batchIter E ctx rows cols H pts) hi (S, g, 0)).1]
                rcases iterM (fun _ => batchIter E ctx rows cols H pts) (List.range its) (S, g, 0) with _ | st <;> rfl
      · intro hok
        refine ⟨m, rfl, ?_⟩
        refine afterPrefix_text (by simp [modeFields]) (by simp [modeFields, List.intercalate]) R 2 its dry ?_ hok
        rcases NaiveHash.new E.shuffle 3 (rows * cols / 3) with _ | H
        · exact fun h => by cases h
        · rcases ctx with _ | ctx
          · exact fun h => by cases h
          · simp only
            rcases setupRandomOram ctx E.s rows cols H E.g with _ | ⟨S, pts, g⟩
            · exact fun h => by cases h
            · simp only
              intro h
              exact (iterations_text 2 R (fun _ => batchIter E ctx rows cols H pts) hi (S, g, 0)).2 h
  · rw [if_neg hi, if_neg hi]
    exact ⟨rfl, fun h => by cases h⟩

attribute [local irreducible] headerText

/-- The number printed as `mode`. -/
def ORAMParameters.mode : ORAMParameters → Nat
  | .singleQuery _ _ => 0
  | .multiQuery _ _ _ => 1
  | .batched _ _ _ => 2

theorem paramsText_spec {F : Type} (fmtF : F → List Char) (E : (n : Nat) → Env n) (R : Report) (dry : Bool) (p : ServerParams F) :
    (paramsText fmtF E R dry p).2 = (runParams E dry p).isSome ∧
    ((paramsText fmtF E R dry p).2 = true → ∃ l m, log2 p.tfhe.plaintextModulus = some l ∧ log2 p.oram.items = some m ∧
      (paramsText fmtF E R dry p).1 = blockText ([','].intercalate (rowFields (fmtF p.tfhe.standardDeviation) p.tfhe p.oram l m (times R dry)))
        (noteBodies p.oram.mode R dry p.oram.iterations)) := by
  unfold paramsText runParams
  rcases hl : log2 p.tfhe.plaintextModulus with _ | l
  · exact ⟨rfl, fun h => by cases h⟩
  · obtain ⟨o, t⟩ := p
    have key : ∀ (r : Printed) (m : Nat), r.1 = blockText ([','].intercalate (modeFields o m ++ times R dry)) (noteBodies o.mode R dry o.iterations) →
        (fmtF t.standardDeviation ++ ",".toList ++ fmtNat t.polynomialSize ++ ",".toList ++ fmtNat t.baseLog ++ ",".toList
          ++ fmtNat t.levelCount ++ ",".toList ++ fmtNat t.keySwitchBaseLog ++ ",".toList ++ fmtNat t.keySwitchLevelCount
          ++ ",".toList ++ fmtNat t.negsBaseLog ++ ",".toList ++ fmtNat t.negsLevelCount ++ ",2^".toList ++ fmtNat l ++ ",".toList
          ++ fmtBool t.secureSeed ++ ",".toList) ++ r.1
          = blockText ([','].intercalate (rowFields (fmtF t.standardDeviation) t o l m (times R dry))) (noteBodies o.mode R dry o.iterations) := by
      intro r m hr
      rw [hr]
      have : rowFields (fmtF t.standardDeviation) t o l m (times R dry)
          = [fmtF t.standardDeviation, fmtNat t.polynomialSize, fmtNat t.baseLog, fmtNat t.levelCount, fmtNat t.keySwitchBaseLog,
              fmtNat t.keySwitchLevelCount, fmtNat t.negsBaseLog, fmtNat t.negsLevelCount, "2^".toList ++ fmtNat l, fmtBool t.secureSeed]
            ++ (modeFields o m ++ times R dry) := by
        unfold rowFields modeFields
        cases o <;> simp
      have hne : modeFields o m ++ times R dry ≠ [] := by unfold modeFields; simp
      rw [this, ← inter_append (List.cons_ne_nil _ _) hne]
      unfold blockText
      generalize [','].intercalate (modeFields o m ++ times R dry) = X
      simp [List.intercalate]
    cases o with
    | singleQuery items its =>
      obtain ⟨h1, h2⟩ := singleText_spec (E t.polynomialSize) R (Ctx.ofParams t) items its dry
      refine ⟨h1, fun hok => ?_⟩
      obtain ⟨m, hm, ht⟩ := h2 hok
      exact ⟨l, m, rfl, hm, key _ m ht⟩
    | multiQuery items queries its =>
      obtain ⟨h1, h2⟩ := multiText_spec (E t.polynomialSize) R (Ctx.ofParams t) items queries its dry
      refine ⟨h1, fun hok => ?_⟩
      obtain ⟨m, hm, ht⟩ := h2 hok
      exact ⟨l, m, rfl, hm, key _ m ht⟩
    | batched rows cols its =>
      obtain ⟨h1, h2⟩ := batchText_spec (E t.polynomialSize) R (Ctx.ofParams t) rows cols its dry
      refine ⟨h1, fun hok => ?_⟩
      obtain ⟨m, hm, ht⟩ := h2 hok
      exact ⟨l, m, rfl, hm, key _ m ht⟩

/-- C72 (agreement): the process completes iff the count of `C58` is defined. -/
theorem C72_completes_iff {F : Type} (fmtF : F → List Char) (dry : Bool) : ∀ xs : List (RunOf F),
    (mainText fmtF dry xs).2 = (runAll dry (xs.map fun x => (x.1, x.2.2))).isSome := by
  intro xs
  unfold mainText
  simp only
  induction xs with
  | nil => rfl
  | cons x xs ih =>
    rw [loopText, List.map_cons, runAll]
    have h := (paramsText_spec fmtF x.1 x.2.1 dry x.2.2).1
    simp only
    rcases hr : runParams x.1 dry x.2.2 with _ | k
    · rw [hr] at h
      rw [if_neg (by rw [h]; decide)]
      rfl
    · rw [hr] at h
      rw [if_pos (by rw [h]; rfl)]
      simp only
      rw [ih]
      split <;> rename_i e <;> rw [e] <;> rfl

theorem unlines_split (ls : List (List Char)) (h : ∀ l ∈ ls, '\n' ∉ l) :
    ((ls.map fun l => l ++ ['\n']).flatten).splitOn '\n' = ls ++ [[]] := by
  have : (ls.map fun l => l ++ ['\n']).flatten = ['\n'].intercalate (ls ++ [[]]) := by
    induction ls with
    | nil => rfl
    | cons a ls ih =>
      rw [List.map_cons, List.flatten_cons, ih (fun l hl => h l (by simp [hl]))]
      cases ls with
      | nil => simp [List.intercalate]
      | cons b ls => simp [List.intercalate_cons_cons]
  rw [this, List.splitOn_intercalate _ _ (by simp)]
  intro l hl
  rcases List.mem_append.mp hl with hl | hl
  · exact h l hl
  · simp at hl; subst hl; simp

theorem loopText_blocks {F : Type} (fmtF : F → List Char) (dry : Bool) : ∀ xs : List (RunOf F), (loopText fmtF dry xs).2 = true →
    ∃ bs : List (List Char × List (List Char)),
      (loopText fmtF dry xs).1 = (((bs.map fun b => b.1 :: b.2).flatten).map fun l => l ++ ['\n']).flatten ∧
      List.Forall₂ (fun x b => ∃ l m, log2 x.2.2.tfhe.plaintextModulus = some l ∧ log2 x.2.2.oram.items = some m ∧
        b.1 = [','].intercalate (rowFields (fmtF x.2.2.tfhe.standardDeviation) x.2.2.tfhe x.2.2.oram l m (times x.2.1 dry)) ∧
        b.2 = noteBodies x.2.2.oram.mode x.2.1 dry x.2.2.oram.iterations) xs bs
  | [], _ => ⟨[], rfl, .nil⟩
  | x :: xs, h => by
    rw [loopText] at h ⊢
    simp only at h ⊢
    split at h
    · rename_i hx
      rw [if_pos hx]
      obtain ⟨l, m, h1, h2, h3⟩ := (paramsText_spec fmtF x.1 x.2.1 dry x.2.2).2 hx
      obtain ⟨bs, e1, e2⟩ := loopText_blocks fmtF dry xs h
      refine ⟨([','].intercalate (rowFields (fmtF x.2.2.tfhe.standardDeviation) x.2.2.tfhe x.2.2.oram l m (times x.2.1 dry)),
        noteBodies x.2.2.oram.mode x.2.1 dry x.2.2.oram.iterations) :: bs, ?_, .cons ⟨l, m, h1, h2, rfl, rfl⟩ e2⟩
      simp only
      rw [h3, e1]
      unfold blockText
      simp only [List.map_cons, List.flatten_cons, List.map_append, List.flatten_append, List.append_assoc, List.cons_append, List.nil_append]
    · cases h

theorem intercalate_no_newline {ls : List (List Char)} (h : ∀ l ∈ ls, '\n' ∉ l) : '\n' ∉ [','].intercalate ls := by
  induction ls with
  | nil => simp [List.intercalate]
  | cons a ls ih =>
    cases ls with
    | nil => simpa [List.intercalate] using h a (by simp)
    | cons b ls =>
      rw [List.intercalate_cons_cons]
      intro hm
      rcases List.mem_append.mp hm with hm | hm
      · rcases List.mem_append.mp hm with hm | hm
        · exact h a (by simp) hm
        · revert hm; decide
      · exact ih (fun l hl => h l (by simp [hl])) hm

theorem times_clean {R : Report} (hR : R.Clean) (dry : Bool) : ∀ t ∈ times R dry, Clean t := by
  have hd : Clean "-".toList := by unfold Clean; decide
  unfold times
  cases dry
  · simp only [Bool.false_eq_true, if_false, List.forall_mem_cons, List.not_mem_nil, false_imp_iff, implies_true, and_true]
    exact ⟨hR.1, hR.2.1, hR.2.2.1, hR.2.2.2 0⟩
  · simp only [if_true, List.forall_mem_cons, List.not_mem_nil, false_imp_iff, implies_true, and_true]
    exact ⟨hd, hd, hd, hd⟩

theorem noteBodies_clean {R : Report} (hR : R.Clean) (mode : Nat) (dry : Bool) (its : Nat) : ∀ l ∈ noteBodies mode R dry its, '\n' ∉ l := by
  unfold noteBodies
  cases dry
  · simp only [Bool.false_eq_true, if_false, List.mem_map]
    rintro l ⟨k, _, rfl⟩
    unfold noteBody
    simp only [List.mem_append, not_or]
    exact ⟨⟨⟨⟨⟨by decide, (fmtNat_clean _).2⟩, by decide⟩, (fmtNat_clean _).2⟩, by decide⟩, (hR.2.2.2 k).2⟩
  · simp

theorem noteBody_string (mode k : Nat) (noise : List Char) :
    String.ofList (noteBody mode k noise) = "### mode=" ++ dec mode ++ ", iter=" ++ dec k ++ ", noise=" ++ String.ofList noise := by
  have hN : ∀ k, String.ofList (fmtNat k) = dec k := fun k => by unfold fmtNat dec; exact String.ofList_toList
  unfold noteBody
  rw [String.ofList_append, String.ofList_append, String.ofList_append, String.ofList_append, String.ofList_append, hN, hN,
    String.ofList_toList, String.ofList_toList, String.ofList_toList]

/-- The measured columns as strings. -/
def timesOf (R : Report) (dryrun : Bool) : List String := (times R dryrun).map String.ofList

theorem columns_values {F : Type} (std : List Char) (p : TFHEParameters F) (o : ORAMParameters) (l m : Nat) (R : Report) (dry : Bool) :
    (rowFields std p o l m (times R dry)).map String.ofList = (columns (String.ofList std) p o l m (timesOf R dry)).map Prod.snd := by
  have hN : ∀ k, String.ofList (fmtNat k) = dec k := fun k => by unfold fmtNat dec; exact String.ofList_toList
  have hp : ∀ k, String.ofList ("2^".toList ++ fmtNat k) = "2^" ++ dec k := fun k => by rw [String.ofList_append, hN, String.ofList_toList]
  have hb : String.ofList (fmtBool p.secureSeed) = if p.secureSeed then "true" else "false" := by simp [fmtBool]
  have hc : ∀ s : String, String.ofList s.toList = s := fun s => String.ofList_toList
  have ht : (List.zip ["setup_duration", "server_duration", "response_duration", "final_noise"] (timesOf R dry)).map Prod.snd = timesOf R dry := by
    unfold timesOf times
    cases dry <;> rfl
  unfold rowFields columns
  rw [List.map_append, List.map_append, List.map_append, List.map_append, List.map_append, List.map_append, ht]
  congr 1
  congr 1
  · congr 1
    · simp only [List.map_cons, List.map_nil, hN, hp, hb]
    · cases o <;> simp only [List.map_cons, List.map_nil, hN, hc]
  · simp only [List.map_cons, List.map_nil, hp]

theorem columns_names {F : Type} (std : String) (p : TFHEParameters F) (o : ORAMParameters) (l m : Nat) (R : Report) (dry : Bool) :
    fields (String.ofList (headerText.dropLast)) = (columns std p o l m (timesOf R dry)).map Prod.fst := by
  have hh : fields (String.ofList (headerText.dropLast)) = ["standard_deviation", "polynomial_size", "base_log", "level_count",
      "key_switch_base_log", "key_switch_level_count", "negs_base_log", "negs_level_count", "plaintext_modulus", "secure_seed", "mode",
      "item_count", "query_count", "rows", "cols", "n", "setup_duration", "server_duration", "response_duration", "final_noise"] := by
    decide +kernel
  rw [hh]
  have ht : ∃ a b c d, timesOf R dry = [a, b, c, d] := by unfold timesOf times; cases dry <;> exact ⟨_, _, _, _, rfl⟩
  obtain ⟨a, b, c, d, ht⟩ := ht
  rw [ht]
  unfold columns
  cases o <;> rfl

/-- C72: when `main` completes, its output is the header, then for every selected parameter set, in order, one line whose fields are --
under the column names of the header -- the parameters of the set and the measured values (dashes in a dry run), followed by one line for
each further iteration; the exponents printed for the plaintext modulus and the number of items are the floors of their logarithms. -/
theorem C72_report {F : Type} (fmtF : F → List Char) (hF : ∀ x, Clean (fmtF x)) (dry : Bool) (xs : List (RunOf F))
    (hR : ∀ x ∈ xs, x.2.1.Clean) (hsz : ∀ x ∈ xs, x.2.2.tfhe.plaintextModulus < 2 ^ 64 ∧ x.2.2.oram.items < 2 ^ 64)
    (hok : (mainText fmtF dry xs).2 = true) :
    ∃ (header : String) (blocks : List (String × List String)),
      lines (mainText fmtF dry xs).1 = [header] ++ (blocks.map fun b => b.1 :: b.2).flatten ++ [""] ∧
      List.Forall₂ (fun x b => ∃ l m, 2 ^ l ≤ x.2.2.tfhe.plaintextModulus ∧ x.2.2.tfhe.plaintextModulus < 2 ^ (l + 1) ∧
        2 ^ m ≤ x.2.2.oram.items ∧ x.2.2.oram.items < 2 ^ (m + 1) ∧
        fields header = (columns (String.ofList (fmtF x.2.2.tfhe.standardDeviation)) x.2.2.tfhe x.2.2.oram l m (timesOf x.2.1 dry)).map Prod.fst ∧
        fields b.1 = (columns (String.ofList (fmtF x.2.2.tfhe.standardDeviation)) x.2.2.tfhe x.2.2.oram l m (timesOf x.2.1 dry)).map Prod.snd ∧
        b.2 = if dry then [] else (List.range' 1 (x.2.2.oram.iterations - 1)).map fun k =>
          "### mode=" ++ dec x.2.2.oram.mode ++ ", iter=" ++ dec k ++ ", noise=" ++ String.ofList (x.2.1.noise k)) xs blocks := by
  have hok : (loopText fmtF dry xs).2 = true := by unfold mainText at hok; exact hok
  obtain ⟨bs, e1, e2⟩ := loopText_blocks fmtF dry xs hok
  have hN : ∀ k, String.ofList (fmtNat k) = dec k := fun k => by unfold fmtNat dec; exact String.ofList_toList
  have hclean : ∀ b ∈ bs, '\n' ∉ b.1 ∧ ∀ l ∈ b.2, '\n' ∉ l := by
    intro b hb
    obtain ⟨i, hi⟩ := List.mem_iff_getElem?.mp hb
    obtain ⟨x, hx, l, m, _, _, h1, h2⟩ := forall₂_getElem e2 hi
    have hxm := List.mem_of_getElem? hx
    refine ⟨?_, ?_⟩
    · rw [h1]
      exact intercalate_no_newline fun f hf => (rowFields_clean (hF _) _ _ _ _ (times_clean (hR x hxm) dry) f hf).2
    · rw [h2]; exact noteBodies_clean (hR x hxm) _ _ _
  refine ⟨String.ofList headerText.dropLast, bs.map fun b => (String.ofList b.1, b.2.map String.ofList), ?_, ?_⟩
  · have hhead : headerText = headerText.dropLast ++ ['\n'] := by decide +kernel
    have htext : (mainText fmtF dry xs).1 = (((headerText.dropLast :: (bs.map fun b => b.1 :: b.2).flatten).map fun l => l ++ ['\n'])).flatten := by
      unfold mainText
      simp only
      rw [e1, List.map_cons, List.flatten_cons, ← hhead]
    unfold lines
    rw [htext, unlines_split]
    · simp [List.map_flatten, Function.comp_def]
    · intro l hl
      rcases List.mem_cons.mp hl with rfl | hl
      · decide +kernel
      · simp only [List.mem_flatten, List.mem_map] at hl
        obtain ⟨_, ⟨b, hb, rfl⟩, hl⟩ := hl
        obtain ⟨h1, h2⟩ := hclean b hb
        rcases List.mem_cons.mp hl with rfl | hl
        · exact h1
        · exact h2 l hl
  · rw [List.forall₂_map_right_iff]
    refine List.Forall₂.imp ?_ ((List.forall₂_and_left (p := fun x => x ∈ xs) xs bs).mpr ⟨fun x hx => hx, e2⟩)
    rintro x b ⟨hx, l, m, hl, hm, h1, h2⟩
    obtain ⟨s1, s2⟩ := hsz x hx
    rw [C05_log2 _ s1] at hl
    rw [C05_log2 _ s2] at hm
    refine ⟨l, m, hl.1, hl.2, hm.1, hm.2, columns_names _ _ _ _ _ _ _, ?_, ?_⟩
    · unfold fields
      simp only [String.toList_ofList]
      rw [h1, List.splitOn_intercalate _ (fun f hf => (rowFields_clean (hF _) _ _ _ _ (times_clean (hR x hx) dry) f hf).1)
        (by unfold rowFields; simp), columns_values]
    · rw [h2]
      unfold noteBodies
      cases dry
      · simp only [Bool.false_eq_true, if_false, List.map_map]
        simp only [Function.comp_def, noteBody_string]
      · rfl

/-- C72 (panics): when `main` panics, the sets before the offending one have been reported completely. -/
theorem C72_panic {F : Type} (fmtF : F → List Char) (dry : Bool) : ∀ xs : List (RunOf F), (mainText fmtF dry xs).2 = false →
    ∃ done x rest part, xs = done ++ x :: rest ∧ (mainText fmtF dry done).2 = true ∧ runParams x.1 dry x.2.2 = none ∧
      (mainText fmtF dry xs).1 = (mainText fmtF dry done).1 ++ part := by
  intro xs h
  unfold mainText at h ⊢
  simp only at h ⊢
  suffices h' : ∃ done x rest part, xs = done ++ x :: rest ∧ (loopText fmtF dry done).2 = true ∧ runParams x.1 dry x.2.2 = none ∧
      (loopText fmtF dry xs).1 = (loopText fmtF dry done).1 ++ part by
    obtain ⟨done, x, rest, part, h1, h2, h3, h4⟩ := h'
    refine ⟨done, x, rest, part, h1, h2, h3, ?_⟩
    rw [h4, List.append_assoc]
  induction xs with
  | nil => cases h
  | cons y ys ih =>
    rw [loopText] at h
    simp only at h
    split at h
    · rename_i hy
      obtain ⟨done, x, rest, part, h1, h2, h3, h4⟩ := ih h
      refine ⟨y :: done, x, rest, part, by rw [h1]; rfl, ?_, h3, ?_⟩
      · rw [loopText]; simp only [hy, if_true]; exact h2
      · rw [loopText, loopText]
        simp only [hy, if_true]
        rw [h4, List.append_assoc]
    · rename_i hy
      refine ⟨[], y, ys, (loopText fmtF dry (y :: ys)).1, rfl, rfl, ?_, rfl⟩
      have := (paramsText_spec fmtF y.1 y.2.1 dry y.2.2).1
      rw [← Option.not_isSome_iff_eq_none, ← this]
      exact hy

theorem runParams_ctx {F : Type} {E : (n : Nat) → Env n} {p : ServerParams F} (h : (runParams E false p).isSome) : (Ctx.ofParams p.tfhe).isSome := by
  rcases hc : Ctx.ofParams p.tfhe with _ | ctx
  · exfalso
    revert h
    unfold runParams
    rw [hc]
    rcases log2 p.tfhe.plaintextModulus with _ | l
    · simp
    · rcases p.oram with ⟨items, its⟩ | ⟨items, queries, its⟩ | ⟨rows, cols, its⟩ <;>
        simp only [singleQuery, multiQuery, batchQuery, Bool.false_eq_true, if_false]
      · split
        · rcases log2 items with _ | k <;> simp
        · simp
      · split
        · rcases log2 items with _ | k <;> simp
        · simp
      · split
        · rcases log2 (rows * cols / 3) with _ | k <;> simp
        · simp
  · rfl

/-- C72 (plaintext modulus): the modulus column of a completed run (not a dry run) is exact: the printed power of two is the modulus. -/
theorem C72_modulus_exact {F : Type} (fmtF : F → List Char) (xs : List (RunOf F)) (hok : (mainText fmtF false xs).2 = true) :
    ∀ x ∈ xs, x.2.2.tfhe.plaintextModulus < 2 ^ 64 → ∀ l, 2 ^ l ≤ x.2.2.tfhe.plaintextModulus → x.2.2.tfhe.plaintextModulus < 2 ^ (l + 1) →
      x.2.2.tfhe.plaintextModulus = 2 ^ l := by
  unfold mainText at hok
  simp only at hok
  induction xs with
  | nil => simp
  | cons y ys ih =>
    rw [loopText] at hok
    simp only at hok
    split at hok
    · rename_i hy
      intro x hx hsz l hl1 hl2
      rcases List.mem_cons.mp hx with rfl | hx
      · rw [(paramsText_spec fmtF x.1 x.2.1 false x.2.2).1] at hy
        have hc := runParams_ctx hy
        have := (C58_context x.2.2.tfhe hsz).1.not
        rw [not_not, ← ne_eq, Option.ne_none_iff_isSome] at this
        obtain ⟨k, _, _, hk⟩ := this.mp hc
        rw [hk] at hl1 hl2 ⊢
        have h1 := (Nat.pow_le_pow_iff_right (by decide : 1 < 2)).mp hl1
        have h2 := (Nat.pow_lt_pow_iff_right (by decide : 1 < 2)).mp hl2
        congr 1; omega
      · exact ih hok x hx hsz l hl1 hl2
    · cases hok

/-- Measured values of the example. -/
def exReport : Report := ⟨"0.5".toList, "1.25".toList, "1".toList, fun _ => "-3.5".toList⟩

theorem exReport_clean : exReport.Clean := by
  refine ⟨?_, ?_, ?_, fun k => ?_⟩
  · unfold Clean; decide
  · unfold Clean; decide
  · unfold Clean; decide
  · show Panacea.Clean "-3.5".toList
    unfold Panacea.Clean; decide

/-- Texts of the two standard deviations of the example. -/
def exFmt (b : Bool) : List Char := if b then "-55".toList else "-45.5".toList

/-- Parameters of `exTreeCtx`. -/
def exReportParams : TFHEParameters Bool := ⟨true, 4, 3, 20, 3, 20, 3, 20, 16, true⟩

/-- The environments of the example: `exEnv` at ring size 4. -/
def exRunEnv (n : Nat) : Env n :=
  if h : n = 4 then h ▸ exEnv
  else ⟨id, 0, ⟨fun _ => 0, fun _ => 0, fun _ => 0, 0⟩, ⟨fun _ => 0⟩, fun _ => foldReducer n exTreeCtx 4⟩

theorem runAll_cons_some {F : Type} {dry : Bool} {x : ((n : Nat) → Env n) × ServerParams F} {xs : List (((n : Nat) → Env n) × ServerParams F)}
    {k m : Nat} (h1 : runParams x.1 dry x.2 = some k) (h2 : runAll dry xs = some m) : runAll dry (x :: xs) = some (k + m) := by
  rw [runAll, h1, h2]

/-- A run of the single-query mode on four items (three iterations) and one of the batch mode on 3 x 4 cells: `main` completes, so the
hypotheses of `C72_report` are met. -/
theorem exReport_completes : (mainText exFmt false
    [(exRunEnv, exReport, ⟨.singleQuery 4 3, exReportParams⟩), (exRunEnv, exReport, ⟨.batched 3 4 2, exReportParams⟩)]).2 = true := by
  have hc : Codec.new (BitVec.ofNat 64 exReportParams.plaintextModulus) = some exTreeCtx.codec := by decide
  have hctx : Ctx.ofParams exReportParams = some exTreeCtx := by
    unfold Ctx.ofParams
    rw [hc]
    rfl
  have hl : log2 exReportParams.plaintextModulus = some 4 := by decide
  have h1 : singleQuery exEnv (some exTreeCtx) 4 3 false = some 3 :=
    C55_single_completes (D := 2) exTreeCtx_good (by decide) (by decide) (by decide) exEnv_ok (by decide) (by decide)
  have h2 : batchQuery exEnv (some exTreeCtx) 3 4 2 false = some 2 :=
    C57_batch_completes (D := 2) (N := 4) exTreeCtx_good (by decide) (by decide) (by decide) exEnv_ok (by decide) (by decide) (by decide)
      (by decide) (by decide)
  have e : exRunEnv 4 = exEnv := by unfold exRunEnv; exact dif_pos rfl
  have r1 : runParams exRunEnv false ⟨.singleQuery 4 3, exReportParams⟩ = some 3 := by
    unfold runParams
    simp only [hl, hctx]
    rw [show exReportParams.polynomialSize = 4 from rfl, e]
    exact h1
  have r2 : runParams exRunEnv false ⟨.batched 3 4 2, exReportParams⟩ = some 2 := by
    unfold runParams
    simp only [hl, hctx]
    rw [show exReportParams.polynomialSize = 4 from rfl, e]
    exact h2
  have r3 : runAll false [(exRunEnv, (⟨.singleQuery 4 3, exReportParams⟩ : ServerParams Bool)), (exRunEnv, ⟨.batched 3 4 2, exReportParams⟩)] = some (3 + (2 + 0)) := by
    refine runAll_cons_some ?_ (runAll_cons_some ?_ ?_)
    · exact r1
    · exact r2
    · rw [runAll]
  rw [C72_completes_iff exFmt false, List.map_cons, List.map_cons, List.map_nil]
  rw [r3, Option.isSome_some]

/-- The report of the example, by `C72_report`. -/
example : ∃ (header : String) (blocks : List (String × List String)), lines (mainText exFmt false
    [(exRunEnv, exReport, ⟨.singleQuery 4 3, exReportParams⟩), (exRunEnv, exReport, ⟨.batched 3 4 2, exReportParams⟩)]).1
      = [header] ++ (blocks.map fun b => b.1 :: b.2).flatten ++ [""] ∧ blocks.length = 2 := by
  obtain ⟨h, bs, h1, h2⟩ := C72_report exFmt (fun x => by
      unfold exFmt
      split
      · exact ⟨by decide, by decide⟩
      · exact ⟨by decide, by decide⟩) false _ (by
      intro x hx
      simp only [List.mem_cons, List.not_mem_nil, or_false] at hx
      rcases hx with rfl | rfl <;> exact exReport_clean) (by
      intro x hx
      simp only [List.mem_cons, List.not_mem_nil, or_false] at hx
      rcases hx with rfl | rfl <;> decide) exReport_completes
  exact ⟨h, bs, h1, h2.length_eq.symm⟩

/-- C72 (FINDING): in batch mode the `n` column is only a lower bound: 9 x 4 cells hold 12 items, printed as `2^3`. -/
theorem C72_items_inexact {F : Type} (fmtF : F → List Char) (E : (n : Nat) → Env n) (R : Report) (p : TFHEParameters F) (hp : p.plaintextModulus = 256) :
    ∃ pre, paramsText fmtF E R true ⟨.batched 9 4 1, p⟩ = (pre ++ "2,12,-,9,4,2^3,-,-,-,-\n".toList, true) := by
  have hl : log2 p.plaintextModulus = some 8 := by rw [hp]; decide
  have hb : batchText (E p.polynomialSize) R (Ctx.ofParams p) 9 4 1 true = ("2,12,-,9,4,2^3,-,-,-,-\n".toList, true) := by
    unfold batchText
    rw [if_pos (by decide)]
    have : log2 (9 * 4 / 3) = some 3 := by decide
    dsimp only
    rw [this]
    simp only [afterPrefix, if_true]
    decide +kernel
  unfold paramsText
  simp only [hl, hb]
  exact ⟨_, rfl⟩

end Panacea
