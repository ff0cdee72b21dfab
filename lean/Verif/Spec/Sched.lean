import Verif.Model.Sched

/-!
# Vocabulary for schedules
-/

namespace Panacea
variable {n : Nat}

/-- The statement stores into cell `p`. -/
def Stmt.Writes (p : Nat × Nat) : Stmt n → Prop
  | .write p' _ => p' = p
  | _ => False

/-- The statement reads or stores into cell `p`. -/
def Stmt.Touches (p : Nat × Nat) : Stmt n → Prop
  | .write p' _ => p' = p
  | .read p' _ => p' = p
  | _ => False

/-- Some statement of the task stores into cell `p`. -/
def Task.Writes (t : Task n) (p : Nat × Nat) : Prop := ∃ s ∈ t, s.Writes p
/-- Some statement of the task reads or stores into cell `p`. -/
def Task.Touches (t : Task n) (p : Nat × Nat) : Prop := ∃ s ∈ t, s.Touches p

/-- No task touches a cell that another task writes. -/
def Independent (T : List (Task n)) : Prop :=
  ∀ (i j : Nat) (t u : Task n), i ≠ j → T[i]? = some t → T[j]? = some u → ∀ p, Task.Writes t p → ¬ Task.Touches u p

/-- Every task, run alone on `mem`, finishes without a panic. -/
def AllRun (T : List (Task n)) (mem : Mem n) : Prop := ∀ t ∈ T, ∃ r, runTask t mem [] = some r

/-- All tasks are finished. -/
def Conf.Terminal (C : Conf n) : Prop := ∀ st ∈ C.st, ∃ regs, st = .finished regs

end Panacea

namespace Panacea
variable {n : Nat}

/-- What an observer of the server's memory sees of a statement: its kind and the cell it accesses, not the values. -/
inductive StmtShape
  | read (p : Nat × Nat) (fft : Bool)
  | len (r : Nat)
  | fft
  | write (p : Nat × Nat)
deriving DecidableEq

/-- The observable part of a statement. -/
def Stmt.shape : Stmt n → StmtShape
  | .read p b => .read p b
  | .len r => .len r
  | .fft => .fft
  | .write p _ => .write p

/-- The observable part of the tasks of a phase. -/
def shapes (T : List (Task n)) : List (List StmtShape) := T.map (List.map Stmt.shape)

/-- The cell accesses of `process_one` on a row of `cols` cells. -/
def oneAccesses (levels cols : Nat) : List (List (List StmtShape)) :=
  [List.replicate levels [.fft],
   (List.range cols).map fun j => [.fft, .read (0, j) true],
   (List.range cols).map fun j => [.read (0, j) true, .read (0, j) true, .write (0, j)]]

/-- The cell accesses of reading every cell of row `r`. -/
def rowAccesses (r levels cols : Nat) : List StmtShape :=
  List.replicate levels .fft ++ .len r :: (List.range cols).flatMap fun j => [.fft, .read (r, j) true]

/-- The cell accesses of `process_multi` with `k` queries on a row of `cols` cells. -/
def multiAccesses (levels cols k : Nat) : List (List (List StmtShape)) :=
  [List.replicate k (rowAccesses 0 levels cols),
   List.replicate k ((List.range cols).flatMap fun j => [.read (0, j) true, .fft]),
   (List.range cols).map fun j => [.read (0, j) true, .write (0, j)]]

/-- The cell accesses of the consistency correction of an item stored at the given positions. -/
def itemAccesses : List (Nat × Nat) → List StmtShape
  | [] => []
  | first :: others =>
    ((first :: others).map fun _ => .len 0) ++ ((first :: others).flatMap fun _ => [.read first true, .fft])
      ++ .read first false :: (others.flatMap fun p => [.read p true, .fft]) ++ (first :: others).map .write

/-- The cell accesses of `process_batch` on a `rows` × `cols` database whose items are at the positions `poss`. -/
def batchAccesses (levels rows cols : Nat) (poss : List (List (Nat × Nat))) : List (List (List StmtShape)) :=
  [(List.range rows).map fun r => rowAccesses r levels cols,
   (List.range rows).map fun r => .len r :: (List.range cols).flatMap fun j => [.read (r, j) true, .read (r, j) true, .write (r, j)],
   poss.map itemAccesses]

/-- The server ran the phases `Ts` one after the other, each under some schedule, from `mem` to `mem'`. -/
inductive RanPhases (N : Nat) (deny : Policy n) : List (List (Task n)) → Mem n → Mem n → Prop
  | done (mem : Mem n) : RanPhases N deny [] mem mem
  | phase {T : List (Task n)} {Ts : List (List (Task n))} {mem mem1 mem' : Mem n} {outs : List (List (RLWE n))} :
      ParRun N deny T mem mem1 outs → RanPhases N deny Ts mem1 mem' → RanPhases N deny (T :: Ts) mem mem'

end Panacea
