import Verif.Model.Sched

/-!
# What a panicking server call leaves behind: /repo/src/oram.rs:305-337, 387-415, 449-582

The other models give a call's result as an `Option` and say nothing about the database after a panic.  Here every access to the database is
an individual fallible step on the memory; a panic keeps the memory as it is at that point.  Columns, rows and items are executed
one after the other (any order is covered by `C49`).
-/

namespace Panacea
variable {n : Nat}

/-- A computation on the database: `(none, mem)` = panic, leaving `mem`  (support: the state of `Server::data`, /repo/src/oram.rs:417-421). -/
abbrev Exec (n : Nat) (α : Type) := Mem n → Option α × Mem n

namespace Exec

/-- Sequencing; a panic stops  (support: sequencing of Rust statements). -/
def bind {α β : Type} (x : Exec n α) (f : α → Exec n β) : Exec n β := fun mem =>
  match x mem with
  | (none, mem') => (none, mem')
  | (some a, mem') => f a mem'

/-- A computation that does not touch the database; `none` = panic  (support, e.g. /repo/src/oram.rs:272-279). -/
def lift {α : Type} (o : Option α) : Exec n α := fun mem => (o, mem)

/-- `data[r].read().unwrap()[c]`  (/repo/src/oram.rs:283, 317, 326, 380, 401, 409, 531, 644). -/
def readCell (p : Nat × Nat) : Exec n (RLWE n) := fun mem => (cellAt mem p, mem)

/-- `data[r].read().unwrap().len()`  (/repo/src/oram.rs:267, 333, 362, 395, 445). -/
def rowLen (r : Nat) : Exec n Nat := fun mem => ((mem[r]?).map List.length, mem)

/-- `data[r].write().unwrap()[c] = v`  (/repo/src/oram.rs:330, 413, 535, 578). -/
def writeCell (p : Nat × Nat) (v : RLWE n) : Exec n Unit := fun mem =>
  match cellAt mem p with
  | none => (none, mem)
  | some _ => (some (), setCell mem p v)

/-- A loop  (/repo/src/oram.rs:334, 396, 525, 571). -/
def forEach {α : Type} (f : α → Exec n Unit) : List α → Exec n Unit
  | [] => lift (some ())
  | a :: as => bind (f a) fun _ => forEach f as

end Exec

open Exec

/-- The closure `g` of `update_db_mt` and the loop body of `update_db_st`, /repo/src/oram.rs:312-331, 396-414, for column `j` of row `r`
with selector `l`. -/
def updateColX (fft : Fft n) (q : ClientQuery n) (r j : Nat) (l : RGSW n) : Exec n Unit :=
  bind (readCell (r, j)) fun cell1 =>
  bind (readCell (r, j)) fun cell2 =>
  writeCell (r, j) (cmux fft l 0 cell2 (rw fft q.op q.data cell1))

/-- `update_db_mt`, /repo/src/oram.rs:305-337: columns zipped with the selectors. -/
def updateDbMtX (fft : Fft n) (q : ClientQuery n) (r : Nat) (ls : List (RGSW n)) : Exec n Unit :=
  bind (rowLen r) fun cols => forEach (fun x => updateColX fft q r x.1 x.2) ((List.range cols).zip ls)

/-- `update_db_st`, /repo/src/oram.rs:387-415: `ls[j]` is an index that can panic. -/
def updateDbStX (fft : Fft n) (q : ClientQuery n) (r : Nat) (ls : List (RGSW n)) : Exec n Unit :=
  bind (rowLen r) fun cols => forEach (fun j =>
    bind (readCell (r, j)) fun cell1 =>
    bind (lift ls[j]?) fun l =>
    bind (readCell (r, j)) fun cell2 =>
    writeCell (r, j) (cmux fft l 0 cell2 (rw fft q.op q.data cell1))) (List.range cols)

/-- `Server::process_one`, /repo/src/oram.rs:449-456. -/
def processOneX (reduce : List (RLWE n) → RLWE n) (fft : Fft n) (S : Server n) (q : ClientQuery n) : Exec n (RLWE n) := fun mem =>
  bind (lift mem[0]?) (fun row =>
  bind (lift (processOneMt reduce fft S.ctx q row S.negS)) fun r =>
  bind (updateDbMtX fft q 0 r.2) fun _ => lift (some r.1)) mem

/-- Last loop of `process_multi`, /repo/src/oram.rs:523-536, for column `j`: `sumed_ls[j]`, `sumed_tmps[j]` can panic. -/
def multiColX (fft : Fft n) (sumedLs : List (RGSW n)) (sumedTmps : List (RLWE n)) (j : Nat) : Exec n Unit :=
  bind (lift sumedLs[j]?) fun l =>
  bind (readCell (0, j)) fun cell =>
  bind (lift sumedTmps[j]?) fun tmp =>
  writeCell (0, j) (cmux fft l 0 cell tmp)

/-- `Server::process_multi`, /repo/src/oram.rs:459-539. -/
def processMultiX (reduceV : List (List (RLWE n)) → List (RLWE n)) (reduceG : List (List (RGSW n)) → List (RGSW n)) (fft : Fft n)
    (S : Server n) (qs : List (ClientQuery n)) : Exec n (List (RLWE n)) := fun mem =>
  bind (lift mem[0]?) (fun row =>
  bind (lift (mapOption (fun q => processOneSt fft S.ctx q row S.negS) qs)) fun rs =>
  bind (forEach (multiColX fft (reduceG (rs.map Prod.snd)) (reduceV (List.zipWith (multiTmps fft row) qs (rs.map Prod.snd))))
    (List.range row.length)) fun _ => lift (some (rs.map Prod.fst))) mem

/-- One iteration of the consistency loop of `process_batch`, /repo/src/oram.rs:571-580. -/
def correctItemX (fft : Fft n) (H : NaiveHash) (cols : Nat) (ls : List (List (RGSW n))) (flags : List (RGSW n)) (i : Nat) : Exec n Unit :=
  bind (lift (itemPositions H cols i)) fun positions => fun mem =>
  bind (lift (correctConsistency fft mem ls flags positions)) (fun v => forEach (fun p => writeCell p v) positions) mem

/-- `Server::process_batch`, /repo/src/oram.rs:542-582, with the items of the last loop in the order given by `order`. -/
def processBatchX (order : List Nat → List Nat) (fft : Fft n) (S : Server n) (qs : List (ClientQuery n)) (H : NaiveHash) :
    Exec n (List (RLWE n)) := fun mem =>
  if qs.length = mem.length then
    bind (lift (mapOption (batchRow fft S) (qs.zip mem))) (fun rs =>
    bind (forEach (fun (x : (List (RGSW n) × ClientQuery n) × Nat) => updateDbStX fft x.1.2 x.2 x.1.1)
      (((rs.map Prod.snd).zip qs).zip (List.range mem.length))) fun _ =>
    bind (rowLen 0) fun cols =>
    if H.hCount = 0 then lift none
    else
      bind (forEach (correctItemX fft H cols (rs.map Prod.snd) (qs.map ClientQuery.op)) (order (List.range (mem.length * cols / H.hCount))))
        fun _ => lift (some (rs.map Prod.fst))) mem
  else (none, mem)

end Panacea
