import Verif.Model.Oram

/-!
# Threads, locks and schedules of the server, /repo/src/oram.rs

The server runs closures on rayon's worker threads.  Shared state: one `RwLock` per database row (`Server::data`,
/repo/src/oram.rs:418) and one `Mutex` per worker thread around its FFT buffer (`FftBufferPool`, /repo/src/oram.rs:22-34; every closure
uses the buffer of its own thread index).  A closure is modelled as a list of *statements*; a statement acquires its guards one by one in
program order, does its work, and drops all its guards at its end (Rust temporaries live until the `;`).  Any idle worker may take any
waiting task (work stealing), tasks interleave arbitrarily between any two lock operations.

Panicking tasks and lock poisoning: `Model/Poison`.  Not modelled: the memory model below locks.
-/

namespace Panacea
variable {n : Nat}

/-- The database contents seen by the tasks  (/repo/src/oram.rs:417-421). -/
abbrev Mem (n : Nat) := List (List (RLWE n))

/-- One Rust statement of a task.
* `read p b`: reads cell `p` under the row's read guard, holding also the thread's FFT buffer if `b`
  (/repo/src/oram.rs:281-285, 314-320, 324-329, 378-382, 398-412, 476-482, 529-534, 642-646, 657, 667-671);
* `len r`: takes the row's read guard only for its length (/repo/src/oram.rs:267, 333, 362, 395, 445);
* `fft`: uses only the thread's FFT buffer (/repo/src/oram.rs:257, 272-277, 357, 372-377, 484-488, 647-651, 672-676);
* `write p f`: stores into cell `p`, under the row's write guard, a value computed from the cells read so far
  (/repo/src/oram.rs:330, 413, 535, 578); `f = none` is a panic. -/
inductive Stmt (n : Nat)
  | read (p : Nat × Nat) (fft : Bool)
  | len (r : Nat)
  | fft
  | write (p : Nat × Nat) (f : List (RLWE n) → Option (RLWE n))

/-- The statements of one closure  (/repo/src/oram.rs:263, 292, 334, 466, 472, 525, 552, 571). -/
abbrev Task (n : Nat) := List (Stmt n)

/-- Locks: read/write guard of a row's `RwLock`, and the `Mutex` of buffer `pool[t]`  (/repo/src/oram.rs:20-40, 417-421). -/
inductive Lock
  | rd (row : Nat)
  | wr (row : Nat)
  | mx (t : Nat)
deriving DecidableEq

/-- The guards a statement takes, in program order, on worker `tid`  (/repo/src/oram.rs:283-284, 317-330, 531-535, 571-580). -/
def Stmt.locks (tid : Nat) : Stmt n → List Lock
  | .read p true => [.rd p.1, .mx tid]
  | .read p false => [.rd p.1]
  | .len r => [.rd r]
  | .fft => [.mx tid]
  | .write p _ => [.wr p.1]

/-- The effect of a statement on the database and on the list of cells read so far; `none` = panic  (/repo/src/oram.rs:283-284, 317-330, 531-535, 571-580). -/
def Stmt.exec (mem : Mem n) (regs : List (RLWE n)) : Stmt n → Option (Mem n × List (RLWE n))
  | .read p _ => (cellAt mem p).map fun v => (mem, regs ++ [v])
  | .len r => (mem[r]?).map fun _ => (mem, regs)
  | .fft => some (mem, regs)
  | .write p f => match cellAt mem p, f regs with
    | some _, some v => some (setCell mem p v, regs)
    | _, _ => none

/-- A task run alone  (/repo/src/oram.rs:244-580). -/
def runTask : Task n → Mem n → List (RLWE n) → Option (Mem n × List (RLWE n))
  | [], mem, regs => some (mem, regs)
  | s :: t, mem, regs => match s.exec mem regs with
    | none => none
    | some (mem, regs) => runTask t mem regs

/-- Tasks run one after the other, with the cells each of them has read  (/repo/src/oram.rs:343-415). -/
def runSeq : List (Task n) → Mem n → Option (Mem n × List (List (RLWE n)))
  | [], mem => some (mem, [])
  | t :: ts, mem => match runTask t mem [] with
    | none => none
    | some (mem, regs) => (runSeq ts mem).map fun x => (x.1, regs :: x.2)

/-- Where a task is: not taken yet; on worker `tid`, with `done` statements executed, `held` guards of the current statement acquired and
the cells read so far; or finished  (support: rayon pool behind /repo/src/oram.rs:263-580). -/
inductive TState (n : Nat)
  | pending
  | running (tid done held : Nat) (regs : List (RLWE n))
  | finished (regs : List (RLWE n))

/-- A configuration: the database and the state of every task  (support: rayon pool behind /repo/src/oram.rs:263-580). -/
structure Conf (n : Nat) where
  mem : Mem n
  st : List (TState n)

/-- Task `i` is on worker `tid`  (`current_thread_index`, /repo/src/oram.rs:252, 271, 313). -/
def Conf.On (C : Conf n) (i tid : Nat) : Prop := ∃ d h regs, C.st[i]? = some (.running tid d h regs)

/-- Task `i` holds the guard `l`  (/repo/src/oram.rs:257, 276, 283). -/
def Holds (T : List (Task n)) (C : Conf n) (i : Nat) (l : Lock) : Prop :=
  ∃ t tid d h regs s, T[i]? = some t ∧ C.st[i]? = some (.running tid d h regs) ∧ t[d]? = some s ∧ l ∈ (s.locks tid).take h

/-- Task `i` waits for the write guard of row `r`  (/repo/src/oram.rs:330, 413, 535, 578). -/
def WaitsWr (T : List (Task n)) (C : Conf n) (i r : Nat) : Prop :=
  ∃ t tid d regs p f, T[i]? = some t ∧ C.st[i]? = some (.running tid d 0 regs) ∧ t[d]? = some (.write p f) ∧ p.1 = r

/-- When a guard can be granted: readers share, writers and mutex holders are alone  (`RwLock` and `Mutex` of /repo/src/oram.rs:20-40, 417-421). -/
def Avail (T : List (Task n)) (C : Conf n) : Lock → Prop
  | .rd r => ∀ i, ¬ Holds T C i (.wr r)
  | .wr r => ∀ i, ¬ Holds T C i (.wr r) ∧ ¬ Holds T C i (.rd r)
  | .mx t => ∀ i, ¬ Holds T C i (.mx t)

/-- The `RwLock` may refuse task `i` a read guard of row `r` although no writer holds it (writer preference); the policy is arbitrary  (`std::sync::RwLock` of /repo/src/oram.rs:417-421). -/
abbrev Policy (n : Nat) := List (Task n) → Conf n → Nat → Nat → Prop

/-- The only constraint on the policy: a reader is refused only while some writer waits for the same row  (`std::sync::RwLock` of /repo/src/oram.rs:417-421). -/
def Policy.Fair (deny : Policy n) : Prop := ∀ T C i r, deny T C i r → ∃ i', WaitsWr T C i' r

/-- The writer-preferring policy: a reader is refused whenever a writer waits for the row  (`std::sync::RwLock` of /repo/src/oram.rs:417-421). -/
def writerPref : Policy n := fun T C _ r => ∃ i', WaitsWr T C i' r

/-- The policy that never refuses a reader without need  (`std::sync::RwLock` of /repo/src/oram.rs:417-421). -/
def readerPref : Policy n := fun _ _ _ _ => False

/-- One step of the pool of `N` worker threads on the tasks `T`  (rayon pool behind /repo/src/oram.rs:263-580). -/
inductive Step (T : List (Task n)) (N : Nat) (deny : Policy n) : Conf n → Conf n → Prop
  /-- an idle worker takes a waiting task -/
  | start {C : Conf n} (i tid : Nat) (hp : C.st[i]? = some .pending) (ht : tid < N) (hidle : ∀ j, ¬ C.On j tid) :
      Step T N deny C { C with st := C.st.set i (.running tid 0 0 []) }
  /-- the next guard of the current statement is granted -/
  | acquire {C : Conf n} (i : Nat) {t : Task n} {tid d h : Nat} {regs : List (RLWE n)} {s : Stmt n} {l : Lock} (ht : T[i]? = some t)
      (hr : C.st[i]? = some (.running tid d h regs)) (hs : t[d]? = some s) (hl : (s.locks tid)[h]? = some l) (ha : Avail T C l)
      (hd : ∀ r, l = .rd r → ¬ deny T C i r) :
      Step T N deny C { C with st := C.st.set i (.running tid d (h + 1) regs) }
  /-- all guards are held: the statement takes effect and drops them -/
  | exec {C : Conf n} (i : Nat) {t : Task n} {tid d h : Nat} {regs regs' : List (RLWE n)} {s : Stmt n} {mem' : Mem n} (ht : T[i]? = some t)
      (hr : C.st[i]? = some (.running tid d h regs)) (hs : t[d]? = some s) (hl : h = (s.locks tid).length)
      (he : s.exec C.mem regs = some (mem', regs')) :
      Step T N deny C ⟨mem', C.st.set i (.running tid (d + 1) 0 regs')⟩
  /-- no statement left: the worker is idle again -/
  | finish {C : Conf n} (i : Nat) {t : Task n} {tid d h : Nat} {regs : List (RLWE n)} (ht : T[i]? = some t)
      (hr : C.st[i]? = some (.running tid d h regs)) (hd : d = t.length) :
      Step T N deny C { C with st := C.st.set i (.finished regs) }

/-- Reflexive-transitive closure: the configurations some schedule reaches  (rayon pool behind /repo/src/oram.rs:263-580). -/
inductive Reach (T : List (Task n)) (N : Nat) (deny : Policy n) : Conf n → Conf n → Prop
  | refl (C : Conf n) : Reach T N deny C C
  | step {C C' C'' : Conf n} : Reach T N deny C C' → Step T N deny C' C'' → Reach T N deny C C''

/-- At the start all tasks wait  (/repo/src/oram.rs:263, 292, 334). -/
def Conf.init (T : List (Task n)) (mem : Mem n) : Conf n := ⟨mem, T.map fun _ => .pending⟩

/-- A complete run of the tasks `T` (a rayon `for_each`/`map`, which returns when all tasks are finished): the final database and, per
task, the cells it has read  (/repo/src/oram.rs:263, 292, 334, 466, 472, 525, 552, 571). -/
def ParRun (N : Nat) (deny : Policy n) (T : List (Task n)) (mem mem' : Mem n) (outs : List (List (RLWE n))) : Prop :=
  ∃ C, Reach T N deny (Conf.init T mem) C ∧ C.mem = mem' ∧ C.st = outs.map .finished

/-! ## The closures of the server as tasks -/

/-- `f` of `process_one_mt`, /repo/src/oram.rs:251-260. -/
def levelTask : Task n := [.fft]

/-- `g` of `process_one_mt`, /repo/src/oram.rs:270-288. -/
def columnTask (j : Nat) : Task n := [.fft, .read (0, j) true]

/-- `g` of `update_db_mt`, /repo/src/oram.rs:312-331. -/
def updateTask (fft : Fft n) (q : ClientQuery n) (l : RGSW n) (j : Nat) : Task n :=
  [.read (0, j) true, .read (0, j) true, .write (0, j) fun regs => match regs with
    | [c1, c2] => some (updateCell fft q l c1 c2)
    | _ => none]

/-- `process_one_st` on row `r`, /repo/src/oram.rs:343-385 (the closures at /repo/src/oram.rs:467 and 554-556). -/
def stTask (r levels cols : Nat) : Task n :=
  List.replicate levels .fft ++ .len r :: (List.range cols).flatMap fun j => [.fft, .read (r, j) true]

/-- Iteration `j` of `update_db_st`, /repo/src/oram.rs:396-414: the two reads of this iteration are the last two cells read. -/
def updateStIter (fft : Fft n) (q : ClientQuery n) (r : Nat) (x : Nat × RGSW n) : Task n :=
  [.read (r, x.1) true, .read (r, x.1) true, .write (r, x.1) fun regs => match regs[2 * x.1]?, regs[2 * x.1 + 1]? with
    | some c1, some c2 => some (updateCell fft q x.2 c1 c2)
    | _, _ => none]

/-- `update_db_st` on row `r`, /repo/src/oram.rs:387-415 (the closure at /repo/src/oram.rs:564-566). -/
def updateStTask (fft : Fft n) (q : ClientQuery n) (r : Nat) (ls : List (RGSW n)) : Task n :=
  .len r :: ((List.range ls.length).zip ls).flatMap (updateStIter fft q r)

/-- The closure computing `tmps` in `process_multi`, /repo/src/oram.rs:472-491. -/
def multiTmpTask (cols : Nat) : Task n := (List.range cols).flatMap fun j => [.read (0, j) true, .fft]

/-- The closure updating column `j` in `process_multi`, /repo/src/oram.rs:526-536. -/
def multiUpdateTask (fft : Fft n) (j : Nat) (x : RGSW n × RLWE n) : Task n :=
  [.read (0, j) true, .write (0, j) fun regs => match regs with
    | [cell] => some (cmux fft x.1 0 cell x.2)
    | _ => none]

/-- `correct_consistency`, /repo/src/oram.rs:626-687, as a function of the cells in the order they are read: `positions[0]` once per
position (`firsts`), `positions[0]` once more (`mid`), then `positions[1..]` (`others`). -/
def correctRegs (fft : Fft n) (ls : List (List (RGSW n))) (flags : List (RGSW n)) (positions : List (Nat × Nat)) (regs : List (RLWE n)) :
    Option (RLWE n) :=
  match mapOption (fun (x : (Nat × Nat) × RLWE n) => flagProduct fft ls flags x.1 x.2) (positions.zip (regs.take positions.length)),
    regs[positions.length]? with
  | some (v1 :: v1s), some mid =>
    let firstTerm := (v1 :: v1s).foldl (fun acc v => acc - v) mid
    match mapOption (fun (x : (Nat × Nat) × RLWE n) => flagProduct fft ls flags x.1 x.2)
      ((positions.drop 1).zip (regs.drop (positions.length + 1))) with
    | some terms => some (terms.foldl (fun acc v => acc + v) v1 + firstTerm)
    | none => none
  | _, _ => none

/-- The closure of the consistency loop for an item with the given positions, /repo/src/oram.rs:571-580: `self.cols()` per position,
the reads of `correct_consistency`, then the stores. -/
def itemTask (fft : Fft n) (ls : List (List (RGSW n))) (flags : List (RGSW n)) : List (Nat × Nat) → Task n
  | [] => []
  | first :: others =>
    ((first :: others).map fun _ => Stmt.len 0) ++ ((first :: others).flatMap fun _ => [.read first true, .fft])
      ++ .read first false :: (others.flatMap fun p => [.read p true, .fft])
      ++ ((first :: others).map fun p => .write p (correctRegs fft ls flags (first :: others)))

/-! ## The server functions under a schedule -/

/-- `Server::process_one`, /repo/src/oram.rs:449-456, with `N` workers: the level tasks, the column tasks on the cells they read, any
reduction, then the update tasks. -/
def ProcessOneSched (N : Nat) (deny : Policy n) (fft : Fft n) (S : Server n) (q : ClientQuery n) (y : RLWE n) (S' : Server n) : Prop :=
  ∃ row, S.data.head? = some row ∧
  ∃ mem1 outs1, ParRun N deny ((List.range S.ctx.levelCount).map fun _ => levelTask) S.data mem1 outs1 ∧
  ∃ L, decomposedSelectors fft S.ctx q row.length = some L ∧
  ∃ mem2 outs2, ParRun N deny ((List.range row.length).map columnTask) mem1 mem2 outs2 ∧
  ∃ rs, mapOption (partialResponse fft S.ctx S.negS) (L.zip outs2.flatten) = some rs ∧
  ParReduce (· + ·) 0 (rs.map Prod.fst) y ∧
  ∃ mem3 outs3, ParRun N deny (((List.range row.length).zip (rs.map Prod.snd)).map fun x => updateTask fft q x.2 x.1) mem2 mem3 outs3 ∧
  S' = { S with data := mem3 }

/-- `Server::process_multi`, /repo/src/oram.rs:459-539, with `N` workers. -/
def ProcessMultiSched (N : Nat) (deny : Policy n) (fft : Fft n) (S : Server n) (qs : List (ClientQuery n)) (ys : List (RLWE n))
    (S' : Server n) : Prop :=
  ∃ row, S.data.head? = some row ∧
  ∃ mem1 outs1, ParRun N deny (qs.map fun _ => stTask 0 S.ctx.levelCount row.length) S.data mem1 outs1 ∧
  ∃ rs, mapOption (fun (x : ClientQuery n × List (RLWE n)) => processOneSt fft S.ctx x.1 x.2 S.negS) (qs.zip outs1) = some rs ∧
  ∃ mem2 outs2, ParRun N deny (qs.map fun _ => multiTmpTask row.length) mem1 mem2 outs2 ∧
  ∃ tmps, ParReduce addVec (List.replicate row.length 0)
    (List.zipWith (fun q (x : List (RGSW n) × List (RLWE n)) => multiTmps fft x.2 q x.1) qs ((rs.map Prod.snd).zip outs2)) tmps ∧
  ∃ sels, ParReduce addGswVec (List.replicate row.length (RGSW.allocate n S.ctx.baseLog S.ctx.levelCount)) (rs.map Prod.snd) sels ∧
  ∃ mem3 outs3, ParRun N deny (((List.range row.length).zip (sels.zip tmps)).map fun x => multiUpdateTask fft x.1 x.2) mem2 mem3 outs3 ∧
  ys = rs.map Prod.fst ∧ S' = { S with data := mem3 }

/-- `Server::process_batch`, /repo/src/oram.rs:542-582, with `N` workers. -/
def ProcessBatchSched (N : Nat) (deny : Policy n) (fft : Fft n) (S : Server n) (qs : List (ClientQuery n)) (H : NaiveHash)
    (ys : List (RLWE n)) (S' : Server n) : Prop :=
  qs.length = S.data.length ∧ H.hCount ≠ 0 ∧
  ∃ mem1 outs1, ParRun N deny (((List.range S.data.length).zip S.data).map fun x => stTask x.1 S.ctx.levelCount x.2.length) S.data mem1 outs1 ∧
  ∃ rs, mapOption (batchRow fft S) (qs.zip outs1) = some rs ∧
  ∃ mem2 outs2, ParRun N deny (((List.range S.data.length).zip (qs.zip (rs.map Prod.snd))).map
    fun x => updateStTask fft x.2.1 x.1 x.2.2) mem1 mem2 outs2 ∧
  ∃ cols, S.cols = some cols ∧
  ∃ poss, mapOption (itemPositions H cols) (List.range (S.data.length * cols / H.hCount)) = some poss ∧
  ∃ mem3 outs3, ParRun N deny (poss.map (itemTask fft (rs.map Prod.snd) (qs.map ClientQuery.op))) mem2 mem3 outs3 ∧
  ys = rs.map Prod.fst ∧ S' = { S with data := mem3 }

end Panacea
