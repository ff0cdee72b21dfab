import Verif.Model.Sched

/-!
# Panicking workers and lock poisoning, /repo/src/oram.rs:22-34, 251-337, 343-415, 449-582, 626-687

`Model/Sched` lets every statement succeed.  Here a task may panic, at an index out of range or in any computation, on any worker.  A panic
unwinds the task: its guards are dropped, the worker is idle again, the other tasks go on (rayon's `join` resumes the panic only after they
are finished), and `std::sync` *poisons* every `RwLock` whose write guard and every `Mutex` whose guard was dropped by the unwinding
(dropping a read guard does not poison).  Every lock of the server is taken with `.read().unwrap()`, `.write().unwrap()` or
`.lock().unwrap()`: taking a poisoned lock panics.

When a statement panics: `data[r]` is indexed, and the stored value is computed, before the lock is requested; the column is indexed under
the row's guard; a read statement computes with all its guards held (a column out of range is detected, in the program, before the buffer
is locked: the model poisons the buffer as well).  `fill_with_copy` under the write guard cannot panic (all polynomials have `n`
coefficients).
-/

namespace Panacea
variable {n : Nat}

/-- A configuration with panics: `dead` are the tasks that panicked (shown as finished in `conf`: they hold no guard and occupy no worker),
`rows` the poisoned `RwLock`s and `bufs` the poisoned `Mutex`es  (/repo/src/oram.rs:417-421 and 20-40 (locks and buffers)). -/
structure PConf (n : Nat) where
  conf : Conf n
  dead : List Nat
  rows : List Nat
  bufs : List Nat

/-- Taking the guard returns `Err(PoisonError)`, on which `unwrap` panics  (/repo/src/oram.rs:257, 267, 276, 283 ...). -/
def PConf.Poisoned (P : PConf n) : Lock → Prop
  | .rd r => r ∈ P.rows
  | .wr r => r ∈ P.rows
  | .mx t => t ∈ P.bufs

/-- The row poisoned by dropping the guard while unwinding: only a write guard poisons  (/repo/src/oram.rs:330, 413, 535, 578). -/
def Lock.poisonsRow : Lock → Option Nat
  | .wr r => some r
  | _ => none

/-- The buffer poisoned by dropping the guard while unwinding  (/repo/src/oram.rs:257, 276, 284, 319). -/
def Lock.poisonsBuf : Lock → Option Nat
  | .mx t => some t
  | _ => none

/-- Task `i`, having read `regs`, panics while it holds the guards `held`  (support: unwinding of a task of /repo/src/oram.rs:263-580). -/
def PConf.kill (P : PConf n) (i : Nat) (held : List Lock) (regs : List (RLWE n)) : PConf n :=
  ⟨{ P.conf with st := P.conf.st.set i (.finished regs) }, i :: P.dead, held.filterMap Lock.poisonsRow ++ P.rows,
    held.filterMap Lock.poisonsBuf ++ P.bufs⟩

/-- Whether the computations of a statement panic in the run under consideration (an assertion, an allocation, an arithmetic overflow ...):
those before it asks for its first guard, or those with all guards held  (support: any panic inside /repo/src/oram.rs:244-664). -/
inductive Fault
  | ok
  | before
  | during
deriving DecidableEq

/-- What the statement does before it asks for its first guard succeeds: the row index is in range and the value to store is computed  (/repo/src/oram.rs:263-580). -/
def Stmt.Pre (bad : Fault) (mem : Mem n) (regs : List (RLWE n)) : Stmt n → Prop
  | .read p _ => p.1 < mem.length ∧ bad ≠ .before
  | .len r => r < mem.length ∧ bad ≠ .before
  | .fft => bad ≠ .before
  | .write p f => p.1 < mem.length ∧ bad ≠ .before ∧ ∃ v, f regs = some v

/-- The statement panics with all its guards held: a column out of range, or its computation panics; a store computes nothing under its
guard  (/repo/src/oram.rs:263-580). -/
def Stmt.Fails (bad : Fault) (mem : Mem n) (regs : List (RLWE n)) : Stmt n → Prop
  | .read p _ => cellAt mem p = none ∨ bad = .during
  | .len _ => bad = .during
  | .fft => bad = .during
  | .write p _ => cellAt mem p = none

/-- One step of the pool of `N` workers on the tasks `T`; `bad i d`: how the computations of statement `d` of task `i` fare in this run  (/repo/src/oram.rs:263-580 on the rayon pool). -/
inductive PStep (T : List (Task n)) (N : Nat) (deny : Policy n) (bad : Nat → Nat → Fault) : PConf n → PConf n → Prop
  /-- an idle worker takes a waiting task -/
  | start {P : PConf n} (i tid : Nat) (hp : P.conf.st[i]? = some .pending) (ht : tid < N) (hidle : ∀ j, ¬ P.conf.On j tid) :
      PStep T N deny bad P { P with conf := { P.conf with st := P.conf.st.set i (.running tid 0 0 []) } }
  /-- the statement panics before it asks for its first guard -/
  | panicBefore {P : PConf n} (i : Nat) {t : Task n} {tid d : Nat} {regs : List (RLWE n)} {s : Stmt n} (ht : T[i]? = some t)
      (hr : P.conf.st[i]? = some (.running tid d 0 regs)) (hs : t[d]? = some s) (hpre : ¬ s.Pre (bad i d) P.conf.mem regs) :
      PStep T N deny bad P (P.kill i [] regs)
  /-- the next guard of the current statement is granted -/
  | acquire {P : PConf n} (i : Nat) {t : Task n} {tid d h : Nat} {regs : List (RLWE n)} {s : Stmt n} {l : Lock} (ht : T[i]? = some t)
      (hr : P.conf.st[i]? = some (.running tid d h regs)) (hs : t[d]? = some s) (hpre : h = 0 → s.Pre (bad i d) P.conf.mem regs)
      (hl : (s.locks tid)[h]? = some l) (ha : Avail T P.conf l) (hd : ∀ r, l = .rd r → ¬ deny T P.conf i r) (hok : ¬ P.Poisoned l) :
      PStep T N deny bad P { P with conf := { P.conf with st := P.conf.st.set i (.running tid d (h + 1) regs) } }
  /-- the next guard is granted, but its lock is poisoned: `unwrap` panics -/
  | poisoned {P : PConf n} (i : Nat) {t : Task n} {tid d h : Nat} {regs : List (RLWE n)} {s : Stmt n} {l : Lock} (ht : T[i]? = some t)
      (hr : P.conf.st[i]? = some (.running tid d h regs)) (hs : t[d]? = some s) (hpre : h = 0 → s.Pre (bad i d) P.conf.mem regs)
      (hl : (s.locks tid)[h]? = some l) (ha : Avail T P.conf l) (hd : ∀ r, l = .rd r → ¬ deny T P.conf i r) (hbad : P.Poisoned l) :
      PStep T N deny bad P (P.kill i ((s.locks tid).take h) regs)
  /-- all guards are held: the statement takes effect and drops them -/
  | exec {P : PConf n} (i : Nat) {t : Task n} {tid d h : Nat} {regs regs' : List (RLWE n)} {s : Stmt n} {mem' : Mem n} (ht : T[i]? = some t)
      (hr : P.conf.st[i]? = some (.running tid d h regs)) (hs : t[d]? = some s) (hl : h = (s.locks tid).length)
      (hok : ¬ s.Fails (bad i d) P.conf.mem regs) (he : s.exec P.conf.mem regs = some (mem', regs')) :
      PStep T N deny bad P { P with conf := ⟨mem', P.conf.st.set i (.running tid (d + 1) 0 regs')⟩ }
  /-- all guards are held: the statement panics and drops them -/
  | panic {P : PConf n} (i : Nat) {t : Task n} {tid d h : Nat} {regs : List (RLWE n)} {s : Stmt n} (ht : T[i]? = some t)
      (hr : P.conf.st[i]? = some (.running tid d h regs)) (hs : t[d]? = some s) (hl : h = (s.locks tid).length)
      (hbad : s.Fails (bad i d) P.conf.mem regs) :
      PStep T N deny bad P (P.kill i (s.locks tid) regs)
  /-- no statement left: the worker is idle again -/
  | finish {P : PConf n} (i : Nat) {t : Task n} {tid d h : Nat} {regs : List (RLWE n)} (ht : T[i]? = some t)
      (hr : P.conf.st[i]? = some (.running tid d h regs)) (hd : d = t.length) :
      PStep T N deny bad P { P with conf := { P.conf with st := P.conf.st.set i (.finished regs) } }

/-- Reflexive-transitive closure  (support: closure of `PStep`, /repo/src/oram.rs:263-580). -/
inductive PReach (T : List (Task n)) (N : Nat) (deny : Policy n) (bad : Nat → Nat → Fault) : PConf n → PConf n → Prop
  | refl (P : PConf n) : PReach T N deny bad P P
  | step {P P' P'' : PConf n} : PReach T N deny bad P P' → PStep T N deny bad P' P'' → PReach T N deny bad P P''

/-- At the start all tasks wait; the row locks poisoned earlier are still poisoned, the buffers are new (every call makes its own
`FftBufferPool`, /repo/src/oram.rs:450, 460, 548). -/
def PConf.init (T : List (Task n)) (mem : Mem n) (rows : List Nat) : PConf n := ⟨Conf.init T mem, [], rows, []⟩

/-- The parallel phases of the server's functions, for arbitrary arguments (queries, selectors, sums, positions)  (/repo/src/oram.rs:263, 292, 334, 466, 472, 525, 552, 571). -/
inductive ServerPhase : List (Task n) → Prop
  /-- the level closures of `process_one`, /repo/src/oram.rs:251-264 -/
  | levels (k : Nat) : ServerPhase ((List.range k).map fun _ => levelTask)
  /-- the column closures of `process_one`, /repo/src/oram.rs:270-300 -/
  | columns (cols : Nat) : ServerPhase ((List.range cols).map columnTask)
  /-- `update_db_mt`, /repo/src/oram.rs:305-337 -/
  | update (fft : Fft n) (q : ClientQuery n) (xs : List (Nat × RGSW n)) : ServerPhase (xs.map fun x => updateTask fft q x.2 x.1)
  /-- the `process_one_st` closures of `process_multi` and `process_batch`, /repo/src/oram.rs:343-385, 466-468, 551-557 -/
  | rows (xs : List (Nat × Nat × Nat)) : ServerPhase (xs.map fun x => stTask x.1 x.2.1 x.2.2)
  /-- the closures computing `tmps` in `process_multi`, /repo/src/oram.rs:472-491 -/
  | tmps (k cols : Nat) : ServerPhase ((List.range k).map fun _ => multiTmpTask cols)
  /-- the last loop of `process_multi`, /repo/src/oram.rs:523-536 -/
  | multi (fft : Fft n) (xs : List (Nat × RGSW n × RLWE n)) : ServerPhase (xs.map fun x => multiUpdateTask fft x.1 x.2)
  /-- the `update_db_st` closures of `process_batch`, /repo/src/oram.rs:561-566 -/
  | updates (fft : Fft n) (xs : List (ClientQuery n × Nat × List (RGSW n))) :
      ServerPhase (xs.map fun x => updateStTask fft x.1 x.2.1 x.2.2)
  /-- the consistency loop of `process_batch`, /repo/src/oram.rs:571-580 -/
  | items (fft : Fft n) (ls : List (List (RGSW n))) (flags : List (RGSW n)) (poss : List (List (Nat × Nat))) :
      ServerPhase (poss.map (itemTask fft ls flags))

/-- A history of phases of server calls, each ended by completion or by a panic (caught by the caller), from the database `mem` with the
poisoned rows `rows` to `mem'`, `rows'`.  A phase ends when no task is running: after a panic rayon may drop tasks not yet started  (/repo/src/oram.rs:449-585). -/
inductive PHistory (N : Nat) (deny : Policy n) (mem : Mem n) (rows : List Nat) : Mem n → List Nat → Prop
  | nil : PHistory N deny mem rows mem rows
  | phase {m : Mem n} {r : List Nat} {T : List (Task n)} {bad : Nat → Nat → Fault} {P : PConf n} : PHistory N deny mem rows m r →
      ServerPhase T → PReach T N deny bad (PConf.init T m r) P → (∀ i tid, ¬ P.conf.On i tid) → PHistory N deny mem rows P.conf.mem P.rows

end Panacea
