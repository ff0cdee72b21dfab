import Verif.Lemmas.Poison
import Verif.Props.Crash

/-!
# C67: after a caught panic the server is still usable: no lock of the database is ever poisoned
-/

namespace Panacea
variable {n : Nat}

/-- C67 (one phase): if every task reads a cell before it stores into it, no schedule with any number of panicking tasks -- at any statement,
before or during its computations, at any index out of range -- poisons a row of the database, and the shape of the database is kept. -/
theorem C67_no_poison {T : List (Task n)} {N : Nat} {deny : Policy n} {bad : Nat → Nat → Fault} {mem : Mem n} {rows : List Nat}
    (hT : ∀ t ∈ T, ReadFirst t) {P : PConf n} (hr : PReach T N deny bad (PConf.init T mem rows) P) :
    P.rows = rows ∧ SameShape P.conf.mem mem := by
  have hi := pinv_reach (pinv_init T mem rows) hr
  refine ⟨?_, hi.shape⟩
  clear hi
  generalize hP : PConf.init T mem rows = P0 at hr
  have hi0 : PInv T mem P0 := hP ▸ pinv_init T mem rows
  have h0 : P0.rows = rows := by rw [← hP]; rfl
  clear hP
  induction hr with
  | refl => exact h0
  | step hr' hs ih => rw [rows_step hT (pinv_reach hi0 hr') hs, ih]

/-- C67 (the server): in every history of calls, whatever the arguments of the calls and whichever of them panic, wherever and under
whatever schedule, no row lock becomes poisoned and the shape of the database is kept -- at the end of every call and in the middle of one. -/
theorem C67_history {N : Nat} {deny : Policy n} {mem m : Mem n} {rows : List Nat} (h : PHistory N deny mem [] m rows) :
    (rows = [] ∧ SameShape m mem) ∧
    ∀ T bad P, ServerPhase T → PReach T N deny bad (PConf.init T m rows) P → P.rows = [] ∧ SameShape P.conf.mem mem := by
  have key : rows = [] ∧ SameShape m mem := by
    induction h with
    | nil => exact ⟨rfl, rfl⟩
    | phase _ hT hr _ ih =>
      obtain ⟨a, b⟩ := C67_no_poison (serverPhase_readFirst hT) hr
      exact ⟨by rw [a, ih.1], Eq.trans b ih.2⟩
  refine ⟨key, fun T bad P hT hr => ?_⟩
  obtain ⟨a, b⟩ := C67_no_poison (serverPhase_readFirst hT) hr
  exact ⟨by rw [a, key.1], Eq.trans b key.2⟩

/-- C67 (a panic cannot hang the call): whatever the tasks and whichever of them panic, a phase with an unended task can always make a step,
and no schedule is infinite.  (With no assumption on the tasks or the database: this also covers poisoned locks.) -/
theorem C67_ends {T : List (Task n)} {N : Nat} {deny : Policy n} {bad : Nat → Nat → Fault} {mem : Mem n} {rows : List Nat} (hN : 0 < N)
    (hdeny : deny.Fair) :
    (∀ P, PReach T N deny bad (PConf.init T mem rows) P → ¬ P.Ended → ∃ P', PStep T N deny bad P P') ∧
    ∀ f : Nat → PConf n, f 0 = PConf.init T mem rows → ¬ ∀ k, PStep T N deny bad (f k) (f (k + 1)) := by
  refine ⟨fun P hr hne => pprogress hN hdeny (pinv_reach (pinv_init T mem rows) hr) hne, fun f h0 hs => ?_⟩
  have hinv : ∀ k, PInv T mem (f k) := by
    intro k
    induction k with
    | zero => rw [h0]; exact pinv_init T mem rows
    | succ k ih => exact pinv_step ih (hs k)
  have hle : ∀ k, (f k).conf.weight T + k ≤ (f 0).conf.weight T := by
    intro k
    induction k with
    | zero => exact le_rfl
    | succ k ih => have := pstep_decreases (hinv k) (hs k); omega
  have := hle ((f 0).conf.weight T + 1)
  omega

theorem pstep_dead {T : List (Task n)} {N : Nat} {deny : Policy n} {bad : Nat → Nat → Fault} {P P' : PConf n}
    (hs : PStep T N deny bad P P') (hd : P'.dead = []) : P.dead = [] ∧ P'.rows = P.rows ∧ P'.bufs = P.bufs ∧ Step T N deny P.conf P'.conf := by
  cases hs with
  | start i tid hp ht hidle => exact ⟨hd, rfl, rfl, .start i tid hp ht hidle⟩
  | panicBefore i ht hr hs hpre => cases hd
  | poisoned i ht hr hs hpre hl ha hd' hbad => cases hd
  | panic i ht hr hs hl hbad => cases hd
  | acquire i ht hr hs hpre hl ha hd' hok => exact ⟨hd, rfl, rfl, .acquire i ht hr hs hl ha hd'⟩
  | exec i ht hr hs hl hok he => exact ⟨hd, rfl, rfl, .exec i ht hr hs hl he⟩
  | finish i ht hr hd' => exact ⟨hd, rfl, rfl, .finish i ht hr hd'⟩

/-- C67 (conservative): a run in which no task panicked is a run of the pool without panics (`C49`-`C51` apply to it). -/
theorem C67_no_panic {T : List (Task n)} {N : Nat} {deny : Policy n} {bad : Nat → Nat → Fault} {mem : Mem n} {rows : List Nat} {P : PConf n}
    (hr : PReach T N deny bad (PConf.init T mem rows) P) (hd : P.dead = []) : Reach T N deny (Conf.init T mem) P.conf := by
  generalize hP : PConf.init T mem rows = P0 at hr
  have h0 : P0.conf = Conf.init T mem := by rw [← hP]; rfl
  clear hP
  induction hr with
  | refl => rw [h0]; exact .refl _
  | step _ hs ih =>
    obtain ⟨a, _, _, b⟩ := pstep_dead hs hd
    exact .step (ih a) b

theorem ended_outs {P : PConf n} (h : P.Ended) : ∃ outs : List (List (RLWE n)), P.conf.st = outs.map .finished := by
  have : ∀ st : List (TState n), (∀ x ∈ st, ∃ regs, x = .finished regs) → ∃ outs : List (List (RLWE n)), st = outs.map .finished := by
    intro st
    induction st with
    | nil => exact fun _ => ⟨[], rfl⟩
    | cons x st ih =>
      intro hx
      obtain ⟨outs, ho⟩ := ih fun y hy => hx y (by simp [hy])
      obtain ⟨regs, rfl⟩ := hx x (by simp)
      exact ⟨regs :: outs, by simp [ho]⟩
  exact this _ h

/-- C67 (recovery): on a database without poisoned rows, tasks that do not interfere, that run alone without an index out of range and whose
computations do not panic do not panic under any schedule either: an earlier panic, caught by the caller, leaves no trace in the locks. -/
theorem C67_recovers {T : List (Task n)} {N : Nat} {deny : Policy n} {mem : Mem n} (hT : Independent T) (hrun : AllRun T mem) {P : PConf n}
    (hr : PReach T N deny (fun _ _ => .ok) (PConf.init T mem []) P) : P.dead = [] ∧ (P.Ended → ∃ outs, ParRun N deny T mem P.conf.mem outs) := by
  have key : P.dead = [] ∧ P.rows = [] := by
    generalize hP : PConf.init T mem [] = P0 at hr
    have hi0 : PInv T mem P0 := hP ▸ pinv_init T mem []
    have h0 : P0.dead = [] ∧ P0.rows = [] := by rw [← hP]; exact ⟨rfl, rfl⟩
    have hr0 : ∀ P, PReach T N deny (fun _ _ => .ok) P0 P → P.dead = [] → Reach T N deny (Conf.init T mem) P.conf :=
      fun P h hd => C67_no_panic (rows := []) (hP ▸ h) hd
    clear hP
    induction hr with
    | refl => exact h0
    | @step P' P'' hr' hs ih =>
      obtain ⟨hd, hro⟩ := ih
      have hi := pinv_reach hi0 hr'
      have hbufs := hi.bufs hd
      have hI := inv_reach hT hrun (inv_init T mem) (hr0 _ hr' hd)
      have hexec : ∀ (i : Nat) (t : Task n) (tid d h : Nat) (regs : List (RLWE n)) (s : Stmt n), T[i]? = some t →
          P'.conf.st[i]? = some (.running tid d h regs) → t[d]? = some s → ∃ r, s.exec P'.conf.mem regs = some r := fun i t tid d h regs s ht hst hs => by
        obtain ⟨r, hrt⟩ := hrun t (List.mem_of_getElem? ht)
        obtain ⟨m, rg, e, _⟩ := (hI.task i t _ ht hst).1.exec hI.rows hrt hs
        exact ⟨_, e⟩
      have hrow : ∀ {m : Mem n} {p : Nat × Nat} {v : RLWE n}, cellAt m p = some v → p.1 < m.length := fun {m p v} h => by
        unfold cellAt at h
        split at h
        · cases h
        · rename_i hx; exact (List.getElem?_eq_some_iff.mp hx).1
      cases hs with
      | start i tid hp ht hidle => exact ⟨hd, hro⟩
      | acquire i ht hr hs hpre hl ha hd' hok => exact ⟨hd, hro⟩
      | exec i ht hr hs hl hok he => exact ⟨hd, hro⟩
      | finish i ht hr hd' => exact ⟨hd, hro⟩
      | @poisoned i t tid d h regs s l ht hr hs hpre hl ha hd' hbad =>
        exfalso
        cases l <;> simp only [PConf.Poisoned, hro, hbufs, List.not_mem_nil] at hbad
      | @panicBefore i t tid d regs s ht hr hs hpre =>
        exfalso
        obtain ⟨r, he⟩ := hexec i t tid d 0 regs s ht hr hs
        apply hpre
        cases s with
        | read p b =>
          simp only [Stmt.exec, Option.map_eq_some_iff] at he
          obtain ⟨v, hv, _⟩ := he
          exact ⟨hrow hv, by simp⟩
        | len k =>
          simp only [Stmt.exec, Option.map_eq_some_iff] at he
          obtain ⟨v, hv, _⟩ := he
          exact ⟨(List.getElem?_eq_some_iff.mp hv).1, by simp⟩
        | fft => simp [Stmt.Pre]
        | write p f =>
          simp only [Stmt.exec] at he
          split at he
          · rename_i v w hv hw
            exact ⟨hrow hv, by simp, w, hw⟩
          · cases he
      | @panic i t tid d h regs s ht hr hs hl hbad =>
        exfalso
        obtain ⟨r, he⟩ := hexec i t tid d h regs s ht hr hs
        cases s with
        | read p b =>
          simp only [Stmt.exec, Option.map_eq_some_iff] at he
          obtain ⟨v, hv, _⟩ := he
          simp [Stmt.Fails, hv] at hbad
        | len k => simp [Stmt.Fails] at hbad
        | fft => simp [Stmt.Fails] at hbad
        | write p f =>
          simp only [Stmt.exec] at he
          split at he
          · rename_i v w hv hw
            simp [Stmt.Fails, hv] at hbad
          · cases he
  exact ⟨key.1, fun hend => by
    obtain ⟨outs, ho⟩ := ended_outs hend
    exact ⟨outs, P.conf, C67_no_panic hr key.1, rfl, ho⟩⟩

/-- C67 (`process_one` after any history): after any history of calls, some of which panicked, on a server whose locks were fresh, the
update phase of `process_one` on what is then in the database ends without a panic under every schedule, with the updated row. -/
theorem C67_process_one_after {N : Nat} {deny : Policy n} (hN : 0 < N) (hdeny : deny.Fair) {mem m : Mem n} {rows : List Nat}
    (h : PHistory N deny mem [] m rows) (fft : Fft n) (q : ClientQuery n) {row : List (RLWE n)} {rest : Mem n} (hm : m = row :: rest)
    {ls : List (RGSW n)} (hl : ls.length = row.length) {P : PConf n}
    (hr : PReach (((List.range row.length).zip ls).map fun x => updateTask fft q x.2 x.1) N deny (fun _ _ => .ok)
      (PConf.init (((List.range row.length).zip ls).map fun x => updateTask fft q x.2 x.1) m rows) P) (hend : P.Ended) :
    P.dead = [] ∧ P.rows = [] ∧ P.conf.mem = updateDb fft q row ls :: rest := by
  obtain ⟨⟨hrows, _⟩, hall⟩ := C67_history h
  obtain ⟨c1, c2, c3, c4⟩ := update_phase fft q (row := row) (rest := rest) hl
  subst hm
  obtain ⟨hro, _⟩ := hall _ _ P (.update fft q _) hr
  subst hrows
  obtain ⟨hd, hR⟩ := C67_recovers c1 c2 hr
  obtain ⟨outs, hpar⟩ := hR hend
  exact ⟨hd, hro, ((phase_iff hN hdeny c1 c2 c4 P.conf.mem outs).mp hpar).1⟩

/-- Three copies of the items 1 and 2, one per row. -/
def halfServer : Server 1 := ⟨List.replicate 3 [⟨0, ⟨fun _ => 1 <<< 60⟩⟩, ⟨0, ⟨fun _ => 2 <<< 60⟩⟩], ⟨16, []⟩, crashCtx⟩
/-- Row 0: write 9 to column 1; rows 1 and 2: read column 0. -/
def halfQueries : List (ClientQuery 1) :=
  match makeWriteQuery crashCtx 0 2 1 (Poly.const 1 9) crashGen, makeReadQuery crashCtx 0 2 0 crashGen with
  | some a, some b => [a.1, b.1, b.1]
  | _, _ => []

/-- C67 (FINDING): because no lock is poisoned, a batch that panics after its row updates (`C63_wrong_hash_panics_late`: a hash function for
fewer items than the database holds) leaves a database whose copies of an item disagree, and every later call works on it silently: here
the first copy of the second item was overwritten with 9, the other two still hold 2. -/
theorem C67_half_written : ∃ H, NaiveHash.new id 1 5 = some H ∧ halfQueries.length = 3 ∧
    (processBatchX id ⟨fun _ => 0⟩ halfServer halfQueries H halfServer.data).1 = none ∧
    ((processBatchX id ⟨fun _ => 0⟩ halfServer halfQueries H halfServer.data).2.map fun row => row.map fun c =>
      (decryptDecodeRlwe crashCtx 0 c).get 0) = [[1, 9], [1, 2], [1, 2]] := by
  rcases h : NaiveHash.new id 1 5 with _ | H
  · revert h; decide +kernel
  · refine ⟨H, rfl, by decide +kernel, ?_⟩
    have : H = ⟨[0, 1, 2, 3, 4], 1, 5⟩ := by
      have h' : NaiveHash.new id 1 5 = some ⟨[0, 1, 2, 3, 4], 1, 5⟩ := by decide +kernel
      rw [h'] at h; exact (Option.some.inj h).symm
    subst this
    decide +kernel

/-! ### The buffers -/

theorem bufs_step {T : List (Task n)} {N : Nat} {deny : Policy n} {bad : Nat → Nat → Fault} {P P' : PConf n} (hs : PStep T N deny bad P P')
    {b : Nat} (hb : b ∈ P.bufs) : b ∈ P'.bufs := by
  cases hs <;> first
    | exact hb
    | exact List.mem_append_right _ hb

/-- C67 (the FFT buffers are poisoned, for the rest of the call): if a closure panics while it holds the buffer of its thread `b`, then in
every later state of the same phase that buffer is poisoned, and any closure on thread `b` which asks for it panics as soon as it moves.
(The next call makes a new pool: `PConf.init` has no poisoned buffer.) -/
theorem C67_buffer {T : List (Task n)} {N : Nat} {deny : Policy n} {bad : Nat → Nat → Fault} {P P' P'' : PConf n} {i b d h : Nat} {t : Task n}
    {regs : List (RLWE n)} {s : Stmt n}
    (ht : T[i]? = some t) (hi : P.conf.st[i]? = some (.running b d h regs)) (hsd : t[d]? = some s) (hl : h = (s.locks b).length)
    (hmx : .mx b ∈ s.locks b) (hstep : PStep T N deny bad P P') (hdead : i ∉ P.dead) (hdead' : i ∈ P'.dead) (hr : PReach T N deny bad P' P'') :
    b ∈ P''.bufs ∧
    ∀ P3, PStep T N deny bad P'' P3 → ∀ (j : Nat) (t' : Task n) d' h' regs' s', T[j]? = some t' →
      P''.conf.st[j]? = some (.running b d' h' regs') → t'[d']? = some s' → (s'.locks b)[h']? = some (.mx b) →
      P3.conf.st[j]? = P''.conf.st[j]? ∨ j ∈ P3.dead := by
  have h1 : b ∈ P'.bufs := by
    cases hstep with
    | panic i' ht' hr' hs' hl' hbad =>
      have : i' = i := by
        rcases List.mem_cons.mp hdead' with h | h
        · exact h.symm
        · exact absurd h hdead
      subst this
      rw [hi] at hr'; cases hr'
      rw [ht] at ht'; cases ht'
      rw [hsd] at hs'; cases hs'
      exact List.mem_append_left _ (List.mem_filterMap.mpr ⟨_, hmx, rfl⟩)
    | panicBefore i' ht' hr' hs' hpre =>
      have : i' = i := by
        rcases List.mem_cons.mp hdead' with h | h
        · exact h.symm
        · exact absurd h hdead
      subst this
      rw [hi] at hr'; cases hr'
      rw [List.length_eq_zero_iff.mp hl.symm] at hmx; cases hmx
    | poisoned i' ht' hr' hs' hpre hl' ha hd hbad =>
      have : i' = i := by
        rcases List.mem_cons.mp hdead' with h | h
        · exact h.symm
        · exact absurd h hdead
      subst this
      rw [hi] at hr'; cases hr'
      rw [ht] at ht'; cases ht'
      rw [hsd] at hs'; cases hs'
      rw [hl, List.getElem?_eq_none (le_refl _)] at hl'
      cases hl'
    | _ => exact absurd hdead' hdead
  have h2 : b ∈ P''.bufs := by
    clear hstep
    induction hr with
    | refl => exact h1
    | step _ hs ih => exact bufs_step hs ih
  refine ⟨h2, ?_⟩
  intro P3 hs3 j t' d' h' regs' s' hT hj hs' hmx'
  have hne : ∀ {i' : Nat} {x : TState n}, i' ≠ j → (P''.conf.st.set i' x)[j]? = P''.conf.st[j]? := fun h => List.getElem?_set_ne h
  cases hs3 with
  | start i' tid hp _ _ =>
    exact .inl (hne (fun e => by subst e; rw [hj] at hp; cases hp))
  | acquire i' ht' hr' hsx hpre hlx ha hd hok =>
    by_cases e : i' = j
    · subst e
      rw [hj] at hr'; cases hr'
      rw [hT] at ht'; cases ht'
      rw [hs'] at hsx; cases hsx
      rw [hmx'] at hlx; cases hlx
      exact absurd h2 hok
    · exact .inl (hne e)
  | exec i' ht' hr' hsx hlx hok he =>
    by_cases e : i' = j
    · subst e
      rw [hj] at hr'; cases hr'
      rw [hT] at ht'; cases ht'
      rw [hs'] at hsx; cases hsx
      rw [hlx, List.getElem?_eq_none (le_refl _)] at hmx'
      cases hmx'
    · exact .inl (hne e)
  | finish i' ht' hr' hd =>
    by_cases e : i' = j
    · subst e
      rw [hj] at hr'; cases hr'
      rw [hT] at ht'; cases ht'
      rw [hd, List.getElem?_eq_none (le_refl _)] at hs'
      cases hs'
    · exact .inl (hne e)
  | panicBefore i' _ _ _ _ =>
    by_cases e : i' = j
    · subst e; exact .inr (by simp [PConf.kill])
    · exact .inl (hne e)
  | poisoned i' _ _ _ _ _ _ _ _ =>
    by_cases e : i' = j
    · subst e; exact .inr (by simp [PConf.kill])
    · exact .inl (hne e)
  | panic i' _ _ _ _ _ =>
    by_cases e : i' = j
    · subst e; exact .inr (by simp [PConf.kill])
    · exact .inl (hne e)

/-! ### Concrete runs -/

/-- Nobody holds a guard while no task has acquired one. -/
theorem no_holds {T : List (Task n)} {C : Conf n} (h : ∀ x ∈ C.st, ∀ tid d k regs, x = .running tid d k regs → k = 0) (i : Nat) (l : Lock) :
    ¬ Holds T C i l := by
  rintro ⟨t, tid, d, k, regs, s, _, hst, _, hm⟩
  obtain rfl := h _ (List.mem_of_getElem? hst) tid d k regs rfl
  simp at hm

/-- C67 is not vacuous: a program that stores into a cell it has not read can poison the row (column 5 of a row with one cell). -/
theorem C67_row_witness : ∃ P : PConf 1, PReach [[.write (0, 5) fun _ => some 0]] 1 readerPref (fun _ _ => .ok)
    (PConf.init [[.write (0, 5) fun _ => some 0]] [[0]] []) P ∧ P.rows = [0] ∧ P.dead = [0] := by
  refine ⟨_, .step (.step (.step (.refl _) (.start 0 0 rfl (by decide) ?_)) (.acquire 0 (l := .wr 0) rfl rfl rfl ?_ rfl ?_ ?_ ?_))
    (.panic 0 rfl rfl rfl rfl rfl), rfl, rfl⟩
  · rintro j ⟨d, h, regs, hj⟩
    rcases j with _ | j <;> simp [PConf.init, Conf.init] at hj
  · exact fun _ => ⟨by decide, by decide, _, rfl⟩
  · have : ∀ i l, ¬ Holds _ _ i l := no_holds (T := [[.write (0, 5) fun _ => some (0 : RLWE 1)]]) (C := ⟨[[0]], [.running 0 0 0 []]⟩) (by
      intro x hx tid d k regs he
      simp only [List.mem_cons, List.not_mem_nil, or_false] at hx
      rw [hx] at he
      simp only [TState.running.injEq] at he
      exact he.2.2.1.symm)
    exact fun i => ⟨this i _, this i _⟩
  · intro r e; cases e
  · simp [PConf.Poisoned, PConf.init]

/-- C67 (concrete): an update of column 0 whose computation panics at its first read: the task dies holding a read guard and its buffer; the buffer is
poisoned, the row is not. -/
theorem C67_buffer_witness (fft : Fft 1) (q : ClientQuery 1) (l : RGSW 1) : ∃ P : PConf 1, PReach [updateTask fft q l 0] 1 readerPref (fun _ _ => .during)
    (PConf.init [updateTask fft q l 0] [[0]] []) P ∧ P.dead = [0] ∧ P.bufs = [0] ∧ P.rows = [] ∧ P.Ended := by
  have hn : ∀ i, ¬ Holds [updateTask fft q l 0] ⟨[[(0 : RLWE 1)]], [.running 0 0 0 []]⟩ i (.wr 0) := fun i => no_holds (by
    intro x hx tid d k regs he
    simp only [List.mem_cons, List.not_mem_nil, or_false] at hx
    rw [hx] at he
    simp only [TState.running.injEq] at he
    exact he.2.2.1.symm) i _
  have hm : ∀ i, ¬ Holds [updateTask fft q l 0] ⟨[[(0 : RLWE 1)]], [.running 0 0 1 []]⟩ i (.mx 0) := by
    rintro i ⟨t, tid, d, k, regs, s, ht, hst, hs, hmem⟩
    rcases i with _ | i
    · simp only [List.getElem?_cons_zero, Option.some.injEq, TState.running.injEq] at hst ht
      obtain ⟨rfl, rfl, rfl, _⟩ := hst
      subst ht
      simp only [updateTask, List.getElem?_cons_zero, Option.some.injEq] at hs
      subst hs
      simp [Stmt.locks] at hmem
    · simp at hst
  refine ⟨_, .step (.step (.step (.step (.refl _) (.start 0 0 rfl (by decide) ?_)) (.acquire 0 (l := .rd 0) rfl rfl rfl ?_ rfl hn ?_ ?_))
    (.acquire 0 (l := .mx 0) rfl rfl rfl ?_ rfl hm ?_ ?_)) (.panic 0 rfl rfl rfl rfl (Or.inr rfl)), rfl, rfl, rfl, ?_⟩
  · rintro j ⟨d, h, regs, hj⟩
    rcases j with _ | j <;> simp [PConf.init, Conf.init] at hj
  · exact fun _ => ⟨Nat.zero_lt_one, by decide⟩
  · exact fun r _ h => h
  · simp [PConf.Poisoned, PConf.init]
  · intro h; cases h
  · intro r e; cases e
  · simp [PConf.Poisoned, PConf.init]
  · intro x hx
    simp only [PConf.kill, PConf.init, Conf.init, List.map_cons, List.map_nil, List.set_cons_zero, List.mem_cons, List.not_mem_nil, or_false] at hx
    exact ⟨_, hx⟩

end Panacea
