import Verif.Lemmas.SchedTasks
import Verif.Props.Batch

/-!
# C49, C50: schedules and locks of the server
-/

namespace Panacea
variable {n : Nat}

/-! ### C50: the lock protocol -/

/-- No configuration that a schedule can reach is stuck before all tasks are finished. -/
def DeadlockFree (N : Nat) (deny : Policy n) (T : List (Task n)) (mem : Mem n) : Prop :=
  ∀ C, Reach T N deny (Conf.init T mem) C → ¬ C.Terminal → ∃ C', Step T N deny C C'

/-- C50 (no deadlock): with at least one worker and any admissible `RwLock` policy, a phase of independent tasks never gets stuck. -/
theorem C50_no_deadlock {T : List (Task n)} {N : Nat} {deny : Policy n} {mem : Mem n} (hN : 0 < N) (hdeny : deny.Fair) (hT : Independent T)
    (hrun : AllRun T mem) : DeadlockFree N deny T mem :=
  fun _ hr hnt => progress hN hdeny hrun (inv_reach hT hrun (inv_init T mem) hr) hnt

/-- C50 (termination): no schedule of such a phase is infinite. -/
theorem C50_terminates {T : List (Task n)} {N : Nat} {deny : Policy n} {mem : Mem n} (hT : Independent T) (hrun : AllRun T mem)
    (f : Nat → Conf n) (h0 : f 0 = Conf.init T mem) : ¬ ∀ k, Step T N deny (f k) (f (k + 1)) := by
  intro hs
  have hinv : ∀ k, Inv T mem (f k) := by
    intro k
    induction k with
    | zero => rw [h0]; exact inv_init T mem
    | succ k ih => exact inv_step hT hrun ih (hs k)
  have hle : ∀ k, (f k).weight T + k ≤ (f 0).weight T := by
    intro k
    induction k with
    | zero => exact le_rfl
    | succ k ih =>
      have := step_decreases (hinv k) (hs k)
      omega
  have := hle ((f 0).weight T + 1)
  omega

/-- Two guards that may not be held at the same time. -/
def Conflict : Lock → Lock → Prop
  | .wr r, .wr r' => r = r'
  | .wr r, .rd r' => r = r'
  | .rd r, .wr r' => r = r'
  | .mx t, .mx t' => t = t'
  | _, _ => False

theorem holds_set {T : List (Task n)} {C : Conf n} {i : Nat} {st : TState n} {mem : Mem n} {j : Nat} {l : Lock} (hij : j ≠ i) :
    Holds T ⟨mem, C.st.set i st⟩ j l ↔ Holds T C j l := by
  unfold Holds
  simp only [List.getElem?_set, if_neg (fun e => hij (Eq.symm e) : ¬ i = j)]

/-- C50 (mutual exclusion): in every reachable configuration no two tasks hold conflicting guards. -/
theorem C50_exclusion {T : List (Task n)} {N : Nat} {deny : Policy n} {mem : Mem n} {C : Conf n}
    (hr : Reach T N deny (Conf.init T mem) C) : ∀ i j l l', i ≠ j → Holds T C i l → Holds T C j l' → ¬ Conflict l l' := by
  have symm : ∀ {l l'}, Conflict l l' → Conflict l' l := fun {l l'} h => by cases l <;> cases l' <;> first | exact Eq.symm h | cases h
  have avail : ∀ {C : Conf n} {l : Lock}, Avail T C l → ∀ j l', Holds T C j l' → ¬ Conflict l l' := by
    intro C l ha j l' hl' hc
    cases l <;> cases l' <;> simp only [Conflict] at hc <;> subst hc
    · exact ha j hl'
    · exact (ha j).2 hl'
    · exact (ha j).1 hl'
    · exact ha j hl'
  induction hr with
  | refl =>
    rintro i j l l' _ ⟨t, tid, d, h, regs, s, ht, hst, _⟩
    simp only [Conf.init, List.getElem?_map, ht, Option.map_some, Option.some.injEq] at hst
    cases hst
  | @step C' C'' _ hs ih =>
    intro i j l l' hij hi hj
    have drop : ∀ (k : Nat) (st : TState n) (m : Mem n), C'' = ⟨m, C'.st.set k st⟩ → (∀ l, ¬ Holds T C'' k l) → ¬ Conflict l l' := by
      intro k st m he hk
      subst he
      have h1 : i ≠ k := fun e => by subst e; exact hk l hi
      have h2 : j ≠ k := fun e => by subst e; exact hk l' hj
      exact ih i j l l' hij ((holds_set h1).mp hi) ((holds_set h2).mp hj)
    cases hs with
    | start k tid hp ht hidle =>
      refine drop k _ _ rfl ?_
      rintro l ⟨t, tid', d, h, regs, s, ht, hst, hs, hm⟩
      simp only [List.getElem?_set, if_true] at hst
      split at hst
      · injection hst with hst; injection hst with _ _ hst _; subst hst; simp at hm
      · cases hst
    | @exec k t tid d h regs regs' s mem' ht hr hs hl he =>
      refine drop k _ _ rfl ?_
      rintro l ⟨t, tid', d, h, regs, s, ht, hst, hs, hm⟩
      simp only [List.getElem?_set, if_true] at hst
      split at hst
      · injection hst with hst; injection hst with _ _ hst _; subst hst; simp at hm
      · cases hst
    | @finish k t tid d h regs ht hr hd =>
      refine drop k _ _ rfl ?_
      rintro l ⟨t, tid', d, h, regs, s, ht, hst, hs, hm⟩
      simp only [List.getElem?_set, if_true] at hst
      split at hst
      · injection hst with hst; cases hst
      · cases hst
    | @acquire k t tid d h regs s lk ht hr hs hl ha hd =>
      have hnew : ∀ l, Holds T { C' with st := C'.st.set k (.running tid d (h + 1) regs) } k l → l = lk ∨ Holds T C' k l := by
        rintro l ⟨t', tid', d', h', regs', s', ht', hst, hs', hm⟩
        simp only [List.getElem?_set, if_true] at hst
        split at hst
        · injection hst with hst
          injection hst with e1 e2 e3 e4
          subst e1; subst e2; subst e3; subst e4
          rw [ht] at ht'; injection ht' with ht'; subst ht'
          rw [hs] at hs'; injection hs' with hs'; subst hs'
          rw [List.take_succ, hl] at hm
          simp only [Option.toList_some, List.mem_append, List.mem_singleton] at hm
          rcases hm with hm | hm
          · exact Or.inr ⟨t, _, _, _, _, s, ht, hr, hs, hm⟩
          · exact Or.inl hm
        · cases hst
      by_cases hik : i = k
      · subst hik
        have hj' := (holds_set (fun e => hij e.symm)).mp hj
        rcases hnew l hi with rfl | hi'
        · exact avail ha j l' hj'
        · exact ih i j l l' hij hi' hj'
      · have hi' := (holds_set hik).mp hi
        by_cases hjk : j = k
        · subst hjk
          rcases hnew l' hj with rfl | hj'
          · exact fun hc => avail ha i l hi' (symm hc)
          · exact ih i j l l' hij hi' hj'
        · exact ih i j l l' hij hi' ((holds_set hjk).mp hj)

/-- C50 (workers): in every reachable configuration a worker runs at most one task, and the number of running tasks uses only the `N` workers. -/
theorem C50_one_task_per_worker {T : List (Task n)} {N : Nat} {deny : Policy n} {mem : Mem n} {C : Conf n}
    (hr : Reach T N deny (Conf.init T mem) C) : (∀ i tid, C.On i tid → tid < N) ∧ ∀ i j tid, C.On i tid → C.On j tid → i = j := by
  induction hr with
  | refl =>
    have : ∀ i tid, ¬ (Conf.init T mem).On i tid := by
      rintro i tid ⟨d, h, regs, hst⟩
      simp only [Conf.init, List.getElem?_map, Option.map_eq_some_iff] at hst
      obtain ⟨_, _, h⟩ := hst; cases h
    exact ⟨fun i tid h => absurd h (this i tid), fun i j tid h => absurd h (this i tid)⟩
  | @step C' C'' _ hs ih =>
    have keep : ∀ (k tid d h d' h' : Nat) (regs regs' : List (RLWE n)) (m : Mem n), C'.st[k]? = some (.running tid d h regs) →
        ∀ i t, (⟨m, C'.st.set k (.running tid d' h' regs')⟩ : Conf n).On i t → C'.On i t := by
      rintro k tid d h d' h' regs regs' m hk i t ⟨d1, h1, r1, hst⟩
      simp only [List.getElem?_set] at hst
      split at hst
      · rename_i e; subst e
        split at hst
        · injection hst with hst; injection hst with e1 _ _ _; subst e1; exact ⟨d, h, regs, hk⟩
        · cases hst
      · exact ⟨d1, h1, r1, hst⟩
    have use : (∀ i t, C''.On i t → C'.On i t) → (∀ i tid, C''.On i tid → tid < N) ∧ ∀ i j tid, C''.On i tid → C''.On j tid → i = j :=
      fun h => ⟨fun i tid hi => ih.1 i tid (h i tid hi), fun i j tid hi hj => ih.2 i j tid (h i tid hi) (h j tid hj)⟩
    cases hs with
    | start k tid hp ht hidle =>
      have hcase : ∀ i t, ({ C' with st := C'.st.set k (.running tid 0 0 []) } : Conf n).On i t → (i = k ∧ t = tid) ∨ C'.On i t := by
        rintro i t ⟨d1, h1, r1, hst⟩
        simp only [List.getElem?_set] at hst
        split at hst
        · rename_i e; subst e
          split at hst
          · injection hst with hst; injection hst with e1 _ _ _; exact Or.inl ⟨rfl, e1.symm⟩
          · cases hst
        · exact Or.inr ⟨d1, h1, r1, hst⟩
      refine ⟨fun i t hi => ?_, fun i j t hi hj => ?_⟩
      · rcases hcase i t hi with ⟨_, rfl⟩ | h
        · exact ht
        · exact ih.1 i t h
      · rcases hcase i t hi with ⟨rfl, rfl⟩ | h
        · rcases hcase j t hj with ⟨rfl, _⟩ | h'
          · rfl
          · exact absurd h' (hidle j)
        · rcases hcase j t hj with ⟨rfl, rfl⟩ | h'
          · exact absurd h (hidle i)
          · exact ih.2 i j t h h'
    | @acquire k t tid d h regs s lk ht hr hs hl ha hd => exact use (keep k tid d h d (h + 1) regs regs _ hr)
    | @exec k t tid d h regs regs' s mem' ht hr hs hl he => exact use (keep k tid d h (d + 1) 0 regs regs' _ hr)
    | @finish k t tid d h regs ht hr hd =>
      refine use ?_
      rintro i t ⟨d1, h1, r1, hst⟩
      simp only [List.getElem?_set] at hst
      split at hst
      · split at hst
        · injection hst with hst; cases hst
        · cases hst
      · exact ⟨d1, h1, r1, hst⟩

theorem writerPref_fair : (writerPref (n := n)).Fair := fun _ _ _ _ h => h
theorem readerPref_fair : (readerPref (n := n)).Fair := fun _ _ _ _ h => h.elim

theorem mapOption_length {α β : Type} {f : α → Option β} : ∀ {l : List α} {bs : List β}, mapOption f l = some bs → bs.length = l.length
  | [], bs, h => by simp only [mapOption, Option.some.injEq] at h; subst h; rfl
  | a :: l, bs, h => by
    rw [mapOption] at h
    rcases hfa : f a with _ | b
    · rw [hfa] at h; cases h
    · rcases hx : mapOption f l with _ | cs
      · rw [hfa, hx] at h; cases h
      · rw [hfa, hx] at h; simp only [Option.some.injEq] at h; subst h; simp [mapOption_length hx]

theorem mapOption_mem {α β : Type} {f : α → Option β} : ∀ {l : List α} {bs : List β}, mapOption f l = some bs → ∀ b ∈ bs, ∃ a ∈ l, f a = some b
  | [], bs, h, b, hb => by simp only [mapOption, Option.some.injEq] at h; subst h; cases hb
  | a :: l, bs, h, b, hb => by
    rw [mapOption] at h
    rcases hfa : f a with _ | b0
    · rw [hfa] at h; cases h
    · rcases hx : mapOption f l with _ | cs
      · rw [hfa, hx] at h; cases h
      · rw [hfa, hx] at h; simp only [Option.some.injEq] at h; subst h
        rcases List.mem_cons.mp hb with rfl | hb
        · exact ⟨a, List.mem_cons_self, hfa⟩
        · obtain ⟨a', h1, h2⟩ := mapOption_mem hx b hb
          exact ⟨a', List.mem_cons_of_mem _ h1, h2⟩

/-! ### The phases of the server -/

theorem readonly_phase {α : Type} {xs : List α} {F : α → Task n} {mem : Mem n} (g : α → List (RLWE n)) (h1 : ∀ x p, ¬ Task.Writes (F x) p)
    (h2 : ∀ x ∈ xs, runTask (F x) mem [] = some (mem, g x)) :
    Independent (xs.map F) ∧ AllRun (xs.map F) mem ∧ runSeq (xs.map F) mem = some (mem, xs.map g) := by
  refine ⟨independent_of_readonly fun t ht p => ?_, fun t ht => ?_, ?_⟩
  · obtain ⟨x, _, rfl⟩ := List.mem_map.mp ht; exact h1 x p
  · obtain ⟨x, hx, rfl⟩ := List.mem_map.mp ht; exact ⟨_, h2 x hx⟩
  · induction xs with
    | nil => rfl
    | cons x xs ih =>
      simp only [List.map_cons, runSeq, h2 x List.mem_cons_self, ih fun y hy => h2 y (List.mem_cons_of_mem _ hy), Option.map_some]

theorem level_phase (k : Nat) (mem : Mem n) : Independent ((List.range k).map fun _ => levelTask (n := n)) ∧
    AllRun ((List.range k).map fun _ => levelTask) mem ∧
    ∃ outs, runSeq ((List.range k).map fun _ => levelTask) mem = some (mem, outs) := by
  obtain ⟨h1, h2, h3⟩ := readonly_phase (xs := List.range k) (F := fun _ => levelTask (n := n)) (mem := mem) (fun _ => [])
    (fun _ p => levelTask_readonly p) (fun _ _ => rfl)
  exact ⟨h1, h2, _, h3⟩

theorem columns_phase {row : List (RLWE n)} {mem : Mem n} (hr : mem[0]? = some row) :
    Independent ((List.range row.length).map (columnTask (n := n))) ∧ AllRun ((List.range row.length).map columnTask) mem ∧
    ∃ outs, runSeq ((List.range row.length).map columnTask) mem = some (mem, outs) ∧ outs.flatten = row := by
  obtain ⟨h1, h2, h3⟩ := readonly_phase (xs := List.range row.length) (F := columnTask (n := n)) (mem := mem) (fun j => [row.getD j 0])
    columnTask_readonly fun j hj => runTask_column hr (List.mem_range.mp hj)
  refine ⟨h1, h2, _, h3, ?_⟩
  have hf : ∀ js : List Nat, (js.map fun j => [row.getD j 0]).flatten = js.map fun j => row.getD j 0 := by
    intro js
    induction js with
    | nil => rfl
    | cons j js ih => simp only [List.map_cons, List.flatten_cons, ih, List.singleton_append]
  rw [hf, getD_range]

theorem zip_range_map {α β : Type} (ls : List α) (d : α) (F : Nat × α → β) :
    ((List.range ls.length).zip ls).map F = (List.range ls.length).map fun j => F (j, ls.getD j d) := by
  apply List.ext_getElem
  · simp
  · intro i h1 h2
    have hi : i < ls.length := by simpa using h2
    simp [List.getD_eq_getElem?_getD, List.getElem?_eq_getElem hi]

theorem update_phase (fft : Fft n) (q : ClientQuery n) {row : List (RLWE n)} {rest : Mem n} {ls : List (RGSW n)} (hl : ls.length = row.length) :
    Independent (((List.range row.length).zip ls).map fun x => updateTask fft q x.2 x.1) ∧
    AllRun (((List.range row.length).zip ls).map fun x => updateTask fft q x.2 x.1) (row :: rest) ∧
    ∃ outs, runSeq (((List.range row.length).zip ls).map fun x => updateTask fft q x.2 x.1) (row :: rest)
      = some (updateDb fft q row ls :: rest, outs) := by
  have hT : ((List.range row.length).zip ls).map (fun x => updateTask fft q x.2 x.1)
      = (List.range row.length).map fun j => updateTask fft q (ls.getD j ⟨0, []⟩) j := by
    rw [← hl]; exact zip_range_map ls ⟨0, []⟩ _
  obtain ⟨h1, h2, outs, h3⟩ := column_phase (row := row) (rest := rest) (F := fun j => updateTask fft q (ls.getD j ⟨0, []⟩) j)
    (val := fun j => updateCell fft q (ls.getD j ⟨0, []⟩) (row.getD j 0) (row.getD j 0)) (fun j p hp => updateTask_touches hp)
    (fun j hj => runTask_update rfl hj)
  have hv : (List.range row.length).map (fun j => updateCell fft q (ls.getD j ⟨0, []⟩) (row.getD j 0) (row.getD j 0)) = updateDb fft q row ls := by
    apply List.ext_getElem
    · simp [updateDb, hl]
    · intro i e1 e2
      have hi : i < row.length := by simpa using e1
      simp [updateDb, List.getD_eq_getElem?_getD, List.getElem?_eq_getElem hi, List.getElem?_eq_getElem (by omega : i < ls.length)]
  rw [hT]
  rw [hv] at h3
  exact ⟨h1, h2, outs, h3⟩

theorem multi_update_phase (fft : Fft n) {row : List (RLWE n)} {rest : Mem n} {xs : List (RGSW n × RLWE n)} (hl : xs.length = row.length) :
    Independent (((List.range row.length).zip xs).map fun x => multiUpdateTask fft x.1 x.2) ∧
    AllRun (((List.range row.length).zip xs).map fun x => multiUpdateTask fft x.1 x.2) (row :: rest) ∧
    ∃ outs, runSeq (((List.range row.length).zip xs).map fun x => multiUpdateTask fft x.1 x.2) (row :: rest)
      = some ((List.zipWith (fun cell (x : RGSW n × RLWE n) => cmux fft x.1 0 cell x.2) row xs) :: rest, outs) := by
  have hT : ((List.range row.length).zip xs).map (fun x => multiUpdateTask fft x.1 x.2)
      = (List.range row.length).map fun j => multiUpdateTask fft j (xs.getD j (⟨0, []⟩, 0)) := by
    rw [← hl]; exact zip_range_map xs (⟨0, []⟩, 0) _
  obtain ⟨h1, h2, outs, h3⟩ := column_phase (row := row) (rest := rest) (F := fun j => multiUpdateTask fft j (xs.getD j (⟨0, []⟩, 0)))
    (val := fun j => cmux fft (xs.getD j (⟨0, []⟩, 0)).1 0 (row.getD j 0) (xs.getD j (⟨0, []⟩, 0)).2) (fun j p hp => multiUpdate_touches hp)
    (fun j hj => runTask_multiUpdate rfl hj)
  have hv : (List.range row.length).map (fun j => cmux fft (xs.getD j (⟨0, []⟩, 0)).1 0 (row.getD j 0) (xs.getD j (⟨0, []⟩, 0)).2)
      = List.zipWith (fun cell (x : RGSW n × RLWE n) => cmux fft x.1 0 cell x.2) row xs := by
    apply List.ext_getElem
    · simp [hl]
    · intro i e1 e2
      have hi : i < row.length := by simpa using e1
      simp [List.getD_eq_getElem?_getD, List.getElem?_eq_getElem hi, List.getElem?_eq_getElem (by omega : i < xs.length)]
  rw [hT]
  rw [hv] at h3
  exact ⟨h1, h2, outs, h3⟩

/-! ### C49: every schedule gives the sequential result -/

/-- C49 (any parallel phase): if no task touches a cell that another task writes, every complete run on any number of workers, under any lock
policy and any interleaving, leaves the database and the read values of the sequential run; and such a run exists. -/
theorem C49_phase {T : List (Task n)} {N : Nat} {deny : Policy n} {mem m : Mem n} {outs : List (List (RLWE n))} (hN : 0 < N)
    (hdeny : deny.Fair) (hT : Independent T) (hrun : AllRun T mem) (hs : runSeq T mem = some (m, outs)) (mem' : Mem n)
    (outs' : List (List (RLWE n))) : ParRun N deny T mem mem' outs' ↔ mem' = m ∧ outs' = outs :=
  phase_iff hN hdeny hT hrun hs mem' outs'

/-- C49 (`process_one`): the possible outcomes of `process_one` over all schedules, reduction trees, worker counts and lock policies are
exactly the outcome of the sequential function (none iff that panics). -/
theorem C49_process_one {N : Nat} {deny : Policy n} (hN : 0 < N) (hdeny : deny.Fair) {reduce : List (RLWE n) → RLWE n}
    (hr : IsReduction (· + ·) 0 reduce) (fft : Fft n) (S : Server n) (q : ClientQuery n) (y : RLWE n) (S' : Server n) :
    ProcessOneSched N deny fft S q y S' ↔ S.processOne reduce fft q = some (y, S') := by
  rcases hS : S.data with _ | ⟨row, rest⟩
  · constructor
    · rintro ⟨row, h, _⟩; rw [hS] at h; cases h
    · intro h; unfold Server.processOne at h; rw [hS] at h; cases h
  obtain ⟨a1, a2, oa, a3⟩ := level_phase S.ctx.levelCount S.data
  obtain ⟨b1, b2, ob, b3, b4⟩ := columns_phase (row := row) (mem := S.data) (by rw [hS]; rfl)
  have hrow : S.data.head? = some row := by rw [hS]; rfl
  have hlen : ∀ {L rs}, decomposedSelectors fft S.ctx q row.length = some L →
      mapOption (partialResponse fft S.ctx S.negS) (L.zip row) = some rs → (rs.map Prod.snd).length = row.length := by
    intro L rs hL hrs
    have h1 : L.length = row.length := by
      unfold decomposedSelectors at hL
      split at hL
      · cases hL
      · split at hL
        · cases hL
        · split at hL
          · injection hL with hL; subst hL; assumption
          · cases hL
    rw [List.length_map, mapOption_length hrs, List.length_zip, h1, min_self]
  constructor
  · rintro ⟨row', hr', mem1, outs1, p1, L, hL, mem2, outs2, p2, rs, hrs, hred, mem3, outs3, p3, rfl⟩
    rw [hrow] at hr'; injection hr' with hr'; subst hr'
    obtain ⟨rfl, rfl⟩ := (phase_iff hN hdeny a1 a2 a3 _ _).mp p1
    obtain ⟨rfl, rfl⟩ := (phase_iff hN hdeny b1 b2 b3 _ _).mp p2
    rw [b4] at hrs
    obtain ⟨c1, c2, oc, c3⟩ := update_phase fft q (row := row) (rest := rest) (hlen hL hrs)
    rw [hS] at p3
    obtain ⟨rfl, rfl⟩ := (phase_iff hN hdeny c1 c2 c3 _ _).mp p3
    unfold Server.processOne processOneMt
    rw [hS]
    simp only [hL, hrs]
    rw [parReduce_sum hred, parReduce_sum (hr _)]
  · intro h
    unfold Server.processOne processOneMt at h
    rw [hS] at h
    simp only at h
    rcases hL : decomposedSelectors fft S.ctx q row.length with _ | L
    · rw [hL] at h; cases h
    rw [hL] at h
    simp only at h
    rcases hrs : mapOption (partialResponse fft S.ctx S.negS) (L.zip row) with _ | rs
    · rw [hrs] at h; cases h
    rw [hrs] at h
    simp only [Option.some.injEq, Prod.mk.injEq] at h
    obtain ⟨rfl, rfl⟩ := h
    obtain ⟨c1, c2, oc, c3⟩ := update_phase fft q (row := row) (rest := rest) (hlen hL hrs)
    exact ⟨row, hrow, S.data, oa, (phase_iff hN hdeny a1 a2 a3 _ _).mpr ⟨rfl, rfl⟩, L, hL, S.data, ob,
      (phase_iff hN hdeny b1 b2 b3 _ _).mpr ⟨rfl, rfl⟩, rs, by rw [b4]; exact hrs, hr _, _, oc,
      by rw [hS]; exact (phase_iff hN hdeny c1 c2 c3 _ _).mpr ⟨rfl, rfl⟩, rfl⟩

theorem parReduce_vec_unique {cols : Nat} {xs : List (List (RLWE n))} {a b : List (RLWE n)} (ha : ParReduce addVec (List.replicate cols 0) xs a)
    (hb : ParReduce addVec (List.replicate cols 0) xs b) (hx : ∀ x ∈ xs, x.length = cols) : a = b := by
  obtain ⟨a1, a2⟩ := parReduce_vec ha hx
  obtain ⟨b1, b2⟩ := parReduce_vec hb hx
  apply List.ext_getElem (by omega)
  intro i h1 h2
  rw [a2 i _ (List.getElem?_eq_getElem h1), b2 i _ (List.getElem?_eq_getElem h2)]

theorem parReduce_gsw_unique {cols bl lv : Nat} {xs : List (List (RGSW n))} {a b : List (RGSW n)}
    (ha : ParReduce addGswVec (List.replicate cols (RGSW.allocate n bl lv)) xs a)
    (hb : ParReduce addGswVec (List.replicate cols (RGSW.allocate n bl lv)) xs b) (hx : ∀ x ∈ xs, SelShape cols bl lv x) :
    a = b ∧ a.length = cols := by
  obtain ⟨a1, a2⟩ := parReduce_gsw ha hx
  obtain ⟨b1, b2⟩ := parReduce_gsw hb hx
  refine ⟨?_, a1.1⟩
  apply List.ext_getElem (by rw [a1.1, b1.1])
  intro i h1 h2
  have ha' := a1.2 a[i] (List.getElem_mem h1)
  have hb' := b1.2 b[i] (List.getElem_mem h2)
  have hrows : a[i].rows = b[i].rows := by
    apply List.ext_getElem (by rw [ha'.2, hb'.2])
    intro k k1 k2
    rw [a2 i _ k _ (List.getElem?_eq_getElem h1) (List.getElem?_eq_getElem k1),
      b2 i _ k _ (List.getElem?_eq_getElem h2) (List.getElem?_eq_getElem k2)]
  have hbl : a[i].baseLog = b[i].baseLog := by rw [ha'.1, hb'.1]
  cases hA : a[i] with
  | mk bl1 r1 =>
    cases hB : b[i] with
    | mk bl2 r2 =>
      rw [hA, hB] at hrows hbl
      simp only at hrows hbl
      rw [hrows, hbl]

theorem map_const_replicate {α β : Type} (l : List α) (b : β) : l.map (fun _ => b) = List.replicate l.length b := by
  induction l with
  | nil => rfl
  | cons a l ih => simp [ih, List.replicate_succ]

theorem zip_replicate_map {α β : Type} : ∀ (l : List α) (b : β), l.zip (List.replicate l.length b) = l.map fun a => (a, b)
  | [], _ => rfl
  | a :: l, b => by simp [List.replicate_succ, zip_replicate_map l b]

theorem mapOption_map {α β γ : Type} (f : β → Option γ) (g : α → β) : ∀ l : List α, mapOption f (l.map g) = mapOption (fun a => f (g a)) l
  | [] => rfl
  | a :: l => by simp only [List.map_cons, mapOption, mapOption_map f g l]

theorem zipWith_zip_replicate {α β γ δ : Type} (f : α → β × γ → δ) (c : γ) : ∀ (as : List α) (bs : List β), as.length = bs.length →
    List.zipWith f as (bs.zip (List.replicate as.length c)) = List.zipWith (fun a b => f a (b, c)) as bs
  | [], _, _ => rfl
  | a :: as, [], h => by simp at h
  | a :: as, b :: bs, h => by
    simp only [List.length_cons, List.replicate_succ, List.zip_cons_cons, List.zipWith_cons_cons]
    rw [zipWith_zip_replicate f c as bs (by simpa using h)]

/-- C49 (`process_multi`): the same for the unbatched parallel processing of several queries, over all schedules of its three phases and
all trees of its two reductions. -/
theorem C49_process_multi {N : Nat} {deny : Policy n} (hN : 0 < N) (hdeny : deny.Fair) {S : Server n} (hp : ParamsOK S.ctx)
    {row : List (RLWE n)} {rest : Mem n} (hS : S.data = row :: rest)
    {reduceV : List (List (RLWE n)) → List (RLWE n)} (hV : IsReduction addVec (List.replicate row.length 0) reduceV)
    {reduceG : List (List (RGSW n)) → List (RGSW n)}
    (hG : IsReduction addGswVec (List.replicate row.length (RGSW.allocate n S.ctx.baseLog S.ctx.levelCount)) reduceG)
    (fft : Fft n) (qs : List (ClientQuery n)) (ys : List (RLWE n)) (S' : Server n) :
    ProcessMultiSched N deny fft S qs ys S' ↔ S.processMulti reduceV reduceG fft qs = some (ys, S') := by
  have hrow : S.data.head? = some row := by rw [hS]; rfl
  have hrow0 : S.data[0]? = some row := by rw [hS]; rfl
  obtain ⟨a1, a2, a3⟩ := readonly_phase (xs := qs) (F := fun _ => stTask (n := n) 0 S.ctx.levelCount row.length) (mem := S.data) (fun _ => row)
    (fun _ p => stTask_readonly _ _ _ p) (fun _ _ => runTask_stTask hrow0 _)
  obtain ⟨b1, b2, b3⟩ := readonly_phase (xs := qs) (F := fun _ => multiTmpTask (n := n) row.length) (mem := S.data) (fun _ => row)
    (fun _ p => multiTmp_readonly _ p) (fun _ _ => runTask_multiTmp hrow0)
  rw [map_const_replicate qs row] at a3 b3
  have hrs' : mapOption (fun (x : ClientQuery n × List (RLWE n)) => processOneSt fft S.ctx x.1 x.2 S.negS) (qs.zip (List.replicate qs.length row))
      = mapOption (fun q => processOneSt fft S.ctx q row S.negS) qs := by
    rw [zip_replicate_map, mapOption_map]
  have shapes : ∀ {rs}, mapOption (fun q => processOneSt fft S.ctx q row S.negS) qs = some rs →
      (∀ x ∈ rs.map Prod.snd, SelShape row.length S.ctx.baseLog S.ctx.levelCount x) ∧ qs.length = (rs.map Prod.snd).length := by
    intro rs hrs
    refine ⟨fun x hx => ?_, by rw [List.length_map, mapOption_length hrs]⟩
    obtain ⟨⟨y, ls⟩, hr, rfl⟩ := List.mem_map.mp hx
    obtain ⟨q, _, hq⟩ := mapOption_mem hrs _ hr
    exact (processOneSt_shape fft hp q row S.negS).2 y ls hq
  have tmpsLen : ∀ {rs : List (RLWE n × List (RGSW n))}, (∀ x ∈ rs.map Prod.snd, SelShape row.length S.ctx.baseLog S.ctx.levelCount x) →
      ∀ x ∈ List.zipWith (multiTmps fft row) qs (rs.map Prod.snd), x.length = row.length := by
    intro rs hs x hx
    obtain ⟨k, hk⟩ := List.mem_iff_getElem?.mp hx
    rw [List.getElem?_zipWith] at hk
    split at hk
    · rename_i q ls hq hls
      injection hk with hk; subst hk
      have := (hs ls (List.mem_of_getElem? hls)).1
      simp [multiTmps, this]
    · cases hk
  constructor
  · rintro ⟨row', hr', mem1, outs1, p1, rs, hrs, mem2, outs2, p2, tmps, ht, sels, hs, mem3, outs3, p3, rfl, rfl⟩
    rw [hrow] at hr'; injection hr' with hr'; subst hr'
    obtain ⟨rfl, rfl⟩ := (phase_iff hN hdeny a1 a2 a3 _ _).mp p1
    obtain ⟨rfl, rfl⟩ := (phase_iff hN hdeny b1 b2 b3 _ _).mp p2
    rw [hrs'] at hrs
    obtain ⟨s1, s2⟩ := shapes hrs
    rw [zipWith_zip_replicate (fun q (x : List (RGSW n) × List (RLWE n)) => multiTmps fft x.2 q x.1) row qs _ s2] at ht
    have e1 := parReduce_vec_unique ht (hV _) (tmpsLen s1)
    have e2 := parReduce_gsw_unique hs (hG _) s1
    have e3 := (parReduce_vec ht (tmpsLen s1)).1
    obtain ⟨c1, c2, oc, c3⟩ := multi_update_phase fft (row := row) (rest := rest) (xs := sels.zip tmps)
      (by rw [List.length_zip, e2.2, e3, min_self])
    rw [hS] at p3
    obtain ⟨rfl, rfl⟩ := (phase_iff hN hdeny c1 c2 c3 _ _).mp p3
    unfold Server.processMulti
    rw [hS]
    simp only [hrs]
    rw [e1, e2.1]
  · intro h
    unfold Server.processMulti at h
    rw [hS] at h
    simp only at h
    rcases hrs : mapOption (fun q => processOneSt fft S.ctx q row S.negS) qs with _ | rs
    · rw [hrs] at h; cases h
    rw [hrs] at h
    simp only [Option.some.injEq, Prod.mk.injEq] at h
    obtain ⟨rfl, rfl⟩ := h
    obtain ⟨s1, s2⟩ := shapes hrs
    have e2 := parReduce_gsw_unique (hG (rs.map Prod.snd)) (hG _) s1
    have e3 := (parReduce_vec (hV _) (tmpsLen s1)).1
    obtain ⟨c1, c2, oc, c3⟩ := multi_update_phase fft (row := row) (rest := rest)
      (xs := (reduceG (rs.map Prod.snd)).zip (reduceV (List.zipWith (multiTmps fft row) qs (rs.map Prod.snd))))
      (by rw [List.length_zip, e2.2, e3, min_self])
    refine ⟨row, hrow, S.data, _, (phase_iff hN hdeny a1 a2 a3 _ _).mpr ⟨rfl, rfl⟩, rs, by rw [hrs']; exact hrs, S.data, _,
      (phase_iff hN hdeny b1 b2 b3 _ _).mpr ⟨rfl, rfl⟩, reduceV (List.zipWith (multiTmps fft row) qs (rs.map Prod.snd)), ?_,
      reduceG (rs.map Prod.snd), hG _, _, oc, ?_, rfl, rfl⟩
    · rw [zipWith_zip_replicate (fun q (x : List (RGSW n) × List (RLWE n)) => multiTmps fft x.2 q x.1) row qs _ s2]
      exact hV _
    · rw [hS]
      exact (phase_iff hN hdeny c1 c2 c3 _ _).mpr ⟨rfl, rfl⟩

theorem zip_range_snd {α : Type} (l : List α) : ((List.range l.length).zip l).map Prod.snd = l := by
  apply List.ext_getElem
  · simp
  · intro i h1 h2; simp

theorem batch_update_phase (fft : Fft n) {mem : Mem n} {xs : List (ClientQuery n × List (RGSW n))} (hl : xs.length = mem.length)
    (hls : ∀ (r : Nat) (x : ClientQuery n × List (RGSW n)) (row : List (RLWE n)), xs[r]? = some x → mem[r]? = some row →
      row.length = x.2.length) :
    Independent (((List.range mem.length).zip xs).map fun x => updateStTask fft x.2.1 x.1 x.2.2) ∧
    AllRun (((List.range mem.length).zip xs).map fun x => updateStTask fft x.2.1 x.1 x.2.2) mem ∧
    ∃ outs, runSeq (((List.range mem.length).zip xs).map fun x => updateStTask fft x.2.1 x.1 x.2.2) mem
      = some (List.zipWith (fun row (x : ClientQuery n × List (RGSW n)) => updateDb fft x.1 row x.2) mem xs, outs) := by
  let d : ClientQuery n × List (RGSW n) := (⟨[], ⟨0, []⟩, 0⟩, [])
  have hT : ((List.range mem.length).zip xs).map (fun x => updateStTask fft x.2.1 x.1 x.2.2)
      = (List.range mem.length).map fun r => updateStTask fft (xs.getD r d).1 r (xs.getD r d).2 := by
    rw [← hl]; exact zip_range_map xs d _
  obtain ⟨h1, h2, outs, h3⟩ := row_phase (mem := mem) (F := fun r => updateStTask fft (xs.getD r d).1 r (xs.getD r d).2)
    (val := fun r => updateDb fft (xs.getD r d).1 (mem.getD r []) (xs.getD r d).2) (fun r p hp => updateSt_touches hp)
    (fun r hr => runTask_updateSt (getElem?_getD hr []) (hls r _ _ (getElem?_getD (by omega) d) (getElem?_getD hr [])))
  have hv : (List.range mem.length).map (fun r => updateDb fft (xs.getD r d).1 (mem.getD r []) (xs.getD r d).2)
      = List.zipWith (fun row (x : ClientQuery n × List (RGSW n)) => updateDb fft x.1 row x.2) mem xs := by
    apply List.ext_getElem
    · simp [hl]
    · intro i e1 e2
      have hi : i < mem.length := by simpa using e1
      simp [List.getD_eq_getElem?_getD, List.getElem?_eq_getElem hi, List.getElem?_eq_getElem (by omega : i < xs.length)]
  rw [hT]
  rw [hv] at h3
  exact ⟨h1, h2, outs, h3⟩

theorem items_phase (fft : Fft n) {H : NaiveHash} {rows cols hc N : Nat} {T : Nat → Nat → Nat × Nat} (L : Layout H rows cols hc N T)
    (hpos : 0 < hc) (hrows : 0 < rows) {ls : List (List (RGSW n))} {flags : List (RGSW n)} (h1 : ls.length = rows) (h2 : ∀ l ∈ ls, l.length = cols)
    (h3 : flags.length = rows) {mem : Mem n} (hsh : DbShape rows cols mem) :
    ∃ poss m outs, mapOption (itemPositions H cols) (List.range N) = some poss ∧ Independent (poss.map (itemTask fft ls flags)) ∧
      AllRun (poss.map (itemTask fft ls flags)) mem ∧ correctAll fft H cols ls flags (List.range N) mem = some m ∧
      runSeq (poss.map (itemTask fft ls flags)) mem = some (m, outs) := by
  have hp : mapOption (itemPositions H cols) (List.range N) = some ((List.range N).map fun i => (List.range hc).map fun h => T h i) :=
    mapOption_eq_map fun i hi => itemPositions_some L (List.mem_range.mp hi)
  have hne : mem ≠ [] := by
    intro e; have := hsh.1; rw [e] at this; simp at this; omega
  obtain ⟨m, hm, _⟩ := correctAll_shape fft L hpos h1 h2 h3 (List.range N) mem (fun i hi => List.mem_range.mp hi) hsh
  obtain ⟨outs, ho⟩ := runSeq_items (fft := fft) (H := H) (cols := cols) (ls := ls) (flags := flags) hne hp hm
  refine ⟨_, m, outs, hp, ?_, ?_, hm, ho⟩
  · have hget : ∀ (i : Nat) (t : Task n), (((List.range N).map fun i => (List.range hc).map fun h => T h i).map (itemTask fft ls flags))[i]? = some t →
        i < N ∧ t = itemTask fft ls flags ((List.range hc).map fun h => T h i) := by
      intro i t ht
      rw [List.map_map, List.getElem?_map, Option.map_eq_some_iff] at ht
      obtain ⟨a, ha, rfl⟩ := ht
      have hi := (List.getElem?_eq_some_iff.mp ha).1
      rw [List.length_range] at hi
      rw [List.getElem?_range hi] at ha
      injection ha with ha
      subst ha
      exact ⟨hi, rfl⟩
    rintro i j t u hij ht hu p ⟨s, hs, hw⟩ hp
    obtain ⟨hi, rfl⟩ := hget i t ht
    obtain ⟨hj, rfl⟩ := hget j u hu
    have m1 := itemTask_touches ⟨s, hs, hw.touches⟩
    have m2 := itemTask_touches hp
    obtain ⟨a, ha, rfl⟩ := List.mem_map.mp m1
    obtain ⟨b, hb, e⟩ := List.mem_map.mp m2
    exact hij (L.inj a i b j (List.mem_range.mp ha) hi (List.mem_range.mp hb) hj e.symm).2
  · intro t ht
    obtain ⟨ps, hps, rfl⟩ := List.mem_map.mp ht
    obtain ⟨i, hi, rfl⟩ := List.mem_map.mp hps
    obtain ⟨db', hd, _⟩ := correctItem_shape fft L hpos h1 h2 h3 hsh (List.mem_range.mp hi)
    rw [correctItem, itemPositions_some L (List.mem_range.mp hi)] at hd
    simp only at hd
    rcases hv : correctConsistency fft mem ls flags ((List.range hc).map fun h => T h i) with _ | v
    · rw [hv] at hd; cases hd
    · obtain ⟨regs, hr⟩ := runTask_item hne hv
      exact ⟨_, hr⟩

theorem zipWith_swap {α β γ δ : Type} (f : α → β → γ → δ) : ∀ (as : List α) (bs : List β) (cs : List γ),
    List.zipWith (fun (x : α × β) c => f x.1 x.2 c) (as.zip bs) cs = List.zipWith (fun b (x : α × γ) => f x.1 b x.2) bs (as.zip cs)
  | [], bs, cs => by cases bs <;> cases cs <;> rfl
  | a :: as, [], cs => by cases cs <;> rfl
  | a :: as, b :: bs, [] => rfl
  | a :: as, b :: bs, c :: cs => by simp only [List.zip_cons_cons, List.zipWith_cons_cons, zipWith_swap f as bs cs]

/-- What the first phase of `process_batch` yields: one response and one full selector vector per row. -/
theorem batch_rows_shape (fft : Fft n) {S : Server n} (hp : ParamsOK S.ctx) {rows cols : Nat} (hsh : DbShape rows cols S.data)
    {qs : List (ClientQuery n)} (hq : qs.length = S.data.length) {rs : List (RLWE n × List (RGSW n))}
    (h : mapOption (batchRow fft S) (qs.zip S.data) = some rs) :
    (rs.map Prod.snd).length = rows ∧ ∀ l ∈ rs.map Prod.snd, l.length = cols := by
  refine ⟨by rw [List.length_map, mapOption_length h, List.length_zip, hq, min_self, hsh.1], fun l hl => ?_⟩
  obtain ⟨⟨y, ls⟩, hr, rfl⟩ := List.mem_map.mp hl
  obtain ⟨⟨q, row⟩, hm, hq'⟩ := mapOption_mem h _ hr
  have := ((processOneSt_shape fft hp q row S.negS).2 y ls hq').1
  rw [this]
  exact hsh.2 row (List.of_mem_zip hm).2

/-- C49 (`process_batch`): the same for batched processing, over all schedules of its three parallel phases, for every database whose hash
table covers the grid. -/
theorem C49_process_batch {N : Nat} {deny : Policy n} (hN : 0 < N) (hdeny : deny.Fair) (fft : Fft n) {S : Server n} (hp : ParamsOK S.ctx)
    (shuffle : List Nat → List Nat) (hsf : ∀ l, (shuffle l).Perm l) {hc M : Nat} {H : NaiveHash} (hnew : NaiveHash.new shuffle hc M = some H)
    {rows cols : Nat} (hrows : 0 < rows) (hcols : 0 < cols) (hsize : rows * cols = hc * M) (hsh : DbShape rows cols S.data)
    (qs : List (ClientQuery n)) (ys : List (RLWE n)) (S' : Server n) :
    ProcessBatchSched N deny fft S qs H ys S' ↔ S.processBatch fft qs H = some (ys, S') := by
  have hpos : 0 < hc := by
    rcases Nat.eq_zero_or_pos hc with h0 | h0
    · have := (C09_new_panics shuffle hc M).mpr h0
      rw [hnew] at this; cases this
    · exact h0
  obtain ⟨T, L⟩ := layout_of_hash shuffle hsf hnew hcols hsize
  have hcnt : S.data.length * cols / H.hCount = M := by
    rw [hsh.1, hsize, L.count, Nat.mul_div_cancel_left _ hpos]
  have hScols : S.cols = some cols := by
    unfold Server.cols
    rcases hS : S.data with _ | ⟨row, rest⟩
    · have := hsh.1; rw [hS] at this; simp at this; omega
    · simp [hsh.2 row (by rw [hS]; exact List.mem_cons_self)]
  obtain ⟨a1, a2, a3⟩ := readonly_phase (xs := (List.range S.data.length).zip S.data)
    (F := fun x => stTask (n := n) x.1 S.ctx.levelCount x.2.length) (mem := S.data) Prod.snd
    (fun _ p => stTask_readonly _ _ _ p) (fun x hx => by
      obtain ⟨k, hk⟩ := List.mem_iff_getElem?.mp hx
      obtain ⟨k1, k2⟩ := zip_getElem.mp hk
      have hkl := (List.getElem?_eq_some_iff.mp k2).1
      rw [List.getElem?_range hkl] at k1
      injection k1 with k1
      rw [← k1]
      exact runTask_stTask k2 _)
  rw [zip_range_snd] at a3
  -- the update phase and the consistency phase for given selectors
  have later : qs.length = S.data.length → ∀ rs, mapOption (batchRow fft S) (qs.zip S.data) = some rs →
      ∃ poss m oc m' od,
        (∀ mem' outs', ParRun N deny (((List.range S.data.length).zip (qs.zip (rs.map Prod.snd))).map fun x => updateStTask fft x.2.1 x.1 x.2.2)
          S.data mem' outs' ↔ mem' = m ∧ outs' = oc) ∧
        m = List.zipWith (fun (x : ClientQuery n × List (RLWE n)) l => updateDb fft x.1 x.2 l) (qs.zip S.data) (rs.map Prod.snd) ∧
        mapOption (itemPositions H cols) (List.range M) = some poss ∧
        correctAll fft H cols (rs.map Prod.snd) (qs.map ClientQuery.op) (List.range M) m = some m' ∧
        (∀ mem' outs', ParRun N deny (poss.map (itemTask fft (rs.map Prod.snd) (qs.map ClientQuery.op))) m mem' outs' ↔ mem' = m' ∧ outs' = od) := by
    intro hq rs hrs
    obtain ⟨r1, r2⟩ := batch_rows_shape fft hp hsh hq hrs
    have hz : (qs.zip (rs.map Prod.snd)).length = S.data.length := by rw [List.length_zip, r1, hq, hsh.1, min_self]
    obtain ⟨b1, b2, oc, b3⟩ := batch_update_phase fft (mem := S.data) (xs := qs.zip (rs.map Prod.snd)) hz (fun r x row hx hrow => by
      rw [hsh.2 row (List.mem_of_getElem? hrow), r2 x.2 (List.mem_of_getElem? (zip_getElem.mp hx).2)])
    have hm := zipWith_swap (fun (q : ClientQuery n) (row : List (RLWE n)) l => updateDb fft q row l) qs S.data (rs.map Prod.snd)
    have hshm : DbShape rows cols (List.zipWith (fun row (x : ClientQuery n × List (RGSW n)) => updateDb fft x.1 row x.2) S.data
        (qs.zip (rs.map Prod.snd))) := by
      refine ⟨by rw [List.length_zipWith, hz, min_self, hsh.1], fun row hrow => ?_⟩
      obtain ⟨k, hk⟩ := List.mem_iff_getElem?.mp hrow
      rw [List.getElem?_zipWith] at hk
      split at hk
      · rename_i row0 x h1 h2
        injection hk with hk; subst hk
        simp only [updateDb, List.length_zipWith]
        rw [hsh.2 row0 (List.mem_of_getElem? h1), r2 x.2 (List.mem_of_getElem? (zip_getElem.mp h2).2), min_self]
      · cases hk
    obtain ⟨poss, m', od, c1, c2, c3, c4, c5⟩ := items_phase fft L hpos hrows r1 r2 (flags := qs.map ClientQuery.op)
      (by rw [List.length_map, hq, hsh.1]) hshm
    exact ⟨poss, _, oc, m', od, fun mem' outs' => phase_iff hN hdeny b1 b2 b3 mem' outs', hm.symm, c1, c4,
      fun mem' outs' => phase_iff hN hdeny c2 c3 c5 mem' outs'⟩
  constructor
  · rintro ⟨hq, hh, mem1, outs1, p1, rs, hrs, mem2, outs2, p2, cols', hc', poss', hposs, mem3, outs3, p3, rfl, rfl⟩
    obtain ⟨rfl, rfl⟩ := (phase_iff hN hdeny a1 a2 a3 _ _).mp p1
    rw [hScols] at hc'; injection hc' with hc'; subst hc'
    obtain ⟨poss, m, oc, m', od, l1, l2, l3, l4, l5⟩ := later hq rs hrs
    obtain ⟨rfl, rfl⟩ := (l1 _ _).mp p2
    rw [hcnt, l3] at hposs
    injection hposs with hposs; subst hposs
    obtain ⟨rfl, rfl⟩ := (l5 _ _).mp p3
    unfold Server.processBatch
    rw [if_pos hq, hrs]
    simp only [hScols, if_neg hh, hcnt, ← l2, l4]
  · intro h
    unfold Server.processBatch at h
    by_cases hq : qs.length = S.data.length
    swap
    · rw [if_neg hq] at h; cases h
    rw [if_pos hq] at h
    rcases hrs : mapOption (batchRow fft S) (qs.zip S.data) with _ | rs
    · rw [hrs] at h; cases h
    obtain ⟨poss, m, oc, m', od, l1, l2, l3, l4, l5⟩ := later hq rs hrs
    have hh : H.hCount ≠ 0 := by rw [L.count]; omega
    rw [hrs] at h
    simp only [hScols, if_neg hh, hcnt, ← l2, l4, Option.some.injEq, Prod.mk.injEq] at h
    obtain ⟨rfl, rfl⟩ := h
    exact ⟨hq, hh, S.data, S.data, (phase_iff hN hdeny a1 a2 a3 _ _).mpr ⟨rfl, rfl⟩, rs, hrs, m, oc, (l1 _ _).mpr ⟨rfl, rfl⟩, cols, hScols,
      poss, by rw [hcnt]; exact l3, m', od, (l5 _ _).mpr ⟨rfl, rfl⟩, rfl, rfl⟩

/-! ### C50 for the phases of the server -/

/-- C50 (`process_one`): none of its three parallel phases can deadlock, for any query, selectors and database. -/
theorem C50_process_one {N : Nat} {deny : Policy n} (hN : 0 < N) (hdeny : deny.Fair) (fft : Fft n) {S : Server n} {row : List (RLWE n)}
    {rest : Mem n} (hS : S.data = row :: rest) (q : ClientQuery n) {ls : List (RGSW n)} (hl : ls.length = row.length) :
    DeadlockFree N deny ((List.range S.ctx.levelCount).map fun _ => levelTask) S.data ∧
    DeadlockFree N deny ((List.range row.length).map columnTask) S.data ∧
    DeadlockFree N deny (((List.range row.length).zip ls).map fun x => updateTask fft q x.2 x.1) S.data := by
  obtain ⟨a1, a2, _⟩ := level_phase S.ctx.levelCount S.data
  obtain ⟨b1, b2, _⟩ := columns_phase (row := row) (mem := S.data) (by rw [hS]; rfl)
  obtain ⟨c1, c2, _⟩ := update_phase fft q (row := row) (rest := rest) hl
  exact ⟨C50_no_deadlock hN hdeny a1 a2, C50_no_deadlock hN hdeny b1 b2, by rw [hS]; exact C50_no_deadlock hN hdeny c1 c2⟩

/-- C50 (`process_multi`): none of its three parallel phases can deadlock. -/
theorem C50_process_multi {N : Nat} {deny : Policy n} (hN : 0 < N) (hdeny : deny.Fair) (fft : Fft n) {S : Server n} {row : List (RLWE n)}
    {rest : Mem n} (hS : S.data = row :: rest) (qs : List (ClientQuery n)) {xs : List (RGSW n × RLWE n)} (hl : xs.length = row.length) :
    DeadlockFree N deny (qs.map fun _ => stTask 0 S.ctx.levelCount row.length) S.data ∧
    DeadlockFree N deny (qs.map fun _ => multiTmpTask row.length) S.data ∧
    DeadlockFree N deny (((List.range row.length).zip xs).map fun x => multiUpdateTask fft x.1 x.2) S.data := by
  have hrow0 : S.data[0]? = some row := by rw [hS]; rfl
  obtain ⟨a1, a2, _⟩ := readonly_phase (xs := qs) (F := fun _ => stTask (n := n) 0 S.ctx.levelCount row.length) (mem := S.data) (fun _ => row)
    (fun _ p => stTask_readonly _ _ _ p) (fun _ _ => runTask_stTask hrow0 _)
  obtain ⟨b1, b2, _⟩ := readonly_phase (xs := qs) (F := fun _ => multiTmpTask (n := n) row.length) (mem := S.data) (fun _ => row)
    (fun _ p => multiTmp_readonly _ p) (fun _ _ => runTask_multiTmp hrow0)
  obtain ⟨c1, c2, _⟩ := multi_update_phase fft (row := row) (rest := rest) hl
  exact ⟨C50_no_deadlock hN hdeny a1 a2, C50_no_deadlock hN hdeny b1 b2, by rw [hS]; exact C50_no_deadlock hN hdeny c1 c2⟩

/-- C50 (`process_batch`): none of its three parallel phases can deadlock. -/
theorem C50_process_batch {N : Nat} {deny : Policy n} (hN : 0 < N) (hdeny : deny.Fair) (fft : Fft n) {S : Server n}
    (shuffle : List Nat → List Nat) (hsf : ∀ l, (shuffle l).Perm l) {hc M : Nat} {H : NaiveHash} (hnew : NaiveHash.new shuffle hc M = some H)
    {rows cols : Nat} (hrows : 0 < rows) (hcols : 0 < cols) (hsize : rows * cols = hc * M) (hsh : DbShape rows cols S.data)
    {qs : List (ClientQuery n)} (hq : qs.length = rows) {ls : List (List (RGSW n))} (h1 : ls.length = rows) (h2 : ∀ l ∈ ls, l.length = cols) :
    DeadlockFree N deny (((List.range S.data.length).zip S.data).map fun x => stTask x.1 S.ctx.levelCount x.2.length) S.data ∧
    DeadlockFree N deny (((List.range S.data.length).zip (qs.zip ls)).map fun x => updateStTask fft x.2.1 x.1 x.2.2) S.data ∧
    ∀ mem poss, DbShape rows cols mem → mapOption (itemPositions H cols) (List.range M) = some poss →
      DeadlockFree N deny (poss.map (itemTask fft ls (qs.map ClientQuery.op))) mem := by
  have hpos : 0 < hc := by
    rcases Nat.eq_zero_or_pos hc with h0 | h0
    · have := (C09_new_panics shuffle hc M).mpr h0
      rw [hnew] at this; cases this
    · exact h0
  obtain ⟨T, L⟩ := layout_of_hash shuffle hsf hnew hcols hsize
  obtain ⟨a1, a2, _⟩ := readonly_phase (xs := (List.range S.data.length).zip S.data)
    (F := fun x => stTask (n := n) x.1 S.ctx.levelCount x.2.length) (mem := S.data) Prod.snd
    (fun _ p => stTask_readonly _ _ _ p) (fun x hx => by
      obtain ⟨k, hk⟩ := List.mem_iff_getElem?.mp hx
      obtain ⟨k1, k2⟩ := zip_getElem.mp hk
      have hkl := (List.getElem?_eq_some_iff.mp k2).1
      rw [List.getElem?_range hkl] at k1
      injection k1 with k1
      rw [← k1]
      exact runTask_stTask k2 _)
  obtain ⟨b1, b2, _⟩ := batch_update_phase fft (mem := S.data) (xs := qs.zip ls) (by rw [List.length_zip, h1, hq, hsh.1, min_self])
    (fun r x row hx hrow => by rw [hsh.2 row (List.mem_of_getElem? hrow), h2 x.2 (List.mem_of_getElem? (zip_getElem.mp hx).2)])
  refine ⟨C50_no_deadlock hN hdeny a1 a2, C50_no_deadlock hN hdeny b1 b2, fun mem poss hm hposs => ?_⟩
  obtain ⟨poss', m', od, c1, c2, c3, c4, c5⟩ := items_phase fft L hpos hrows h1 h2 (flags := qs.map ClientQuery.op)
    (by rw [List.length_map, hq]) hm
  rw [c1] at hposs
  injection hposs with hposs
  subst hposs
  exact C50_no_deadlock hN hdeny c2 c3

/-! ### The hypotheses are met -/

/-- Why independence matters: two tasks that both read cell (0,0), and the first also stores into it, have different outcomes under different
schedules -- the general statement is false without the hypothesis. -/
theorem C49_independence_needed : ∃ (T : List (Task 4)) (mem : Mem 4) (m1 m2 : Mem 4) (o1 o2 : List (List (RLWE 4))), AllRun T mem ∧
    ParRun 1 readerPref T mem m1 o1 ∧ ParRun 1 readerPref T mem m2 o2 ∧ o1 ≠ o2 := by
  let w : Task 4 := [.write (0, 0) fun _ => some (exCt 1)]
  let r : Task 4 := [.read (0, 0) false]
  let M0 : Mem 4 := [[exCt 0]]
  let M1 : Mem 4 := [[exCt 1]]
  have hnone : ∀ (C : Conf 4), (∀ i t, C.On i t → False) → ∀ i l, ¬ Holds [w, r] C i l := by
    rintro C h i l ⟨t, tid, d, hh, regs, s, _, hst, _⟩
    exact h i tid ⟨d, hh, regs, hst⟩
  have single : ∀ (C : Conf 4) (i tid d : Nat) (regs : List (RLWE 4)) (l : Lock), C.st[i]? = some (.running tid d 0 regs) →
      (∀ j t, C.On j t → j = i) → Avail [w, r] C l := by
    intro C i tid d regs l hi hj
    have hno : ∀ j l, ¬ Holds [w, r] C j l := by
      rintro j l ⟨t, tid', d', h', regs', s, _, hst, _, hm⟩
      have := hj j tid' ⟨d', h', regs', hst⟩
      subst this
      rw [hi] at hst
      injection hst with hst
      injection hst with _ _ e _
      subst e
      simp at hm
    cases l with
    | rd r => exact fun k => hno k _
    | wr r => exact fun k => ⟨hno k _, hno k _⟩
    | mx t => exact fun k => hno k _
  have hOn0 : ∀ (m : Mem 4) (a b : TState 4), (∀ t d h g, a ≠ .running t d h g) → (∀ t d h g, b ≠ .running t d h g) →
      ∀ j t, ¬ (⟨m, [a, b]⟩ : Conf 4).On j t := by
    rintro m a b ha hb j t ⟨d, h, g, hst⟩
    rcases j with _ | _ | j
    · injection hst with hst; exact ha _ _ _ _ hst
    · injection hst with hst; exact hb _ _ _ _ hst
    · cases hst
  have hOnA : ∀ (m : Mem 4) (a b : TState 4), (∀ t d h g, b ≠ .running t d h g) → ∀ j t, (⟨m, [a, b]⟩ : Conf 4).On j t → j = 0 := by
    rintro m a b hb j t ⟨d, h, g, hst⟩
    rcases j with _ | _ | j
    · rfl
    · injection hst with hst; exact absurd hst (hb _ _ _ _)
    · cases hst
  have hOnB : ∀ (m : Mem 4) (a b : TState 4), (∀ t d h g, a ≠ .running t d h g) → ∀ j t, (⟨m, [a, b]⟩ : Conf 4).On j t → j = 1 := by
    rintro m a b ha j t ⟨d, h, g, hst⟩
    rcases j with _ | _ | j
    · injection hst with hst; exact absurd hst (ha _ _ _ _)
    · rfl
    · cases hst
  -- writer first
  have runW : ∀ (m : Mem 4) (b : TState 4) (c : RLWE 4), (∀ t d h g, b ≠ .running t d h g) → cellAt m (0, 0) = some c → ∀ C0,
      Reach [w, r] 1 readerPref C0 ⟨m, [.pending, b]⟩ → Reach [w, r] 1 readerPref C0 ⟨setCell m (0, 0) (exCt 1), [.finished [], b]⟩ := by
    intro m b c hb hc C0 h0
    have h1 := Reach.step h0 (Step.start (T := [w, r]) (N := 1) (deny := readerPref) 0 0 rfl (by decide) (hOn0 m _ _ (by simp) hb 
      · 0))
    have h2 := Reach.step h1 (Step.acquire (T := [w, r]) 0 (t := w) rfl rfl rfl (l := .wr 0) rfl
      (single _ 0 0 0 [] _ rfl (hOnA m _ b hb)) (by simp))
    have he : (Stmt.write (0, 0) fun _ => some (exCt 1) : Stmt 4).exec m [] = some (setCell m (0, 0) (exCt 1), []) := by
      simp only [Stmt.exec, hc]
    have h3 := Reach.step h2 (Step.exec (T := [w, r]) 0 (t := w) (mem' := setCell m (0, 0) (exCt 1)) (regs' := []) rfl rfl rfl rfl he)
    exact Reach.step h3 (Step.finish (T := [w, r]) 0 (t := w) rfl rfl rfl)
  have runR : ∀ (m : Mem 4) (a : TState 4) (c : RLWE 4), (∀ t d h g, a ≠ .running t d h g) → cellAt m (0, 0) = some c → ∀ C0,
      Reach [w, r] 1 readerPref C0 ⟨m, [a, .pending]⟩ → Reach [w, r] 1 readerPref C0 ⟨m, [a, .finished [c]]⟩ := by
    intro m a c ha hc C0 h0
    have h1 := Reach.step h0 (Step.start (T := [w, r]) (N := 1) (deny := readerPref) 1 0 rfl (by decide) (hOn0 m _ _ ha (by simp) · 0))
    have h2 := Reach.step h1 (Step.acquire (T := [w, r]) 1 (t := r) rfl rfl rfl (l := .rd 0) rfl
      (single _ 1 0 0 [] _ rfl (hOnB m a _ ha)) (by simp [readerPref]))
    have h3 := Reach.step h2 (Step.exec (T := [w, r]) 1 (t := r) (mem' := m) (regs' := [c]) rfl rfl rfl rfl (by
      show (cellAt m (0, 0)).map (fun v => (m, [] ++ [v])) = _
      rw [hc]; rfl))
    exact Reach.step h3 (Step.finish (T := [w, r]) 1 (t := r) rfl rfl rfl)
  refine ⟨[w, r], M0, M1, M1, [[], [exCt 1]], [[], [exCt 0]], ?_, ?_, ?_, ?_⟩
  · intro t ht
    simp only [List.mem_cons, List.not_mem_nil, or_false] at ht
    rcases ht with rfl | rfl
    · exact ⟨(M1, []), rfl⟩
    · exact ⟨(M0, [exCt 0]), rfl⟩
  · exact ⟨_, runR M1 _ (exCt 1) (by simp) rfl _ (runW M0 _ (exCt 0) (by simp) rfl _ (.refl _)), rfl, rfl⟩
  · exact ⟨_, runW M0 _ (exCt 0) (by simp) rfl _ (runR M0 _ (exCt 0) (by simp) rfl _ (.refl _)), rfl, rfl⟩
  · intro h
    have : exCt 1 = exCt 0 := by injection h with _ h; injection h with h; injection h
    have h2 := congrArg (fun c : RLWE 4 => c.body 0) this
    simp [exCt] at h2

/-- C49, C50: the example server, four workers, writer-preferring locks: a write query, all schedules. -/
example : ∃ r q g' y S', negGsw exTreeCtx exKey exGen = some r ∧ makeWriteQuery exTreeCtx exKey 4 2 ⟨fun _ => 7⟩ exGen = some (q, g') ∧
    ProcessOneSched 4 writerPref exFft ⟨[exRow], r.1, exTreeCtx⟩ q y S' ∧
    ∀ y' S'', ProcessOneSched 4 writerPref exFft ⟨[exRow], r.1, exTreeCtx⟩ q y' S'' → y' = y ∧ S'' = S' := by
  obtain ⟨r, h1, h2⟩ := exServerKeys
  have hw : Spec.Encodable (16 : Scalar) (⟨fun _ => 7⟩ : Poly 4) := fun k => by show (7 : Scalar).toNat < _; decide
  obtain ⟨q, g', enc, q1, _, q2, q3⟩ := C42_write_query (t := 16) (ctx := exTreeCtx) (by decide) (by decide) (by decide) (by decide)
    exKey (i := 2) (D := 2) (by decide) (by decide) hw exGen_bounded
  obtain ⟨y, S', e1, -⟩ := C41_decoded (t := 16) (by decide) exFft_bounded exKey_binary (S := Server.new [exRow] r.1 exTreeCtx)
    (by change Codec.new 16 = some exTreeCtx.codec; decide) h2 (by decide) q3 rfl (by decide) exRow_enc (pt := ⟨fun _ => 2⟩)
    (by change exTreeCtx.codec.polyEncode (⟨fun _ => 2⟩ : Poly 4) = _; decide +kernel) fold_isReduction
    (by change 2 * (0 + 2 ^ 2 * deltaSel exTreeCtx 4 3 5 2) < _; decide)
  refine ⟨r, q, g', y, S', h1, q1, (C49_process_one (by decide) writerPref_fair fold_isReduction exFft _ q _ _).mpr e1, ?_⟩
  intro y' S'' h
  have h' := (C49_process_one (by decide) writerPref_fair fold_isReduction exFft _ q _ _).mp h
  have e1' : Server.processOne (fun xs => xs.foldl (· + ·) 0) exFft ⟨[exRow], r.1, exTreeCtx⟩ q = some (y, S') := e1
  rw [e1'] at h'
  cases h'
  exact ⟨rfl, rfl⟩

end Panacea
