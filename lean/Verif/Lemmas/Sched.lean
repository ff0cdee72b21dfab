import Verif.Spec.Sched
import Mathlib.Tactic.Linarith

/-!
# The worker pool: frame property, invariant, progress, termination
-/

namespace Panacea
variable {n : Nat}

theorem cellAt_set {mem : Mem n} {p : Nat × Nat} {v0 : RLWE n} (h : cellAt mem p = some v0) (v : RLWE n) (p' : Nat × Nat) :
    cellAt (setCell mem p v) p' = if p' = p then some v else cellAt mem p' := by
  obtain ⟨r, c⟩ := p
  obtain ⟨r', c'⟩ := p'
  unfold cellAt at h
  simp only at h
  rcases hr : mem[r]? with _ | row
  · rw [hr] at h; cases h
  rw [hr] at h
  simp only at h
  have hc : c < row.length := (List.getElem?_eq_some_iff.mp h).1
  unfold cellAt setCell
  simp only [List.getElem?_modify]
  by_cases hrr : r = r'
  · subst hrr
    rw [hr]
    simp only [if_pos, Option.map_eq_map, Option.map_some, Prod.mk.injEq, true_and]
    rw [List.getElem?_set]
    by_cases hcc : c = c'
    · subst hcc; rw [if_pos rfl, if_pos rfl, if_pos hc]
    · rw [if_neg hcc, if_neg (fun e => hcc e.symm)]
  · rw [if_neg (by intro e; cases e; exact hrr rfl)]
    rcases hr' : mem[r']? with _ | row'
    · simp
    · simp [hrr]

theorem setCell_length (mem : Mem n) (p : Nat × Nat) (v : RLWE n) : (setCell mem p v).length = mem.length := by
  unfold setCell; rw [List.length_modify]

/-- Databases with the same number of rows and the same cells are equal. -/
theorem mem_ext {m m' : Mem n} (hl : m.length = m'.length) (h : ∀ p, cellAt m p = cellAt m' p) : m = m' := by
  apply List.ext_getElem? 
  intro r
  by_cases hr : r < m.length
  · rw [List.getElem?_eq_getElem hr, List.getElem?_eq_getElem (by omega : r < m'.length)]
    congr 1
    apply List.ext_getElem?
    intro c
    have := h (r, c)
    unfold cellAt at this
    simp only [List.getElem?_eq_getElem hr, List.getElem?_eq_getElem (by omega : r < m'.length)] at this
    exact this
  · rw [List.getElem?_eq_none (by omega), List.getElem?_eq_none (by omega)]

theorem Stmt.Writes.touches {s : Stmt n} {p : Nat × Nat} (h : s.Writes p) : s.Touches p := by cases s <;> first | exact h | cases h

theorem exec_length {s : Stmt n} {m m1 : Mem n} {regs regs1 : List (RLWE n)} (h : s.exec m regs = some (m1, regs1)) :
    m1.length = m.length := by
  cases s with
  | read p b =>
    simp only [Stmt.exec, Option.map_eq_some_iff, Prod.mk.injEq] at h
    obtain ⟨_, _, h, _⟩ := h; rw [h]
  | len r =>
    simp only [Stmt.exec, Option.map_eq_some_iff, Prod.mk.injEq] at h
    obtain ⟨_, _, h, _⟩ := h; rw [h]
  | fft => simp only [Stmt.exec, Option.some.injEq, Prod.mk.injEq] at h; rw [h.1]
  | write p f =>
    simp only [Stmt.exec] at h
    split at h
    · injection h with h; injection h with h _; rw [← h, setCell_length]
    · cases h

theorem exec_unwritten {s : Stmt n} {m m1 : Mem n} {regs regs1 : List (RLWE n)} (h : s.exec m regs = some (m1, regs1)) {p : Nat × Nat}
    (hp : ¬ s.Writes p) : cellAt m1 p = cellAt m p := by
  cases s with
  | read p b =>
    simp only [Stmt.exec, Option.map_eq_some_iff, Prod.mk.injEq] at h
    obtain ⟨_, _, h, _⟩ := h; rw [h]
  | len r =>
    simp only [Stmt.exec, Option.map_eq_some_iff, Prod.mk.injEq] at h
    obtain ⟨_, _, h, _⟩ := h; rw [h]
  | fft => simp only [Stmt.exec, Option.some.injEq, Prod.mk.injEq] at h; rw [h.1]
  | write p' f =>
    simp only [Stmt.exec] at h
    split at h
    · rename_i v0 v hv0 hv
      injection h with h; injection h with h _
      rw [← h, cellAt_set hv0, if_neg]
      intro e; exact hp e.symm
    · cases h

/-- A statement sees and changes only the cells it touches. -/
theorem exec_frame {s : Stmt n} {m m1 m' : Mem n} {regs regs1 : List (RLWE n)} (h : s.exec m regs = some (m1, regs1))
    (hl : m'.length = m.length) (ha : ∀ p, s.Touches p → cellAt m' p = cellAt m p) :
    ∃ m1', s.exec m' regs = some (m1', regs1) ∧ ∀ p, s.Touches p → cellAt m1' p = cellAt m1 p := by
  cases s with
  | read p b =>
    simp only [Stmt.exec, Option.map_eq_some_iff, Prod.mk.injEq] at h ⊢
    obtain ⟨v, hv, h1, h2⟩ := h
    have := ha p rfl
    refine ⟨m', ⟨v, by rw [this, hv], rfl, h2⟩, ?_⟩
    rw [← h1]; exact ha
  | len r =>
    simp only [Stmt.exec, Option.map_eq_some_iff, Prod.mk.injEq] at h ⊢
    obtain ⟨v, hv, h1, h2⟩ := h
    have hr := (List.getElem?_eq_some_iff.mp hv).1
    exact ⟨m', ⟨m'[r]'(by omega), List.getElem?_eq_getElem _, rfl, h2⟩, fun p hp => by cases hp⟩
  | fft =>
    simp only [Stmt.exec, Option.some.injEq, Prod.mk.injEq] at h ⊢
    exact ⟨m', ⟨rfl, h.2⟩, fun p hp => by cases hp⟩
  | write p f =>
    simp only [Stmt.exec] at h ⊢
    split at h
    · rename_i v0 v hv0 hv
      injection h with h; injection h with h h2
      have hv0' := (ha p rfl).trans hv0
      refine ⟨setCell m' p v, by rw [hv0', hv, h2], fun p' hp' => ?_⟩
      have : p = p' := hp'
      subst this
      rw [← h, cellAt_set hv0', cellAt_set hv0, if_pos rfl, if_pos rfl]
    · cases h

theorem runTask_append (t u : Task n) : ∀ (m : Mem n) (regs : List (RLWE n)),
    runTask (t ++ u) m regs = match runTask t m regs with
      | none => none
      | some r => runTask u r.1 r.2 := by
  induction t with
  | nil => intro m regs; rfl
  | cons s t ih =>
    intro m regs
    simp only [List.cons_append, runTask]
    rcases s.exec m regs with _ | ⟨m1, regs1⟩
    · rfl
    · simp only; exact ih m1 regs1

theorem runTask_take_succ {t : Task n} {d : Nat} {s : Stmt n} (hs : t[d]? = some s) {m0 m : Mem n} {regs0 regs : List (RLWE n)}
    (h : runTask (t.take d) m0 regs0 = some (m, regs)) : runTask (t.take (d + 1)) m0 regs0 = s.exec m regs := by
  have hd := (List.getElem?_eq_some_iff.mp hs).1
  have : t.take (d + 1) = t.take d ++ [s] := by
    rw [List.take_succ, hs]; rfl
  rw [this, runTask_append, h]
  simp only [runTask]
  rcases s.exec m regs with _ | ⟨m1, r1⟩ <;> rfl

/-- If the whole task runs, so does every prefix. -/
theorem runTask_prefix {t : Task n} {m0 : Mem n} {regs0 : List (RLWE n)} {r : Mem n × List (RLWE n)} (h : runTask t m0 regs0 = some r)
    (d : Nat) : ∃ r', runTask (t.take d) m0 regs0 = some r' := by
  rw [← List.take_append_drop d t, runTask_append] at h
  rcases hx : runTask (t.take d) m0 regs0 with _ | r'
  · rw [hx] at h; cases h
  · exact ⟨r', rfl⟩

theorem runTask_length : ∀ {t : Task n} {m m1 : Mem n} {regs regs1 : List (RLWE n)}, runTask t m regs = some (m1, regs1) →
    m1.length = m.length
  | [], m, m1, regs, regs1, h => by simp only [runTask, Option.some.injEq, Prod.mk.injEq] at h; rw [h.1]
  | s :: t, m, m1, regs, regs1, h => by
    simp only [runTask] at h
    rcases hx : s.exec m regs with _ | ⟨m2, regs2⟩
    · rw [hx] at h; cases h
    · rw [hx] at h
      rw [runTask_length h, exec_length hx]

theorem runTask_unwritten : ∀ {t : Task n} {m m1 : Mem n} {regs regs1 : List (RLWE n)}, runTask t m regs = some (m1, regs1) →
    ∀ (p : Nat × Nat), ¬ Task.Writes t p → cellAt m1 p = cellAt m p
  | [], m, m1, regs, regs1, h => by simp only [runTask, Option.some.injEq, Prod.mk.injEq] at h; intro p _; rw [h.1]
  | s :: t, m, m1, regs, regs1, h => by
    intro p hp
    simp only [runTask] at h
    rcases hx : s.exec m regs with _ | ⟨m2, regs2⟩
    · rw [hx] at h; cases h
    · rw [hx] at h
      rw [runTask_unwritten h _ (fun ⟨s', h1, h2⟩ => hp ⟨s', List.mem_cons_of_mem _ h1, h2⟩),
        exec_unwritten hx (fun h' => hp ⟨s, List.mem_cons_self, h'⟩)]

/-- A task sees and changes only the cells it touches. -/
theorem runTask_frame : ∀ {t : Task n} {m m1 m' : Mem n} {regs regs1 : List (RLWE n)}, runTask t m regs = some (m1, regs1) →
    m'.length = m.length → (∀ p, Task.Touches t p → cellAt m' p = cellAt m p) →
    ∃ m1', runTask t m' regs = some (m1', regs1) ∧ ∀ p, Task.Touches t p → cellAt m1' p = cellAt m1 p
  | [], m, m1, m', regs, regs1, h, hl, ha => by
    simp only [runTask, Option.some.injEq, Prod.mk.injEq] at h ⊢
    exact ⟨m', ⟨rfl, h.2⟩, fun p hp => by rw [← h.1]; exact ha p hp⟩
  | s :: t, m, m1, m', regs, regs1, h, hl, ha => by
    simp only [runTask] at h ⊢
    rcases hx : s.exec m regs with _ | ⟨m2, regs2⟩
    · rw [hx] at h; cases h
    rw [hx] at h
    obtain ⟨m2', e1, e2⟩ := exec_frame hx hl fun p hp => ha p ⟨s, List.mem_cons_self, hp⟩
    have hag : ∀ p, Task.Touches (s :: t) p → cellAt m2' p = cellAt m2 p := by
      intro p hp
      by_cases hsp : s.Touches p
      · exact e2 p hsp
      · have hnw : ¬ s.Writes p := fun hw => hsp hw.touches
        rw [exec_unwritten e1 hnw, exec_unwritten hx hnw]
        exact ha p hp
    obtain ⟨m1', f1, f2⟩ := runTask_frame h (by rw [exec_length e1, exec_length hx, hl])
      fun p ⟨s', h1, h2⟩ => hag p ⟨s', List.mem_cons_of_mem _ h1, h2⟩
    refine ⟨m1', by rw [e1]; exact f1, fun p hp => ?_⟩
    by_cases htp : Task.Touches t p
    · exact f2 p htp
    · have hnw : ¬ Task.Writes t p := fun ⟨s', h1, h2⟩ => htp ⟨s', h1, h2.touches⟩
      rw [runTask_unwritten f1 _ hnw, runTask_unwritten h _ hnw]
      exact hag p hp

/-! ### The invariant -/

/-- Task `t` has executed `d` statements as it would have alone on `mem0`, and the database shows it exactly that. -/
def Sim (mem0 : Mem n) (t : Task n) (mem : Mem n) (d : Nat) (regs : List (RLWE n)) : Prop :=
  ∃ m, runTask (t.take d) mem0 [] = some (m, regs) ∧ ∀ p, Task.Touches t p → cellAt mem p = cellAt m p

/-- Invariant of one task. -/
def TInv (mem0 mem : Mem n) (t : Task n) : TState n → Prop
  | .pending => Sim mem0 t mem 0 []
  | .running tid d h regs => Sim mem0 t mem d regs ∧ d ≤ t.length ∧ (d = t.length → h = 0) ∧
      ∀ s, t[d]? = some s → h ≤ (s.locks tid).length
  | .finished regs => Sim mem0 t mem t.length regs

/-- Invariant of a configuration. -/
structure Inv (T : List (Task n)) (mem0 : Mem n) (C : Conf n) : Prop where
  len : C.st.length = T.length
  rows : C.mem.length = mem0.length
  task : ∀ (i : Nat) (t : Task n) (st : TState n), T[i]? = some t → C.st[i]? = some st → TInv mem0 C.mem t st
  rest : ∀ p, (∀ t ∈ T, ¬ Task.Writes t p) → cellAt C.mem p = cellAt mem0 p

theorem inv_init (T : List (Task n)) (mem0 : Mem n) : Inv T mem0 (Conf.init T mem0) where
  len := by simp [Conf.init]
  rows := rfl
  task := by
    intro i t st ht hst
    simp only [Conf.init, List.getElem?_map, ht, Option.map_some, Option.some.injEq] at hst
    subst hst
    exact ⟨mem0, rfl, fun p _ => rfl⟩
  rest := fun p _ => rfl

theorem tinv_congr {mem0 mem mem' : Mem n} {t : Task n} (h : ∀ p, Task.Touches t p → cellAt mem' p = cellAt mem p) {st : TState n}
    (hi : TInv mem0 mem t st) : TInv mem0 mem' t st := by
  have hs : ∀ {d regs}, Sim mem0 t mem d regs → Sim mem0 t mem' d regs := fun ⟨m, h1, h2⟩ =>
    ⟨m, h1, fun p hp => (h p hp).trans (h2 p hp)⟩
  cases st with
  | pending => exact hs hi
  | running tid d h regs => exact ⟨hs hi.1, hi.2⟩
  | finished regs => exact hs hi

theorem Sim.exec {mem0 mem : Mem n} {t : Task n} {d : Nat} {regs : List (RLWE n)} (hs : Sim mem0 t mem d regs) (hrows : mem.length = mem0.length)
    {r : Mem n × List (RLWE n)} (hrun : runTask t mem0 [] = some r) {s : Stmt n} (hd : t[d]? = some s) :
    ∃ mem' regs', s.exec mem regs = some (mem', regs') ∧ Sim mem0 t mem' (d + 1) regs' := by
  obtain ⟨m, h1, h2⟩ := hs
  obtain ⟨⟨m1, regs1⟩, h3⟩ := runTask_prefix hrun (d + 1)
  have h4 := runTask_take_succ hd h1
  rw [h3] at h4
  have hst : s ∈ t := List.mem_of_getElem? hd
  obtain ⟨mem', e1, e2⟩ := exec_frame h4.symm (by rw [hrows, runTask_length h1]) fun p hp => h2 p ⟨s, hst, hp⟩
  refine ⟨mem', regs1, e1, m1, h3, fun p hp => ?_⟩
  by_cases hsp : s.Touches p
  · exact e2 p hsp
  · have hnw : ¬ s.Writes p := fun hw => hsp hw.touches
    rw [exec_unwritten e1 hnw, exec_unwritten h4.symm hnw]
    exact h2 p hp

theorem inv_step {T : List (Task n)} {N : Nat} {deny : Policy n} {mem0 : Mem n} (hT : Independent T) (hrun : AllRun T mem0)
    {C C' : Conf n} (hi : Inv T mem0 C) (h : Step T N deny C C') : Inv T mem0 C' := by
  have setTask : ∀ (i : Nat) (t : Task n) (st' : TState n), T[i]? = some t → TInv mem0 C.mem t st' →
      Inv T mem0 { C with st := C.st.set i st' } := by
    intro i t st' ht hst'
    refine ⟨by simp [hi.len], hi.rows, fun j u st hu hst => ?_, hi.rest⟩
    rw [List.getElem?_set] at hst
    split at hst
    · rename_i hij
      subst hij
      split at hst
      · injection hst with hst
        subst hst
        rw [ht] at hu; injection hu with hu; subst hu
        exact hst'
      · cases hst
    · exact hi.task j u st hu hst
  cases h with
  | start i tid hp ht hidle =>
    have hlt : i < T.length := by rw [← hi.len]; exact (List.getElem?_eq_some_iff.mp hp).1
    obtain h0 := hi.task i T[i] .pending (List.getElem?_eq_getElem hlt) hp
    exact setTask i T[i] _ (List.getElem?_eq_getElem hlt) ⟨h0, Nat.zero_le _, fun _ => rfl, fun s _ => Nat.zero_le _⟩
  | @acquire i t tid d h regs s l ht hr hs hl ha hd =>
    obtain ⟨h1, h2, h3, h4⟩ := hi.task i t _ ht hr
    have hd' := (List.getElem?_eq_some_iff.mp hs).1
    refine setTask i t _ ht ⟨h1, h2, fun e => by omega, fun s' hs' => ?_⟩
    rw [hs] at hs'; injection hs' with hs'; subst hs'
    exact (List.getElem?_eq_some_iff.mp hl).1
  | @exec i t tid d h regs regs' s mem' ht hr hs hl he =>
    obtain ⟨h1, h2, h3, h4⟩ := hi.task i t _ ht hr
    have hd' := (List.getElem?_eq_some_iff.mp hs).1
    have hmem : t ∈ T := List.mem_of_getElem? ht
    obtain ⟨r, hrt⟩ := hrun t hmem
    obtain ⟨mem'', regs'', e1, e2⟩ := h1.exec hi.rows hrt hs
    rw [he] at e1; injection e1 with e1; injection e1 with e1 e1'
    subst e1; subst e1'
    have hother : ∀ p, ¬ Task.Writes t p → cellAt mem' p = cellAt C.mem p := fun p hp =>
      exec_unwritten he fun hw => hp ⟨s, List.mem_of_getElem? hs, hw⟩
    refine ⟨by simp [hi.len], by rw [exec_length he]; exact hi.rows, fun j u st hu hst => ?_, fun p hp => ?_⟩
    · rw [List.getElem?_set] at hst
      split at hst
      · rename_i hij
        subst hij
        split at hst
        · injection hst with hst
          subst hst
          rw [ht] at hu; injection hu with hu; subst hu
          exact ⟨e2, hd', fun _ => rfl, fun s _ => Nat.zero_le _⟩
        · cases hst
      · rename_i hij
        refine tinv_congr (fun p hp => hother p fun hw => hT i j t u hij ht hu p hw hp) (hi.task j u st hu hst)
    · rw [hother p (hp t hmem)]; exact hi.rest p hp
  | @finish i t tid d h regs ht hr hd =>
    obtain ⟨h1, h2, h3, h4⟩ := hi.task i t _ ht hr
    exact setTask i t _ ht (by rw [hd] at h1; exact h1)

theorem inv_reach {T : List (Task n)} {N : Nat} {deny : Policy n} {mem0 : Mem n} (hT : Independent T) (hrun : AllRun T mem0)
    {C C' : Conf n} (hi : Inv T mem0 C) (h : Reach T N deny C C') : Inv T mem0 C' := by
  induction h with
  | refl => exact hi
  | step _ hs ih => exact inv_step hT hrun ih hs

/-- What a complete run leaves: every task has read what it reads alone; the cells it touches are as it leaves them alone. -/
theorem parRun_spec {T : List (Task n)} {N : Nat} {deny : Policy n} {mem mem' : Mem n} {outs : List (List (RLWE n))} (hT : Independent T)
    (hrun : AllRun T mem) (h : ParRun N deny T mem mem' outs) :
    mem'.length = mem.length ∧ outs.length = T.length ∧
    (∀ (i : Nat) (t : Task n), T[i]? = some t → ∃ m regs, runTask t mem [] = some (m, regs) ∧ outs[i]? = some regs ∧
      ∀ p, Task.Touches t p → cellAt mem' p = cellAt m p) ∧
    ∀ p, (∀ t ∈ T, ¬ Task.Writes t p) → cellAt mem' p = cellAt mem p := by
  obtain ⟨C, h1, rfl, h3⟩ := h
  have hi := inv_reach hT hrun (inv_init T mem) h1
  have hlen : outs.length = T.length := by rw [← hi.len, h3, List.length_map]
  refine ⟨hi.rows, hlen, fun i t ht => ?_, hi.rest⟩
  have hlt : i < outs.length := by rw [hlen]; exact (List.getElem?_eq_some_iff.mp ht).1
  have hst : C.st[i]? = some (.finished outs[i]) := by rw [h3, List.getElem?_map, List.getElem?_eq_getElem hlt]; rfl
  obtain ⟨m, e1, e2⟩ := hi.task i t _ ht hst
  rw [List.take_length] at e1
  exact ⟨m, outs[i], e1, List.getElem?_eq_getElem hlt, e2⟩

theorem runSeq_spec : ∀ {T : List (Task n)} {mem mem0 : Mem n}, Independent T → AllRun T mem0 → mem.length = mem0.length →
    (∀ t ∈ T, ∀ p, Task.Touches t p → cellAt mem p = cellAt mem0 p) →
    ∃ mem' outs, runSeq T mem = some (mem', outs) ∧ mem'.length = mem.length ∧ outs.length = T.length ∧
    (∀ (i : Nat) (t : Task n), T[i]? = some t → ∃ m regs, runTask t mem0 [] = some (m, regs) ∧ outs[i]? = some regs ∧
      ∀ p, Task.Touches t p → cellAt mem' p = cellAt m p) ∧
    ∀ p, (∀ t ∈ T, ¬ Task.Writes t p) → cellAt mem' p = cellAt mem p
  | [], mem, mem0, _, _, _, _ => ⟨mem, [], rfl, rfl, rfl, fun i t ht => by simp at ht, fun p _ => rfl⟩
  | t :: T, mem, mem0, hT, hrun, hl, ha => by
    obtain ⟨⟨m, regs⟩, hr⟩ := hrun t List.mem_cons_self
    obtain ⟨m1, e1, e2⟩ := runTask_frame hr hl (ha t List.mem_cons_self)
    have hT' : Independent T := fun i j a b hij h1 h2 => hT (i + 1) (j + 1) a b (by omega) h1 h2
    have hind : ∀ u ∈ T, ∀ p, Task.Touches u p → ¬ Task.Writes t p := by
      intro u hu p hp hw
      obtain ⟨j, hj⟩ := List.getElem?_of_mem hu
      exact hT 0 (j + 1) t u (by omega) rfl hj p hw hp
    obtain ⟨mem', outs, f1, f2, f3, f4, f5⟩ := runSeq_spec (T := T) (mem := m1) (mem0 := mem0) hT'
      (fun u hu => hrun u (List.mem_cons_of_mem _ hu)) (by rw [runTask_length e1, hl])
      fun u hu p hp => by rw [runTask_unwritten e1 _ (hind u hu p hp)]; exact ha u (List.mem_cons_of_mem _ hu) p hp
    refine ⟨mem', regs :: outs, by simp only [runSeq, e1, f1, Option.map_some], by rw [f2, runTask_length e1], by simp [f3], ?_, ?_⟩
    · intro i u hu
      cases i with
      | zero =>
        simp only [List.getElem?_cons_zero, Option.some.injEq] at hu
        subst hu
        refine ⟨m, regs, hr, rfl, fun p hp => ?_⟩
        rw [f5 p (fun u hu hw => by
          obtain ⟨j, hj⟩ := List.getElem?_of_mem hu
          exact hT (j + 1) 0 u t (by omega) hj rfl p hw hp)]
        exact e2 p hp
      | succ i => exact f4 i u hu
    · intro p hp
      rw [f5 p fun u hu => hp u (List.mem_cons_of_mem _ hu), runTask_unwritten e1 _ (hp t List.mem_cons_self)]

/-- Every complete run gives the sequential result. -/
theorem parRun_eq_seq {T : List (Task n)} {N : Nat} {deny : Policy n} {mem mem' : Mem n} {outs : List (List (RLWE n))} (hT : Independent T)
    (hrun : AllRun T mem) (h : ParRun N deny T mem mem' outs) : runSeq T mem = some (mem', outs) := by
  obtain ⟨a1, a2, a3, a4⟩ := parRun_spec hT hrun h
  obtain ⟨mem'', outs', b0, b1, b2, b3, b4⟩ := runSeq_spec hT hrun rfl fun _ _ _ _ => rfl
  have hm : mem' = mem'' := by
    refine mem_ext (by rw [a1, b1]) fun p => ?_
    by_cases hw : ∃ t ∈ T, Task.Writes t p
    · obtain ⟨t, ht, s, hs, hp⟩ := hw
      obtain ⟨i, hi⟩ := List.getElem?_of_mem ht
      obtain ⟨m, regs, c1, c2, c3⟩ := a3 i t hi
      obtain ⟨m', regs', d1, d2, d3⟩ := b3 i t hi
      rw [c1] at d1; injection d1 with d1; injection d1 with d1 _
      rw [c3 p ⟨s, hs, hp.touches⟩, d3 p ⟨s, hs, hp.touches⟩, d1]
    · have hw : ∀ t ∈ T, ¬ Task.Writes t p := fun t ht h => hw ⟨t, ht, h⟩
      rw [a4 p hw, b4 p hw]
  have ho : outs = outs' := by
    apply List.ext_getElem?
    intro i
    by_cases hi : i < T.length
    · obtain ⟨m, regs, c1, c2, c3⟩ := a3 i T[i] (List.getElem?_eq_getElem hi)
      obtain ⟨m', regs', d1, d2, d3⟩ := b3 i T[i] (List.getElem?_eq_getElem hi)
      rw [c1] at d1; injection d1 with d1; injection d1 with _ d1
      rw [c2, d2, d1]
    · rw [List.getElem?_eq_none (by omega), List.getElem?_eq_none (by omega)]
  rw [b0, hm, ho]

/-! ### Mutual exclusion, progress, termination -/

theorem locks_not_wr_mem {s : Stmt n} {tid r : Nat} (h : Lock.wr r ∈ s.locks tid) : ∃ p f, s = .write p f ∧ p.1 = r := by
  cases s with
  | read p b => cases b <;> simp [Stmt.locks] at h
  | len r => simp [Stmt.locks] at h
  | fft => simp [Stmt.locks] at h
  | write p f => simp [Stmt.locks] at h; exact ⟨p, f, rfl, h.symm⟩

theorem mx_last {s : Stmt n} {tid t h : Nat} (hm : Lock.mx t ∈ (s.locks tid).take h) (hh : h ≤ (s.locks tid).length) :
    h = (s.locks tid).length := by
  cases s with
  | read p b =>
    cases b
    · simp only [Stmt.locks] at hm hh
      have := List.mem_of_mem_take hm
      simp at this
    · simp only [Stmt.locks, List.length_cons, List.length_nil] at hm hh ⊢
      rcases h with _ | _ | h
      · simp at hm
      · simp at hm
      · omega
  | len r => simp only [Stmt.locks] at hm; have := List.mem_of_mem_take hm; simp at this
  | fft =>
    simp only [Stmt.locks, List.length_cons, List.length_nil] at hm hh ⊢
    rcases h with _ | h
    · simp at hm
    · omega
  | write p f => simp only [Stmt.locks] at hm; have := List.mem_of_mem_take hm; simp at this

theorem second_lock {s : Stmt n} {tid h : Nat} {l : Lock} (hl : (s.locks tid)[h]? = some l) (h0 : h ≠ 0) : l = .mx tid := by
  cases s with
  | read p b =>
    cases b
    · simp only [Stmt.locks] at hl
      have := (List.getElem?_eq_some_iff.mp hl).1
      simp at this; omega
    · simp only [Stmt.locks] at hl
      rcases h with _ | _ | h
      · exact absurd rfl h0
      · simp at hl; exact hl.symm
      · simp at hl
  | len r => simp only [Stmt.locks] at hl; have := (List.getElem?_eq_some_iff.mp hl).1; simp at this; omega
  | fft => simp only [Stmt.locks] at hl; have := (List.getElem?_eq_some_iff.mp hl).1; simp at this; omega
  | write p f => simp only [Stmt.locks] at hl; have := (List.getElem?_eq_some_iff.mp hl).1; simp at this; omega

theorem locks_pos (s : Stmt n) (tid : Nat) : 0 < (s.locks tid).length := by
  cases s with
  | read p b => cases b <;> simp [Stmt.locks]
  | _ => simp [Stmt.locks]

theorem progress {T : List (Task n)} {N : Nat} {deny : Policy n} {mem0 : Mem n} (hN : 0 < N) (hdeny : deny.Fair) (hrun : AllRun T mem0)
    {C : Conf n} (hi : Inv T mem0 C) (hnt : ¬ C.Terminal) : ∃ C', Step T N deny C C' := by
  have htask : ∀ (i : Nat) (st : TState n), C.st[i]? = some st → ∃ t, T[i]? = some t := fun i st h => by
    have : i < T.length := by rw [← hi.len]; exact (List.getElem?_eq_some_iff.mp h).1
    exact ⟨T[i], List.getElem?_eq_getElem this⟩
  by_cases h1 : ∃ (i : Nat) (t : Task n) (tid d h : Nat) (regs : List (RLWE n)) (s : Stmt n), T[i]? = some t ∧ C.st[i]? = some (.running tid d h regs) ∧ t[d]? = some s ∧ h = (s.locks tid).length
  · obtain ⟨i, t, tid, d, h, regs, s, ht, hr, hs, hh⟩ := h1
    obtain ⟨h1, h2, h3, h4⟩ := hi.task i t _ ht hr
    obtain ⟨r, hrt⟩ := hrun t (List.mem_of_getElem? ht)
    obtain ⟨mem', regs', e1, e2⟩ := h1.exec hi.rows hrt hs
    exact ⟨_, .exec i ht hr hs hh e1⟩
  have nofull : ∀ (i : Nat) (t : Task n) (tid d h : Nat) (regs : List (RLWE n)) (s : Stmt n), T[i]? = some t → C.st[i]? = some (.running tid d h regs) → t[d]? = some s →
      h < (s.locks tid).length := fun i t tid d h regs s ht hr hs => by
    obtain ⟨_, _, _, h4⟩ := hi.task i t _ ht hr
    have := h4 s hs
    rcases Nat.lt_or_ge h (s.locks tid).length with h5 | h5
    · exact h5
    · exact absurd ⟨i, t, tid, d, h, regs, s, ht, hr, hs, by omega⟩ h1
  have nomx : ∀ i t, ¬ Holds T C i (.mx t) := by
    rintro i t0 ⟨t, tid, d, h, regs, s, ht, hr, hs, hm⟩
    have := nofull i t tid d h regs s ht hr hs
    have h5 := mx_last hm this.le
    omega
  by_cases h2 : ∃ (i : Nat) (t : Task n) (tid d h : Nat) (regs : List (RLWE n)) (s : Stmt n), T[i]? = some t ∧ C.st[i]? = some (.running tid d h regs) ∧ t[d]? = some s ∧ h ≠ 0
  · obtain ⟨i, t, tid, d, h, regs, s, ht, hr, hs, hh⟩ := h2
    have hlt := nofull i t tid d h regs s ht hr hs
    have hl := List.getElem?_eq_getElem hlt
    have hmx := second_lock hl hh
    rw [hmx] at hl
    exact ⟨_, .acquire i ht hr hs hl (fun j => nomx j tid) (by intro r e; cases e)⟩
  have nolock : ∀ i l, ¬ Holds T C i l := by
    rintro i l ⟨t, tid, d, h, regs, s, ht, hr, hs, hm⟩
    have : h = 0 := by
      by_contra h0
      exact h2 ⟨i, t, tid, d, h, regs, s, ht, hr, hs, h0⟩
    subst this
    simp at hm
  have havail : ∀ l, Avail T C l := by
    intro l
    cases l with
    | rd r => exact fun i => nolock i _
    | wr r => exact fun i => ⟨nolock i _, nolock i _⟩
    | mx t => exact fun i => nolock i _
  by_cases h3 : ∃ i r, WaitsWr T C i r
  · obtain ⟨i, r, t, tid, d, regs, p, f, ht, hr, hs, hp⟩ := h3
    exact ⟨_, .acquire i ht hr hs (l := .wr p.1) rfl (havail _) (by intro r e; cases e)⟩
  have nodeny : ∀ i r, ¬ deny T C i r := fun i r h => h3 (by obtain ⟨i', hw⟩ := hdeny T C i r h; exact ⟨i', r, hw⟩)
  by_cases h4 : ∃ (i tid d h : Nat) (regs : List (RLWE n)), C.st[i]? = some (.running tid d h regs)
  · obtain ⟨i, tid, d, h, regs, hr⟩ := h4
    obtain ⟨t, ht⟩ := htask i _ hr
    obtain ⟨_, hd, _, _⟩ := hi.task i t _ ht hr
    by_cases hdl : d = t.length
    · exact ⟨_, .finish i ht hr hdl⟩
    · have hs := List.getElem?_eq_getElem (by omega : d < t.length)
      have hlt := nofull i t tid d h regs _ ht hr hs
      exact ⟨_, .acquire i ht hr hs (List.getElem?_eq_getElem hlt) (havail _) (fun r _ => nodeny i r)⟩
  · unfold Conf.Terminal at hnt
    push Not at hnt
    obtain ⟨st, hst, hne⟩ := hnt
    obtain ⟨i, hi'⟩ := List.getElem?_of_mem hst
    cases st with
    | pending =>
      refine ⟨_, .start i 0 hi' hN ?_⟩
      rintro j ⟨d, h, regs, hj⟩
      exact h4 ⟨j, 0, d, h, regs, hj⟩
    | running tid d h regs => exact absurd ⟨i, tid, d, h, regs, hi'⟩ h4
    | finished regs => exact absurd rfl (hne regs)

/-- Work left in a task. -/
def TState.weight (t : Task n) : TState n → Nat
  | .pending => 3 * t.length + 2
  | .running _ d h _ => 3 * (t.length - d) + 1 - h
  | .finished _ => 0

/-- Work left. -/
def Conf.weight (T : List (Task n)) (C : Conf n) : Nat := (List.zipWith (fun t st => TState.weight t st) T C.st).sum

theorem zipWith_set_sum {α β : Type} (f : α → β → Nat) : ∀ (l : List α) (m : List β) (i : Nat) (a : α) (b b' : β), l[i]? = some a → m[i]? = some b →
    f a b' < f a b → (List.zipWith f l (m.set i b')).sum < (List.zipWith f l m).sum
  | [], _, _, _, _, _, h, _, _ => by simp at h
  | _ :: _, [], _, _, _, _, _, h, _ => by simp at h
  | x :: l, y :: m, 0, a, b, b', h1, h2, h => by
    simp only [List.getElem?_cons_zero, Option.some.injEq] at h1 h2
    subst h1; subst h2
    simp only [List.set_cons_zero, List.zipWith_cons_cons, List.sum_cons]
    omega
  | x :: l, y :: m, i + 1, a, b, b', h1, h2, h => by
    have := zipWith_set_sum f l m i a b b' h1 h2 h
    simp only [List.set_cons_succ, List.zipWith_cons_cons, List.sum_cons]
    omega

theorem locks_le_two (s : Stmt n) (tid : Nat) : (s.locks tid).length ≤ 2 := by
  cases s with
  | read p b => cases b <;> simp [Stmt.locks]
  | _ => simp [Stmt.locks]

theorem step_decreases {T : List (Task n)} {N : Nat} {deny : Policy n} {mem0 : Mem n} {C C' : Conf n} (hi : Inv T mem0 C)
    (h : Step T N deny C C') : C'.weight T < C.weight T := by
  unfold Conf.weight
  cases h with
  | start i tid hp ht hidle =>
    have hlt : i < T.length := by rw [← hi.len]; exact (List.getElem?_eq_some_iff.mp hp).1
    refine zipWith_set_sum _ _ _ i T[i] _ _ (List.getElem?_eq_getElem hlt) hp ?_
    simp only [TState.weight]; omega
  | @acquire i t tid d h regs s l ht hr hs hl ha hd =>
    refine zipWith_set_sum _ _ _ i t _ _ ht hr ?_
    have h1 := (List.getElem?_eq_some_iff.mp hs).1
    have h2 := (List.getElem?_eq_some_iff.mp hl).1
    have h3 := locks_le_two s tid
    simp only [TState.weight]; omega
  | @exec i t tid d h regs regs' s mem' ht hr hs hl he =>
    refine zipWith_set_sum _ _ _ i t _ _ ht hr ?_
    have h1 := (List.getElem?_eq_some_iff.mp hs).1
    have h3 := locks_le_two s tid
    simp only [TState.weight]; omega
  | @finish i t tid d h regs ht hr hd =>
    refine zipWith_set_sum _ _ _ i t _ _ ht hr ?_
    obtain ⟨_, _, h3, _⟩ := hi.task i t _ ht hr
    have := h3 hd
    simp only [TState.weight]; omega

/-- From every reachable configuration some schedule completes. -/
theorem parRun_exists {T : List (Task n)} {N : Nat} {deny : Policy n} {mem : Mem n} (hN : 0 < N) (hdeny : deny.Fair) (hT : Independent T)
    (hrun : AllRun T mem) : ∃ mem' outs, ParRun N deny T mem mem' outs := by
  have key : ∀ (w : Nat) (C : Conf n), C.weight T ≤ w → Inv T mem C → ∃ C', Reach T N deny C C' ∧ C'.Terminal := by
    intro w
    induction w with
    | zero =>
      intro C hw hi
      by_contra hno
      have hnt : ¬ C.Terminal := fun h => hno ⟨C, .refl C, h⟩
      obtain ⟨C', hs⟩ := progress hN hdeny hrun hi hnt
      have := step_decreases hi hs
      omega
    | succ w ih =>
      intro C hw hi
      by_cases ht : C.Terminal
      · exact ⟨C, .refl C, ht⟩
      · obtain ⟨C', hs⟩ := progress hN hdeny hrun hi ht
        have := step_decreases hi hs
        obtain ⟨C'', h1, h2⟩ := ih C' (by omega) (inv_step hT hrun hi hs)
        refine ⟨C'', ?_, h2⟩
        clear h2 ih
        induction h1 with
        | refl => exact .step (.refl C) hs
        | step _ hs' ih => exact .step ih hs'
  obtain ⟨C, h1, h2⟩ := key _ _ le_rfl (inv_init T mem)
  have : ∃ outs : List (List (RLWE n)), C.st = outs.map .finished := by
    unfold Conf.Terminal at h2
    revert h2
    generalize C.st = l
    induction l with
    | nil => exact fun _ => ⟨[], rfl⟩
    | cons x l ih =>
      intro h
      obtain ⟨regs, hr⟩ := h x List.mem_cons_self
      obtain ⟨outs, ho⟩ := ih fun y hy => h y (List.mem_cons_of_mem _ hy)
      exact ⟨regs :: outs, by rw [hr, ho]; rfl⟩
  obtain ⟨outs, ho⟩ := this
  exact ⟨C.mem, outs, C, h1, rfl, ho⟩

end Panacea
