import Verif.Spec.Poison
import Verif.Lemmas.SchedTasks

/-!
# Invariants of runs with panics
-/

namespace Panacea
variable {n : Nat}

theorem SameShape.rfl' (m : Mem n) : SameShape m m := rfl

theorem SameShape.length {m m' : Mem n} (h : SameShape m m') : m.length = m'.length := by
  have := congrArg List.length h
  simpa using this

theorem cellAt_isSome_shape {m : Mem n} {p : Nat × Nat} : (cellAt m p).isSome ↔ ∃ k, (m.map List.length)[p.1]? = some k ∧ p.2 < k := by
  unfold cellAt
  rw [List.getElem?_map]
  rcases m[p.1]? with _ | row
  · simp
  · simp

theorem SameShape.cell {m m' : Mem n} (h : SameShape m m') {p : Nat × Nat} (hc : (cellAt m p).isSome) : (cellAt m' p).isSome := by
  rw [cellAt_isSome_shape] at *
  rwa [← h]

theorem setCell_sameShape (m : Mem n) (p : Nat × Nat) (v : RLWE n) : SameShape (setCell m p v) m := by
  unfold SameShape setCell
  refine List.ext_getElem? fun i => ?_
  rw [List.getElem?_map, List.getElem?_map, List.getElem?_modify]
  rcases m[i]? with _ | row
  · rfl
  · by_cases h : p.1 = i
    · simp [h]
    · simp [h]

theorem exec_shape {s : Stmt n} {m m1 : Mem n} {regs regs1 : List (RLWE n)} (h : s.exec m regs = some (m1, regs1)) : SameShape m1 m := by
  cases s with
  | read p b => simp only [Stmt.exec, Option.map_eq_some_iff] at h; obtain ⟨_, _, h⟩ := h; cases h; rfl
  | len r => simp only [Stmt.exec, Option.map_eq_some_iff] at h; obtain ⟨_, _, h⟩ := h; cases h; rfl
  | fft => simp only [Stmt.exec, Option.some.injEq] at h; cases h; rfl
  | write p f =>
    simp only [Stmt.exec] at h
    split at h
    · cases h; exact setCell_sameShape _ _ _
    · cases h

/-- What is known of a task. -/
def PTInv (mem : Mem n) (t : Task n) : TState n → Prop
  | .running tid d h regs => d ≤ t.length ∧ (d = t.length → h = 0) ∧ (∀ s, t[d]? = some s → h ≤ (s.locks tid).length) ∧
      (∀ e p b, e < d → t[e]? = some (.read p b) → (cellAt mem p).isSome) ∧
      (∀ p f, t[d]? = some (.write p f) → h ≠ 0 → p.1 < mem.length ∧ ∃ v, f regs = some v) ∧
      (∀ r, t[d]? = some (.len r) → h ≠ 0 → r < mem.length)
  | _ => True

structure PInv (T : List (Task n)) (mem0 : Mem n) (P : PConf n) : Prop where
  len : P.conf.st.length = T.length
  shape : SameShape P.conf.mem mem0
  task : ∀ (i : Nat) (t : Task n) (st : TState n), T[i]? = some t → P.conf.st[i]? = some st → PTInv P.conf.mem t st
  bufs : P.dead = [] → P.bufs = []

theorem pinv_init (T : List (Task n)) (mem0 : Mem n) (rows : List Nat) : PInv T mem0 (PConf.init T mem0 rows) where
  len := by simp [PConf.init, Conf.init]
  shape := rfl
  task := by
    intro i t st ht hst
    simp only [PConf.init, Conf.init, List.getElem?_map, ht, Option.map_some, Option.some.injEq] at hst
    subst hst
    trivial
  bufs := fun _ => rfl

theorem ptinv_shape {m m' : Mem n} (h : SameShape m m') {t : Task n} {st : TState n} (hi : PTInv m t st) : PTInv m' t st := by
  cases st with
  | pending => trivial
  | finished regs => trivial
  | running tid d k regs =>
    obtain ⟨h1, h2, h3, h4, h5, h6⟩ := hi
    exact ⟨h1, h2, h3, fun e p b he ht => h.cell (h4 e p b he ht), fun p f hp hk => by rw [← h.length]; exact h5 p f hp hk,
      fun r hr hk => by rw [← h.length]; exact h6 r hr hk⟩

/-- Updating one task. -/
theorem ptask_set {T : List (Task n)} {st : List (TState n)} {m m' : Mem n} (hm : SameShape m m')
    (h : ∀ (i : Nat) (t : Task n) (x : TState n), T[i]? = some t → st[i]? = some x → PTInv m t x) {i : Nat} {x' : TState n}
    (hx : ∀ t, T[i]? = some t → PTInv m' t x') (j : Nat) (t : Task n) (x : TState n) (ht : T[j]? = some t)
    (hst : (st.set i x')[j]? = some x) : PTInv m' t x := by
  rw [List.getElem?_set] at hst
  split at hst
  · rename_i he
    subst he
    split at hst
    · cases hst; exact hx t ht
    · cases hst
  · exact ptinv_shape hm (h j t x ht hst)

theorem pinv_step {T : List (Task n)} {N : Nat} {deny : Policy n} {bad : Nat → Nat → Fault} {mem0 : Mem n} {P P' : PConf n}
    (hi : PInv T mem0 P) (hs : PStep T N deny bad P P') : PInv T mem0 P' := by
  have kill : ∀ i held regs, PInv T mem0 (P.kill i held regs) := fun i held regs =>
    ⟨by simp [PConf.kill, hi.len], hi.shape, ptask_set rfl hi.task fun _ _ => trivial, fun h => by cases h⟩
  cases hs with
  | start i tid hp ht hidle =>
    exact ⟨by simp [hi.len], hi.shape, ptask_set rfl hi.task fun t _ => ⟨by omega, fun _ => rfl, fun _ _ => by omega,
      fun e p b he => by omega, fun p f _ h => absurd rfl h, fun r _ h => absurd rfl h⟩, hi.bufs⟩
  | panicBefore i ht hr hs hpre => exact kill _ _ _
  | poisoned i ht hr hs hpre hl ha hd hbad => exact kill _ _ _
  | panic i ht hr hs hl hbad => exact kill _ _ _
  | @acquire i t tid d h regs s l ht hr hs hpre hl ha hd hok =>
    refine ⟨by simp [hi.len], hi.shape, ptask_set rfl hi.task fun t' ht' => ?_, hi.bufs⟩
    obtain rfl := Option.some.inj (ht.symm.trans ht')
    obtain ⟨h1, h2, h3, h4, h5, h6⟩ := hi.task i t _ ht hr
    have hlt := (List.getElem?_eq_some_iff.mp hl).1
    have hdl := (List.getElem?_eq_some_iff.mp hs).1
    refine ⟨h1, fun he => by omega, fun s' hs' => ?_, h4, fun p f hp _ => ?_, fun r hr' _ => ?_⟩
    · obtain rfl := Option.some.inj (hs.symm.trans hs')
      omega
    · by_cases h0 : h = 0
      · obtain rfl := Option.some.inj (hs.symm.trans hp)
        have := hpre h0
        exact ⟨this.1, this.2.2⟩
      · exact h5 p f hp h0
    · by_cases h0 : h = 0
      · obtain rfl := Option.some.inj (hs.symm.trans hr')
        exact (hpre h0).1
      · exact h6 r hr' h0
  | @exec i t tid d h regs regs' s mem' ht hr hs hl hok he =>
    have hsh := exec_shape he
    refine ⟨by simp [hi.len], Eq.trans hsh hi.shape, ptask_set (Eq.symm hsh) hi.task fun t' ht' => ?_, hi.bufs⟩
    obtain rfl := Option.some.inj (ht.symm.trans ht')
    obtain ⟨h1, h2, h3, h4, h5, h6⟩ := hi.task i t _ ht hr
    have hdl := (List.getElem?_eq_some_iff.mp hs).1
    refine ⟨by omega, fun _ => rfl, fun _ _ => by omega, fun e p b hed hep => ?_, fun p f _ h => absurd rfl h, fun r _ h => absurd rfl h⟩
    refine SameShape.cell (Eq.symm hsh) ?_
    by_cases hed' : e = d
    · subst hed'
      obtain rfl := Option.some.inj (hs.symm.trans hep)
      simp only [Stmt.exec, Option.map_eq_some_iff] at he
      obtain ⟨v, hv, _⟩ := he
      rw [hv]; rfl
    · exact h4 e p b (by omega) hep
  | finish i ht hr hd =>
    exact ⟨by simp [hi.len], hi.shape, ptask_set rfl hi.task fun _ _ => trivial, hi.bufs⟩

theorem pinv_reach {T : List (Task n)} {N : Nat} {deny : Policy n} {bad : Nat → Nat → Fault} {mem0 : Mem n} {P P' : PConf n}
    (hi : PInv T mem0 P) (hr : PReach T N deny bad P P') : PInv T mem0 P' := by
  induction hr with
  | refl => exact hi
  | step _ hs ih => exact pinv_step ih hs

/-- Guards other than a write guard poison no row. -/
theorem poisonsRow_nil {s : Stmt n} {tid h : Nat} (hw : ∀ p f, s ≠ .write p f) :
    ((s.locks tid).take h).filterMap Lock.poisonsRow = [] := by
  rw [List.filterMap_eq_nil_iff]
  intro l hl
  have := List.mem_of_mem_take hl
  cases s with
  | read p b => cases b <;> simp only [Stmt.locks, List.mem_cons, List.not_mem_nil, or_false] at this <;> rcases this with rfl | rfl <;> rfl
  | len r => simp only [Stmt.locks, List.mem_cons, List.not_mem_nil, or_false] at this; subst this; rfl
  | fft => simp only [Stmt.locks, List.mem_cons, List.not_mem_nil, or_false] at this; subst this; rfl
  | write p f => exact absurd rfl (hw p f)

theorem rows_step {T : List (Task n)} {N : Nat} {deny : Policy n} {bad : Nat → Nat → Fault} {mem0 : Mem n} (hT : ∀ t ∈ T, ReadFirst t)
    {P P' : PConf n} (hi : PInv T mem0 P) (hs : PStep T N deny bad P P') : P'.rows = P.rows := by
  cases hs with
  | start i tid hp ht hidle => rfl
  | panicBefore i ht hr hs hpre => rfl
  | acquire i ht hr hs hpre hl ha hd hok => rfl
  | exec i ht hr hs hl hok he => rfl
  | finish i ht hr hd => rfl
  | @poisoned i t tid d h regs s l ht hr hs hpre hl ha hd hbad =>
    show _ ++ _ = _
    by_cases hw : ∀ p f, s ≠ .write p f
    · rw [poisonsRow_nil hw]; rfl
    · push Not at hw
      obtain ⟨p, f, rfl⟩ := hw
      have : h = 0 := by
        have := (List.getElem?_eq_some_iff.mp hl).1
        simp [Stmt.locks] at this
        exact this
      subst this
      rfl
  | @panic i t tid d h regs s ht hr hs hl hbad =>
    show _ ++ _ = _
    by_cases hw : ∀ p f, s ≠ .write p f
    · have := poisonsRow_nil (s := s) (tid := tid) (h := (s.locks tid).length) hw
      rw [List.take_length] at this
      rw [this]; rfl
    · push Not at hw
      obtain ⟨p, f, rfl⟩ := hw
      exfalso
      obtain ⟨_, _, _, h4, _⟩ := hi.task i t _ ht hr
      obtain ⟨e, b, he, hte⟩ := hT t (List.mem_of_getElem? ht) d p f hs
      have := h4 e p b he hte
      simp only [Stmt.Fails] at hbad
      rw [hbad] at this
      cases this

/-- Work left never grows. -/
theorem pstep_decreases {T : List (Task n)} {N : Nat} {deny : Policy n} {bad : Nat → Nat → Fault} {mem0 : Mem n} {P P' : PConf n}
    (hi : PInv T mem0 P) (hs : PStep T N deny bad P P') : P'.conf.weight T < P.conf.weight T := by
  have hdone : ∀ (i : Nat) (t : Task n) (tid d h : Nat) (regs : List (RLWE n)), T[i]? = some t → P.conf.st[i]? = some (.running tid d h regs) →
      0 < TState.weight t (.running tid d h regs) := fun i t tid d h regs ht hr => by
    obtain ⟨h1, h2, h3, -⟩ := hi.task i t _ ht hr
    simp only [TState.weight]
    by_cases hd : d = t.length
    · have := h2 hd; omega
    · have h5 := h3 _ (List.getElem?_eq_getElem (by omega : d < t.length))
      have := locks_le_two (t[d]'(by omega)) tid
      omega
  have kill : ∀ (i : Nat) (held : List Lock) (t : Task n) (tid d h : Nat) (regs : List (RLWE n)), T[i]? = some t →
      P.conf.st[i]? = some (.running tid d h regs) → (P.kill i held regs).conf.weight T < P.conf.weight T := fun i held t tid d h regs ht hr =>
    zipWith_set_sum _ T P.conf.st i t _ _ ht hr (hdone i t tid d h regs ht hr)
  cases hs with
  | start i tid hp ht hidle =>
    have hl : i < T.length := by rw [← hi.len]; exact (List.getElem?_eq_some_iff.mp hp).1
    refine zipWith_set_sum _ T P.conf.st i T[i] _ _ (List.getElem?_eq_getElem hl) hp ?_
    simp only [TState.weight]; omega
  | panicBefore i ht hr hs hpre => exact kill _ _ _ _ _ _ _ ht hr
  | poisoned i ht hr hs hpre hl ha hd hbad => exact kill _ _ _ _ _ _ _ ht hr
  | panic i ht hr hs hl hbad => exact kill _ _ _ _ _ _ _ ht hr
  | @acquire i t tid d h regs s l ht hr hs hpre hl ha hd hok =>
    refine zipWith_set_sum _ T P.conf.st i t _ _ ht hr ?_
    have hlt := (List.getElem?_eq_some_iff.mp hl).1
    have hdl := (List.getElem?_eq_some_iff.mp hs).1
    have := locks_le_two s tid
    simp only [TState.weight]; omega
  | @exec i t tid d h regs regs' s mem' ht hr hs hl hok he =>
    refine zipWith_set_sum _ T P.conf.st i t _ _ ht hr ?_
    have hdl := (List.getElem?_eq_some_iff.mp hs).1
    have := locks_le_two s tid
    simp only [TState.weight]; omega
  | @finish i t tid d h regs ht hr hd => exact zipWith_set_sum _ T P.conf.st i t _ _ ht hr (hdone i t tid d h regs ht hr)

/-- A statement with all its guards takes effect or panics. -/
theorem exec_or_fail {s : Stmt n} {bad : Fault} {mem : Mem n} {regs : List (RLWE n)} (hlen : ∀ r, s = .len r → r < mem.length)
    (hw : ∀ p f, s = .write p f → ∃ v, f regs = some v) (h : ¬ s.Fails bad mem regs) : ∃ r, s.exec mem regs = some r := by
  cases s with
  | read p b =>
    simp only [Stmt.Fails, not_or] at h
    rcases hc : cellAt mem p with _ | c
    · exact absurd hc h.1
    · exact ⟨(mem, regs ++ [c]), by simp [Stmt.exec, hc]⟩
  | len r =>
    exact ⟨(mem, regs), by simp [Stmt.exec, List.getElem?_eq_getElem (hlen r rfl)]⟩
  | fft => exact ⟨_, rfl⟩
  | write p f =>
    simp only [Stmt.Fails] at h
    obtain ⟨v, hv⟩ := hw p f rfl
    rcases hc : cellAt mem p with _ | c
    · exact absurd hc h
    · exact ⟨(setCell mem p v, regs), by simp [Stmt.exec, hc, hv]⟩

/-- Some step is possible, or all tasks have ended. -/
theorem pprogress {T : List (Task n)} {N : Nat} {deny : Policy n} {bad : Nat → Nat → Fault} {mem0 : Mem n} (hN : 0 < N) (hdeny : deny.Fair)
    {P : PConf n} (hi : PInv T mem0 P) (hnt : ¬ P.Ended) : ∃ P', PStep T N deny bad P P' := by
  classical
  have htask : ∀ (i : Nat) (st : TState n), P.conf.st[i]? = some st → ∃ t, T[i]? = some t := fun i st h => by
    have : i < T.length := by rw [← hi.len]; exact (List.getElem?_eq_some_iff.mp h).1
    exact ⟨T[i], List.getElem?_eq_getElem this⟩
  -- the next guard, granted or poisoned
  have take : ∀ (i : Nat) (t : Task n) (tid d h : Nat) (regs : List (RLWE n)) (s : Stmt n) (l : Lock), T[i]? = some t →
      P.conf.st[i]? = some (.running tid d h regs) → t[d]? = some s → (s.locks tid)[h]? = some l → Avail T P.conf l →
      (∀ r, l = .rd r → ¬ deny T P.conf i r) → ∃ P', PStep T N deny bad P P' := fun i t tid d h regs s l ht hr hs hl ha hd => by
    by_cases hpre : h = 0 → s.Pre (bad i d) P.conf.mem regs
    · by_cases hp : P.Poisoned l
      · exact ⟨_, .poisoned i ht hr hs hpre hl ha hd hp⟩
      · exact ⟨_, .acquire i ht hr hs hpre hl ha hd hp⟩
    · push Not at hpre
      obtain ⟨rfl, hpre⟩ := hpre
      exact ⟨_, .panicBefore i ht hr hs hpre⟩
  by_cases h1 : ∃ (i : Nat) (t : Task n) (tid d h : Nat) (regs : List (RLWE n)) (s : Stmt n), T[i]? = some t ∧ P.conf.st[i]? = some (.running tid d h regs) ∧ t[d]? = some s ∧ h = (s.locks tid).length
  · obtain ⟨i, t, tid, d, h, regs, s, ht, hr, hs, hh⟩ := h1
    obtain ⟨_, _, _, _, h5, h6⟩ := hi.task i t _ ht hr
    have hpos : h ≠ 0 := by have := locks_pos s tid; omega
    by_cases hf : s.Fails (bad i d) P.conf.mem regs
    · exact ⟨_, .panic i ht hr hs hh hf⟩
    · obtain ⟨⟨m, r⟩, he⟩ := exec_or_fail (fun r e => h6 r (by rw [hs, e]) hpos) (fun p f e => (h5 p f (by rw [hs, e]) hpos).2) hf
      exact ⟨_, .exec i ht hr hs hh hf he⟩
  have nofull : ∀ (i : Nat) (t : Task n) (tid d h : Nat) (regs : List (RLWE n)) (s : Stmt n), T[i]? = some t → P.conf.st[i]? = some (.running tid d h regs) → t[d]? = some s →
      h < (s.locks tid).length := fun i t tid d h regs s ht hr hs => by
    obtain ⟨_, _, h4, _⟩ := hi.task i t _ ht hr
    have := h4 s hs
    rcases Nat.lt_or_ge h (s.locks tid).length with h5 | h5
    · exact h5
    · exact absurd ⟨i, t, tid, d, h, regs, s, ht, hr, hs, by omega⟩ h1
  have nomx : ∀ i t, ¬ Holds T P.conf i (.mx t) := by
    rintro i t0 ⟨t, tid, d, h, regs, s, ht, hr, hs, hm⟩
    have := nofull i t tid d h regs s ht hr hs
    have h5 := mx_last hm this.le
    omega
  by_cases h2 : ∃ (i : Nat) (t : Task n) (tid d h : Nat) (regs : List (RLWE n)) (s : Stmt n), T[i]? = some t ∧ P.conf.st[i]? = some (.running tid d h regs) ∧ t[d]? = some s ∧ h ≠ 0
  · obtain ⟨i, t, tid, d, h, regs, s, ht, hr, hs, hh⟩ := h2
    have hlt := nofull i t tid d h regs s ht hr hs
    have hl := List.getElem?_eq_getElem hlt
    have hmx := second_lock hl hh
    rw [hmx] at hl
    exact take i t tid d h regs s _ ht hr hs hl (fun j => nomx j tid) (by intro r e; cases e)
  have nolock : ∀ i l, ¬ Holds T P.conf i l := by
    rintro i l ⟨t, tid, d, h, regs, s, ht, hr, hs, hm⟩
    have : h = 0 := by
      by_contra h0
      exact h2 ⟨i, t, tid, d, h, regs, s, ht, hr, hs, h0⟩
    subst this
    simp at hm
  have havail : ∀ l, Avail T P.conf l := by
    intro l
    cases l with
    | rd r => exact fun i => nolock i _
    | wr r => exact fun i => ⟨nolock i _, nolock i _⟩
    | mx t => exact fun i => nolock i _
  by_cases h3 : ∃ i r, WaitsWr T P.conf i r
  · obtain ⟨i, r, t, tid, d, regs, p, f, ht, hr, hs, hp⟩ := h3
    exact take i t tid d 0 regs _ (.wr p.1) ht hr hs rfl (havail _) (by intro r e; cases e)
  have nodeny : ∀ i r, ¬ deny T P.conf i r := fun i r h => h3 (by obtain ⟨i', hw⟩ := hdeny T P.conf i r h; exact ⟨i', r, hw⟩)
  by_cases h4 : ∃ (i tid d h : Nat) (regs : List (RLWE n)), P.conf.st[i]? = some (.running tid d h regs)
  · obtain ⟨i, tid, d, h, regs, hr⟩ := h4
    obtain ⟨t, ht⟩ := htask i _ hr
    obtain ⟨hd, -⟩ := hi.task i t _ ht hr
    by_cases hdl : d = t.length
    · exact ⟨_, .finish i ht hr hdl⟩
    · have hs := List.getElem?_eq_getElem (by omega : d < t.length)
      have hlt := nofull i t tid d h regs _ ht hr hs
      exact take i t tid d h regs _ _ ht hr hs (List.getElem?_eq_getElem hlt) (havail _) (fun r _ => nodeny i r)
  · unfold PConf.Ended Conf.Terminal at hnt
    push Not at hnt
    obtain ⟨st, hst, hne⟩ := hnt
    obtain ⟨i, hi'⟩ := List.getElem?_of_mem hst
    cases st with
    | pending =>
      refine ⟨_, .start i 0 hi' hN ?_⟩
      rintro j ⟨d, h, regs, hj⟩
      exact h4 ⟨j, 0, d, h, regs, hj⟩
    | running tid d h regs => exact absurd ⟨i, tid, d, h, regs, hi'⟩ h4
    | finished regs => exact absurd rfl (hne regs)

/-! ### The tasks of the server read a cell before they store into it -/

theorem readFirst_of_readonly {t : Task n} (h : ∀ p, ¬ Task.Writes t p) : ReadFirst t := fun d p f ht =>
  absurd ⟨_, List.mem_of_getElem? ht, rfl⟩ (h p)

theorem readFirst_append {t u : Task n} (ht : ReadFirst t) (hu : ReadFirst u) : ReadFirst (t ++ u) := by
  intro d p f h
  rw [List.getElem?_append] at h
  split at h
  · obtain ⟨e, b, he, hte⟩ := ht d p f h
    refine ⟨e, b, he, ?_⟩
    rw [List.getElem?_append_left (by omega), hte]
  · obtain ⟨e, b, he, hue⟩ := hu _ p f h
    refine ⟨t.length + e, b, by omega, ?_⟩
    rw [List.getElem?_append_right (by omega), Nat.add_sub_cancel_left, hue]

theorem readFirst_nil : ReadFirst ([] : Task n) := fun d p f h => by simp at h

theorem readFirst_flatMap {α : Type} {F : α → Task n} (h : ∀ a, ReadFirst (F a)) : ∀ l : List α, ReadFirst (l.flatMap F)
  | [] => readFirst_nil
  | a :: l => by rw [List.flatMap_cons]; exact readFirst_append (h a) (readFirst_flatMap h l)

theorem readFirst_rrw (p : Nat × Nat) (f : List (RLWE n) → Option (RLWE n)) : ReadFirst [.read p true, .read p true, .write p f] := by
  intro d p' f' h
  rcases d with _ | _ | _ | d
  · simp at h
  · simp at h
  · simp only [List.getElem?_cons_succ, List.getElem?_cons_zero, Option.some.injEq, Stmt.write.injEq] at h
    obtain ⟨rfl, _⟩ := h
    exact ⟨0, true, by omega, rfl⟩
  · simp at h

/-- Reads first, then stores to cells read. -/
theorem readFirst_stores {t u : Task n} (ht : ∀ p, ¬ Task.Writes t p) (hu : ∀ p f, Stmt.write p f ∈ u → ∃ b, Stmt.read p b ∈ t) :
    ReadFirst (t ++ u) := by
  intro d p f h
  rw [List.getElem?_append] at h
  split at h
  · exact absurd ⟨_, List.mem_of_getElem? h, rfl⟩ (ht p)
  · obtain ⟨b, hb⟩ := hu p f (List.mem_of_getElem? h)
    obtain ⟨e, he⟩ := List.mem_iff_getElem?.mp hb
    have := (List.getElem?_eq_some_iff.mp he).1
    exact ⟨e, b, by omega, by rw [List.getElem?_append_left this, he]⟩

theorem serverPhase_readFirst {T : List (Task n)} (h : ServerPhase T) : ∀ t ∈ T, ReadFirst t := by
  intro t ht
  cases h with
  | levels k =>
    obtain ⟨_, _, rfl⟩ := List.mem_map.mp ht
    exact readFirst_of_readonly levelTask_readonly
  | columns cols =>
    obtain ⟨j, _, rfl⟩ := List.mem_map.mp ht
    exact readFirst_of_readonly (columnTask_readonly j)
  | update fft q xs =>
    obtain ⟨x, _, rfl⟩ := List.mem_map.mp ht
    exact readFirst_rrw _ _
  | rows xs =>
    obtain ⟨x, _, rfl⟩ := List.mem_map.mp ht
    exact readFirst_of_readonly (stTask_readonly _ _ _)
  | tmps k cols =>
    obtain ⟨x, _, rfl⟩ := List.mem_map.mp ht
    exact readFirst_of_readonly (multiTmp_readonly _)
  | multi fft xs =>
    obtain ⟨x, _, rfl⟩ := List.mem_map.mp ht
    refine readFirst_stores (t := [.read (0, x.1) true]) (fun p hp => ?_) fun p f hp => ?_
    · obtain ⟨s, hs, hw⟩ := hp
      simp only [List.mem_cons, List.not_mem_nil, or_false] at hs
      subst hs; exact hw
    · simp only [List.mem_cons, List.not_mem_nil, or_false, Stmt.write.injEq] at hp
      obtain ⟨rfl, _⟩ := hp
      exact ⟨true, by simp⟩
  | updates fft xs =>
    obtain ⟨x, _, rfl⟩ := List.mem_map.mp ht
    unfold updateStTask
    rw [show ∀ (s : Stmt n) l, s :: l = [s] ++ l from fun _ _ => rfl]
    refine readFirst_append (readFirst_of_readonly fun p => ?_) (readFirst_flatMap (fun y => readFirst_rrw _ _) _)
    rintro ⟨s, hs, hw⟩
    simp only [List.mem_cons, List.not_mem_nil, or_false] at hs
    subst hs; exact hw
  | items fft ls flags poss =>
    obtain ⟨ps, _, rfl⟩ := List.mem_map.mp ht
    rcases ps with _ | ⟨first, others⟩
    · exact readFirst_nil
    · unfold itemTask
      refine readFirst_stores (fun p hp => ?_) fun p f hp => ?_
      · obtain ⟨s, hs, hw⟩ := hp
        simp only [List.mem_append, List.mem_map, List.mem_cons, List.mem_flatMap, List.not_mem_nil, or_false] at hs
        rcases hs with (⟨_, _, rfl⟩ | ⟨_, _, rfl | rfl⟩) | rfl | ⟨_, _, rfl | rfl⟩ <;> exact hw
      · obtain ⟨p', hp', he⟩ := List.mem_map.mp hp
        simp only [Stmt.write.injEq] at he
        obtain ⟨rfl, _⟩ := he
        rcases List.mem_cons.mp hp' with rfl | ho
        · exact ⟨false, by simp⟩
        · exact ⟨true, by simp only [List.mem_append, List.mem_cons, List.mem_flatMap]; exact Or.inr (Or.inr ⟨p', ho, Or.inl rfl⟩)⟩

end Panacea
