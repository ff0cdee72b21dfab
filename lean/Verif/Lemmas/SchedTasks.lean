import Verif.Lemmas.Sched
import Verif.Lemmas.Batch
import Verif.Props.OramShape

/-!
# The server's closures as tasks: what each does alone, and what each parallel phase does
-/

namespace Panacea
variable {n : Nat}

/-- A phase of independent tasks has exactly one outcome. -/
theorem phase_iff {T : List (Task n)} {N : Nat} {deny : Policy n} {mem m : Mem n} {outs : List (List (RLWE n))} (hN : 0 < N)
    (hdeny : deny.Fair) (hT : Independent T) (hrun : AllRun T mem) (hs : runSeq T mem = some (m, outs)) (mem' : Mem n)
    (outs' : List (List (RLWE n))) : ParRun N deny T mem mem' outs' ↔ mem' = m ∧ outs' = outs := by
  constructor
  · intro h
    have := parRun_eq_seq hT hrun h
    rw [hs] at this
    injection this with this
    injection this with h1 h2
    exact ⟨h1.symm, h2.symm⟩
  · rintro ⟨rfl, rfl⟩
    obtain ⟨m1, o1, h1⟩ := parRun_exists hN hdeny hT hrun
    have := parRun_eq_seq hT hrun h1
    rw [hs] at this
    injection this with this
    injection this with h2 h3
    rw [h2, h3]; exact h1

theorem independent_of_readonly {T : List (Task n)} (h : ∀ t ∈ T, ∀ p, ¬ Task.Writes t p) : Independent T :=
  fun _ _ t _ _ ht _ p hw => absurd hw (h t (List.mem_of_getElem? ht) p)

theorem runSeq_readonly {mem : Mem n} (g : Task n → List (RLWE n)) : ∀ {T : List (Task n)}, (∀ t ∈ T, runTask t mem [] = some (mem, g t)) →
    runSeq T mem = some (mem, T.map g)
  | [], _ => rfl
  | t :: T, h => by
    simp only [runSeq, h t List.mem_cons_self, runSeq_readonly g fun u hu => h u (List.mem_cons_of_mem _ hu), Option.map_some, List.map_cons]

/-- If each cell is touched by at most the task that owns it, the outcome of a phase is what the owner leaves there. -/
theorem owner_phase {T : List (Task n)} {mem m : Mem n} (owner : Nat × Nat → Nat)
    (htouch : ∀ (i : Nat) (t : Task n), T[i]? = some t → ∀ p, Task.Touches t p → owner p = i) (hrun : AllRun T mem)
    (hlen : m.length = mem.length)
    (hm : ∀ p, match T[owner p]? with
      | some t => ∃ r, runTask t mem [] = some r ∧ cellAt m p = cellAt r.1 p
      | none => cellAt m p = cellAt mem p) :
    Independent T ∧ ∃ outs, runSeq T mem = some (m, outs) := by
  have hT : Independent T := by
    rintro i j t u hij ht hu p ⟨s, hs, hw⟩ hp
    have h1 := htouch i t ht p ⟨s, hs, hw.touches⟩
    have h2 := htouch j u hu p hp
    omega
  refine ⟨hT, ?_⟩
  obtain ⟨mem', outs, b0, b1, b2, b3, b4⟩ := runSeq_spec hT hrun rfl fun _ _ _ _ => rfl
  refine ⟨outs, ?_⟩
  rw [b0]
  congr 2
  refine mem_ext (by rw [b1, hlen]) fun p => ?_
  have hp := hm p
  rcases ho : T[owner p]? with _ | t
  · rw [ho] at hp
    simp only at hp
    rw [hp]
    refine b4 p fun t ht ⟨s, hs, hw⟩ => ?_
    obtain ⟨i, hi⟩ := List.getElem?_of_mem ht
    have := htouch i t hi p ⟨s, hs, hw.touches⟩
    rw [this, hi] at ho; cases ho
  · rw [ho] at hp
    obtain ⟨⟨m1, r1⟩, h1, h2⟩ := hp
    rw [h2]
    obtain ⟨m2, r2, c1, c2, c3⟩ := b3 _ t ho
    rw [h1] at c1; injection c1 with c1; injection c1 with c1 _
    subst c1
    by_cases htp : Task.Touches t p
    · exact c3 p htp
    · have hnw : ¬ Task.Writes t p := fun ⟨s, hs, hw⟩ => htp ⟨s, hs, hw.touches⟩
      simp only
      rw [runTask_unwritten h1 _ hnw]
      refine b4 p fun u hu ⟨s, hs, hw⟩ => ?_
      obtain ⟨i, hi⟩ := List.getElem?_of_mem hu
      have := htouch i u hi p ⟨s, hs, hw.touches⟩
      rw [this, hi] at ho
      injection ho with ho
      subst ho
      exact hnw ⟨s, hs, hw⟩

/-! ### Reading tasks -/

theorem getD_range {α : Type} (row : List α) (d : α) : (List.range row.length).map (fun j => row.getD j d) = row := by
  apply List.ext_getElem
  · simp
  · intro i h1 h2
    simp [List.getD_eq_getElem?_getD, List.getElem?_eq_getElem h2]

theorem getElem?_getD {α : Type} {row : List α} {j : Nat} (h : j < row.length) (d : α) : row[j]? = some (row.getD j d) := by
  rw [List.getD_eq_getElem?_getD, List.getElem?_eq_getElem h]; rfl

theorem runTask_ffts (mem : Mem n) (regs : List (RLWE n)) : ∀ k, runTask (List.replicate k .fft) mem regs = some (mem, regs)
  | 0 => rfl
  | k + 1 => by simp only [List.replicate_succ, runTask, Stmt.exec, runTask_ffts mem regs k]

theorem runTask_reads {mem : Mem n} {r : Nat} {row : List (RLWE n)} (hr : mem[r]? = some row) : ∀ (js : List Nat) (regs : List (RLWE n)),
    (∀ j ∈ js, j < row.length) →
    runTask (js.flatMap fun j => [.fft, .read (r, j) true]) mem regs = some (mem, regs ++ js.map fun j => row.getD j 0)
  | [], regs, _ => by simp [runTask]
  | j :: js, regs, h => by
    have hc : cellAt mem (r, j) = some (row.getD j 0) := by rw [cellAt_row hr, getElem?_getD (h j List.mem_cons_self)]
    simp only [List.flatMap_cons, List.cons_append, List.nil_append, runTask, Stmt.exec, hc, Option.map_some]
    rw [runTask_reads hr js _ fun k hk => h k (List.mem_cons_of_mem _ hk)]
    simp

theorem runTask_reads' {mem : Mem n} {r : Nat} {row : List (RLWE n)} (hr : mem[r]? = some row) : ∀ (js : List Nat) (regs : List (RLWE n)),
    (∀ j ∈ js, j < row.length) →
    runTask (js.flatMap fun j => [.read (r, j) true, .fft]) mem regs = some (mem, regs ++ js.map fun j => row.getD j 0)
  | [], regs, _ => by simp [runTask]
  | j :: js, regs, h => by
    have hc : cellAt mem (r, j) = some (row.getD j 0) := by rw [cellAt_row hr, getElem?_getD (h j List.mem_cons_self)]
    simp only [List.flatMap_cons, List.cons_append, List.nil_append, runTask, Stmt.exec, hc, Option.map_some]
    rw [runTask_reads' hr js _ fun k hk => h k (List.mem_cons_of_mem _ hk)]
    simp

theorem runTask_stTask {mem : Mem n} {r : Nat} {row : List (RLWE n)} (hr : mem[r]? = some row) (lv : Nat) :
    runTask (stTask r lv row.length) mem [] = some (mem, row) := by
  unfold stTask
  rw [runTask_append, runTask_ffts]
  simp only [runTask, Stmt.exec, hr, Option.map_some]
  rw [runTask_reads hr _ _ fun j hj => List.mem_range.mp hj, getD_range]
  rfl

theorem runTask_multiTmp {mem : Mem n} {row : List (RLWE n)} (hr : mem[0]? = some row) :
    runTask (multiTmpTask row.length) mem [] = some (mem, row) := by
  unfold multiTmpTask
  rw [runTask_reads' hr _ _ fun j hj => List.mem_range.mp hj, getD_range]
  rfl

theorem stTask_readonly (r lv cols : Nat) (p : Nat × Nat) : ¬ Task.Writes (stTask (n := n) r lv cols) p := by
  rintro ⟨s, hs, hw⟩
  simp only [stTask, List.mem_append, List.mem_replicate, List.mem_cons, List.mem_flatMap] at hs
  rcases hs with ⟨_, rfl⟩ | rfl | ⟨j, _, rfl | rfl | h⟩
  all_goals first | cases hw | cases h

theorem multiTmp_readonly (cols : Nat) (p : Nat × Nat) : ¬ Task.Writes (multiTmpTask (n := n) cols) p := by
  rintro ⟨s, hs, hw⟩
  simp only [multiTmpTask, List.mem_cons, List.mem_flatMap] at hs
  rcases hs with ⟨j, _, rfl | rfl | h⟩
  all_goals first | cases hw | cases h

theorem levelTask_readonly (p : Nat × Nat) : ¬ Task.Writes (levelTask (n := n)) p := by
  rintro ⟨s, hs, hw⟩
  simp only [levelTask, List.mem_cons, List.not_mem_nil, or_false] at hs
  subst hs; cases hw

theorem columnTask_readonly (j : Nat) (p : Nat × Nat) : ¬ Task.Writes (columnTask (n := n) j) p := by
  rintro ⟨s, hs, hw⟩
  simp only [columnTask, List.mem_cons, List.not_mem_nil, or_false] at hs
  rcases hs with rfl | rfl <;> cases hw

theorem runTask_column {mem : Mem n} {row : List (RLWE n)} (hr : mem[0]? = some row) {j : Nat} (hj : j < row.length) :
    runTask (columnTask j) mem [] = some (mem, [row.getD j 0]) := by
  have hc : cellAt mem (0, j) = some (row.getD j 0) := by rw [cellAt_row hr, getElem?_getD hj]
  simp only [columnTask, runTask, Stmt.exec, hc, Option.map_some, List.nil_append]

/-! ### Column updates -/

/-- A phase of column tasks, each replacing its own cell of row 0. -/
theorem column_phase {row : List (RLWE n)} {rest : Mem n} {F : Nat → Task n} {val : Nat → RLWE n}
    (htouch : ∀ j p, Task.Touches (F j) p → p = (0, j))
    (hrun : ∀ j, j < row.length → ∃ regs, runTask (F j) (row :: rest) [] = some (setCell (row :: rest) (0, j) (val j), regs)) :
    Independent ((List.range row.length).map F) ∧ AllRun ((List.range row.length).map F) (row :: rest) ∧
    ∃ outs, runSeq ((List.range row.length).map F) (row :: rest) = some (((List.range row.length).map val) :: rest, outs) := by
  have hall : AllRun ((List.range row.length).map F) (row :: rest) := by
    intro t ht
    obtain ⟨j, hj, rfl⟩ := List.mem_map.mp ht
    obtain ⟨regs, h⟩ := hrun j (List.mem_range.mp hj)
    exact ⟨_, h⟩
  have hget : ∀ i t, ((List.range row.length).map F)[i]? = some t → i < row.length ∧ t = F i := by
    intro i t ht
    rw [List.getElem?_map, Option.map_eq_some_iff] at ht
    obtain ⟨a, ha, rfl⟩ := ht
    have hi := (List.getElem?_eq_some_iff.mp ha).1
    rw [List.length_range] at hi
    rw [List.getElem?_range hi] at ha
    injection ha with ha
    subst ha
    exact ⟨hi, rfl⟩
  obtain ⟨h1, h2⟩ := owner_phase (T := (List.range row.length).map F) (mem := row :: rest) (m := ((List.range row.length).map val) :: rest)
    (fun p => if p.1 = 0 then p.2 else row.length) (fun i t ht p hp => by
      obtain ⟨hi, rfl⟩ := hget i t ht
      have := htouch i p hp
      rw [this]; rfl) hall rfl (fun p => by
      obtain ⟨r, c⟩ := p
      simp only
      cases r with
      | zero =>
        simp only [if_true]
        rcases hc : ((List.range row.length).map F)[c]? with _ | t
        · simp only
          have hcl : row.length ≤ c := by simpa using hc
          unfold cellAt
          simp only [List.getElem?_cons_zero]
          rw [List.getElem?_eq_none (by simpa using hcl), List.getElem?_eq_none hcl]
        · obtain ⟨hi, rfl⟩ := hget c t hc
          obtain ⟨regs, h⟩ := hrun c hi
          refine ⟨_, h, ?_⟩
          have hcell : cellAt (row :: rest) (0, c) = some row[c] := by
            unfold cellAt; simp only [List.getElem?_cons_zero]; exact List.getElem?_eq_getElem hi
          simp only
          rw [cellAt_set hcell, if_pos rfl]
          unfold cellAt
          simp [hi]
      | succ r =>
        simp only [Nat.add_one_ne_zero, if_false]
        rw [List.getElem?_eq_none (by simp)]
        rfl)
  exact ⟨h1, hall, h2⟩

theorem runTask_update {fft : Fft n} {q : ClientQuery n} {l : RGSW n} {mem : Mem n} {row : List (RLWE n)} (hr : mem[0]? = some row) {j : Nat}
    (hj : j < row.length) : ∃ regs, runTask (updateTask fft q l j) mem [] =
      some (setCell mem (0, j) (updateCell fft q l (row.getD j 0) (row.getD j 0)), regs) := by
  have hc : cellAt mem (0, j) = some (row.getD j 0) := by rw [cellAt_row hr, getElem?_getD hj]
  exact ⟨[row.getD j 0, row.getD j 0], by simp only [updateTask, runTask, Stmt.exec, hc, Option.map_some, List.nil_append, List.cons_append]⟩

theorem updateTask_touches {fft : Fft n} {q : ClientQuery n} {l : RGSW n} {j : Nat} {p : Nat × Nat}
    (h : Task.Touches (updateTask fft q l j) p) : p = (0, j) := by
  obtain ⟨s, hs, hw⟩ := h
  simp only [updateTask, List.mem_cons, List.not_mem_nil, or_false] at hs
  rcases hs with rfl | rfl | rfl <;> exact hw.symm

theorem runTask_multiUpdate {fft : Fft n} {x : RGSW n × RLWE n} {mem : Mem n} {row : List (RLWE n)} (hr : mem[0]? = some row) {j : Nat}
    (hj : j < row.length) : ∃ regs, runTask (multiUpdateTask fft j x) mem [] =
      some (setCell mem (0, j) (cmux fft x.1 0 (row.getD j 0) x.2), regs) := by
  have hc : cellAt mem (0, j) = some (row.getD j 0) := by rw [cellAt_row hr, getElem?_getD hj]
  exact ⟨[row.getD j 0], by simp only [multiUpdateTask, runTask, Stmt.exec, hc, Option.map_some, List.nil_append]⟩

theorem multiUpdate_touches {fft : Fft n} {x : RGSW n × RLWE n} {j : Nat} {p : Nat × Nat}
    (h : Task.Touches (multiUpdateTask fft j x) p) : p = (0, j) := by
  obtain ⟨s, hs, hw⟩ := h
  simp only [multiUpdateTask, List.mem_cons, List.not_mem_nil, or_false] at hs
  rcases hs with rfl | rfl <;> exact hw.symm

/-! ### Row updates (`update_db_st`) -/

theorem setCell_row {mem : Mem n} {r : Nat} {row : List (RLWE n)} (hr : mem[r]? = some row) (j : Nat) (v : RLWE n) :
    setCell mem (r, j) v = mem.set r (row.set j v) := by
  unfold setCell
  rw [List.modify_eq_set, hr]; rfl

theorem set_take_append {α : Type} (a : List α) (x y : α) (b : List α) : (a ++ x :: b).set a.length y = a ++ [y] ++ b := by simp

/-- The loop of `update_db_st` from iteration `k` on. -/
theorem runTask_updateSt_loop {fft : Fft n} {q : ClientQuery n} {mem : Mem n} {r : Nat} :
    ∀ (todo : List (RLWE n)) (ls : List (RGSW n)) (done : List (RLWE n)) (regs : List (RLWE n)), todo.length = ls.length →
    mem[r]? = some (done ++ todo) → regs.length = 2 * done.length →
    ∃ regs', runTask (((List.range' done.length ls.length).zip ls).flatMap (updateStIter fft q r)) mem regs =
      some (mem.set r (done ++ updateDb fft q todo ls), regs')
  | [], ls, done, regs, hl, hm, hr => by
    have : ls = [] := List.length_eq_zero_iff.mp hl.symm
    subst this
    refine ⟨regs, ?_⟩
    simp only [List.length_nil, List.range'_zero, List.zip_nil_left, List.flatMap_nil, runTask, updateDb, List.zipWith_nil_left]
    have hlt := (List.getElem?_eq_some_iff.mp hm).1
    have : mem.set r (done ++ []) = mem := by
      apply List.ext_getElem?
      intro i
      rw [List.getElem?_set]
      by_cases e : r = i
      · subst e; rw [if_pos rfl, if_pos hlt, hm]
      · rw [if_neg e]
    rw [this]
  | c :: todo, [], done, regs, hl, hm, hr => by simp at hl
  | c :: todo, l :: ls, done, regs, hl, hm, hr => by
    have hc : cellAt mem (r, done.length) = some c := by rw [cellAt_row hm]; simp
    have hrr := (List.getElem?_eq_some_iff.mp hm).1
    have e1 : (regs ++ [c] ++ [c])[2 * done.length]? = some c := by rw [← hr]; simp
    have e2 : (regs ++ [c] ++ [c])[2 * done.length + 1]? = some c := by rw [← hr]; simp
    simp only [List.length_cons, List.range'_succ, List.zip_cons_cons, List.flatMap_cons, updateStIter, List.cons_append, List.nil_append, runTask,
      Stmt.exec, hc, Option.map_some, e1, e2]
    rw [setCell_row hm, set_take_append]
    obtain ⟨regs', h⟩ := runTask_updateSt_loop (fft := fft) (q := q) (mem := mem.set r (done ++ [updateCell fft q l c c] ++ todo)) (r := r)
      todo ls (done ++ [updateCell fft q l c c]) (regs ++ [c] ++ [c]) (by simpa using hl) (by simp [hrr]) (by simp [hr]; omega)
    refine ⟨regs', ?_⟩
    have hlen : (done ++ [updateCell fft q l c c]).length = done.length + 1 := by simp
    rw [hlen] at h
    rw [h, List.set_set]
    simp [updateDb]

theorem runTask_updateSt {fft : Fft n} {q : ClientQuery n} {mem : Mem n} {r : Nat} {row : List (RLWE n)} (hr : mem[r]? = some row)
    {ls : List (RGSW n)} (hl : row.length = ls.length) :
    ∃ regs, runTask (updateStTask fft q r ls) mem [] = some (mem.set r (updateDb fft q row ls), regs) := by
  obtain ⟨regs, h⟩ := runTask_updateSt_loop (fft := fft) (q := q) (mem := mem) (r := r) row ls [] [] hl hr rfl
  refine ⟨regs, ?_⟩
  unfold updateStTask
  simp only [runTask, Stmt.exec, hr, Option.map_some]
  rw [List.range_eq_range']
  exact h

theorem updateSt_touches {fft : Fft n} {q : ClientQuery n} {r : Nat} {ls : List (RGSW n)} {p : Nat × Nat}
    (h : Task.Touches (updateStTask fft q r ls) p) : p.1 = r := by
  obtain ⟨s, hs, hw⟩ := h
  simp only [updateStTask, updateStIter, List.mem_cons, List.mem_flatMap, List.not_mem_nil, or_false] at hs
  rcases hs with rfl | ⟨x, _, rfl | rfl | rfl⟩
  · cases hw
  all_goals (rw [← (hw : _ = p)])

/-- A phase of row tasks, each replacing its own row. -/
theorem row_phase {mem : Mem n} {F : Nat → Task n} {val : Nat → List (RLWE n)} (htouch : ∀ r p, Task.Touches (F r) p → p.1 = r)
    (hrun : ∀ r, r < mem.length → ∃ regs, runTask (F r) mem [] = some (mem.set r (val r), regs)) :
    Independent ((List.range mem.length).map F) ∧ AllRun ((List.range mem.length).map F) mem ∧
    ∃ outs, runSeq ((List.range mem.length).map F) mem = some ((List.range mem.length).map val, outs) := by
  have hall : AllRun ((List.range mem.length).map F) mem := by
    intro t ht
    obtain ⟨j, hj, rfl⟩ := List.mem_map.mp ht
    obtain ⟨regs, h⟩ := hrun j (List.mem_range.mp hj)
    exact ⟨_, h⟩
  have hget : ∀ i t, ((List.range mem.length).map F)[i]? = some t → i < mem.length ∧ t = F i := by
    intro i t ht
    rw [List.getElem?_map, Option.map_eq_some_iff] at ht
    obtain ⟨a, ha, rfl⟩ := ht
    have hi := (List.getElem?_eq_some_iff.mp ha).1
    rw [List.length_range] at hi
    rw [List.getElem?_range hi] at ha
    injection ha with ha
    subst ha
    exact ⟨hi, rfl⟩
  obtain ⟨h1, h2⟩ := owner_phase (T := (List.range mem.length).map F) (mem := mem) (m := (List.range mem.length).map val)
    (fun p => p.1) (fun i t ht p hp => by
      obtain ⟨hi, rfl⟩ := hget i t ht
      exact htouch i p hp) hall (by simp) (fun p => by
      obtain ⟨r, c⟩ := p
      simp only
      rcases hc : ((List.range mem.length).map F)[r]? with _ | t
      · simp only
        have hcl : mem.length ≤ r := by simpa using hc
        unfold cellAt
        simp only
        rw [List.getElem?_eq_none (by simpa using hcl), List.getElem?_eq_none hcl]
      · obtain ⟨hi, rfl⟩ := hget r t hc
        obtain ⟨regs, h⟩ := hrun r hi
        refine ⟨_, h, ?_⟩
        simp only
        rw [cellAt_row (row := val r) (by simp [hi]), cellAt_row (row := val r) (by simp [hi])])
  exact ⟨h1, hall, h2⟩

/-! ### Consistency tasks -/

theorem runTask_lens {mem : Mem n} {row : List (RLWE n)} (hr : mem[0]? = some row) (regs : List (RLWE n)) : ∀ ps : List (Nat × Nat),
    runTask (ps.map fun _ => Stmt.len 0) mem regs = some (mem, regs)
  | [] => rfl
  | _ :: ps => by simp only [List.map_cons, runTask, Stmt.exec, hr, Option.map_some, runTask_lens hr regs ps]

theorem runTask_firsts {mem : Mem n} {p : Nat × Nat} {v : RLWE n} (hv : cellAt mem p = some v) : ∀ (ps : List (Nat × Nat)) (regs : List (RLWE n)),
    runTask (ps.flatMap fun _ => [.read p true, .fft]) mem regs = some (mem, regs ++ List.replicate ps.length v)
  | [], regs => by simp [runTask]
  | _ :: ps, regs => by
    simp only [List.flatMap_cons, List.cons_append, List.nil_append, runTask, Stmt.exec, hv, Option.map_some]
    rw [runTask_firsts hv ps]
    simp [List.replicate_succ]

theorem runTask_others {mem : Mem n} : ∀ (ps : List (Nat × Nat)) (vs regs : List (RLWE n)), mapOption (cellAt mem) ps = some vs →
    runTask (ps.flatMap fun p => [.read p true, .fft]) mem regs = some (mem, regs ++ vs)
  | [], vs, regs, h => by simp [mapOption] at h; subst h; simp [runTask]
  | p :: ps, vs, regs, h => by
    rw [mapOption] at h
    rcases hp : cellAt mem p with _ | v
    · rw [hp] at h; cases h
    · rcases hps : mapOption (cellAt mem) ps with _ | ws
      · rw [hp, hps] at h; cases h
      · rw [hp, hps] at h
        simp only [Option.some.injEq] at h
        subst h
        simp only [List.flatMap_cons, List.cons_append, List.nil_append, runTask, Stmt.exec, hp, Option.map_some]
        rw [runTask_others ps ws _ hps]
        simp

theorem runTask_stores {f : List (RLWE n) → Option (RLWE n)} {regs : List (RLWE n)} {v : RLWE n} (hf : f regs = some v) :
    ∀ (ps : List (Nat × Nat)) (mem : Mem n), (∀ p ∈ ps, ∃ c, cellAt mem p = some c) →
    runTask (ps.map fun p => Stmt.write p f) mem regs = some (ps.foldl (fun d p => setCell d p v) mem, regs)
  | [], mem, _ => rfl
  | p :: ps, mem, h => by
    obtain ⟨c, hc⟩ := h p List.mem_cons_self
    simp only [List.map_cons, runTask, Stmt.exec, hc, hf]
    rw [runTask_stores hf ps _ (fun p' hp' => by
      rw [cellAt_set hc]
      split
      · exact ⟨v, rfl⟩
      · exact h p' (List.mem_cons_of_mem _ hp'))]
    rfl

theorem mapOption_zip_replicate {α β γ : Type} (f : α → β → Option γ) (v : β) : ∀ ps : List α,
    mapOption (fun (x : α × β) => f x.1 x.2) (ps.zip (List.replicate ps.length v)) = mapOption (fun p => f p v) ps
  | [] => rfl
  | p :: ps => by
    simp only [List.length_cons, List.replicate_succ, List.zip_cons_cons, mapOption, mapOption_zip_replicate f v ps]

theorem correctRegs_eq {fft : Fft n} {ls : List (List (RGSW n))} {flags : List (RGSW n)} {ps : List (Nat × Nat)} {v : RLWE n}
    {vs : List (RLWE n)} : correctRegs fft ls flags ps (List.replicate ps.length v ++ [v] ++ vs) = correctValue fft ls flags ps v vs := by
  have h1 : (List.replicate ps.length v ++ [v] ++ vs).take ps.length = List.replicate ps.length v := by
    rw [List.append_assoc, List.take_append_of_le_length (by simp)]; simp
  have h2 : (List.replicate ps.length v ++ [v] ++ vs)[ps.length]? = some v := by
    rw [List.append_assoc, List.getElem?_append_right (by simp)]; simp
  have h3 : (List.replicate ps.length v ++ [v] ++ vs).drop (ps.length + 1) = vs := by
    rw [List.drop_append_of_le_length (by simp)]; simp
  unfold correctRegs correctValue
  rw [h1, h2, h3, mapOption_zip_replicate (fun p w => flagProduct fft ls flags p w) v ps]
  rcases mapOption (fun p => flagProduct fft ls flags p v) ps with _ | (_ | ⟨v1, v1s⟩)
  · rfl
  · rfl
  · simp only
    rcases mapOption (fun (x : (Nat × Nat) × RLWE n) => flagProduct fft ls flags x.1 x.2) ((ps.drop 1).zip vs) with _ | t <;> rfl

/-- The task of an item does what the sequential loop body does. -/
theorem runTask_item {fft : Fft n} {ls : List (List (RGSW n))} {flags : List (RGSW n)} {ps : List (Nat × Nat)} {mem : Mem n}
    (hm : mem ≠ []) {v : RLWE n} (hv : correctConsistency fft mem ls flags ps = some v) :
    ∃ regs, runTask (itemTask fft ls flags ps) mem [] = some (ps.foldl (fun d p => setCell d p v) mem, regs) := by
  obtain ⟨row, hr⟩ : ∃ row, mem[0]? = some row := by
    rcases mem with _ | ⟨row, rest⟩
    · exact absurd rfl hm
    · exact ⟨row, rfl⟩
  unfold correctConsistency at hv
  rcases ps with _ | ⟨p, ps⟩
  · simp [mapOption] at hv
  rcases hc : mapOption (cellAt mem) (p :: ps) with _ | (_ | ⟨vf, vs⟩)
  · rw [hc] at hv; cases hv
  · rw [hc] at hv; cases hv
  rw [hc] at hv
  simp only at hv
  have hin : ∀ p' ∈ p :: ps, ∃ c, cellAt mem p' = some c := by
    intro p' hp'
    rcases hx : cellAt mem p' with _ | c
    · rw [mapOption_none hp' hx] at hc; cases hc
    · exact ⟨c, rfl⟩
  have hcp : cellAt mem p = some vf ∧ mapOption (cellAt mem) ps = some vs := by
    rw [mapOption] at hc
    rcases hp : cellAt mem p with _ | v'
    · rw [hp] at hc; cases hc
    · rcases hps : mapOption (cellAt mem) ps with _ | ws
      · rw [hp, hps] at hc; cases hc
      · rw [hp, hps] at hc
        simp only [Option.some.injEq, List.cons.injEq] at hc
        rw [hc.1, hc.2]; exact ⟨rfl, rfl⟩
  refine ⟨List.replicate (p :: ps).length vf ++ [vf] ++ vs, ?_⟩
  unfold itemTask
  rw [runTask_append, runTask_append, runTask_append, runTask_lens hr]
  simp only
  rw [runTask_firsts hcp.1]
  simp only [List.nil_append, runTask, Stmt.exec, hcp.1, Option.map_some]
  rw [runTask_others ps vs _ hcp.2]
  simp only
  exact runTask_stores (by rw [correctRegs_eq]; exact hv) _ _ hin

theorem itemTask_touches {fft : Fft n} {ls : List (List (RGSW n))} {flags : List (RGSW n)} {ps : List (Nat × Nat)} {p : Nat × Nat}
    (h : Task.Touches (itemTask fft ls flags ps) p) : p ∈ ps := by
  rcases ps with _ | ⟨q, ps⟩
  · obtain ⟨s, hs, _⟩ := h; cases hs
  · obtain ⟨s, hs, hw⟩ := h
    simp only [itemTask, List.mem_append, List.mem_map, List.mem_flatMap, List.mem_cons, List.not_mem_nil, or_false] at hs
    rcases hs with ((⟨_, _, rfl⟩ | ⟨_, _, rfl | rfl⟩) | rfl | ⟨x, hx, rfl | rfl⟩) | ⟨x, hx, rfl⟩
    · cases hw
    · rw [← (hw : q = p)]; exact List.mem_cons_self
    · cases hw
    · rw [← (hw : q = p)]; exact List.mem_cons_self
    · rw [← (hw : x = p)]; exact List.mem_cons_of_mem _ hx
    · cases hw
    · rw [← (hw : x = p)]; exact List.mem_cons.mpr hx

/-- The sequential consistency loop is the sequential run of the item tasks. -/
theorem runSeq_items {fft : Fft n} {H : NaiveHash} {cols : Nat} {ls : List (List (RGSW n))} {flags : List (RGSW n)} :
    ∀ {is : List Nat} {mem m : Mem n} {poss : List (List (Nat × Nat))}, mem ≠ [] → mapOption (itemPositions H cols) is = some poss →
    correctAll fft H cols ls flags is mem = some m → ∃ outs, runSeq (poss.map (itemTask fft ls flags)) mem = some (m, outs)
  | [], mem, m, poss, _, hp, h => by
    simp only [mapOption, Option.some.injEq] at hp
    simp only [correctAll, Option.some.injEq] at h
    subst hp; subst h
    exact ⟨[], rfl⟩
  | i :: is, mem, m, poss, hm, hp, h => by
    rw [mapOption] at hp
    rcases hpi : itemPositions H cols i with _ | ps
    · rw [hpi] at hp; cases hp
    rcases hps : mapOption (itemPositions H cols) is with _ | pss
    · rw [hpi, hps] at hp; cases hp
    rw [hpi, hps] at hp
    simp only [Option.some.injEq] at hp
    subst hp
    rw [correctAll, correctItem, hpi] at h
    simp only at h
    rcases hv : correctConsistency fft mem ls flags ps with _ | v
    · rw [hv] at h; cases h
    rw [hv] at h
    simp only at h
    obtain ⟨regs, hr⟩ := runTask_item hm hv
    have hne : ps.foldl (fun d p => setCell d p v) mem ≠ [] := by
      have := runTask_length hr
      intro e
      rw [e] at this
      exact hm (List.length_eq_zero_iff.mp this.symm)
    obtain ⟨outs, ho⟩ := runSeq_items hne hps h
    exact ⟨regs :: outs, by simp only [List.map_cons, runSeq, hr, ho, Option.map_some]⟩

end Panacea
