import Verif.Model.Crash
import Verif.Props.OramShape
import Verif.Props.Session
import Verif.Props.DecryptDb
import Verif.Props.Oblivious

/-!
# C63: a panicking call leaves the database as it was
-/

namespace Panacea
variable {n : Nat}
open Exec

theorem bind_some {α β : Type} {x : Exec n α} {f : α → Exec n β} {mem mem' : Mem n} {a : α} (h : x mem = (some a, mem')) :
    bind x f mem = f a mem' := by unfold Exec.bind; rw [h]
theorem bind_none {α β : Type} {x : Exec n α} {f : α → Exec n β} {mem mem' : Mem n} (h : x mem = (none, mem')) :
    bind x f mem = (none, mem') := by unfold Exec.bind; rw [h]

theorem set_cellAt {mem : Mem n} {r : Nat} (hr : r < mem.length) (done rest : List (RLWE n)) (c : RLWE n) :
    cellAt (mem.set r (done ++ c :: rest)) (r, done.length) = some c := by
  unfold cellAt
  simp only [List.getElem?_set_self hr]
  simp

theorem set_setCell {mem : Mem n} {r : Nat} (hr : r < mem.length) (done rest : List (RLWE n)) (c v : RLWE n) :
    setCell (mem.set r (done ++ c :: rest)) (r, done.length) v = mem.set r (done ++ v :: rest) := by
  unfold setCell
  rw [List.modify_eq_set_getElem?]
  simp only [List.getElem?_set_self hr, Option.map_eq_map, Option.map_some, Option.getD_some, List.set_set]
  simp

theorem forEach_row {mem : Mem n} {r : Nat} {α : Type} {f : α → Exec n Unit} {g : RLWE n → α → RLWE n} :
    ∀ (rest : List (RLWE n)) (as : List α) (done : List (RLWE n)), as.length = rest.length →
    (∀ k a, as[k]? = some a → ∀ (d : List (RLWE n)) c t, d.length = done.length + k →
      f a (mem.set r (d ++ c :: t)) = (some (), mem.set r (d ++ g c a :: t))) →
    forEach f as (mem.set r (done ++ rest)) = (some (), mem.set r (done ++ List.zipWith g rest as))
  | [], [], done, _, _ => by simp [forEach, lift]
  | [], _ :: _, _, h, _ => by simp at h
  | _ :: _, [], _, h, _ => by simp at h
  | c :: rest, a :: as, done, hl, hf => by
    have h0 := hf 0 a rfl done c rest rfl
    rw [forEach, bind_some h0]
    have := forEach_row (mem := mem) (r := r) (f := f) (g := g) rest as (done ++ [g c a]) (by simpa using hl) (fun k a' ha d c' t hd =>
      hf (k + 1) a' (by simpa using ha) d c' t (by simp at hd; omega))
    rw [List.append_assoc, List.singleton_append] at this
    rw [this]
    simp

theorem set_self {mem : Mem n} {r : Nat} {row : List (RLWE n)} (h : mem[r]? = some row) : mem.set r row = mem := by
  obtain ⟨hl, rfl⟩ := List.getElem?_eq_some_iff.mp h
  exact List.set_getElem_self hl

theorem updateDbMtX_eq (fft : Fft n) (q : ClientQuery n) {r : Nat} {mem : Mem n} {row : List (RLWE n)} (hrow : mem[r]? = some row)
    {ls : List (RGSW n)} (hl : ls.length = row.length) :
    updateDbMtX fft q r ls mem = (some (), mem.set r (updateDb fft q row ls)) := by
  have hr : r < mem.length := (List.getElem?_eq_some_iff.mp hrow).1
  unfold updateDbMtX
  rw [bind_some (a := row.length) (mem' := mem) (by unfold rowLen; rw [hrow]; rfl)]
  have := forEach_row (mem := mem) (r := r) (f := fun x : Nat × RGSW n => updateColX fft q r x.1 x.2)
    (g := fun cell x => updateCell fft q x.2 cell cell) row ((List.range row.length).zip ls) [] (by simp [hl]) (fun k a ha d c t hd => by
      have hk : a.1 = k := by
        have := (zip_getElem.mp ha).1
        rw [List.getElem?_eq_some_iff] at this
        obtain ⟨_, h⟩ := this
        simpa using h.symm
      have hd' : a.1 = d.length := by rw [hk, hd]; simp
      show updateColX fft q r a.1 a.2 _ = _
      unfold updateColX
      rw [hd', bind_some (a := c) (mem' := mem.set r (d ++ c :: t)) (by unfold readCell; rw [set_cellAt hr]),
        bind_some (a := c) (mem' := mem.set r (d ++ c :: t)) (by unfold readCell; rw [set_cellAt hr])]
      unfold writeCell
      simp only [set_cellAt hr, set_setCell hr]
      rfl)
  rw [List.nil_append, List.nil_append, set_self hrow] at this
  rw [this]
  congr 2
  unfold updateDb
  refine List.ext_getElem? fun i => ?_
  rw [List.getElem?_zipWith, List.getElem?_zipWith]
  rcases hi : row[i]? with _ | c
  · rfl
  · have hlt := (List.getElem?_eq_some_iff.mp hi).1
    rw [List.getElem?_eq_getElem (l := ls) (by omega), List.getElem?_eq_getElem (l := (List.range row.length).zip ls) (by simp [hl]; omega)]
    simp

theorem updateDbStX_eq (fft : Fft n) (q : ClientQuery n) {r : Nat} {mem : Mem n} {row : List (RLWE n)} (hrow : mem[r]? = some row)
    {ls : List (RGSW n)} (hl : ls.length = row.length) :
    updateDbStX fft q r ls mem = (some (), mem.set r (updateDb fft q row ls)) := by
  have hr : r < mem.length := (List.getElem?_eq_some_iff.mp hrow).1
  unfold updateDbStX
  rw [bind_some (a := row.length) (mem' := mem) (by unfold rowLen; rw [hrow]; rfl)]
  have := forEach_row (mem := mem) (r := r) (f := fun j : Nat =>
    bind (readCell (r, j)) fun cell1 => bind (lift ls[j]?) fun l => bind (readCell (r, j)) fun cell2 =>
      writeCell (r, j) (cmux fft l 0 cell2 (rw fft q.op q.data cell1)))
    (g := fun cell j => match ls[j]? with | some l => updateCell fft q l cell cell | none => cell) row (List.range row.length) [] (by simp)
    (fun k a ha d c t hd => by
      have hk : a = k := by
        rw [List.getElem?_eq_some_iff] at ha
        obtain ⟨_, h⟩ := ha
        simpa using h.symm
      have hd' : a = d.length := by rw [hk, hd]; simp
      have halt : a < ls.length := by
        have := List.mem_of_getElem? ha
        rw [List.mem_range] at this
        omega
      have hla : ls[d.length]? = some ls[a] := by rw [← hd']; exact List.getElem?_eq_getElem halt
      simp only [hd']
      rw [bind_some (a := c) (mem' := mem.set r (d ++ c :: t)) (by unfold readCell; rw [set_cellAt hr]),
        bind_some (a := ls[a]) (mem' := mem.set r (d ++ c :: t)) (by unfold lift; rw [hla]),
        bind_some (a := c) (mem' := mem.set r (d ++ c :: t)) (by unfold readCell; rw [set_cellAt hr])]
      unfold writeCell
      simp only [set_cellAt hr, set_setCell hr, hla]
      rfl)
  rw [List.nil_append, List.nil_append, set_self hrow] at this
  rw [this]
  congr 2
  unfold updateDb
  refine List.ext_getElem? fun i => ?_
  rw [List.getElem?_zipWith, List.getElem?_zipWith]
  rcases hi : row[i]? with _ | c
  · rfl
  · have hlt := (List.getElem?_eq_some_iff.mp hi).1
    rw [List.getElem?_eq_getElem (l := ls) (by omega), List.getElem?_eq_getElem (l := List.range row.length) (by simpa using hlt)]
    simp only [List.getElem_range]
    rw [List.getElem?_eq_getElem (l := ls) (by omega)]

theorem responseLoop_length {fft : Fft n} {ctx : Ctx} {negS : RGSW n} : ∀ {xs : List (List (RLWE n) × RLWE n)} {y y' : RLWE n}
    {ls ls' : List (RGSW n)}, responseLoop fft ctx negS xs y ls = some (y', ls') → ls'.length = ls.length + xs.length
  | [], y, y', ls, ls', h => by cases h; rfl
  | x :: xs, y, y', ls, ls', h => by
    rw [responseLoop] at h
    split at h
    · cases h
    · rw [responseLoop_length h]; simp; omega

theorem decomposedSelectors_length {fft : Fft n} {ctx : Ctx} {q : ClientQuery n} {cols : Nat} {L : List (List (RLWE n))}
    (h : decomposedSelectors fft ctx q cols = some L) : L.length = cols := by
  unfold decomposedSelectors at h
  split at h
  · cases h
  · split at h
    · cases h
    · split at h
      · rename_i h'; cases h; exact h'
      · cases h

theorem processOneSt_length {fft : Fft n} {ctx : Ctx} {q : ClientQuery n} {row : List (RLWE n)} {negS : RGSW n} {r : RLWE n × List (RGSW n)}
    (h : processOneSt fft ctx q row negS = some r) : r.2.length = row.length := by
  unfold processOneSt at h
  split at h
  · cases h
  · rename_i L hL
    have := responseLoop_length h
    rw [this]
    simp [decomposedSelectors_length hL]

theorem processOneMt_length {reduce : List (RLWE n) → RLWE n} {fft : Fft n} {ctx : Ctx} {q : ClientQuery n} {row : List (RLWE n)}
    {negS : RGSW n} {r : RLWE n × List (RGSW n)} (h : processOneMt reduce fft ctx q row negS = some r) : r.2.length = row.length := by
  unfold processOneMt at h
  split at h
  · cases h
  · rename_i L hL
    split at h
    · cases h
    · rename_i rs hrs
      cases h
      have := mapOption_length hrs
      simp [this, decomposedSelectors_length hL]

/-- C63 (`process_one`): the step-by-step execution has the outcome of the call, and the database afterwards is the new one if the call
returns, and is *unchanged* if it panics -- for every query, database (of any shape), key and parameters: every panic happens before the
first write. -/
theorem C63_process_one (reduce : List (RLWE n) → RLWE n) (fft : Fft n) (S : Server n) (q : ClientQuery n) :
    processOneX reduce fft S q S.data = match S.processOne reduce fft q with
      | some (y, S') => (some y, S'.data)
      | none => (none, S.data) := by
  unfold processOneX Server.processOne
  rcases hd : S.data with _ | ⟨row, rest⟩
  · rfl
  · rw [bind_some (x := lift (row :: rest)[0]?) (a := row) (mem' := row :: rest) rfl]
    simp only
    rcases hm : processOneMt reduce fft S.ctx q row S.negS with _ | ⟨y, ls⟩
    · rfl
    · rw [bind_some (x := lift (some (y, ls))) (a := (y, ls)) (mem' := row :: rest) rfl,
        bind_some (updateDbMtX_eq fft q (r := 0) (row := row) rfl (processOneMt_length hm))]
      rfl


theorem parReduce_length {α : Type} {op : List α → List α → List α} {id : List α} {k : Nat}
    (hop : ∀ xs ys, xs.length = k → ys.length = k → (op xs ys).length = k) (hid : id.length = k) :
    ∀ {xss : List (List α)} {y : List α}, ParReduce op id xss y → (∀ xs ∈ xss, xs.length = k) → y.length = k := by
  intro xss y h
  induction h with
  | fold xs =>
    intro h
    suffices H : ∀ (xss : List (List α)) acc, acc.length = k → (∀ xs ∈ xss, xs.length = k) → (xss.foldl op acc).length = k from H xs id hid h
    intro xss
    induction xss with
    | nil => intro acc ha _; exact ha
    | cons x xss ih => intro acc ha hx; exact ih _ (hop _ _ ha (hx x (by simp))) fun z hz => hx z (by simp [hz])
  | split _ _ ih1 ih2 => intro h; exact hop _ _ (ih1 fun x hx => h x (by simp [hx])) (ih2 fun x hx => h x (by simp [hx]))

/-- C63 (`process_multi`): same for `process_multi`, for every behaviour of the parallel sums. -/
theorem C63_process_multi {S : Server n} {cols : Nat} (hcols : ∀ row rest, S.data = row :: rest → row.length = cols)
    {reduceV : List (List (RLWE n)) → List (RLWE n)} (hV : IsReduction addVec (List.replicate cols 0) reduceV)
    {reduceG : List (List (RGSW n)) → List (RGSW n)}
    (hG : IsReduction addGswVec (List.replicate cols (RGSW.allocate n S.ctx.baseLog S.ctx.levelCount)) reduceG)
    (fft : Fft n) (qs : List (ClientQuery n)) :
    processMultiX reduceV reduceG fft S qs S.data = match S.processMulti reduceV reduceG fft qs with
      | some (ys, S') => (some ys, S'.data)
      | none => (none, S.data) := by
  unfold processMultiX Server.processMulti
  rcases hd : S.data with _ | ⟨row, rest⟩
  · rfl
  have hrow := hcols row rest hd
  rw [bind_some (x := lift (row :: rest)[0]?) (a := row) (mem' := row :: rest) rfl]
  simp only
  rcases hm : mapOption (fun q => processOneSt fft S.ctx q row S.negS) qs with _ | rs
  · rfl
  have hrs : ∀ l ∈ rs.map Prod.snd, l.length = cols := fun l hl => by
    obtain ⟨r, hr, rfl⟩ := List.mem_map.mp hl
    obtain ⟨q, _, hq⟩ := mapOption_inv_mem hm hr
    rw [processOneSt_length hq, hrow]
  have hlen : rs.length = qs.length := mapOption_length hm
  have hG' : (reduceG (rs.map Prod.snd)).length = cols :=
    parReduce_length (fun xs ys h1 h2 => by unfold addGswVec; simp [h1, h2]) (by simp) (hG _) hrs
  have hV' : (reduceV (List.zipWith (multiTmps fft row) qs (rs.map Prod.snd))).length = cols :=
    parReduce_length (fun xs ys h1 h2 => by unfold addVec; simp [h1, h2]) (by simp) (hV _) fun l hl => by
      obtain ⟨k, hk⟩ := List.mem_iff_getElem?.mp hl
      rw [List.getElem?_zipWith] at hk
      split at hk
      · rename_i q l' _ hl'
        cases hk
        unfold multiTmps
        rw [List.length_zipWith, hrs l' (List.mem_of_getElem? hl'), hrow, min_self]
      · cases hk
  rw [bind_some (x := lift (some rs)) (a := rs) (mem' := row :: rest) rfl]
  show Exec.bind (forEach (multiColX fft _ _) _) _ _ = (some (rs.map Prod.fst), List.zipWith _ row ((reduceG (rs.map Prod.snd)).zip
    (reduceV (List.zipWith (multiTmps fft row) qs (rs.map Prod.snd)))) :: rest)
  generalize reduceG (rs.map Prod.snd) = G at hG' ⊢
  generalize reduceV (List.zipWith (multiTmps fft row) qs (rs.map Prod.snd)) = V at hV' ⊢
  have := forEach_row (mem := row :: rest) (r := 0) (f := multiColX fft G V)
    (g := fun cell j => match G[j]?, V[j]? with | some l, some t => cmux fft l 0 cell t | _, _ => cell) row (List.range row.length) [] (by simp)
    (fun k a ha d c t hd => by
      have hk : a = k := by
        rw [List.getElem?_eq_some_iff] at ha
        obtain ⟨_, h⟩ := ha
        simpa using h.symm
      have hd' : a = d.length := by rw [hk, hd]; simp
      have halt : a < cols := by
        have := List.mem_of_getElem? ha
        rw [List.mem_range] at this
        omega
      have hla : G[d.length]? = some (G[a]'(by omega)) := by rw [← hd']; exact List.getElem?_eq_getElem (by omega)
      have hva : V[d.length]? = some (V[a]'(by omega)) := by rw [← hd']; exact List.getElem?_eq_getElem (by omega)
      simp only [hd']
      unfold multiColX
      rw [bind_some (a := G[a]'(by omega)) (mem' := (row :: rest).set 0 (d ++ c :: t)) (by unfold lift; rw [hla]),
        bind_some (a := c) (mem' := (row :: rest).set 0 (d ++ c :: t)) (by unfold readCell; rw [set_cellAt (by simp)]),
        bind_some (a := V[a]'(by omega)) (mem' := (row :: rest).set 0 (d ++ c :: t)) (by unfold lift; rw [hva])]
      unfold writeCell
      simp only [set_cellAt (mem := row :: rest) (r := 0) (by simp), set_setCell (mem := row :: rest) (r := 0) (by simp), hla, hva])
  rw [List.nil_append, List.nil_append, List.set_cons_zero, List.set_cons_zero] at this
  rw [bind_some this]
  unfold lift
  simp only [List.set_cons_zero, Prod.mk.injEq, true_and, List.cons.injEq, and_true]
  refine List.ext_getElem? fun i => ?_
  rw [List.getElem?_zipWith, List.getElem?_zipWith]
  rcases hi : row[i]? with _ | c
  · rfl
  · have hlt := (List.getElem?_eq_some_iff.mp hi).1
    rw [List.getElem?_eq_getElem (l := List.range row.length) (by simpa using hlt),
      List.getElem?_eq_getElem (l := G.zip V) (by simp; omega)]
    simp only [List.getElem_range, List.getElem_zip]
    rw [List.getElem?_eq_getElem (l := G) (by omega), List.getElem?_eq_getElem (l := V) (by omega)]

/-! ### process_batch -/

theorem cellAt_setCell_isSome {mem : Mem n} {p p' : Nat × Nat} {v : RLWE n} (h : ∃ c, cellAt mem p = some c) :
    ∃ c, cellAt (setCell mem p' v) p = some c := by
  obtain ⟨c, hc⟩ := h
  unfold cellAt setCell at *
  simp only [List.getElem?_modify]
  split at hc
  · cases hc
  · rename_i row hrow
    rw [hrow]
    simp only [Option.map_eq_map, Option.map_some]
    by_cases he : p'.1 = p.1
    · rw [if_pos he]
      have hlt := (List.getElem?_eq_some_iff.mp hc).1
      refine ⟨_, List.getElem?_eq_getElem (l := row.set p'.2 v) (by simpa using hlt)⟩
    · rw [if_neg he]
      exact ⟨c, hc⟩

theorem writes_eq (v : RLWE n) : ∀ (ps : List (Nat × Nat)) (mem : Mem n), (∀ p ∈ ps, ∃ c, cellAt mem p = some c) →
    forEach (fun p => writeCell p v) ps mem = (some (), ps.foldl (fun d p => setCell d p v) mem)
  | [], _, _ => rfl
  | p :: ps, mem, h => by
    obtain ⟨c, hc⟩ := h p (by simp)
    rw [forEach, bind_some (a := ()) (mem' := setCell mem p v) (by unfold writeCell; rw [hc])]
    exact writes_eq v ps _ fun p' hp' => cellAt_setCell_isSome (h p' (by simp [hp']))

/-- One item of the consistency loop: it panics before its first write, or not at all. -/
theorem correctItemX_eq (fft : Fft n) (H : NaiveHash) (cols : Nat) (ls : List (List (RGSW n))) (flags : List (RGSW n)) (i : Nat) (mem : Mem n) :
    correctItemX fft H cols ls flags i mem = match correctItem fft H cols ls flags mem i with
      | some mem' => (some (), mem')
      | none => (none, mem) := by
  unfold correctItemX correctItem
  rcases hp : itemPositions H cols i with _ | ps
  · rfl
  rw [bind_some (x := lift (some ps)) (a := ps) (mem' := mem) rfl]
  simp only
  rcases hc : correctConsistency fft mem ls flags ps with _ | v
  · rfl
  rw [bind_some (x := lift (some v)) (a := v) (mem' := mem) rfl]
  simp only
  refine writes_eq v ps mem fun p hpm => ?_
  unfold correctConsistency at hc
  split at hc
  · cases hc
  · cases hc
  · rename_i vf vs hvs
    rcases hcell : cellAt mem p with _ | c
    · rw [mapOption_none hpm hcell] at hvs; cases hvs
    · exact ⟨c, rfl⟩

/-- The loop over the items: it stops in the database reached so far. -/
theorem correctLoopX_eq (fft : Fft n) (H : NaiveHash) (cols : Nat) (ls : List (List (RGSW n))) (flags : List (RGSW n)) :
    ∀ (is : List Nat) (mem mem' : Mem n), correctAll fft H cols ls flags is mem = some mem' →
      forEach (correctItemX fft H cols ls flags) is mem = (some (), mem')
  | [], _, _, h => by cases h; rfl
  | i :: is, mem, mem', h => by
    rw [correctAll] at h
    split at h
    · cases h
    · rename_i m hm
      rw [forEach, bind_some (a := ()) (mem' := m) (by rw [correctItemX_eq, hm])]
      exact correctLoopX_eq fft H cols ls flags is m mem' h

/-- The row updates of the batch. -/
theorem rowsX_eq (fft : Fft n) : ∀ (qs : List (ClientQuery n)) (lss : List (List (RGSW n))) (done rest : Mem n), lss.length = rest.length →
    qs.length = rest.length → (∀ (k : Nat) (l : List (RGSW n)) (row : List (RLWE n)), lss[k]? = some l → rest[k]? = some row → l.length = row.length) →
    forEach (fun (x : (List (RGSW n) × ClientQuery n) × Nat) => updateDbStX fft x.1.2 x.2 x.1.1)
      ((lss.zip qs).zip (List.range' done.length rest.length)) (done ++ rest) =
    (some (), done ++ List.zipWith (fun (x : ClientQuery n × List (RLWE n)) l => updateDb fft x.1 x.2 l) (qs.zip rest) lss)
  | [], [], done, [], _, _, _ => by simp [forEach, lift]
  | q :: qs, l :: lss, done, row :: rest, h1, h2, h3 => by
    simp only [List.length_cons, List.range'_succ, List.zip_cons_cons, forEach]
    rw [bind_some (updateDbStX_eq fft q (r := done.length) (row := row) (by simp) (h3 0 l row rfl rfl))]
    have := rowsX_eq fft qs lss (done ++ [updateDb fft q row l]) rest (by simpa using h1) (by simpa using h2) (fun k l' row' a b =>
      h3 (k + 1) l' row' (by simpa using a) (by simpa using b))
    rw [List.length_append, List.length_singleton, List.append_assoc, List.singleton_append] at this
    rw [show (done ++ row :: rest).set done.length (updateDb fft q row l) = done ++ updateDb fft q row l :: rest by simp, this]
    simp
  | [], [], _, _ :: _, h, _, _ => by simp at h
  | [], _ :: _, _, [], h, _, _ => by simp at h
  | [], _ :: _, _, _ :: _, _, h, _ => by simp at h
  | _ :: _, [], _, [], _, h, _ => by simp at h
  | _ :: _, [], _, _ :: _, h, _, _ => by simp at h
  | _ :: _, _ :: _, _, [], h, _, _ => by simp at h

/-- What the batch does before the consistency loop. -/
theorem batch_prefix (order : List Nat → List Nat) (fft : Fft n) {S : Server n} {qs : List (ClientQuery n)} {H : NaiveHash}
    (hq : qs.length = S.data.length) {rs : List (RLWE n × List (RGSW n))} (hm : mapOption (batchRow fft S) (qs.zip S.data) = some rs)
    {cols : Nat} (hc : S.cols = some cols) (hne : H.hCount ≠ 0) {data1 : Mem n}
    (hd1 : data1 = List.zipWith (fun (x : ClientQuery n × List (RLWE n)) l => updateDb fft x.1 x.2 l) (qs.zip S.data) (rs.map Prod.snd)) :
    processBatchX order fft S qs H S.data =
      Exec.bind (forEach (correctItemX fft H cols (rs.map Prod.snd) (qs.map ClientQuery.op)) (order (List.range (S.data.length * cols / H.hCount))))
        (fun _ => lift (some (rs.map Prod.fst))) data1 := by
  have hlen : rs.length = S.data.length := by rw [mapOption_length hm, List.length_zip, hq, min_self]
  have hll : ∀ (k : Nat) (l : List (RGSW n)) (row : List (RLWE n)), (rs.map Prod.snd)[k]? = some l → S.data[k]? = some row → l.length = row.length := by
    intro k l row h1 h2
    rw [List.getElem?_map, Option.map_eq_some_iff] at h1
    obtain ⟨r, hr, rfl⟩ := h1
    obtain ⟨x, hx, he⟩ := mapOption_getElem? hm k r hr
    rw [processOneSt_length he, Option.some.inj ((zip_getElem.mp hx).2.symm.trans h2)]
  have hrows := rowsX_eq fft qs (rs.map Prod.snd) [] S.data (by simp [hlen]) hq hll
  rw [List.nil_append, List.nil_append, List.length_nil, ← List.range_eq_range'] at hrows
  unfold processBatchX
  rw [if_pos hq, hm, bind_some (x := lift (some rs)) (a := rs) (mem' := S.data) rfl, bind_some hrows, ← hd1]
  have hcl : rowLen 0 data1 = (some cols, data1) := by
    unfold rowLen
    unfold Server.cols at hc
    rcases hd : S.data with _ | ⟨row, rest⟩
    · rw [hd] at hc; cases hc
    · rw [hd] at hc
      rcases qs with _ | ⟨q, qs⟩
      · rw [hd] at hq; simp at hq
      rcases rs with _ | ⟨r, rs⟩
      · rw [hd] at hlen; simp at hlen
      have := hll 0 r.2 row rfl (by rw [hd]; rfl)
      rw [hd1, hd]
      simp only [List.head?_cons, Option.map_some, Option.some.injEq] at hc
      simp only [List.zip_cons_cons, List.map_cons, List.zipWith_cons_cons, List.getElem?_cons_zero, Option.map_some, Prod.mk.injEq,
        Option.some.injEq, and_true]
      unfold updateDb
      rw [List.length_zipWith, this, min_self, hc]
  rw [bind_some hcl]
  rw [if_neg hne]

/-- C63 (`process_batch`, success): for every database, hash function and batch, if the call returns then the step-by-step execution
returns the same responses and database. -/
theorem C63_process_batch_some (fft : Fft n) (S : Server n) (qs : List (ClientQuery n)) (H : NaiveHash) {ys : List (RLWE n)} {S' : Server n}
    (h : S.processBatch fft qs H = some (ys, S')) : processBatchX id fft S qs H S.data = (some ys, S'.data) := by
  unfold Server.processBatch at h
  split at h
  swap
  · cases h
  rename_i hq
  split at h
  · cases h
  rename_i rs hm
  simp only at h
  split at h
  · cases h
  rename_i cols hc
  split at h
  · cases h
  rename_i hne
  split at h
  · cases h
  rename_i d2 hd2
  cases h
  rw [batch_prefix id fft hq hm hc hne rfl, id]
  rw [bind_some (correctLoopX_eq fft H cols _ _ _ _ _ hd2)]
  rfl

/-- C63 (`process_batch`, panic): with the hash function of the database, in whatever order the items are corrected, a panicking batch
leaves the database unchanged; and it panics iff the batch has the wrong number of queries or a query of the wrong size. -/
theorem C63_process_batch (fft : Fft n) {S : Server n} (hp : ParamsOK S.ctx) (shuffle : List Nat → List Nat)
    (hsh : ∀ l, (shuffle l).Perm l) {hc N : Nat} {H : NaiveHash} (hnew : NaiveHash.new shuffle hc N = some H) {rows cols : Nat}
    (hrows : 0 < rows) (hcols : 0 < cols) (hsize : rows * cols = hc * N) (hlen : S.data.length = rows)
    (hrow : ∀ row ∈ S.data, row.length = cols) (qs : List (ClientQuery n)) (order : List Nat → List Nat) (horder : ∀ l, (order l).Perm l) :
    ((processBatchX order fft S qs H S.data).1 = none ↔ qs.length ≠ rows ∨ ∃ q ∈ qs, q.a = [] ∨ 2 ^ q.a.length ≠ cols) ∧
    ((processBatchX order fft S qs H S.data).1 = none → (processBatchX order fft S qs H S.data).2 = S.data) ∧
    (processBatchX order fft S qs H S.data).1 = (S.processBatch fft qs H).map Prod.fst := by
  have hpos : 0 < hc := by
    rcases Nat.eq_zero_or_pos hc with h0 | h0
    · have := (C09_new_panics shuffle hc N).mpr h0
      rw [hnew] at this; cases this
    · exact h0
  obtain ⟨T, L⟩ := layout_of_hash shuffle hsh hnew hcols hsize
  have hiff := (C52_batch_panics_iff fft hp shuffle hsh hnew hrows hcols hsize hlen hrow qs).1
  rw [← hiff]
  suffices hs : (S.processBatch fft qs H = none → processBatchX order fft S qs H S.data = (none, S.data)) ∧
      ∀ ys S', S.processBatch fft qs H = some (ys, S') → (processBatchX order fft S qs H S.data).1 = some ys by
    rcases hr : S.processBatch fft qs H with _ | ⟨ys, S'⟩
    · rw [hs.1 hr]; simp
    · rw [hs.2 ys S' hr]; simp
  constructor
  · intro hnone
    have hbad := hiff.mp hnone
    by_cases hq : qs.length = S.data.length
    swap
    · unfold processBatchX; rw [if_neg hq]
    · have hex : ∃ q ∈ qs, q.a = [] ∨ 2 ^ q.a.length ≠ cols := hbad.resolve_left (by omega)
      obtain ⟨q, hqm, hqb⟩ := hex
      obtain ⟨k, hk⟩ := List.mem_iff_getElem?.mp hqm
      have hkl : k < S.data.length := by rw [← hq]; exact (List.getElem?_eq_some_iff.mp hk).1
      have hmem : (q, S.data[k]) ∈ qs.zip S.data := List.mem_of_getElem? (zip_getElem.mpr ⟨hk, List.getElem?_eq_getElem hkl⟩)
      have hn : batchRow fft S (q, S.data[k]) = none := by
        unfold batchRow
        rw [(processOneSt_shape fft hp q S.data[k] S.negS).1, hrow _ (List.getElem_mem hkl)]
        exact hqb
      unfold processBatchX
      rw [if_pos hq, mapOption_none hmem hn]
      rfl
  · intro ys S' h
    unfold Server.processBatch at h
    split at h
    swap
    · cases h
    rename_i hq
    split at h
    · cases h
    rename_i rs hm
    simp only at h
    split at h
    · cases h
    rename_i cols' hc'
    split at h
    · cases h
    rename_i hne
    split at h
    · cases h
    rename_i d2 hd2
    cases h
    have hcc : cols' = cols := by
      unfold Server.cols at hc'
      rcases hd : S.data with _ | ⟨row, rest⟩
      · rw [hd] at hc'; cases hc'
      · rw [hd] at hc'
        simp only [List.head?_cons, Option.map_some, Option.some.injEq] at hc'
        rw [← hc']; exact hrow row (by rw [hd]; simp)
    subst hcc
    have hrl : rs.length = rows := by rw [mapOption_length hm, List.length_zip, hq, min_self, hlen]
    have hls : ∀ l ∈ rs.map Prod.snd, l.length = cols' := fun l hl => by
      obtain ⟨r, hr, rfl⟩ := List.mem_map.mp hl
      obtain ⟨x, hx, he⟩ := mapOption_inv_mem hm hr
      rw [processOneSt_length he]
      exact hrow _ (List.of_mem_zip hx).2
    rw [batch_prefix order fft hq hm hc' hne rfl, hlen, L.count, hsize, Nat.mul_div_cancel_left _ hpos]
    obtain ⟨db', c1, _⟩ := correctAll_shape fft L hpos (ls := rs.map Prod.snd) (flags := qs.map ClientQuery.op) (by simp [hrl]) hls
      (by simp [hq, hlen]) (order (List.range N))
      (List.zipWith (fun (x : ClientQuery n × List (RLWE n)) l => updateDb fft x.1 x.2 l) (qs.zip S.data) (rs.map Prod.snd))
      (fun i hi => List.mem_range.mp ((horder _).mem_iff.mp hi)) (by
        refine ⟨by simp [hq, hlen, hrl], fun row hr => ?_⟩
        obtain ⟨j, hj⟩ := List.mem_iff_getElem?.mp hr
        rw [List.getElem?_zipWith] at hj
        split at hj
        · rename_i x l hx hl
          cases hj
          unfold updateDb
          rw [List.length_zipWith, hrow _ (List.mem_of_getElem? (zip_getElem.mp hx).2), hls l (List.mem_of_getElem? hl), min_self]
        · cases hj)
    rw [bind_some (correctLoopX_eq fft H cols' _ _ _ _ _ c1)]
    rfl

/-- Small parameters, a one-row server with the items 1 and 2, and the client's query writing 9 to item 1. -/
def crashCtx : Ctx := ⟨16, 2, 16, 2, 16, 2, ⟨4, 1 <<< 60⟩⟩
def crashGen : Gen 1 := ⟨fun _ => ⟨fun _ => 0⟩, fun _ => ⟨fun _ => 0⟩, fun _ => 0, 0⟩
def crashServer : Server 1 := ⟨[[⟨0, ⟨fun _ => 1 <<< 60⟩⟩, ⟨0, ⟨fun _ => 2 <<< 60⟩⟩]], ⟨16, []⟩, crashCtx⟩
def crashQuery : List (ClientQuery 1) := match makeWriteQuery crashCtx 0 2 1 (Poly.const 1 9) crashGen with
  | some r => [r.1]
  | none => []

/-- C63 (FINDING): the hypothesis on the hash function is needed.  With a hash function for fewer items than the database holds,
`process_batch` panics *after* the database was written: the write to item 1 is in the database, although the call panicked. -/
theorem C63_wrong_hash_panics_late : ∃ H, NaiveHash.new id 1 1 = some H ∧ crashQuery.length = 1 ∧
    (processBatchX id ⟨fun _ => 0⟩ crashServer crashQuery H crashServer.data).1 = none ∧
    ((processBatchX id ⟨fun _ => 0⟩ crashServer crashQuery H crashServer.data).2.map fun row => row.map fun c =>
      (decryptDecodeRlwe crashCtx 0 c).get 0) = [[1, 9]] := by
  rcases h : NaiveHash.new id 1 1 with _ | H
  · revert h; decide +kernel
  · refine ⟨H, rfl, by decide +kernel, ?_⟩
    have : H = ⟨[0], 1, 1⟩ := by
      have h' : NaiveHash.new id 1 1 = some ⟨[0], 1, 1⟩ := by decide +kernel
      rw [h'] at h; exact (Option.some.inj h).symm
    subst this
    decide +kernel

/-- The hypotheses of `C63_process_batch` are met by a 3 x 4 database; a batch of two queries panics and changes nothing. -/
example (q : ClientQuery 4) (fft : Fft 4) (C : RGSW 4) :
    processBatchX List.reverse fft ⟨exDb, C, exTreeCtx⟩ [q, q] exHash exDb = (none, exDb) := by
  have h := C63_process_batch (S := ⟨exDb, C, exTreeCtx⟩) fft (show ParamsOK exTreeCtx by unfold ParamsOK; decide) exShuffle exShuffle_perm exHash_new (rows := 3) (cols := 4)
    (by decide) (by decide) (by decide) exDb_shape.1 exDb_shape.2 [q, q] List.reverse (fun l => List.reverse_perm l)
  have h1 := h.1.mpr (Or.inl (by simp))
  exact Prod.ext h1 (h.2.1 h1)

end Panacea
