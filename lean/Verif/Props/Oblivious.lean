import Verif.Lemmas.Circuit
import Verif.Props.Sched

/-!
# C51: the shape of a query and the server's operations do not depend on the access
-/

namespace Panacea
variable {n : Nat}

/-! ### Queries -/

/-- The shape of a query for `cols` columns: the numbers of address ciphertexts and of levels of every RGSW ciphertext. -/
structure QueryShape (ctx : Ctx) (cols : Nat) (q : ClientQuery n) : Prop where
  addr : q.a.length = Nat.log2 cols
  levels : ∀ C ∈ q.a, C.baseLog = ctx.baseLog ∧ C.rows.length = ctx.levelCount
  op : q.op.baseLog = ctx.baseLog ∧ q.op.rows.length = ctx.levelCount

theorem mapGen_mem {α β : Type} {f : α → Gen n → β × Gen n} : ∀ (l : List α) (g : Gen n) {b : β}, b ∈ (mapGen f l g).1 →
    ∃ a g', b = (f a g').1
  | [], _, b, h => by cases h
  | a :: l, g, b, h => by
    rw [mapGen] at h
    rcases List.mem_cons.mp h with rfl | h
    · exact ⟨a, g, rfl⟩
    · exact mapGen_mem l _ h

theorem bits_levels {ctx : Ctx} {s : Poly n} {cols i : Nat} {g g' : Gen n} {bits : List (RGSW n)}
    (h : bitDecomposedRgsw ctx s i cols g = some (bits, g')) :
    ∀ C ∈ bits, C.baseLog = ctx.baseLog ∧ C.rows.length = ctx.levelCount := by
  unfold bitDecomposedRgsw at h
  split at h
  · cases h
  · intro C hC
    injection h with h
    have hC' : C ∈ (bits, g').1 := hC
    rw [← h] at hC'
    obtain ⟨b, g1, rfl⟩ := mapGen_mem _ _ hC'
    exact ⟨rfl, encryptConstantRgsw_levelCount _ _ _ _ _⟩

/-- C51 (read query): same shape for every index. -/
theorem C51_read_query {ctx : Ctx} {s : Poly n} {cols i : Nat} {g : Gen n} {r : ClientQuery n × Gen n}
    (h : makeReadQuery ctx s cols i g = some r) (h0 : 0 < cols) (h1 : cols < 2 ^ 64) : QueryShape ctx cols r.1 := by
  refine ⟨read_query_addr h h0 h1, ?_, ?_⟩ <;>
  · unfold makeReadQuery at h
    split at h
    · cases h
    · rename_i a g1 ha
      simp only at h
      split at h
      · cases h
      · cases h
        first
        | exact bits_levels ha
        | exact ⟨rfl, encryptConstantRgsw_levelCount _ _ _ _ _⟩

/-- C51 (write query): same shape for every index and every data, and the same as a read query's. -/
theorem C51_write_query {ctx : Ctx} {s : Poly n} {cols i : Nat} {alpha : Poly n} {g : Gen n} {r : ClientQuery n × Gen n}
    (h : makeWriteQuery ctx s cols i alpha g = some r) (h0 : 0 < cols) (h1 : cols < 2 ^ 64) : QueryShape ctx cols r.1 := by
  refine ⟨write_query_addr h h0 h1, ?_, ?_⟩ <;>
  · unfold makeWriteQuery at h
    split at h
    · cases h
    · rename_i a g1 ha
      simp only at h
      split at h
      · cases h
      · cases h
        first
        | exact bits_levels ha
        | exact ⟨rfl, encryptConstantRgsw_levelCount _ _ _ _ _⟩

theorem mapGenM_forall {α β : Type} {f : α → Gen n → Option (β × Gen n)} {Q : β → Prop} (h : ∀ a g r, f a g = some r → Q r.1) :
    ∀ {l : List α} {g : Gen n} {r : List β × Gen n}, mapGenM f l g = some r → r.1.length = l.length ∧ ∀ b ∈ r.1, Q b
  | [], _, r, hr => by cases hr; exact ⟨rfl, by simp⟩
  | a :: l, g, r, hr => by
    rw [mapGenM] at hr
    cases ha : f a g with
    | none => rw [ha] at hr; cases hr
    | some x =>
      rw [ha] at hr
      simp only at hr
      cases hl : mapGenM f l x.2 with
      | none => rw [hl] at hr; cases hr
      | some y =>
        rw [hl] at hr
        cases hr
        obtain ⟨h1, h2⟩ := mapGenM_forall h hl
        refine ⟨by simp [h1], ?_⟩
        intro b hb
        rcases List.mem_cons.mp hb with rfl | hb
        · exact h a g x ha
        · exact h2 b hb

/-- C51 (batch): whatever the indices, the operation and the data, a batch is one query of the same shape for every row. -/
theorem C51_batch_query {ctx : Ctx} {s : Poly n} {rows cols : Nat} {H : NaiveHash} {indices : List Nat} {g : Gen n}
    {qs : List (ClientQuery n)} {g' : Gen n} (h0 : 0 < cols) (h1 : cols < 2 ^ 64)
    (h : genReadQueryBatch ctx s rows cols H indices g = some (qs, g') ∨
      ∃ alpha, genWriteQueryBatch ctx s rows cols H indices alpha g = some (qs, g')) :
    qs.length = rows ∧ ∀ q ∈ qs, QueryShape ctx cols q := by
  rcases h with h | ⟨alpha, h⟩
  · unfold genReadQueryBatch at h
    split at h
    · cases h
    · have := mapGenM_forall (Q := QueryShape ctx cols) (fun r g x hx => by
        unfold readQueryRow at hx
        split at hx <;> exact C51_read_query hx h0 h1) h
      rwa [List.length_range] at this
  · unfold genWriteQueryBatch at h
    split at h
    · cases h
    · have := mapGenM_forall (Q := QueryShape ctx cols) (fun r g x hx => by
        unfold writeQueryRow at hx
        split at hx
        · exact C51_write_query hx h0 h1
        · exact C51_read_query hx h0 h1) h
      rwa [List.length_range] at this

/-! ### Homomorphic operations -/

/-- C51 (process_one): for every public shape there is one circuit (or one panic) that gives the response and the new database for all
databases, keys and queries of that shape. -/
theorem C51_process_one (ctx : Ctx) (lens : List Nat) (D : Nat) : ∃ o : Outcome, ∀ (n : Nat) (reduce : List (RLWE n) → RLWE n),
    IsReduction (· + ·) 0 reduce → ∀ (fft : Fft n) (S : Server n) (q : ClientQuery n), HasShape ctx lens [D] S [q] →
    (S.processOne reduce fft q).map (fun r => ([r.1], r.2.data)) = o.eval fft (inputsOf S [q]) := by
  refine ⟨oneSym ctx (dataCircs lens) ⟨(List.range D).map (GCirc.addr 0), .op 0, .data 0⟩, ?_⟩
  intro n reduce hr fft S q ⟨h1, h2, h3⟩
  have h4 := queryCircs_eval fft S [q]
  rw [h3] at h4
  have h5 : (⟨(List.range D).map (GCirc.addr 0), .op 0, .data 0⟩ : QCirc).eval fft (inputsOf S [q]) = q := by
    have : [(⟨(List.range D).map (GCirc.addr 0), .op 0, .data 0⟩ : QCirc).eval fft (inputsOf S [q])] = [q] := h4
    injection this
  have := one_sym fft (inputsOf S [q]) hr S (dataCircs lens) ⟨(List.range D).map (GCirc.addr 0), .op 0, .data 0⟩
    (by rw [← h2]; exact (dataCircs_eval fft S [q]).symm) rfl
  rw [h5, h1] at this
  exact this

/-- C51 (process_multi). -/
theorem C51_process_multi (ctx : Ctx) (lens addrs : List Nat) : ∃ o : Outcome, ∀ (n : Nat) (reduceV : List (List (RLWE n)) → List (RLWE n))
    (reduceG : List (List (RGSW n)) → List (RGSW n)), (∀ cols, lens.head? = some cols → IsReduction addVec (List.replicate cols 0) reduceV) →
    (∀ cols, lens.head? = some cols → IsReduction addGswVec (List.replicate cols (RGSW.allocate n ctx.baseLog ctx.levelCount)) reduceG) →
    ∀ (fft : Fft n) (S : Server n) (qs : List (ClientQuery n)), HasShape ctx lens addrs S qs →
    (S.processMulti reduceV reduceG fft qs).map (fun r => (r.1, r.2.data)) = o.eval fft (inputsOf S qs) := by
  refine ⟨multiSym ctx (dataCircs lens) (queryCircs addrs), ?_⟩
  intro n reduceV reduceG hV hG fft S qs ⟨h1, h2, h3⟩
  have h4 := queryCircs_eval fft S qs
  have hl : ∀ row rest, S.data = row :: rest → lens.head? = some row.length := by
    intro row rest h; rw [← h2, h]; rfl
  have := multi_sym fft (inputsOf S qs) (reduceV := reduceV) (reduceG := reduceG) S (dataCircs lens) (queryCircs addrs)
    (by rw [← h2]; exact (dataCircs_eval fft S qs).symm) rfl (fun row rest h => hV _ (hl row rest h))
    (fun row rest h => by rw [h1]; exact hG _ (hl row rest h))
  rw [h3] at h4
  rw [h4, h1] at this
  exact this

/-- C51 (process_batch). -/
theorem C51_process_batch (ctx : Ctx) (lens addrs : List Nat) (H : NaiveHash) : ∃ o : Outcome, ∀ (n : Nat) (fft : Fft n) (S : Server n)
    (qs : List (ClientQuery n)), HasShape ctx lens addrs S qs →
    (S.processBatch fft qs H).map (fun r => (r.1, r.2.data)) = o.eval fft (inputsOf S qs) := by
  refine ⟨batchSym ctx (dataCircs lens) (queryCircs addrs) H, ?_⟩
  intro n fft S qs ⟨h1, h2, h3⟩
  have h4 := queryCircs_eval fft S qs
  have := batch_sym fft (inputsOf S qs) S (dataCircs lens) (queryCircs addrs) H
    (by rw [← h2]; exact (dataCircs_eval fft S qs).symm) rfl
  rw [h3] at h4
  rw [h4, h1] at this
  exact this

/-! ### Cell accesses -/

theorem selectors_length {fft : Fft n} {ctx : Ctx} {q : ClientQuery n} {cols : Nat} {L : List (List (RLWE n))}
    (hL : decomposedSelectors fft ctx q cols = some L) : L.length = cols := by
  unfold decomposedSelectors at hL
  split at hL
  · cases hL
  · split at hL
    · cases hL
    · split at hL
      · injection hL with hL; subst hL; assumption
      · cases hL

/-- C51 (process_one, memory): under every schedule the server runs three phases whose tasks access cells in an order fixed by the number
of levels and of columns. -/
theorem C51_one_accesses {N : Nat} {deny : Policy n} {fft : Fft n} {S : Server n} {q : ClientQuery n} {y : RLWE n} {S' : Server n}
    (h : ProcessOneSched N deny fft S q y S') : ∃ row Ts, S.data.head? = some row ∧ RanPhases N deny Ts S.data S'.data ∧
    Ts.map shapes = oneAccesses S.ctx.levelCount row.length := by
  obtain ⟨row, h1, mem1, outs1, h2, L, h3, mem2, outs2, h4, rs, h5, h6, mem3, outs3, h7, rfl⟩ := h
  refine ⟨row, _, h1, .phase h2 (.phase h4 (.phase h7 (.done _))), ?_⟩
  obtain ⟨a1, a2, oa, a3⟩ := level_phase S.ctx.levelCount S.data
  have e1 := parRun_eq_seq a1 a2 h2
  rw [a3] at e1
  cases e1
  have hrow : S.data[0]? = some row := by rw [← h1]; cases S.data <;> rfl
  obtain ⟨b1, b2, ob, b3, b4⟩ := columns_phase hrow
  have e2 := parRun_eq_seq b1 b2 h4
  rw [b3] at e2
  cases e2
  have hlen : (rs.map Prod.snd).length = row.length := by
    rw [List.length_map, mapOption_length h5, List.length_zip, b4, selectors_length h3, min_self]
  simp only [List.map_cons, List.map_nil, oneAccesses, shapes, List.map_map]
  refine congr (congrArg _ ?_) (congr (congrArg _ ?_) (congrArg (· :: []) ?_))
  · apply List.ext_getElem
    · simp
    · intro i _ _; simp [levelTask, Stmt.shape]
  · apply List.ext_getElem
    · simp
    · intro i _ _; simp [columnTask, Stmt.shape]
  · apply List.ext_getElem
    · rw [List.length_map, List.length_zip, hlen]; simp
    · intro i _ _; simp [updateTask, Stmt.shape]

theorem map_flatMap_shape {α : Type} (l : List α) (f : α → Task n) (g : α → List StmtShape) (h : ∀ a, (f a).map Stmt.shape = g a) :
    (l.flatMap f).map Stmt.shape = l.flatMap g := by
  induction l with
  | nil => rfl
  | cons a l ih => rw [List.flatMap_cons, List.flatMap_cons, List.map_append, ih, h]

theorem stTask_shape (r levels cols : Nat) : (stTask (n := n) r levels cols).map Stmt.shape = rowAccesses r levels cols := by
  unfold stTask rowAccesses
  rw [List.map_append, List.map_replicate, List.map_cons, map_flatMap_shape _ _ _ (fun _ => rfl)]
  rfl

/-- C51 (process_multi, memory). -/
theorem C51_multi_accesses {N : Nat} {deny : Policy n} {fft : Fft n} {S : Server n} {qs : List (ClientQuery n)} {ys : List (RLWE n)}
    {S' : Server n} (h : ProcessMultiSched N deny fft S qs ys S') : ∃ row Ts, S.data.head? = some row ∧
    RanPhases N deny Ts S.data S'.data ∧ Ts.map shapes = multiAccesses S.ctx.levelCount row.length qs.length := by
  obtain ⟨row, h1, mem1, outs1, h2, rs, h3, mem2, outs2, h4, tmps, h5, sels, h6, mem3, outs3, h7, rfl, rfl⟩ := h
  refine ⟨row, _, h1, .phase h2 (.phase h4 (.phase h7 (.done _))), ?_⟩
  have hrow0 : S.data[0]? = some row := by rw [← h1]; cases S.data <;> rfl
  obtain ⟨a1, a2, a3⟩ := readonly_phase (xs := qs) (F := fun _ => stTask (n := n) 0 S.ctx.levelCount row.length) (mem := S.data) (fun _ => row)
    (fun _ p => stTask_readonly _ _ _ p) (fun _ _ => runTask_stTask hrow0 _)
  obtain ⟨b1, b2, b3⟩ := readonly_phase (xs := qs) (F := fun _ => multiTmpTask (n := n) row.length) (mem := S.data) (fun _ => row)
    (fun _ p => multiTmp_readonly _ p) (fun _ _ => runTask_multiTmp hrow0)
  rw [map_const_replicate qs row] at a3 b3
  have e1 := parRun_eq_seq a1 a2 h2
  rw [a3] at e1
  cases e1
  have e2 := parRun_eq_seq b1 b2 h4
  rw [b3] at e2
  cases e2
  rw [zip_replicate_map, mapOption_map] at h3
  have s1 : ∀ x ∈ rs.map Prod.snd, SelShape row.length S.ctx.baseLog S.ctx.levelCount x := by
    intro x hx
    obtain ⟨⟨y, ls⟩, hr, rfl⟩ := List.mem_map.mp hx
    obtain ⟨q, _, hq⟩ := mapOption_mem h3 _ hr
    exact processOneSt_selShape fft hq
  have s2 : qs.length = (rs.map Prod.snd).length := by rw [List.length_map, mapOption_length h3]
  rw [zipWith_zip_replicate (fun q (x : List (RGSW n) × List (RLWE n)) => multiTmps fft x.2 q x.1) row qs _ s2] at h5
  have s3 : ∀ x ∈ List.zipWith (multiTmps fft row) qs (rs.map Prod.snd), x.length = row.length := by
    intro x hx
    obtain ⟨i, hi, rfl⟩ := List.getElem_of_mem hx
    rw [List.length_zipWith] at hi
    rw [List.getElem_zipWith, multiTmps, List.length_zipWith]
    have := (s1 _ (List.getElem_mem (l := rs.map Prod.snd) (n := i) (by omega))).1
    omega
  have e3 := (parReduce_vec h5 s3).1
  have e4 := (parReduce_gsw h6 s1).1.1
  simp only [List.map_cons, List.map_nil, multiAccesses, shapes, List.map_map]
  refine congr (congrArg _ ?_) (congr (congrArg _ ?_) (congrArg (· :: []) ?_))
  · apply List.ext_getElem
    · simp
    · intro i _ _; simp [stTask_shape]
  · apply List.ext_getElem
    · simp
    · intro i _ _
      simp only [List.getElem_map, Function.comp, List.getElem_replicate, multiTmpTask]
      exact map_flatMap_shape _ _ _ (fun _ => rfl)
  · apply List.ext_getElem
    · rw [List.length_map, List.length_zip, List.length_zip, e3, e4]; simp
    · intro i _ _; simp [multiUpdateTask, Stmt.shape]

theorem itemTask_shape (fft : Fft n) (ls : List (List (RGSW n))) (flags : List (RGSW n)) : ∀ ps : List (Nat × Nat),
    (itemTask fft ls flags ps).map Stmt.shape = itemAccesses ps
  | [] => rfl
  | first :: others => by
    simp [itemTask, itemAccesses, Stmt.shape, List.map_flatMap, Function.comp_def]

/-- C51 (process_batch, memory): the order of accesses is fixed by the sizes and the hash table. -/
theorem C51_batch_accesses {N : Nat} {deny : Policy n} {fft : Fft n} {S : Server n} {qs : List (ClientQuery n)} {H : NaiveHash}
    {ys : List (RLWE n)} {S' : Server n} {rows cols : Nat} (hrows : 0 < rows) (hsh : DbShape rows cols S.data)
    (h : ProcessBatchSched N deny fft S qs H ys S') : ∃ poss Ts,
    mapOption (itemPositions H cols) (List.range (rows * cols / H.hCount)) = some poss ∧
    RanPhases N deny Ts S.data S'.data ∧ Ts.map shapes = batchAccesses S.ctx.levelCount rows cols poss := by
  obtain ⟨hq, hh, mem1, outs1, h2, rs, h3, mem2, outs2, h4, cols', h5, poss, h6, mem3, outs3, h7, rfl, rfl⟩ := h
  have hScols : S.cols = some cols := by
    unfold Server.cols
    rcases hS : S.data with _ | ⟨row, rest⟩
    · have := hsh.1; rw [hS] at this; simp at this; omega
    · simp [hsh.2 row (by rw [hS]; exact List.mem_cons_self)]
  rw [hScols] at h5
  cases h5
  refine ⟨poss, _, by rw [← hsh.1]; exact h6, .phase h2 (.phase h4 (.phase h7 (.done _))), ?_⟩
  obtain ⟨a1, a2, a3⟩ := readonly_phase (xs := (List.range S.data.length).zip S.data)
    (F := fun x => stTask (n := n) x.1 S.ctx.levelCount x.2.length) (mem := S.data) Prod.snd
    (fun _ p => stTask_readonly _ _ _ p) (fun x hx => by
      obtain ⟨k, hk⟩ := List.mem_iff_getElem?.mp hx
      obtain ⟨k1, k2⟩ := zip_getElem.mp hk
      have hkl := (List.getElem?_eq_some_iff.mp k2).1
      rw [List.getElem?_range hkl] at k1
      injection k1 with k1
      rw [← k1]
      exact runTask_stTask k2 _)
  rw [zip_range_snd] at a3
  have e1 := parRun_eq_seq a1 a2 h2
  rw [a3] at e1
  cases e1
  have hrl : (rs.map Prod.snd).length = rows := by
    rw [List.length_map, mapOption_length h3, List.length_zip, hq, hsh.1, min_self]
  have hls : ∀ l ∈ rs.map Prod.snd, l.length = cols := by
    intro l hl
    obtain ⟨⟨y, l'⟩, hr, rfl⟩ := List.mem_map.mp hl
    obtain ⟨⟨q, row⟩, hm, hq'⟩ := mapOption_mem h3 _ hr
    have := (processOneSt_selShape fft (hq' : processOneSt fft S.ctx q row S.negS = some (y, l'))).1
    rw [this]
    exact hsh.2 row (List.of_mem_zip hm).2
  simp only [List.map_cons, List.map_nil, batchAccesses, shapes, List.map_map]
  refine congr (congrArg _ ?_) (congr (congrArg _ ?_) (congrArg (· :: []) ?_))
  · apply List.ext_getElem
    · simp [hsh.1]
    · intro i h1 _
      have hi : i < S.data.length := by simpa using h1
      simp [stTask_shape, hsh.2 _ (List.getElem_mem hi)]
  · apply List.ext_getElem
    · rw [List.length_map, List.length_zip, List.length_zip, hrl, hq, hsh.1]; simp
    · intro i h1 h2
      have hi : i < rows := by simpa using h2
      simp only [List.getElem_map, Function.comp, List.getElem_zip, List.getElem_range, updateStTask, List.map_cons, Stmt.shape]
      congr 1
      have hl : (rs.map Prod.snd)[i].length = cols := hls _ (List.getElem_mem (by omega))
      rw [List.getElem_map] at hl
      rw [map_flatMap_shape _ _ (fun x => [.read (i, x.1) true, .read (i, x.1) true, .write (i, x.1)]) (fun _ => rfl), hl]
      have : ∀ (a b : List Nat) (ls : List (RGSW n)), ls.length = a.length →
          (a.zip ls).flatMap (fun x => [StmtShape.read (i, x.1) true, .read (i, x.1) true, .write (i, x.1)])
            = a.flatMap fun j => [.read (i, j) true, .read (i, j) true, .write (i, j)] := by
        intro a
        induction a with
        | nil => intros; rfl
        | cons x a ih =>
          intro b ls h
          cases ls with
          | nil => simp at h
          | cons l ls => rw [List.zip_cons_cons, List.flatMap_cons, List.flatMap_cons, ih b ls (by simpa using h)]
      exact this _ [] _ (by rw [hl, List.length_range])
  · apply List.map_congr_left
    intro ps _
    exact itemTask_shape _ _ _ ps

/-! ### Non-vacuity -/

/-- C51: two different accesses with the same shape, served by the same circuit. -/
example : ∃ q g1 q' g2, makeReadQuery exTreeCtx exKey 4 1 exGen = some (q, g1) ∧
    makeWriteQuery exTreeCtx exKey 4 2 ⟨fun _ => 7⟩ exGen = some (q', g2) ∧
    HasShape exTreeCtx [4] [2] (⟨[exRow], ⟨3, []⟩, exTreeCtx⟩ : Server 4) [q] ∧
    HasShape exTreeCtx [4] [2] (⟨[exRow], ⟨3, []⟩, exTreeCtx⟩ : Server 4) [q'] ∧ q ≠ q' := by
  have hw : Spec.Encodable (16 : Scalar) (⟨fun _ => 7⟩ : Poly 4) := fun k => by show (7 : Scalar).toNat < _; decide
  obtain ⟨q', g2, enc, q1, -, -, -⟩ := C42_write_query (t := 16) (ctx := exTreeCtx) (by decide) (by decide) (by decide) (by decide)
    exKey (i := 2) (D := 2) (by decide) (by decide) hw exGen_bounded
  obtain ⟨q, g1, m, p1, -, -⟩ := C42_read_query (t := 16) (ctx := exTreeCtx) (by decide) (by decide) (by decide) (by decide)
    exKey (i := 1) (D := 2) (by decide) (by decide) exGen_bounded
  refine ⟨q, g1, q', g2, p1, q1, ⟨rfl, rfl, ?_⟩, ⟨rfl, rfl, ?_⟩, ?_⟩
  · rw [List.map_cons, List.map_nil, (C51_read_query p1 (by decide) (by decide)).addr]; decide
  · rw [List.map_cons, List.map_nil, (C51_write_query q1 (by decide) (by decide)).addr]; decide
  · intro h
    have e : (makeReadQuery exTreeCtx exKey (2 ^ 2) 1 exGen).map (fun r => r.1.a.map fun C => C.rows.map fun x => x.1.mask.coeff 0)
        = (makeWriteQuery exTreeCtx exKey (2 ^ 2) 2 ⟨fun _ => 7⟩ exGen).map (fun r => r.1.a.map fun C => C.rows.map fun x => x.1.mask.coeff 0) := by
      rw [p1, q1, h]; rfl
    exact absurd e (by decide +kernel)

end Panacea
