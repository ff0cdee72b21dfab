import Verif.Props.Main
import Verif.Props.Fresh
import Verif.Props.EncEval
import Verif.Props.Batch

/-!
# Which noise polynomials a randomised function uses (for C78)

`Draws f k`: whatever the key, masks and plaintexts, the function `f` advances the streams by a fixed amount and its outcome depends on at
most `k` noise polynomials, at fixed positions.  `ι` is the type of everything else the function depends on.
-/

namespace Panacea
variable {n : Nat} {ι : Type*}

/-- `f` advances the streams by `K` whenever it returns, and its outcome depends only on the noises at the offsets `P`. -/
structure DrawsAt {α : Type} (f : ι → Gen n → Option (α × Gen n)) (K : Nat) (P : List Nat) : Prop where
  adv : ∀ w g a g', f w g = some (a, g') → g' = ⟨g.masks, g.noises, g.plains, g.pos + K⟩
  loc : ∀ w masks e e' plains pos, (∀ p ∈ P, e (pos + p) = e' (pos + p)) →
    (f w ⟨masks, e, plains, pos⟩).map Prod.fst = (f w ⟨masks, e', plains, pos⟩).map Prod.fst

/-- `f` depends on at most `k` noise polynomials. -/
def Draws {α : Type} (f : ι → Gen n → Option (α × Gen n)) (k : Nat) : Prop := ∃ K P, P.length ≤ k ∧ DrawsAt f K P

theorem Draws.mono {α : Type} {f : ι → Gen n → Option (α × Gen n)} {k k' : Nat} (h : Draws f k) (hk : k ≤ k') : Draws f k' := by
  obtain ⟨K, P, h1, h2⟩ := h
  exact ⟨K, P, h1.trans hk, h2⟩

/-- Reindexing. -/
theorem Draws.comp {α : Type} {κ : Type*} {f : ι → Gen n → Option (α × Gen n)} {k : Nat} (h : Draws f k) (φ : κ → ι) :
    Draws (fun w => f (φ w)) k := by
  obtain ⟨K, P, h1, h2⟩ := h
  exact ⟨K, P, h1, fun w => h2.adv (φ w), fun w => h2.loc (φ w)⟩

theorem Draws.pure {α : Type} (o : ι → Option α) : Draws (fun w (g : Gen n) => (o w).map fun a => (a, g)) 0 := by
  refine ⟨0, [], le_refl _, ?_, ?_⟩
  · intro w g a g' h
    cases ho : o w with
    | none => rw [ho] at h; simp at h
    | some b => rw [ho] at h; simp at h; rw [← h.2]; rfl
  · intro w masks e e' plains pos _
    cases o w <;> rfl

theorem Draws.none {α : Type} : Draws (fun (_ : ι) (_ : Gen n) => (none : Option (α × Gen n))) 0 :=
  by
  refine ⟨0, [], le_refl _, ?_, fun _ _ _ _ _ _ _ => rfl⟩
  intro w g a g' h
  cases h

/-- Sequencing. -/
theorem Draws.bind {α β : Type} {f : ι → Gen n → Option (α × Gen n)} {h : ι × α → Gen n → Option (β × Gen n)} {k1 k2 : Nat}
    (hf : Draws f k1) (hh : Draws h k2) : Draws (fun w g => (f w g).bind fun r => h (w, r.1) r.2) (k1 + k2) := by
  obtain ⟨K1, P1, a1, a2⟩ := hf
  obtain ⟨K2, P2, b1, b2⟩ := hh
  refine ⟨K1 + K2, P1 ++ P2.map (K1 + ·), by simp; omega, ?_, ?_⟩
  · intro w g b g' e
    cases hfe : f w g with
    | none => rw [hfe] at e; cases e
    | some r =>
      rw [hfe] at e
      have e1 := a2.adv w g r.1 r.2 hfe
      have e2 := b2.adv (w, r.1) r.2 b g' e
      rw [e2, e1]
      simp [Nat.add_assoc]
  · intro w masks e e' plains pos hp
    have h1 := a2.loc w masks e e' plains pos (fun p hp' => hp p (by simp [hp']))
    cases hfe : f w ⟨masks, e, plains, pos⟩ with
    | none =>
      cases hfe' : f w ⟨masks, e', plains, pos⟩ with
      | none => rfl
      | some r => rw [hfe, hfe'] at h1; cases h1
    | some r =>
      cases hfe' : f w ⟨masks, e', plains, pos⟩ with
      | none => rw [hfe, hfe'] at h1; cases h1
      | some r' =>
        rw [hfe, hfe'] at h1
        have e0 : r.1 = r'.1 := by simpa using h1
        have e1 := a2.adv w _ r.1 r.2 hfe
        have e2 := a2.adv w _ r'.1 r'.2 hfe'
        show (h (w, r.1) r.2).map Prod.fst = (h (w, r'.1) r'.2).map Prod.fst
        rw [e1, e2, e0]
        exact b2.loc (w, r'.1) masks e e' plains (pos + K1) (fun p hp' => by
          have := hp (K1 + p) (by simp [hp'])
          rwa [← Nat.add_assoc] at this)

/-- Post-processing without randomness, possibly panicking. -/
theorem Draws.map {α β : Type} {f : ι → Gen n → Option (α × Gen n)} {k : Nat} (hf : Draws f k) (o : ι → α → Option β) :
    Draws (fun w g => (f w g).bind fun r => (o w r.1).map fun b => (b, r.2)) k :=
  Draws.bind hf (h := fun x g => (o x.1 x.2).map fun b => (b, g)) (Draws.pure _)

theorem Draws.congr {α : Type} {f f' : ι → Gen n → Option (α × Gen n)} {k : Nat} (hf : Draws f k) (h : ∀ w g, f' w g = f w g) : Draws f' k := by
  have : f' = f := funext fun w => funext fun g => h w g
  rw [this]; exact hf

/-- One fresh RLWE encryption uses one noise polynomial. -/
theorem Draws.enc (s m : ι → Poly n) : Draws (fun w g => some (encryptRlwe (s w) (m w) g)) 1 := by
  refine ⟨1, [0], le_refl _, ?_, ?_⟩
  · intro w g a g' h
    simp only [encryptRlwe, Option.some.injEq, Prod.mk.injEq] at h
    rw [← h.2]; rfl
  · intro w masks e e' plains pos h
    have := h 0 (by simp)
    simp only [Nat.add_zero] at this
    simp [encryptRlwe, this]

theorem Draws.list {α β : Type} {k : Nat} : ∀ {l : List α} {f : ι → α → Gen n → Option (β × Gen n)},
    (∀ a ∈ l, Draws (fun w => f w a) k) → Draws (fun w => mapGenM (f w) l) (l.length * k)
  | [], f, _ => by
    refine Draws.congr (f := fun w g => (some ([] : List β)).map fun a => (a, g)) ((Draws.pure _).mono (by simp)) (fun w g => rfl)
  | a :: l, f, h => by
    have h1 := h a (by simp)
    have h2 := Draws.list (l := l) (f := f) (fun b hb => h b (by simp [hb]))
    have h3 : Draws (fun (x : ι × β) g => (mapGenM (f x.1) l g).bind fun r => (some (x.2 :: r.1)).map fun b => (b, r.2)) (l.length * k) :=
      Draws.map (h2.comp Prod.fst) (fun x r => some (x.2 :: r))
    refine Draws.congr ((h1.bind h3).mono (by simp [Nat.succ_mul, Nat.add_comm])) (fun w g => ?_)
    rw [mapGenM]
    cases f w a g with
    | none => rfl
    | some r =>
      simp only [Option.bind_some]
      cases mapGenM (f w) l r.2 <;> rfl

theorem Draws.listGen {α β : Type} {k : Nat} {l : List α} {f : ι → α → Gen n → β × Gen n}
    (h : ∀ a ∈ l, Draws (fun w g => some (f w a g)) k) : Draws (fun w g => some (mapGen (f w) l g)) (l.length * k) :=
  Draws.congr (Draws.list (f := fun w a g => some (f w a g)) h) (fun w g => (mapGenM_some l g).symm)

/-! ### The functions of the library -/

theorem draws_ggswLevel (s : ι → Poly n) (bl : Nat) (mu : Scalar) (l : Nat) : Draws (fun w g => some (ggswLevel (s w) bl mu l g)) 2 := by
  have h1 := Draws.enc s (fun _ : ι => (0 : Poly n))
  have h2 : Draws (fun (x : ι × RLWE n) g => (some (encryptRlwe (s x.1) 0 g)).bind fun r =>
      (some ((⟨x.2.mask + Poly.const n (mu * gadget bl l), x.2.body⟩, ⟨r.1.mask, r.1.body + Poly.const n (mu * gadget bl l)⟩) :
        RLWE n × RLWE n)).map fun b => (b, r.2)) 1 :=
    Draws.map (Draws.enc (fun x : ι × RLWE n => s x.1) (fun _ => 0)) (fun x r => some
      ((⟨x.2.mask + Poly.const n (mu * gadget bl l), x.2.body⟩, ⟨r.mask, r.body + Poly.const n (mu * gadget bl l)⟩) : RLWE n × RLWE n))
  exact Draws.congr (h1.bind h2) (fun w g => rfl)

theorem draws_constRgsw (s : ι → Poly n) (bl lv : Nat) (mu : Scalar) : Draws (fun w g => some (encryptConstantRgsw (s w) bl lv mu g)) (2 * lv) := by
  have h := Draws.map (Draws.listGen (ι := ι) (l := List.range' 1 lv) (f := fun w l => ggswLevel (s w) bl mu l) (fun l _ => draws_ggswLevel s bl mu l))
    (fun _ rows => some (⟨bl, rows⟩ : RGSW n))
  rw [List.length_range', Nat.mul_comm] at h
  exact Draws.congr h (fun w g => rfl)

theorem draws_bits (ctx : Ctx) (s : ι → Poly n) (i cols : Nat) :
    Draws (fun w => bitDecomposedRgsw ctx (s w) i cols) (2 * ctx.levelCount * (log2 cols).getD 0) := by
  unfold bitDecomposedRgsw
  cases log2 cols with
  | none => exact Draws.none.mono (by omega)
  | some D =>
    have h := Draws.listGen (ι := ι) (l := indexBits i D) (f := fun w (b : Bool) => encryptConstantRgsw (s w) ctx.baseLog ctx.levelCount (if b then 0 else 1))
      (fun b _ => draws_constRgsw s ctx.baseLog ctx.levelCount (if b then 0 else 1))
    refine h.mono ?_
    have : (indexBits i D).length = D := by simp [indexBits]
    rw [this, Nat.mul_comm]
    exact le_refl _

theorem draws_encode (ctx : Ctx) (s m : ι → Poly n) : Draws (fun w => encodeEncryptRlwe ctx (s w) (m w)) 1 := by
  have h : Draws (fun w (g : Gen n) => ((ctx.codec.polyEncode (m w)).map fun a => (a, g)).bind fun r => some (encryptRlwe (s w) r.1 r.2)) (0 + 1) :=
    Draws.bind (Draws.pure _) (h := fun (x : ι × Poly n) g => some (encryptRlwe (s x.1) x.2 g)) (Draws.enc _ _)
  refine Draws.congr h (fun w g => ?_)
  unfold encodeEncryptRlwe
  cases ctx.codec.polyEncode (m w) <;> rfl

/-- Drawing a plaintext uses no noise. -/
theorem draws_plain {α : Type} (F : Poly n → α) : Draws (fun (_ : ι) (g : Gen n) => some (F (g.plains g.pos), g.next)) 0 :=
  ⟨1, [], le_refl _, by rintro w g a g' h; cases h; rfl, fun _ _ _ _ _ _ _ => rfl⟩

/-- Number of noise polynomials of a query. -/
theorem draws_readQuery (ctx : Ctx) (s : ι → Poly n) (cols i : Nat) :
    Draws (fun w => makeReadQuery ctx (s w) cols i) (2 * ctx.levelCount * ((log2 cols).getD 0 + 1) + 1) := by
  have h1 := draws_bits ctx s i cols
  have h2 := draws_plain (ι := ι × List (RGSW n)) (n := n) (fun p => (⟨fun k => p k % 2⟩ : Poly n))
  have h3 := draws_constRgsw (fun x : (ι × List (RGSW n)) × Poly n => s x.1.1) ctx.baseLog ctx.levelCount 0
  have h4 := Draws.map (draws_encode ctx (fun x : ((ι × List (RGSW n)) × Poly n) × RGSW n => s x.1.1.1) (fun x => x.1.2))
    (fun x d => some (⟨x.1.1.2, x.2, d⟩ : ClientQuery n))
  refine Draws.congr ((h1.bind (h2.bind (h3.bind h4))).mono ?_) (fun w g => ?_)
  · rw [Nat.mul_succ]; omega
  · unfold makeReadQuery
    rcases bitDecomposedRgsw ctx (s w) i cols g with _ | ⟨a, g⟩
    · rfl
    · simp only [Option.bind_some]
      unfold genBinaryPt genEncOp
      simp only
      generalize encryptConstantRgsw (s w) ctx.baseLog ctx.levelCount 0 g.next = r
      rcases encodeEncryptRlwe ctx (s w) ⟨fun k => g.plains g.pos k % 2⟩ r.2 with _ | ⟨d, g⟩ <;> rfl

theorem draws_writeQuery (ctx : Ctx) (s : ι → Poly n) (cols i : Nat) (alpha : Poly n) :
    Draws (fun w => makeWriteQuery ctx (s w) cols i alpha) (2 * ctx.levelCount * ((log2 cols).getD 0 + 1) + 1) := by
  have h1 := draws_bits ctx s i cols
  have h3 := draws_constRgsw (fun x : ι × List (RGSW n) => s x.1) ctx.baseLog ctx.levelCount 1
  have h4 := Draws.map (draws_encode ctx (fun x : (ι × List (RGSW n)) × RGSW n => s x.1.1) (fun _ => alpha))
    (fun x d => some (⟨x.1.2, x.2, d⟩ : ClientQuery n))
  refine Draws.congr ((h1.bind (h3.bind h4)).mono ?_) (fun w g => ?_)
  · rw [Nat.mul_succ]; omega
  · unfold makeWriteQuery
    rcases bitDecomposedRgsw ctx (s w) i cols g with _ | ⟨a, g⟩
    · rfl
    · simp only [Option.bind_some]
      unfold genEncOp
      simp only
      generalize encryptConstantRgsw (s w) ctx.baseLog ctx.levelCount 1 g = r
      rcases encodeEncryptRlwe ctx (s w) alpha r.2 with _ | ⟨d, g⟩ <;> rfl

theorem draws_batch (ctx : Ctx) (s : ι → Poly n) (rows cols : Nat) (H : NaiveHash) (c : BatchCmd n) :
    Draws (fun w => clientBatch ctx (s w) rows cols H c) (rows * (2 * ctx.levelCount * ((log2 cols).getD 0 + 1) + 1)) := by
  unfold clientBatch
  cases c with
  | read is =>
    unfold genReadQueryBatch
    simp only
    cases H.hashToMapping is cols with
    | none => exact Draws.none.mono (by omega)
    | some mapping =>
      have h := Draws.list (ι := ι) (l := List.range rows) (f := fun w r => readQueryRow ctx (s w) cols mapping r)
        (k := 2 * ctx.levelCount * ((log2 cols).getD 0 + 1) + 1) (fun r _ => by
          unfold readQueryRow
          rcases mapping r with _ | c
          · exact draws_readQuery ctx s cols 0
          · exact draws_readQuery ctx s cols c.1)
      rw [List.length_range] at h
      exact h
  | write is alpha =>
    unfold genWriteQueryBatch
    simp only
    cases H.hashToMapping is cols with
    | none => exact Draws.none.mono (by omega)
    | some mapping =>
      have h := Draws.list (ι := ι) (l := List.range rows) (f := fun w r => writeQueryRow ctx (s w) cols alpha mapping r)
        (k := 2 * ctx.levelCount * ((log2 cols).getD 0 + 1) + 1) (fun r _ => by
          unfold writeQueryRow
          rcases mapping r with _ | c
          · exact draws_readQuery ctx s cols 0
          · exact draws_writeQuery ctx s cols c.1 alpha)
      rw [List.length_range] at h
      exact h

theorem draws_removeFirst {α : Type} {f : ι → Gen n → Option (List α × Gen n)} {k : Nat} (h : Draws f k) :
    Draws (fun w g => removeFirst (f w g)) k := by
  refine Draws.congr (Draws.map h (fun _ l => l.head?)) (fun w g => ?_)
  unfold removeFirst
  rcases f w g with _ | ⟨_ | ⟨q, l⟩, g⟩ <;> rfl

theorem draws_clientQuery (ctx : Ctx) (s : ι → Poly n) (rows cols : Nat) (H : NaiveHash) (c : Cmd n) :
    Draws (fun w => clientQuery ctx (s w) rows cols H c) (rows * (2 * ctx.levelCount * ((log2 cols).getD 0 + 1) + 1)) := by
  cases c with
  | read i => exact draws_removeFirst (draws_batch ctx s rows cols H (.read [i]))
  | write i a => exact draws_removeFirst (draws_batch ctx s rows cols H (.write [i] a))

theorem draws_negGsw (ctx : Ctx) (s : ι → Poly n) : Draws (fun w => negGsw ctx (s w)) (2 * ctx.negsLevelCount) := by
  have h1 := draws_constRgsw s ctx.negsBaseLog ctx.negsLevelCount 0
  have h2 := Draws.map h1 (fun w C => if ∀ k, s w k = 0 ∨ s w k = 1 then some
    (⟨C.baseLog, List.zipWith (encryptRgswLevel ctx ⟨fun k => s w k * scalarMAX⟩) C.rows (List.range' 1 ctx.negsLevelCount)⟩ : RGSW n) else none)
  refine Draws.congr h2 (fun w g => ?_)
  unfold negGsw encryptRgsw
  by_cases hk : ∀ k, s w k = 0 ∨ s w k = 1
  · rw [if_pos hk]
    simp only [Option.bind_some, if_pos hk, Option.map_some]
  · rw [if_neg hk]
    simp only [Option.bind_some, if_neg hk, Option.map_none]

theorem draws_dummyUnique (ctx : Ctx) (s : ι → Poly n) (rows cols : Nat) (H : NaiveHash) : ∀ (is : List Nat),
    Draws (fun (x : ι × List (List (RLWE n))) g => (dummyUnique ctx (s x.1) rows cols H is x.2 g).map fun r => ((r.1, r.2.1), r.2.2)) is.length
  | [] => Draws.congr (Draws.pure (fun x => some (([] : List (Poly n)), x.2))) (fun x g => rfl)
  | i :: is => by
    have ih := draws_dummyUnique ctx s rows cols H is
    have h1 := draws_plain (ι := ι × List (List (RLWE n))) (n := n) (fun p => (⟨fun k => p k % ctx.codec.ptModulus⟩ : Poly n))
    have h2 := draws_encode ctx (fun x : (ι × List (List (RLWE n))) × Poly n => s x.1.1) (fun x => x.2)
    cases hp : H.hashToTuple 0 i cols with
    | none =>
      refine Draws.congr (Draws.none.mono (Nat.zero_le _)) (fun x g => ?_)
      simp only [dummyUnique, hp]; rfl
    | some p =>
      by_cases hc : p.1 < rows ∧ p.2 < cols
      · have h3 := Draws.map (ih.comp (fun x : ((ι × List (List (RLWE n))) × Poly n) × RLWE n => (x.1.1.1, setCell x.1.1.2 p x.2)))
          (fun x r => some (x.1.2 :: r.1, r.2))
        refine Draws.congr ((h1.bind (h2.bind h3)).mono (by simp; omega)) (fun x g => ?_)
        simp only [dummyUnique, hp, if_pos hc, Option.bind_some, genPt]
        rcases encodeEncryptRlwe ctx (s x.1) ⟨fun k => g.plains g.pos k % ctx.codec.ptModulus⟩ g.next with _ | ⟨ct, g1⟩
        · rfl
        · simp only [Option.bind_some]
          rcases dummyUnique ctx (s x.1) rows cols H is (setCell x.2 p ct) g1 with _ | ⟨a, b, c⟩ <;> rfl
      · refine Draws.congr (Draws.none.mono (Nat.zero_le _)) (fun x g => ?_)
        simp only [dummyUnique, hp, if_neg hc]; rfl

theorem draws_dummyDb (ctx : Ctx) (s : ι → Poly n) (rows cols : Nat) (H : NaiveHash) :
    Draws (fun w g => (genDummyDatabase ctx (s w) rows cols H g).map fun r => ((r.1, r.2.1), r.2.2)) (min (rows * cols / H.hCount) 128) := by
  by_cases hc : H.hCount = 0
  · refine Draws.congr (Draws.none.mono (Nat.zero_le _)) (fun x g => ?_)
    simp only [genDummyDatabase, if_pos hc]; rfl
  · set u := if rows * cols / H.hCount < uniqueLimit then rows * cols / H.hCount else uniqueLimit with hu
    have h1 := (draws_dummyUnique ctx s rows cols H (List.range u)).comp
      (fun w : ι => (w, (List.replicate rows (List.replicate cols 0) : List (List (RLWE n)))))
    have h2 := Draws.map h1 (fun _ r => (dummyRest cols H r.1 (List.range' u (rows * cols / H.hCount - u)) r.2).bind fun q =>
      (dummyCopies rows cols H (List.range (rows * cols / H.hCount)) q.2).map fun db => (r.1 ++ q.1, db))
    refine Draws.congr (h2.mono ?_) (fun w g => ?_)
    · rw [List.length_range, hu]
      have : uniqueLimit = 128 := rfl
      split <;> omega
    · simp only [genDummyDatabase, if_neg hc, ← hu]
      rcases dummyUnique ctx (s w) rows cols H (List.range u) _ g with _ | ⟨a, b, c⟩
      · rfl
      · simp only [Option.map_some, Option.bind_some]
        rcases dummyRest cols H a (List.range' u (rows * cols / H.hCount - u)) b with _ | ⟨q1, q2⟩
        · rfl
        · simp only [Option.bind_some]
          rcases dummyCopies rows cols H (List.range (rows * cols / H.hCount)) q2 with _ | db <;> rfl

theorem draws_setup (ctx : Ctx) (s : ι → Poly n) (rows cols : Nat) (H : NaiveHash) :
    Draws (fun w g => (setupRandomOram ctx (s w) rows cols H g).map fun r => ((r.1, r.2.1), r.2.2))
      (2 * ctx.negsLevelCount + min (rows * cols / H.hCount) 128) := by
  by_cases hc : rows * cols = H.inputDomain * H.hCount
  · have h1 := draws_negGsw ctx s
    have h2 := Draws.map ((draws_dummyDb ctx s rows cols H).comp (fun x : ι × RGSW n => x.1))
      (fun x r => some (Server.new r.2 x.2 ctx, r.1))
    refine Draws.congr (h1.bind h2) (fun w g => ?_)
    simp only [setupRandomOram, if_pos hc]
    rcases negGsw ctx (s w) g with _ | ⟨N, g⟩
    · rfl
    · simp only [Option.bind_some]
      rcases genDummyDatabase ctx (s w) rows cols H g with _ | ⟨a, b, c⟩ <;> rfl
  · refine Draws.congr (Draws.none.mono (Nat.zero_le _)) (fun x g => ?_)
    simp only [setupRandomOram, if_neg hc]; rfl

/-! ### Sessions -/

/-- Server work and decoding between two client steps: `o` is deterministic. -/
theorem Draws.step {α σ β γ : Type} {f : ι → Gen n → Option (α × Gen n)} {k1 k2 : Nat} (hf : Draws f k1) (o : ι → α → Option (β × σ))
    {h : ι × σ → Gen n → Option (γ × Gen n)} (hh : Draws h k2) (F : ι → β → γ → γ) :
    Draws (fun w g => (f w g).bind fun r => (o w r.1).bind fun y => (h (w, y.2) r.2).bind fun z => some (F w y.1 z.1, z.2)) (k1 + k2) := by
  have h1 := Draws.map hf o
  have h2 := Draws.map (hh.comp (fun x : ι × (β × σ) => (x.1, x.2.2))) (fun x z => some (F x.1 x.2.1 z))
  refine Draws.congr (h1.bind h2) (fun w g => ?_)
  rcases f w g with _ | r
  · rfl
  · simp only [Option.bind_some]
    rcases o w r.1 with _ | y <;> rfl

/-- Noise polynomials drawn by the queries of a call. -/
def callDraws (ctx : Ctx) (D : Nat) (c : Call n) : Nat := c.cmds.length * (2 * ctx.levelCount * (D + 1) + 1)

theorem draws_session (ctx : Ctx) (H : NaiveHash) {cols D : Nat} (hD : log2 cols = some D) : ∀ (calls : List (Call n)) {κ : Type}
    (fft : κ → Fft n) (s : κ → Poly n) (sts : κ → List (Reducer n × Call n)), (∀ w, (sts w).map Prod.snd = calls) →
    Draws (fun (x : κ × Server n) g => (runSession (fft x.1) ctx (s x.1) cols H (sts x.1) x.2 g).map fun r => (r.1, r.2.2))
      (calls.map (callDraws ctx D)).sum
  | [], κ, fft, s, sts, h => by
    refine Draws.congr (Draws.pure (fun _ => some [])) (fun x g => ?_)
    have : sts x.1 = [] := by simpa using h x.1
    rw [this]; rfl
  | c :: calls, κ, fft, s, sts, h => by
    have hcons : ∀ w, ∃ R tl, sts w = (R, c) :: tl ∧ tl.map Prod.snd = calls := by
      intro w
      have := h w
      rcases hs : sts w with _ | ⟨⟨R, c'⟩, tl⟩
      · rw [hs] at this; cases this
      · rw [hs, List.map_cons, List.cons.injEq] at this
        exact ⟨R, tl, by rw [← this.1], this.2⟩
    choose R tl hst htl using hcons
    have ih := draws_session ctx H hD calls fft s tl htl
    have hq : ∀ c : Cmd n, Draws (fun x : κ × Server n => clientQuery ctx (s x.1) 1 cols H c) (2 * ctx.levelCount * (D + 1) + 1) := fun c => by
      have := draws_clientQuery ctx (fun x : κ × Server n => s x.1) 1 cols H c
      rwa [hD, Option.getD_some, Nat.one_mul] at this
    cases c with
    | one c =>
      have h1 := Draws.step (hq c) (fun x q => x.2.processOne (R x.1).one (fft x.1) q)
        (ih.comp (fun x : (κ × Server n) × Server n => (x.1.1, x.2))) (fun x y ys => [decryptDecodeRlwe ctx (s x.1) y] :: ys)
      refine Draws.congr (h1.mono (by simp [callDraws, Call.cmds])) (fun x g => ?_)
      rw [hst x.1, runSession]
      rcases clientQuery ctx (s x.1) 1 cols H c g with _ | ⟨q, g⟩
      · rfl
      · simp only [Option.bind_some]
        rcases x.2.processOne (R x.1).one (fft x.1) q with _ | ⟨y, S⟩
        · rfl
        · simp only [Option.bind_some]
          rcases runSession (fft x.1) ctx (s x.1) cols H (tl x.1) S g with _ | ⟨ys, S, g⟩ <;> rfl
    | multi cs =>
      have hqs := Draws.list (l := cs) (f := fun (x : κ × Server n) c => clientQuery ctx (s x.1) 1 cols H c) (fun c _ => hq c)
      have h1 := Draws.step hqs (fun x qs => x.2.processMulti (R x.1).vec (R x.1).gsw (fft x.1) qs)
        (ih.comp (fun x : (κ × Server n) × Server n => (x.1.1, x.2))) (fun x y ys => y.map (decryptDecodeRlwe ctx (s x.1)) :: ys)
      refine Draws.congr (h1.mono (by simp [callDraws, Call.cmds])) (fun x g => ?_)
      rw [hst x.1, runSession]
      rcases mapGenM (clientQuery ctx (s x.1) 1 cols H) cs g with _ | ⟨q, g⟩
      · rfl
      · simp only [Option.bind_some]
        rcases x.2.processMulti (R x.1).vec (R x.1).gsw (fft x.1) q with _ | ⟨y, S⟩
        · rfl
        · simp only [Option.bind_some]
          rcases runSession (fft x.1) ctx (s x.1) cols H (tl x.1) S g with _ | ⟨ys, S, g⟩ <;> rfl

theorem draws_batches {κ : Type} (ctx : Ctx) (fft : κ → Fft n) (s : κ → Poly n) (rows : Nat) {cols D : Nat} (hD : log2 cols = some D)
    (H : NaiveHash) : ∀ (cmds : List (BatchCmd n)),
    Draws (fun (x : κ × Server n) g => (runBatches (fft x.1) ctx (s x.1) rows cols H cmds x.2 g).map fun r => (r.1, r.2.2))
      (cmds.length * (rows * (2 * ctx.levelCount * (D + 1) + 1)))
  | [] => Draws.congr ((Draws.pure (fun _ => some [])).mono (by simp)) (fun x g => rfl)
  | c :: cmds => by
    have ih := draws_batches ctx fft s rows hD H cmds
    have hq := draws_batch ctx (fun x : κ × Server n => s x.1) rows cols H c
    rw [hD, Option.getD_some] at hq
    have h1 := Draws.step hq (fun x qs => x.2.processBatch (fft x.1) qs H)
        (ih.comp (fun x : (κ × Server n) × Server n => (x.1.1, x.2))) (fun x y ys => y.map (decryptDecodeRlwe ctx (s x.1)) :: ys)
    refine Draws.congr (h1.mono (by rw [List.length_cons, Nat.succ_mul cmds.length]; omega)) (fun x g => ?_)
    rw [runBatches]
    rcases clientBatch ctx (s x.1) rows cols H c g with _ | ⟨q, g⟩
    · rfl
    · simp only [Option.bind_some]
      rcases x.2.processBatch (fft x.1) q H with _ | ⟨y, S⟩
      · rfl
      · simp only [Option.bind_some]
        rcases runBatches (fft x.1) ctx (s x.1) rows cols H cmds S g with _ | ⟨ys, S, g⟩ <;> rfl

/-- The benchmark loops. -/
theorem draws_iterM {σ : Type} {k : Nat} {f : ι → Nat → σ × Gen n × Nat → Option (σ × Gen n × Nat)}
    (hf : ∀ j, Draws (fun (x : ι × (σ × Nat)) g => (f x.1 j (x.2.1, g, x.2.2)).map fun r => ((r.1, r.2.2), r.2.1)) k) : ∀ (ks : List Nat),
    Draws (fun (x : ι × (σ × Nat)) g => (iterM (f x.1) ks (x.2.1, g, x.2.2)).map fun r => ((r.1, r.2.2), r.2.1)) (ks.length * k)
  | [] => Draws.congr ((Draws.pure (fun x => some x.2)).mono (by simp)) (fun x g => rfl)
  | j :: ks => by
    have ih := draws_iterM hf ks
    refine Draws.congr (((hf j).bind (ih.comp (fun x : (ι × (σ × Nat)) × (σ × Nat) => (x.1.1, x.2)))).mono
      (by simp [Nat.succ_mul, Nat.add_comm])) (fun x g => ?_)
    rw [iterM]
    rcases f x.1 j (x.2.1, g, x.2.2) with _ | ⟨S, g, c⟩ <;> rfl

/-! ### Trees -/

theorem draws_subsKey (s : ι → Poly n) (bl lv k : Nat) :
    Draws (fun w => (KeyswitchKey.allocate n bl lv).fillWithSubsKeyswitchKey (s w) k) lv := by
  have h1 : Draws (fun (x : ι × Poly n) g => some (mapGen (fun level g => encryptRlwe (s x.1) (x.2.mulConst (gadget bl level)) g)
      (List.range' 1 lv) g)) (lv * 1) := by
    have := Draws.listGen (l := List.range' 1 lv) (f := fun (x : ι × Poly n) level g => encryptRlwe (s x.1) (x.2.mulConst (gadget bl level)) g)
      (k := 1) (fun l _ => Draws.enc _ _)
    rwa [List.length_range'] at this
  have h2 := Draws.map h1 (fun _ rows => some (⟨rows, bl, lv, k⟩ : KeyswitchKey n))
  refine Draws.congr (((Draws.pure (fun w => evalXk (s w) k)).bind h2).mono (by omega)) (fun w g => ?_)
  unfold KeyswitchKey.fillWithSubsKeyswitchKey
  rcases evalXk (s w) k with _ | p <;> rfl

theorem draws_subsKeys (ctx : Ctx) (s : ι → Poly n) : ∀ (is : List Nat),
    Draws (fun (x : ι × KskMap n) => genSubsKskLoop ctx (s x.1) is x.2) (is.length * ctx.ksLevelCount)
  | [] => Draws.congr ((Draws.pure (fun x => some x.2)).mono (by simp)) (fun x g => rfl)
  | i :: is => by
    have ih := draws_subsKeys ctx s is
    have h1 := draws_subsKey (fun x : ι × KskMap n => s x.1) ctx.ksBaseLog ctx.ksLevelCount (traceExp n i)
    have h2 := ih.comp (fun x : (ι × KskMap n) × KeyswitchKey n => (x.1.1, fun j => if j = traceExp n i then some x.2 else x.1.2 j))
    refine Draws.congr ((h1.bind h2).mono (by rw [List.length_cons, Nat.succ_mul]; omega)) (fun x g => ?_)
    rw [genSubsKskLoop]
    simp only
    rcases (KeyswitchKey.allocate n ctx.ksBaseLog ctx.ksLevelCount).fillWithSubsKeyswitchKey (s x.1) (traceExp n i) g with _ | ⟨a, g⟩ <;> rfl

theorem draws_allSubsKeys (ctx : Ctx) (s : ι → Poly n) {d : Nat} (hd : log2 n = some d) :
    Draws (fun w => genAllSubsKsk ctx (s w)) (d * ctx.ksLevelCount) := by
  have h := (draws_subsKeys ctx s (List.range' 1 d)).comp (fun w : ι => (w, (fun _ => none : KskMap n)))
  rw [List.length_range'] at h
  refine Draws.congr h (fun w g => ?_)
  unfold genAllSubsKsk
  rw [hd]

theorem draws_features (ctx : Ctx) (s : ι → Poly n) (vs : List Nat) :
    Draws (fun w => encryptFeatureVector ctx (s w) vs) (vs.length * ctx.levelCount) := by
  unfold encryptFeatureVector
  cases log2 n with
  | none => exact Draws.none.mono (Nat.zero_le _)
  | some ln =>
    refine Draws.list (l := vs) (f := fun w v g => mapGenM (encryptFeatureLevel ctx (s w) ln v) (List.range' 1 ctx.levelCount) g) (fun v _ => ?_)
    have := Draws.list (l := List.range' 1 ctx.levelCount) (f := fun w l => encryptFeatureLevel ctx (s w) ln v l) (k := 1) (fun l _ => by
      unfold encryptFeatureLevel
      by_cases hc : v < n ∧ ctx.baseLog * l + ln ≤ 64 ∧ 64 - ctx.baseLog * l - ln < 64
      · simp only [if_pos hc]
        exact Draws.enc _ _
      · simp only [if_neg hc]
        exact Draws.none.mono (by omega))
    rwa [List.length_range', Nat.mul_one] at this

theorem draws_allFeatures (ctx : Ctx) (s : ι → Poly n) : ∀ (features : List (List Nat)),
    Draws (fun w => mapGenM (encryptFeatureVector ctx (s w)) features) ((features.map List.length).sum * ctx.levelCount)
  | [] => Draws.congr ((Draws.pure (fun _ => some [])).mono (by simp)) (fun x g => rfl)
  | f :: fs => by
    have ih := draws_allFeatures ctx s fs
    have h1 := draws_features ctx s f
    have h2 := Draws.map (ih.comp (fun x : ι × List (List (RLWE n)) => x.1)) (fun x r => some (x.2 :: r))
    refine Draws.congr ((h1.bind h2).mono (by simp [Nat.add_mul])) (fun w g => ?_)
    rw [mapGenM]
    rcases encryptFeatureVector ctx (s w) f g with _ | ⟨a, g⟩
    · rfl
    · simp only [Option.bind_some]
      rcases mapGenM (encryptFeatureVector ctx (s w)) fs g with _ | ⟨b, g⟩ <;> rfl

theorem draws_simulate (ctx : Ctx) (fft : ι → Fft n) (ceilLog2 : Nat → Nat) (s : ι → Poly n) (tree : Tree) (features : List (List Nat))
    {d : Nat} (hd : log2 n = some d) : ∃ f : ι → Gen n → Option (List Nat × Gen n),
    Draws f (2 * ctx.negsLevelCount + d * ctx.ksLevelCount + (features.map List.length).sum * ctx.levelCount) ∧
      ∀ w g, simulate (fft w) ctx ceilLog2 (s w) tree features g = (f w g).map Prod.fst := by
  have h1 := draws_negGsw ctx s
  have h2 := draws_allSubsKeys ctx (fun x : ι × RGSW n => s x.1) hd
  have h3 := Draws.map (draws_allFeatures ctx (fun x : (ι × RGSW n) × KskMap n => s x.1.1) features)
    (fun x cts => (mapOption (simulateServer (fft x.1.1) ctx ceilLog2 tree x.2 x.1.2) cts).bind fun outputs =>
      mapOption (simulateCheck ctx (s x.1.1) tree) (outputs.zip features))
  refine ⟨_, (h1.bind (h2.bind h3)).mono (by omega), fun w g => ?_⟩
  unfold simulate
  rcases negGsw ctx (s w) g with _ | ⟨N, g⟩
  · rfl
  · simp only [Option.bind_some]
    rcases genAllSubsKsk ctx (s w) g with _ | ⟨K, g⟩
    · rfl
    · simp only [Option.bind_some]
      rcases mapGenM (encryptFeatureVector ctx (s w)) features g with _ | ⟨c, g⟩
      · rfl
      · simp only [Option.bind_some]
        rcases mapOption (simulateServer (fft w) ctx ceilLog2 tree K N) c with _ | o
        · rfl
        · simp only [Option.bind_some]
          rcases mapOption (simulateCheck ctx (s w) tree) (o.zip features) with _ | r <;> rfl

end Panacea
