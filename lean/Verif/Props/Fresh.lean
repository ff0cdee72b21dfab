import Verif.Spec.Fresh
import Verif.Spec.Oram
import Verif.Props.Batch
import Verif.Props.Context

/-!
# C64: client messages are fresh RLWE samples plus plaintext
-/

namespace Panacea
open Spec
variable {n : Nat} {ι : Type} {key : ι → Poly n} {plains : Nat → Poly n}

theorem Spec.Hid.enc (m : Poly n) (pos : Nat) :
    Hid key (fun k g => some (encryptRlwe (key k) m g)) (fun c => [c]) plains pos [⟨0, m⟩] [pos] (pos + 1) := by
  refine ⟨by omega, by simp, by simp, rfl, fun k masks noises => ⟨_, rfl, ?_⟩⟩
  simp only [encryptRlwe, List.map_cons, List.map_nil, List.zipWith_cons_cons, List.zipWith_nil_right, List.cons.injEq, and_true]
  refine RLWE.ext ?_ ?_
  · show masks pos = masks pos + 0
    ring
  · show masks pos * key k + m + noises pos = masks pos * key k + noises pos + m
    ring

theorem Spec.Hid.seq {α β γ : Type} {f1 : ι → Gen n → Option (α × Gen n)} {f2 : ι → Gen n → Option (β × Gen n)}
    {F : ι → Gen n → Option (γ × Gen n)} {v1 : α → List (RLWE n)} {v2 : β → List (RLWE n)} {v : γ → List (RLWE n)}
    {pos pos1 pos2 : Nat} {s1 s2 : List (RLWE n)} {p1 p2 : List Nat} (h1 : Hid key f1 v1 plains pos s1 p1 pos1)
    (h2 : Hid key f2 v2 plains pos1 s2 p2 pos2)
    (hF : ∀ k g a g1 b g2, f1 k g = some (a, g1) → f2 k g1 = some (b, g2) → ∃ c, F k g = some (c, g2) ∧ v c = v1 a ++ v2 b) :
    Hid key F v plains pos (s1 ++ s2) (p1 ++ p2) pos2 := by
  refine ⟨le_trans h1.le h2.le, ?_, ?_, by simp [h1.len, h2.len], fun k masks noises => ?_⟩
  · rw [List.pairwise_append]
    refine ⟨h1.fresh, h2.fresh, fun a ha b hb => ?_⟩
    have := (h1.range a ha).2
    have := (h2.range b hb).1
    omega
  · intro p hp
    have l1 := h1.le
    have l2 := h2.le
    rcases List.mem_append.mp hp with hp | hp
    · have := h1.range p hp; omega
    · have := h2.range p hp; omega
  · obtain ⟨a, e1, e2⟩ := h1.run k masks noises
    obtain ⟨b, e3, e4⟩ := h2.run k masks noises
    obtain ⟨c, e5, e6⟩ := hF k _ a _ b _ e1 e3
    refine ⟨c, e5, ?_⟩
    rw [e6, e2, e4, List.map_append, List.zipWith_append (by simp [h1.len])]

theorem Spec.Hid.map {α β : Type} {f : ι → Gen n → Option (α × Gen n)} {F : ι → Gen n → Option (β × Gen n)} {v : α → List (RLWE n)}
    {w : β → List (RLWE n)} {pos pos1 : Nat} {s1 : List (RLWE n)} {p1 : List Nat} (h : Hid key f v plains pos s1 p1 pos1)
    (hF : ∀ k g a g1, f k g = some (a, g1) → ∃ b, F k g = some (b, g1) ∧ w b = v a) : Hid key F w plains pos s1 p1 pos1 :=
  ⟨h.le, h.fresh, h.range, h.len, fun k masks noises => by
    obtain ⟨a, e1, e2⟩ := h.run k masks noises
    obtain ⟨b, e3, e4⟩ := hF k _ a _ e1
    exact ⟨b, e3, by rw [e4, e2]⟩⟩

theorem Spec.Hid.pure {α : Type} (a : ι → α) {v : α → List (RLWE n)} (hv : ∀ k, v (a k) = []) (pos : Nat) :
    Hid key (fun k g => some (a k, g)) v plains pos [] [] pos :=
  ⟨le_refl _, by simp, by simp, rfl, fun k _ _ => ⟨a k, rfl, by rw [hv]; rfl⟩⟩

/-- Drawing a plaintext only advances the position. -/
theorem Spec.Hid.skip {α : Type} {f : ι → Gen n → Option (α × Gen n)} {F : ι → Gen n → Option (α × Gen n)} {v : α → List (RLWE n)} {pos pos1 : Nat}
    {s1 : List (RLWE n)} {p1 : List Nat} (h : Hid key f v plains (pos + 1) s1 p1 pos1)
    (hF : ∀ k masks noises, F k ⟨masks, noises, plains, pos⟩ = f k ⟨masks, noises, plains, pos + 1⟩) : Hid key F v plains pos s1 p1 pos1 :=
  ⟨by have := h.le; omega, h.fresh, fun p hp => by have := h.range p hp; omega, h.len, fun k masks noises => by rw [hF]; exact h.run k masks noises⟩

theorem Spec.Hid.list {α β : Type} {f : α → ι → Gen n → Option (β × Gen n)} {v : β → List (RLWE n)} {sh : α → List (RLWE n)} :
    ∀ (l : List α), (∀ a ∈ l, ∀ pos, ∃ ps pos', Hid key (f a) v plains pos (sh a) ps pos') → ∀ pos,
    ∃ ps pos', Hid key (fun k => mapGenM (fun a => f a k) l) (fun bs => bs.flatMap v) plains pos (l.flatMap sh) ps pos'
  | [], _, pos => ⟨[], pos, Hid.pure (fun _ => []) (fun _ => rfl) pos⟩
  | a :: l, h, pos => by
    obtain ⟨ps1, pos1, h1⟩ := h a (by simp) pos
    obtain ⟨ps2, pos2, h2⟩ := Hid.list l (fun b hb => h b (by simp [hb])) pos1
    refine ⟨ps1 ++ ps2, pos2, ?_⟩
    rw [List.flatMap_cons]
    refine h1.seq h2 fun k g b g1 bs g2 e1 e2 => ⟨b :: bs, ?_, by simp⟩
    show Panacea.mapGenM _ (a :: l) g = _
    rw [Panacea.mapGenM]
    simp only [e1]
    simp only [e2]

theorem mapGenM_some {α β : Type} {f : α → Gen n → β × Gen n} : ∀ (l : List α) (g : Gen n),
    mapGenM (fun a g => some (f a g)) l g = some (mapGen f l g)
  | [], _ => rfl
  | a :: l, g => by
    rw [mapGenM]
    simp only [mapGenM_some l]
    rfl

theorem const_mulConst (mu c : Scalar) : Poly.const n (mu * c) = (Poly.const n mu).mulConst c := by
  refine Poly.ext (funext fun k => ?_)
  show (if k.val = 0 then mu * c else 0) = (if k.val = 0 then mu else 0) * c
  split
  · rfl
  · ring

theorem Spec.Hid.level (bl : Nat) (mu : Scalar) (l pos : Nat) :
    ∃ ps pos', Hid key (fun k g => some (ggswLevel (key k) bl mu l g)) (fun r => [r.1, r.2]) plains pos
      [⟨(Poly.const n mu).mulConst ((1 : Scalar) <<< (64 - bl * l)), 0⟩, ⟨0, (Poly.const n mu).mulConst ((1 : Scalar) <<< (64 - bl * l))⟩] ps pos' := by
  refine ⟨[pos, pos + 1], pos + 2, by omega, by simp, by simp, rfl, fun k masks noises => ⟨_, rfl, ?_⟩⟩
  simp only [encryptRlwe, Gen.next, List.map_cons, List.map_nil, List.zipWith_cons_cons, List.zipWith_nil_right, gadget,
    const_mulConst]
  congr 1
  · refine RLWE.ext rfl ?_
    show masks pos * key k + 0 + noises pos = masks pos * key k + noises pos + 0
    ring
  · congr 1
    refine RLWE.ext ?_ ?_
    · show masks (pos + 1) = masks (pos + 1) + 0
      ring
    · show masks (pos + 1) * key k + 0 + noises (pos + 1) + _ = masks (pos + 1) * key k + noises (pos + 1) + _
      ring

theorem Spec.Hid.constRgsw (bl lv : Nat) (mu : Scalar) (pos : Nat) :
    ∃ ps pos', Hid key (fun k g => some (encryptConstantRgsw (key k) bl lv mu g)) viewRgsw plains pos (gadgetShift bl lv (Poly.const n mu)) ps pos' := by
  obtain ⟨ps, pos', h⟩ := Hid.list (key := key) (plains := plains) (f := fun l k g => some (Panacea.ggswLevel (key k) bl mu l g))
    (v := fun r => [r.1, r.2]) (List.range' 1 lv) (fun l _ pos => Hid.level bl mu l pos) pos
  refine ⟨ps, pos', h.map fun k g a g1 e => ?_⟩
  simp only [mapGenM_some] at e
  refine ⟨⟨bl, a⟩, ?_, rfl⟩
  unfold encryptConstantRgsw
  simp only [Option.some.injEq] at e
  simp only [e]

theorem Spec.Hid.bits {ctx : Ctx} {cols D : Nat} (hD : log2 cols = some D) (i pos : Nat) :
    ∃ ps pos', Hid key (fun k g => bitDecomposedRgsw ctx (key k) i cols g) (fun a => a.flatMap viewRgsw) plains pos
      ((List.range D).reverse.flatMap fun k => gadgetShift ctx.baseLog ctx.levelCount (Poly.const n (if i.testBit k then 0 else 1))) ps pos' := by
  obtain ⟨ps, pos', h⟩ := Hid.list (key := key) (plains := plains)
    (f := fun (b : Bool) k g => some (encryptConstantRgsw (key k) ctx.baseLog ctx.levelCount (if b then 0 else 1) g))
    (v := viewRgsw) (indexBits i D) (fun l _ pos => Hid.constRgsw _ _ _ pos) pos
  refine ⟨ps, pos', ?_⟩
  have e : (indexBits i D).flatMap (fun (b : Bool) => gadgetShift (n := n) ctx.baseLog ctx.levelCount (Poly.const n (if b then 0 else 1))) =
      (List.range D).reverse.flatMap fun k => gadgetShift ctx.baseLog ctx.levelCount (Poly.const n (if i.testBit k then 0 else 1)) := by
    unfold indexBits
    rw [← List.map_reverse, List.flatMap_map]
  rw [← e]
  refine h.map fun k g a g1 e => ?_
  simp only [mapGenM_some] at e
  refine ⟨a, ?_, rfl⟩
  unfold bitDecomposedRgsw
  simp only [hD]
  exact e

/-- C64 (WRITE): for every column count, index, data, and position: the write query of any key, on any mask and noise streams, is a list of
fresh RLWE samples plus the plaintexts. -/
theorem C64_write_query {ctx : Ctx} {cols D : Nat} (hD : log2 cols = some D) (i : Nat) {alpha enc : Poly n}
    (henc : ctx.codec.polyEncode alpha = some enc) (pos : Nat) :
    ∃ ps pos', Hid key (fun k g => makeWriteQuery ctx (key k) cols i alpha g) viewQuery plains pos (queryShift ctx D i true enc) ps pos' := by
  obtain ⟨ps1, pos1, h1⟩ := Hid.bits (key := key) (plains := plains) (ctx := ctx) hD i pos
  obtain ⟨ps2, pos2, h2⟩ := Hid.constRgsw (key := key) (plains := plains) ctx.baseLog ctx.levelCount 1 pos1
  refine ⟨_, _, h1.seq (h2.seq (Hid.enc enc pos2) (F := fun k g => some (let op := encryptConstantRgsw (key k) ctx.baseLog ctx.levelCount 1 g
    let d := encryptRlwe (key k) enc op.2
    ((op.1, d.1), d.2))) (v := fun x => viewRgsw x.1 ++ [x.2]) ?_) ?_⟩
  · intro k g a g1 b g2 e1 e2
    simp only [Option.some.injEq] at e1 e2
    refine ⟨(a, b), ?_, rfl⟩
    simp only [e1, e2]
  · intro k g a g1 b g2 e1 e2
    simp only [Option.some.injEq, Prod.mk.injEq] at e2
    obtain ⟨rfl, rfl⟩ := e2
    refine ⟨⟨a, _, _⟩, ?_, rfl⟩
    unfold makeWriteQuery
    simp only [e1]
    unfold encodeEncryptRlwe genEncOp
    simp only [henc]

/-- The dummy data of a READ query is the binary plaintext drawn right after the address. -/
theorem C64_read_query {ctx : Ctx} {cols D : Nat} (hD : log2 cols = some D) (i pos : Nat) :
    ∃ p, pos ≤ p ∧ ((∃ enc, ctx.codec.polyEncode ⟨fun k => plains p k % 2⟩ = some enc ∧
        ∃ ps pos', p < pos' ∧ Hid key (fun k g => makeReadQuery ctx (key k) cols i g) viewQuery plains pos (queryShift ctx D i false enc) ps pos') ∨
      (ctx.codec.polyEncode ⟨fun k => plains p k % 2⟩ = none ∧
        ∀ k masks noises, makeReadQuery ctx (key k) cols i ⟨masks, noises, plains, pos⟩ = none)) := by
  obtain ⟨ps1, p, h1⟩ := Hid.bits (key := key) (plains := plains) (ctx := ctx) hD i pos
  refine ⟨p, h1.le, ?_⟩
  obtain ⟨ps2, pos2, h2⟩ := Hid.constRgsw (key := key) (plains := plains) ctx.baseLog ctx.levelCount 0 (p + 1)
  rcases henc : ctx.codec.polyEncode ⟨fun k => plains p k % 2⟩ with _ | enc
  · right
    refine ⟨rfl, fun k masks noises => ?_⟩
    obtain ⟨a, e1, _⟩ := h1.run k masks noises
    unfold makeReadQuery
    simp only [e1]
    unfold encodeEncryptRlwe genBinaryPt
    simp only [henc]
  · left
    refine ⟨enc, rfl, ps1 ++ (ps2 ++ [pos2]), pos2 + 1, by have := h2.le; omega, ?_⟩
    have h3 : Hid key (fun k g => some (let op := encryptConstantRgsw (key k) ctx.baseLog ctx.levelCount 0 g.next
        let d := encryptRlwe (key k) enc op.2
        ((op.1, d.1), d.2))) (fun x => viewRgsw x.1 ++ [x.2]) plains p _ _ _ :=
      Hid.skip (h2.seq (Hid.enc enc pos2) (F := fun k g => some (let op := encryptConstantRgsw (key k) ctx.baseLog ctx.levelCount 0 g
        let d := encryptRlwe (key k) enc op.2
        ((op.1, d.1), d.2))) (v := fun x => viewRgsw x.1 ++ [x.2]) (by
        intro k g a g1 b g2 e1 e2
        simp only [Option.some.injEq] at e1 e2
        refine ⟨(a, b), ?_, rfl⟩
        simp only [e1, e2])) fun k masks noises => rfl
    refine ⟨h1.le.trans h3.le, ?_, ?_, by simp [queryShift, h1.len, h2.len], fun k masks noises => ?_⟩
    · rw [List.pairwise_append]
      refine ⟨h1.fresh, h3.fresh, fun a ha b hb => ?_⟩
      have := (h1.range a ha).2
      have := (h3.range b hb).1
      omega
    · intro q hq
      have l1 := h1.le
      have l2 := h3.le
      rcases List.mem_append.mp hq with hp | hp
      · have := h1.range q hp; omega
      · have := h3.range q hp; omega
    · obtain ⟨a, e1, e2⟩ := h1.run k masks noises
      obtain ⟨b, e3, e4⟩ := h3.run k masks noises
      simp only [Option.some.injEq, Prod.mk.injEq] at e3
      obtain ⟨e3a, e3⟩ := e3
      refine ⟨⟨a, b.1, b.2⟩, ?_, ?_⟩
      · unfold makeReadQuery
        simp only [e1]
        unfold encodeEncryptRlwe genBinaryPt genEncOp
        simp only [henc]
        rw [← e3a, ← e3]
      · unfold viewQuery queryShift
        rw [e2, List.map_append, List.zipWith_append (by simp [h1.len])]
        exact congrArg _ e4

theorem gadgetShift_length (bl lv : Nat) (m : Poly n) : (gadgetShift bl lv m).length = 2 * lv := by
  unfold gadgetShift
  rw [List.length_flatMap]
  simp [Nat.mul_comm]

theorem queryShift_length (ctx : Ctx) (D i : Nat) (w : Bool) (d : Poly n) : (queryShift ctx D i w d).length = 2 * ctx.levelCount * (D + 1) + 1 := by
  unfold queryShift
  rw [List.length_append, List.length_append, List.length_flatMap, gadgetShift_length]
  simp only [gadgetShift_length, List.map_const', List.sum_replicate, List.length_reverse, List.length_range, List.length_singleton, smul_eq_mul]
  ring

/-- Like `Hid`, or a panic for all masks, noises and keys; `L` ciphertexts. -/
def HidOrPanic {α : Type} (key : ι → Poly n) (f : ι → Gen n → Option (α × Gen n)) (view : α → List (RLWE n)) (L : Nat) : Prop :=
  ∀ plains pos, (∀ k masks noises, f k ⟨masks, noises, plains, pos⟩ = none) ∨
    ∃ shift ps pos', shift.length = L ∧ Hid key f view plains pos shift ps pos'

theorem HidOrPanic.list {α β : Type} {f : α → ι → Gen n → Option (β × Gen n)} {v : β → List (RLWE n)} {L : Nat} :
    ∀ (l : List α), (∀ a ∈ l, HidOrPanic key (f a) v L) →
    HidOrPanic key (fun k => mapGenM (fun a => f a k) l) (fun bs => bs.flatMap v) (l.length * L)
  | [], _, _, pos => Or.inr ⟨[], [], pos, by simp, Hid.pure (fun _ => []) (fun _ => rfl) pos⟩
  | a :: l, h, plains, pos => by
    rcases h a (by simp) plains pos with hn | ⟨s1, ps1, pos1, l1, h1⟩
    · left
      intro k masks noises
      show mapGenM _ (a :: l) _ = none
      rw [mapGenM]
      simp only [hn]
    rcases HidOrPanic.list l (fun b hb => h b (by simp [hb])) plains pos1 with hn | ⟨s2, ps2, pos2, l2, h2⟩
    · left
      intro k masks noises
      obtain ⟨b, e, _⟩ := h1.run k masks noises
      show mapGenM _ (a :: l) _ = none
      rw [mapGenM]
      simp only [e]
      simp only [hn]
    · right
      refine ⟨s1 ++ s2, ps1 ++ ps2, pos2, by simp [l1, l2]; ring, ?_⟩
      refine h1.seq h2 fun k g b g1 bs g2 e1 e2 => ⟨b :: bs, ?_, by simp⟩
      show mapGenM _ (a :: l) g = _
      rw [mapGenM]
      simp only [e1]
      simp only [e2]

theorem read_hidOrPanic (key : ι → Poly n) (ctx : Ctx) (cols i : Nat) :
    HidOrPanic key (fun k g => makeReadQuery ctx (key k) cols i g) viewQuery (2 * ctx.levelCount * ((log2 cols).getD 0 + 1) + 1) := by
  intro plains pos
  rcases hD : log2 cols with _ | D
  · left
    intro k masks noises
    unfold makeReadQuery bitDecomposedRgsw
    simp only [hD]
  · obtain ⟨p, _, ⟨enc, _, ps, pos', _, h⟩ | ⟨_, h⟩⟩ := C64_read_query (key := key) (plains := plains) (ctx := ctx) hD i pos
    · exact Or.inr ⟨_, ps, pos', by rw [queryShift_length]; rfl, h⟩
    · exact Or.inl h

theorem write_hidOrPanic (key : ι → Poly n) (ctx : Ctx) (cols i : Nat) (alpha : Poly n) :
    HidOrPanic key (fun k g => makeWriteQuery ctx (key k) cols i alpha g) viewQuery (2 * ctx.levelCount * ((log2 cols).getD 0 + 1) + 1) := by
  intro plains pos
  rcases hD : log2 cols with _ | D
  · left
    intro k masks noises
    unfold makeWriteQuery bitDecomposedRgsw
    simp only [hD]
  · rcases henc : ctx.codec.polyEncode alpha with _ | enc
    · left
      intro k masks noises
      unfold makeWriteQuery
      obtain ⟨ps, pos1, h1⟩ := Hid.bits (key := key) (plains := plains) (ctx := ctx) hD i pos
      obtain ⟨a, e, _⟩ := h1.run k masks noises
      simp only [e]
      unfold encodeEncryptRlwe
      simp only [henc]
    · obtain ⟨ps, pos', h⟩ := C64_write_query (key := key) (plains := plains) (ctx := ctx) hD i henc pos
      exact Or.inr ⟨_, ps, pos', by rw [queryShift_length]; rfl, h⟩

theorem batch_hidOrPanic (key : ι → Poly n) (ctx : Ctx) (rows cols : Nat) (H : NaiveHash) (c : BatchCmd n) :
    HidOrPanic key (fun k g => clientBatch ctx (key k) rows cols H c g) (fun qs => qs.flatMap viewQuery)
      (rows * (2 * ctx.levelCount * ((log2 cols).getD 0 + 1) + 1)) := by
  rcases c with is | ⟨is, alpha⟩
  · rcases hm : H.hashToMapping is cols with _ | mapping
    · intro plains pos
      left
      intro k masks noises
      unfold clientBatch genReadQueryBatch
      simp only [hm]
    · have := HidOrPanic.list (key := key) (f := fun r k => readQueryRow ctx (key k) cols mapping r) (v := viewQuery)
        (L := 2 * ctx.levelCount * ((log2 cols).getD 0 + 1) + 1) (List.range rows) (fun r _ => by
          unfold readQueryRow
          rcases mapping r with _ | c
          · exact read_hidOrPanic key ctx cols 0
          · exact read_hidOrPanic key ctx cols c.1)
      rw [List.length_range] at this
      unfold clientBatch genReadQueryBatch
      simp only [hm]
      exact this
  · rcases hm : H.hashToMapping is cols with _ | mapping
    · intro plains pos
      left
      intro k masks noises
      unfold clientBatch genWriteQueryBatch
      simp only [hm]
    · have := HidOrPanic.list (key := key) (f := fun r k => writeQueryRow ctx (key k) cols alpha mapping r) (v := viewQuery)
        (L := 2 * ctx.levelCount * ((log2 cols).getD 0 + 1) + 1) (List.range rows) (fun r _ => by
          unfold writeQueryRow
          rcases mapping r with _ | c
          · exact read_hidOrPanic key ctx cols 0
          · exact write_hidOrPanic key ctx cols c.1 alpha)
      rw [List.length_range] at this
      unfold clientBatch genWriteQueryBatch
      simp only [hm]
      exact this

/-- C64 (histories): consider any sequence of READ and WRITE batches generated by one client.  Either the client panics for every key and
all random streams, or everything the server ever receives is: RLWE samples at pairwise distinct positions of the streams (each mask and
noise used once, over the whole history), plus a list `shift` which is the same for all keys and all mask and noise streams; their number
depends only on the parameters and the number of batches, not on the accesses. -/
theorem C64_history (ctx : Ctx) (rows cols : Nat) (H : NaiveHash) (cmds : List (BatchCmd n)) (plains : Nat → Poly n) (pos : Nat) :
    (∀ s masks noises, mapGenM (clientBatch ctx s rows cols H) cmds ⟨masks, noises, plains, pos⟩ = none) ∨
    ∃ shift ps pos', shift.length = cmds.length * (rows * (2 * ctx.levelCount * ((log2 cols).getD 0 + 1) + 1)) ∧
      Hid id (fun s => mapGenM (clientBatch ctx s rows cols H) cmds) (fun qss => qss.flatMap fun qs => qs.flatMap viewQuery) plains pos shift ps pos' :=
  HidOrPanic.list (key := id) (f := fun c s => clientBatch ctx s rows cols H c) cmds (fun c _ => batch_hidOrPanic id ctx rows cols H c) plains pos

/-- C64 (ideal security): if the samples are replaced by arbitrary pairs, every view of the right size is obtained from exactly one choice
of the pairs, whatever the accesses: uniformly random pairs hide the accesses perfectly.  Stated for any two histories of equally many batches:
there is a bijection between the choices under which the server sees the same. -/
theorem C64_ideal {L : Nat} {shift shift' : List (RLWE n)} (h : shift.length = L) (h' : shift'.length = L) :
    (∀ v : List (RLWE n), v.length = L → ∃ x, x.length = L ∧ List.zipWith (· + ·) x shift = v ∧
      ∀ y, y.length = L → List.zipWith (· + ·) y shift = v → y = x) ∧
    ∃ φ ψ : List (RLWE n) → List (RLWE n), ∀ x, x.length = L → (φ x).length = L ∧ (ψ x).length = L ∧ ψ (φ x) = x ∧ φ (ψ x) = x ∧
      List.zipWith (· + ·) (φ x) shift' = List.zipWith (· + ·) x shift := by
  have hadd : ∀ (x t : List (RLWE n)), x.length = t.length → List.zipWith (· + ·) (List.zipWith (· - ·) x t) t = x := by
    intro x
    induction x with
    | nil => intro t _; simp
    | cons a x ih =>
      rintro (_ | ⟨b, t⟩) hl
      · simp at hl
      · simp only [List.zipWith_cons_cons, List.cons.injEq]
        refine ⟨?_, ih t (by simpa using hl)⟩
        refine RLWE.ext ?_ ?_
        · show a.mask - b.mask + b.mask = a.mask; ring
        · show a.body - b.body + b.body = a.body; ring
  have hsub : ∀ (x t : List (RLWE n)), x.length = t.length → List.zipWith (· - ·) (List.zipWith (· + ·) x t) t = x := by
    intro x
    induction x with
    | nil => intro t _; simp
    | cons a x ih =>
      rintro (_ | ⟨b, t⟩) hl
      · simp at hl
      · simp only [List.zipWith_cons_cons, List.cons.injEq]
        refine ⟨?_, ih t (by simpa using hl)⟩
        refine RLWE.ext ?_ ?_
        · show a.mask + b.mask - b.mask = a.mask; ring
        · show a.body + b.body - b.body = a.body; ring
  refine ⟨fun v hv => ⟨List.zipWith (· - ·) v shift, by simp [hv, h], hadd v shift (by omega), fun y hy e => ?_⟩,
    fun x => List.zipWith (· - ·) (List.zipWith (· + ·) x shift) shift', fun x => List.zipWith (· - ·) (List.zipWith (· + ·) x shift') shift,
    fun x hx => ⟨by simp [hx, h, h'], by simp [hx, h, h'], ?_, ?_, ?_⟩⟩
  · rw [← e, hsub y shift (by omega)]
  · simp only
    rw [hadd _ shift' (by simp [hx, h, h']), hsub x shift (by omega)]
  · simp only
    rw [hadd _ shift (by simp [hx, h, h']), hsub x shift' (by omega)]
  · exact hadd _ shift' (by simp [hx, h, h'])

/-- C64 (indistinguishability up to the RLWE assumption): for any two histories of equally many batches that the client accepts, there are
bijections between the sample lists under which the two views coincide. -/
theorem C64_indistinguishable (ctx : Ctx) (rows cols : Nat) (H : NaiveHash) (cmds cmds' : List (BatchCmd n)) (hlen : cmds.length = cmds'.length)
    (plains : Nat → Poly n) (pos : Nat) {s s' : Poly n} {masks masks' noises noises' : Nat → Poly n}
    (h : mapGenM (clientBatch ctx s rows cols H) cmds ⟨masks, noises, plains, pos⟩ ≠ none)
    (h' : mapGenM (clientBatch ctx s' rows cols H) cmds' ⟨masks', noises', plains, pos⟩ ≠ none) :
    ∃ L shift ps pos1 shift' ps' pos1', Hid id (fun s => mapGenM (clientBatch ctx s rows cols H) cmds)
        (fun qss => qss.flatMap fun qs => qs.flatMap viewQuery) plains pos shift ps pos1 ∧
      Hid id (fun s => mapGenM (clientBatch ctx s rows cols H) cmds') (fun qss => qss.flatMap fun qs => qs.flatMap viewQuery) plains pos shift' ps' pos1' ∧
      ps.length = L ∧ ps'.length = L ∧ ∃ φ ψ : List (RLWE n) → List (RLWE n), ∀ x, x.length = L → (φ x).length = L ∧ (ψ x).length = L ∧
        ψ (φ x) = x ∧ φ (ψ x) = x ∧ List.zipWith (· + ·) (φ x) shift' = List.zipWith (· + ·) x shift := by
  rcases C64_history ctx rows cols H cmds plains pos with hn | ⟨sh, ps, p1, l1, e1⟩
  · exact absurd (hn s masks noises) h
  rcases C64_history ctx rows cols H cmds' plains pos with hn | ⟨sh', ps', p1', l1', e1'⟩
  · exact absurd (hn s' masks' noises') h'
  rw [← hlen] at l1'
  exact ⟨_, sh, ps, p1, sh', ps', p1', e1, e1', by rw [e1.len, l1], by rw [e1'.len, l1'], (C64_ideal l1 l1').2⟩

/-! ### Key material and feature vectors -/

theorem Spec.Hid.rgswLevels (ctx : Ctx) (m : Poly n) : ∀ (rows : List (RLWE n × RLWE n)) (ls : List Nat) (ps : List Nat) (smp : Nat → RLWE n),
    rows.length = ls.length → rows.flatMap (fun r => [r.1, r.2]) = List.zipWith (· + ·) (ps.map smp) (List.replicate (2 * ls.length) 0) →
    ps.length = 2 * ls.length →
    (List.zipWith (encryptRgswLevel ctx m) rows ls).flatMap (fun r => [r.1, r.2]) = List.zipWith (· + ·) (ps.map smp) (ls.flatMap fun l =>
      [⟨m.mulConst ((1 : Scalar) <<< (64 - ctx.baseLog * l)), 0⟩, ⟨0, m.mulConst ((1 : Scalar) <<< (64 - ctx.baseLog * l))⟩])
  | [], [], ps, smp, _, _, _ => by simp
  | r :: rows, l :: ls, ps, smp, hl, h, hp => by
    rcases ps with _ | ⟨p0, _ | ⟨p1, ps⟩⟩
    · simp at hp
    · simp at hp; omega
    · have e : 2 * (l :: ls).length = 2 * ls.length + 1 + 1 := by simp; ring
      rw [e, List.replicate_succ, List.replicate_succ] at h
      simp only [List.flatMap_cons, List.cons_append, List.nil_append, List.map_cons, List.zipWith_cons_cons, List.cons.injEq] at h
      obtain ⟨h0, h1, h2⟩ := h
      have ih := Spec.Hid.rgswLevels ctx m rows ls ps smp (by simpa using hl) h2 (by rw [e] at hp; simpa using hp)
      simp only [List.zipWith_cons_cons, List.flatMap_cons, List.cons_append, List.nil_append, List.map_cons, List.cons.injEq]
      refine ⟨?_, ?_, ih⟩
      · unfold encryptRgswLevel gadget
        rw [h0]
        refine RLWE.ext ?_ ?_
        · show (smp p0).mask + 0 + _ = (smp p0).mask + _
          ring
        · rfl
      · unfold encryptRgswLevel gadget
        rw [h1]
        refine RLWE.ext ?_ ?_
        · rfl
        · show (smp p1).body + 0 + _ = (smp p1).body + _
          ring
  | [], _ :: _, _, _, h, _, _ => by simp at h
  | _ :: _, [], _, _, h, _, _ => by simp at h

theorem gadgetShift_zero (bl lv : Nat) : gadgetShift bl lv (Poly.const n 0) = List.replicate (2 * lv) 0 := by
  rw [List.eq_replicate_iff]
  refine ⟨gadgetShift_length _ _ _, fun c hc => ?_⟩
  unfold gadgetShift at hc
  rw [List.mem_flatMap] at hc
  obtain ⟨l, _, hc⟩ := hc
  have : ∀ x, (Poly.const n 0).mulConst x = 0 := fun x => by
    refine Poly.ext (funext fun k => ?_)
    show (if k.val = 0 then 0 else 0) * x = 0
    simp
  rw [this] at hc
  simp at hc
  exact hc

/-- C64 (`encrypt_rgsw`): any message, with the context's gadget. -/
theorem C64_encrypt_rgsw (ctx : Ctx) (bl lv : Nat) (m : Poly n) (pos : Nat) :
    ∃ ps pos', Hid key (fun k g => some (encryptRgsw ctx (key k) bl lv m g)) viewRgsw plains pos (gadgetShift ctx.baseLog lv m) ps pos' := by
  obtain ⟨ps, pos', h⟩ := Hid.constRgsw (key := key) (plains := plains) bl lv 0 pos
  refine ⟨ps, pos', h.le, h.fresh, h.range, by rw [h.len, gadgetShift_length, gadgetShift_length], fun k masks noises => ?_⟩
  obtain ⟨C, e1, e2⟩ := h.run k masks noises
  refine ⟨{ C with rows := List.zipWith (encryptRgswLevel ctx m) C.rows (List.range' 1 lv) }, ?_, ?_⟩
  · unfold encryptRgsw
    simp only [Option.some.injEq] at e1
    simp only [e1]
  · have hr : C.rows.length = lv := by
      simp only [Option.some.injEq] at e1
      have h2 := congrArg (fun r : RGSW n × Gen n => r.1.rows.length) e1
      simp only [encryptConstantRgsw, mapGen_length, List.length_range'] at h2
      exact h2.symm
    refine Spec.Hid.rgswLevels ctx m C.rows (List.range' 1 lv) ps (sample (key k) masks noises) (by simp [hr]) ?_ ?_
    · rw [gadgetShift_zero] at e2
      rw [List.length_range']
      exact e2
    · rw [h.len, gadgetShift_length, List.length_range']

/-- C64 (`neg_gsw`): the RGSW encryption of the negated key: fresh samples plus a key-dependent, but randomness-independent message. -/
theorem C64_neg_gsw (ctx : Ctx) {s : Poly n} (hs : Binary s) (pos : Nat) :
    ∃ ps pos', Hid (fun _ : Unit => s) (fun _ g => negGsw ctx s g) viewRgsw plains pos
      (gadgetShift ctx.baseLog ctx.negsLevelCount ⟨fun k => s k * scalarMAX⟩) ps pos' := by
  obtain ⟨ps, pos', h⟩ := C64_encrypt_rgsw (key := fun _ : Unit => s) (plains := plains) ctx ctx.negsBaseLog ctx.negsLevelCount
    ⟨fun k => s k * scalarMAX⟩ pos
  refine ⟨ps, pos', h.map fun k g a g1 e => ⟨a, ?_, rfl⟩⟩
  unfold negGsw
  rw [if_pos (show ∀ k, s k = 0 ∨ s k = 1 from hs)]
  exact e

/-- C64 (key switching keys): one substitution key for exponent `k`. -/
theorem C64_subs_key (bl lv : Nat) {s before : Poly n} {e : Nat} (he : evalXk s e = some before) (pos : Nat) :
    ∃ ps pos', Hid (fun _ : Unit => s) (fun _ g => (KeyswitchKey.allocate n bl lv).fillWithSubsKeyswitchKey s e g) KeyswitchKey.ksks plains pos
      ((List.range' 1 lv).map fun l => ⟨0, before.mulConst ((1 : Scalar) <<< (64 - bl * l))⟩) ps pos' := by
  obtain ⟨ps, pos', h⟩ := Hid.list (key := fun _ : Unit => s) (plains := plains)
    (f := fun l _ g => some (encryptRlwe s (before.mulConst (gadget bl l)) g)) (v := fun c => [c])
    (sh := fun l => [⟨0, before.mulConst ((1 : Scalar) <<< (64 - bl * l))⟩]) (List.range' 1 lv)
    (fun l _ pos => ⟨_, _, Hid.enc (key := fun _ : Unit => s) (before.mulConst (gadget bl l)) pos⟩) pos
  refine ⟨ps, pos', ?_⟩
  rw [List.map_eq_flatMap]
  refine h.map fun k g a g1 e1 => ⟨⟨a, bl, lv, e⟩, ?_, by simp⟩
  simp only [mapGenM_some, Option.some.injEq] at e1
  unfold KeyswitchKey.fillWithSubsKeyswitchKey KeyswitchKey.fillWithKeyswitchKey KeyswitchKey.allocate
  simp only [he, e1]

theorem features_hidOrPanic (key : ι → Poly n) (ctx : Ctx) (vs : List Nat) :
    HidOrPanic key (fun k g => encryptFeatureVector ctx (key k) vs g) (fun rs => rs.flatMap fun cs => cs.flatMap fun c => [c])
      (vs.length * (ctx.levelCount * 1)) := by
  rcases hl : log2 n with _ | logn
  · intro plains pos
    left
    intro k masks noises
    unfold encryptFeatureVector
    simp only [hl]
  · have := HidOrPanic.list (key := key) (f := fun v k g => mapGenM (encryptFeatureLevel ctx (key k) logn v) (List.range' 1 ctx.levelCount) g)
      (v := fun cs => cs.flatMap fun c => [c]) (L := ctx.levelCount * 1) vs (fun v _ => by
        have := HidOrPanic.list (key := key) (f := fun l k g => encryptFeatureLevel ctx (key k) logn v l g) (v := fun c => [c]) (L := 1)
          (List.range' 1 ctx.levelCount) (fun l _ plains pos => by
            unfold encryptFeatureLevel
            by_cases hc : v < n ∧ ctx.baseLog * l + logn ≤ 64 ∧ 64 - ctx.baseLog * l - logn < 64
            · right
              simp only [if_pos hc]
              exact ⟨_, _, _, rfl, Hid.enc (key := key) _ pos⟩
            · left
              intro k masks noises
              simp only [if_neg hc])
        rw [List.length_range'] at this
        exact this)
    unfold encryptFeatureVector
    simp only [hl]
    exact this

/-- C64 (decision trees): all feature vectors a client ever encrypts: fresh samples plus a shift independent of keys, masks, noises; the
number of ciphertexts only depends on the lengths of the vectors. -/
theorem C64_features (ctx : Ctx) (len : Nat) (vss : List (List Nat)) (hlen : ∀ vs ∈ vss, vs.length = len) (plains : Nat → Poly n) (pos : Nat) :
    (∀ s masks noises, mapGenM (encryptFeatureVector ctx s) vss ⟨masks, noises, plains, pos⟩ = none) ∨
    ∃ shift ps pos', shift.length = vss.length * (len * ctx.levelCount) ∧
      Hid id (fun s => mapGenM (encryptFeatureVector ctx s) vss) (fun ctss => ctss.flatMap fun cts => cts.flatMap id) plains pos shift ps pos' := by
  have := HidOrPanic.list (key := id) (f := fun vs s => encryptFeatureVector ctx s vs) (v := fun rs => rs.flatMap fun cs => cs.flatMap fun c => [c])
    (L := len * (ctx.levelCount * 1)) vss (fun vs hvs => by rw [← hlen vs hvs]; exact features_hidOrPanic id ctx vs) plains pos
  simp only [List.flatMap_singleton', mul_one] at this
  exact this

/-- Two different histories of two batches that the client accepts. -/
example : mapGenM (clientBatch exTreeCtx exKey 3 4 exHash) [.read [0, 1], .write [2] (Poly.const 4 7)] exGen ≠ none ∧
    mapGenM (clientBatch exTreeCtx exKey 3 4 exHash) [.write [3] (Poly.const 4 1), .write [0, 2] (Poly.const 4 5)] exGen ≠ none := by
  have h : (mapGenM (clientBatch exTreeCtx exKey 3 4 exHash) [.read [0, 1], .write [2] (Poly.const 4 7)] exGen).isSome ∧
    (mapGenM (clientBatch exTreeCtx exKey 3 4 exHash) [.write [3] (Poly.const 4 1), .write [0, 2] (Poly.const 4 5)] exGen).isSome := by
    decide +kernel
  exact ⟨fun e => by rw [e] at h; simp at h, fun e => by rw [e] at h; simp at h⟩

end Panacea
