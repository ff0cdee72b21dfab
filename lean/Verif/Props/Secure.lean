import Verif.Props.View
import Verif.Spec.Secure
import Mathlib.Probability.UniformOn
import Mathlib.Data.BitVec

/-!
# C90: telling two sessions apart is as hard as RLWE
-/

namespace Panacea
open Spec
variable {n : Nat}

theorem zipWith_ofFn {L : Nat} (x : Fin L → RLWE n) {t : List (RLWE n)} (h : t.length = L) :
    List.zipWith (· + ·) (List.ofFn x) t = List.ofFn (x + fun i => t[i.1]'(by rw [h]; exact i.2)) := by
  refine List.ext_getElem (by simp [h]) fun i h1 h2 => ?_
  simp

/-- Adding known messages to random pairs gives random pairs. -/
theorem idealChance_shift {L : Nat} {t : List (RLWE n)} (h : t.length = L) (D : List (RLWE n) → Prop) :
    idealChance n L (fun x => D (List.zipWith (· + ·) x t)) = idealChance n L D := by
  unfold idealChance
  congr 2
  refine Nat.card_congr ((Equiv.addRight (fun i : Fin L => t[i.1]'(by rw [h]; exact i.2))).subtypeEquiv fun x => ?_)
  dsimp only
  rw [zipWith_ofFn x h]
  rfl

theorem zipWith_zipWith_add : ∀ (x a b : List (RLWE n)),
    List.zipWith (· + ·) (List.zipWith (· + ·) x a) b = List.zipWith (· + ·) x (List.zipWith (· + ·) a b)
  | [], _, _ => by simp
  | _ :: _, [], _ => by simp
  | _ :: _, _ :: _, [] => by simp
  | x :: xs, a :: as, b :: bs => by
    simp only [List.zipWith_cons_cons, zipWith_zipWith_add xs as bs, add_assoc]

theorem zipWith_zero_right : ∀ (a : List (RLWE n)), List.zipWith (· + ·) a (List.replicate a.length 0) = a
  | [] => rfl
  | a :: as => by simp [List.replicate_succ, zipWith_zero_right as]

theorem zipWith_zero_left : ∀ (a : List (RLWE n)), List.zipWith (· + ·) (List.replicate a.length 0) a = a
  | [] => rfl
  | a :: as => by simp [List.replicate_succ, zipWith_zero_left as]

theorem kdm_split (k t : List (RLWE n)) :
    List.zipWith (· + ·) (k ++ List.replicate t.length 0) (List.replicate k.length 0 ++ t) = k ++ t := by
  rw [List.zipWith_append (by simp), zipWith_zero_right, zipWith_zero_left]

/-- The reduction, for any party whose output is wired from samples plus messages. -/
theorem reduction {α Ω : Type} [MeasurableSpace Ω] {μ : MeasureTheory.Measure Ω} {key : Ω → Poly n} {masks noises : Ω → Nat → Poly n}
    {kdm : Poly n → List (RLWE n)} {N : Nat} {adv tests : Set (List (RLWE n) → Prop)} {ε : ℝ} (hard : Hard μ key masks noises kdm N tests ε)
    (closed : Reduces adv tests) {run : Ω → Option (α × Gen n)} {wire : α → List (RLWE n)} {shift : List (RLWE n)} {ps : List Nat}
    {wires : List (Option Nat)} (hps : ps.Pairwise (· < ·)) (hN : ∀ p ∈ ps, p < N) (hlen : ∀ s, ps.length = (kdm s ++ shift).length)
    (hrun : ∀ ω, ∃ r g, run ω = some (r, g) ∧
      wire r = wires.map (pick (List.zipWith (· + ·) (ps.map (sample (key ω) (masks ω) (noises ω))) (kdm (key ω) ++ shift))))
    {A : List (RLWE n) → Prop} (hA : A ∈ adv) :
    |μ.real {ω | Guess A wire run ω} - idealChance n ps.length (fun x => A (wires.map (pick x)))| ≤ ε := by
  have hl : ∀ s, (kdm s).length = (kdm 0).length := fun s => by
    have h1 := hlen s
    have h2 := hlen 0
    rw [List.length_append] at h1 h2
    omega
  have hsl : ps.length - (kdm 0).length = shift.length := by
    have h2 := hlen 0
    rw [List.length_append] at h2
    omega
  have h := hard _ (closed A hA (List.replicate (kdm 0).length 0 ++ shift) wires) ps hps hN (by have := hlen 0; rw [List.length_append] at this; omega)
  rw [idealChance_shift (D := fun x => A (wires.map (pick x))) (by rw [hlen 0]; simp)] at h
  refine le_of_eq_of_le ?_ h
  congr 2
  refine congrArg _ (Set.ext fun ω => ?_)
  obtain ⟨r, g, h1, h2⟩ := hrun ω
  have h3 : List.zipWith (· + ·) (challenge (key ω) (masks ω) (noises ω) (kdm (key ω)) ps) (List.replicate (kdm 0).length 0 ++ shift) =
      List.zipWith (· + ·) (ps.map (sample (key ω) (masks ω) (noises ω))) (kdm (key ω) ++ shift) := by
    unfold challenge
    rw [zipWith_zipWith_add, hl (key ω), hsl, ← hl (key ω), kdm_split]
  show Guess A wire run ω ↔ A _
  rw [h3, ← h2]
  constructor
  · rintro ⟨r', g', e, hr⟩
    rw [h1] at e
    cases e
    exact hr
  · exact fun hr => ⟨r, g, h1, hr⟩

theorem pick_append_left {a b : List (RLWE n)} {i : Nat} (h : i < a.length) : pick (a ++ b) (some i) = a[i] := by
  simp [pick, List.getD, List.getElem?_append_left h, h]

theorem map_pick_range (a b c : List (RLWE n)) :
    ((List.range' a.length b.length).map some).map (pick (a ++ (b ++ c))) = b := by
  refine List.ext_getElem (by simp) fun i h1 h2 => ?_
  simp only [List.getElem_map, List.getElem_range', pick, List.getD]
  rw [List.getElem?_append_right (by omega), List.getElem?_append_left (by simp; omega)]
  simp [h2]

/-- Where the cells of the server come from. -/
def oramWires (layout : List (List (Option Nat))) (k m q : Nat) : List (Option Nat) :=
  (List.range' 0 k).map some ++ ((layout.flatten.map fun o => o.bind fun j => if j < m then some (k + j) else none) ++ (List.range' (k + m) q).map some)

theorem oramWires_map (layout : List (List (Option Nat))) (a b c : List (RLWE n)) :
    (oramWires layout a.length b.length c.length).map (pick (a ++ (b ++ c))) = a ++ ((place layout b).flatten ++ c) := by
  unfold oramWires
  rw [List.map_append, List.map_append]
  congr 1
  · have := map_pick_range [] a (b ++ c)
    simpa using this
  congr 1
  · unfold place
    rw [← List.map_flatten, List.map_map]
    refine List.map_congr_left fun o _ => ?_
    rcases o with _ | j
    · rfl
    · simp only [Function.comp, Option.bind_some]
      split
      · rename_i h
        simp only [pick, List.getD]
        rw [List.getElem?_append_right (by omega), List.getElem?_append_left (by omega)]
        simp
      · rename_i h
        simp only [pick, List.getD]
        rw [List.getElem?_eq_none (by omega)]
        rfl
  · have := map_pick_range (a ++ b) c []
    simpa using this

theorem HidOrPanic.first {ι α β : Type} {key : ι → Poly n} {f : α → ι → Gen n → Option (β × Gen n)} {v : β → List (RLWE n)} {L : Nat}
    (l : List α) (h : ∀ a ∈ l, HidOrPanic key (f a) v L) :
    HidOrPanic key (fun k g => removeFirst (mapGenM (fun a => f a k) l g)) v L := by
  intro plains pos
  rcases l with _ | ⟨a, l⟩
  · left
    intro k masks noises
    rfl
  rcases h a (by simp) plains pos with hn | ⟨s1, ps1, pos1, l1, h1⟩
  · left
    intro k masks noises
    show removeFirst (mapGenM _ (a :: l) _) = none
    rw [mapGenM]
    simp only [hn]
    rfl
  rcases HidOrPanic.list l (fun b hb => h b (by simp [hb])) plains pos1 with hn | ⟨s2, ps2, pos2, l2, h2⟩
  · left
    intro k masks noises
    obtain ⟨b, e, _⟩ := h1.run k masks noises
    show removeFirst (mapGenM _ (a :: l) _) = none
    rw [mapGenM]
    simp only [e]
    simp only [hn]
    rfl
  · right
    refine ⟨s1, ps1, pos2, l1, h1.le.trans h2.le, h1.fresh, fun p hp => ⟨(h1.range p hp).1, lt_of_lt_of_le (h1.range p hp).2 h2.le⟩, h1.len, ?_⟩
    intro k masks noises
    obtain ⟨b, e1, e2⟩ := h1.run k masks noises
    obtain ⟨bs, e3, _⟩ := h2.run k masks noises
    refine ⟨b, ?_, e2⟩
    show removeFirst (mapGenM _ (a :: l) _) = _
    rw [mapGenM]
    simp only [e1]
    simp only [e3]
    rfl

theorem HidOrPanic.single {ι β : Type} {key : ι → Poly n} {f : ι → Gen n → Option (β × Gen n)} {v : β → List (RLWE n)} {L : Nat}
    (h : HidOrPanic key f v L) : HidOrPanic key (fun k g => (f k g).map fun r => ([r.1], r.2)) (fun qs => qs.flatMap v) L := by
  intro plains pos
  rcases h plains pos with hn | ⟨s1, ps1, pos1, l1, h1⟩
  · exact Or.inl fun k masks noises => by simp only [hn, Option.map_none]
  · exact Or.inr ⟨s1, ps1, pos1, l1, h1.map fun k g a g1 e => ⟨[a], by simp only [e, Option.map_some], by simp⟩⟩

/-- The ciphertexts of one query. -/
abbrev querySize (ctx : Ctx) (cols : Nat) : Nat := 2 * ctx.levelCount * ((log2 cols).getD 0 + 1) + 1

theorem readOne_hidOrPanic {ι : Type} (key : ι → Poly n) (ctx : Ctx) (rows cols : Nat) (H : NaiveHash) (i : Nat) :
    HidOrPanic key (fun k g => genReadQueryOne ctx (key k) rows cols H i g) viewQuery (querySize ctx cols) := by
  unfold genReadQueryOne genReadQueryBatch
  rcases hm : H.hashToMapping [i] cols with _ | mapping
  · exact fun plains pos => Or.inl fun k masks noises => rfl
  · refine HidOrPanic.first (key := key) (f := fun r k => readQueryRow ctx (key k) cols mapping r) (List.range rows) fun r _ => ?_
    unfold readQueryRow
    rcases mapping r with _ | c
    · exact read_hidOrPanic key ctx cols 0
    · exact read_hidOrPanic key ctx cols c.1

theorem writeOne_hidOrPanic {ι : Type} (key : ι → Poly n) (ctx : Ctx) (rows cols : Nat) (H : NaiveHash) (i : Nat) (alpha : Poly n) :
    HidOrPanic key (fun k g => genWriteQueryOne ctx (key k) rows cols H i alpha g) viewQuery (querySize ctx cols) := by
  unfold genWriteQueryOne genWriteQueryBatch
  rcases hm : H.hashToMapping [i] cols with _ | mapping
  · exact fun plains pos => Or.inl fun k masks noises => rfl
  · refine HidOrPanic.first (key := key) (f := fun r k => writeQueryRow ctx (key k) cols alpha mapping r) (List.range rows) fun r _ => ?_
    unfold writeQueryRow
    rcases mapping r with _ | c
    · exact read_hidOrPanic key ctx cols 0
    · exact write_hidOrPanic key ctx cols c.1 alpha

theorem op_hidOrPanic {ι : Type} (key : ι → Poly n) (ctx : Ctx) (rows cols : Nat) (H : NaiveHash) (op : ClientOp n) :
    HidOrPanic key (fun k g => op.queries ctx (key k) rows cols H g) (fun qs => qs.flatMap viewQuery) (op.size rows * querySize ctx cols) := by
  rcases op with c | i | ⟨i, alpha⟩
  · exact batch_hidOrPanic key ctx rows cols H c
  · rw [ClientOp.size, one_mul]
    exact (readOne_hidOrPanic key ctx rows cols H i).single
  · rw [ClientOp.size, one_mul]
    exact (writeOne_hidOrPanic key ctx rows cols H i alpha).single

theorem ops_hidOrPanic {ι : Type} (key : ι → Poly n) (ctx : Ctx) (rows cols : Nat) (H : NaiveHash) : ∀ ops : List (ClientOp n),
    HidOrPanic key (fun k g => mapGenM (ClientOp.queries ctx (key k) rows cols H) ops g) (fun qss => qss.flatMap fun qs => qs.flatMap viewQuery)
      ((ops.map (ClientOp.size rows)).sum * querySize ctx cols)
  | [], _, pos => Or.inr ⟨[], [], pos, by simp, Hid.pure (fun _ => []) (fun _ => rfl) pos⟩
  | a :: l, plains, pos => by
    rcases op_hidOrPanic key ctx rows cols H a plains pos with hn | ⟨s1, ps1, pos1, l1, h1⟩
    · left
      intro k masks noises
      show mapGenM _ (a :: l) _ = none
      rw [mapGenM]
      simp only [hn]
    rcases ops_hidOrPanic key ctx rows cols H l plains pos1 with hn | ⟨s2, ps2, pos2, l2, h2⟩
    · left
      intro k masks noises
      obtain ⟨b, e, _⟩ := h1.run k masks noises
      show mapGenM _ (a :: l) _ = none
      rw [mapGenM]
      simp only [e]
      simp only [hn]
    · right
      refine ⟨s1 ++ s2, ps1 ++ ps2, pos2, by simp [l1, l2]; ring, ?_⟩
      refine h1.seq h2 fun k g b g1 bs g2 e1 e2 => ⟨b :: bs, ?_, by simp⟩
      show mapGenM _ (a :: l) g = _
      rw [mapGenM]
      simp only [e1]
      simp only [e2]

theorem ops_hidOrPanic_id (ctx : Ctx) (rows cols : Nat) (H : NaiveHash) (ops : List (ClientOp n)) :
    HidOrPanic id (fun s : Poly n => mapGenM (ClientOp.queries ctx s rows cols H) ops) (fun qss => qss.flatMap fun qs => qs.flatMap viewQuery)
      ((ops.map (ClientOp.size rows)).sum * querySize ctx cols) :=
  ops_hidOrPanic id ctx rows cols H ops

/-- As `C75_oram_view`, with single operations. -/
theorem ops_view (ctx : Ctx) (rows cols : Nat) (H : NaiveHash) :
    ∃ layout : List (List (Option Nat)), ∀ (ops : List (ClientOp n)) (plains : Nat → Poly n) (pos : Nat),
    (∀ s masks noises, Binary s → opsClient ctx s rows cols H ops ⟨masks, noises, plains, pos⟩ = none) ∨
    ∃ (shift : List (RLWE n)) (ps : List Nat) (pos' : Nat),
      shift.length = min (rows * cols / H.hCount) 128 + (ops.map (ClientOp.size rows)).sum * querySize ctx cols ∧
      ps.Pairwise (· < ·) ∧ (∀ p ∈ ps, pos ≤ p ∧ p < pos') ∧ (∀ s : Poly n, ps.length = (negShift ctx s ++ shift).length) ∧
      ∀ s masks noises, Binary s → ∃ S qss cts,
        opsClient ctx s rows cols H ops ⟨masks, noises, plains, pos⟩ = some ((S, qss), ⟨masks, noises, plains, pos'⟩) ∧
        S.data = place layout cts ∧ cts.length = min (rows * cols / H.hCount) 128 ∧
        viewRgsw S.negS ++ (cts ++ qss.flatMap fun qs => qs.flatMap viewQuery) =
          List.zipWith (· + ·) (ps.map (sample s masks noises)) (negShift ctx s ++ shift) := by
  by_cases hsize : rows * cols = H.inputDomain * H.hCount
  swap
  · refine ⟨[], fun ops plains pos => Or.inl ?_⟩
    intro s masks noises _
    unfold opsClient setupRandomOram
    rw [if_neg hsize]
  obtain ⟨is, his, hd⟩ := genDummy_place (n := n) ctx rows cols H
  rcases hd with hn | ⟨layout, hd⟩
  · refine ⟨[], fun ops plains pos => Or.inl ?_⟩
    obtain ⟨ps1, pos1, h1⟩ := Hidden.neg (plains := plains) ctx pos
    intro s masks noises hs
    obtain ⟨a, e1, _⟩ := h1.run ⟨s, hs⟩ masks noises
    unfold opsClient setupRandomOram
    rw [if_pos hsize]
    dsimp only at e1
    simp only [e1, hn]
  refine ⟨layout, fun ops plains pos => ?_⟩
  obtain ⟨ps1, pos1, h1⟩ := Hidden.neg (plains := plains) ctx pos
  rcases dummyCts_hidOrPanic (fun s : {s : Poly n // Binary s} => s.1) ctx is plains pos1 with hn | ⟨shift2, ps2, pos2, l2, h2⟩
  · left
    intro s masks noises hs
    obtain ⟨a, e1, _⟩ := h1.run ⟨s, hs⟩ masks noises
    unfold opsClient setupRandomOram
    rw [if_pos hsize]
    dsimp only at e1
    simp only [e1]
    rw [(hd s _).1 (hn ⟨s, hs⟩ masks noises)]
  rcases ops_hidOrPanic_id ctx rows cols H ops plains pos2 with hn | ⟨shift3, ps3, pos3, l3, h3⟩
  · left
    intro s masks noises hs
    obtain ⟨a, e1, _⟩ := h1.run ⟨s, hs⟩ masks noises
    obtain ⟨b, e2, _⟩ := h2.run ⟨s, hs⟩ masks noises
    obtain ⟨pts, e3⟩ := (hd s _).2 b _ e2
    unfold opsClient setupRandomOram
    rw [if_pos hsize]
    dsimp only at e1
    simp only [e1, e3, hn]
  right
  have hh := h1.seq (h2.hidden.seq (h3.hidden.comap (fun s : {s : Poly n // Binary s} => s.1))
    (F := fun s g => match dummyCts ctx s.1 is g with
      | none => none
      | some (cts, g) =>
        match mapGenM (ClientOp.queries ctx s.1 rows cols H) ops g with
        | none => none
        | some (qss, g) => some ((cts, qss), g))
    (v := fun r => r.1 ++ r.2.flatMap fun qs => qs.flatMap viewQuery)
    fun s g a g1 b g2 e1 e2 => ⟨(a, b), by simp only [e1, e2], rfl⟩)
    (F := fun s g => match negGsw ctx s.1 g with
      | none => none
      | some (negS, g) =>
        match dummyCts ctx s.1 is g with
        | none => none
        | some (cts, g) =>
          match mapGenM (ClientOp.queries ctx s.1 rows cols H) ops g with
          | none => none
          | some (qss, g) => some ((negS, cts, qss), g))
    (v := fun r => viewRgsw r.1 ++ (r.2.1 ++ r.2.2.flatMap fun qs => qs.flatMap viewQuery))
    fun s g a g1 b g2 e1 e2 => ⟨(a, b), by
      simp only [e1]
      revert e2
      rcases dummyCts ctx s.1 is g1 with _ | ⟨x, y⟩
      · simp
      · dsimp only
        rcases mapGenM (ClientOp.queries ctx s.1 rows cols H) ops y with _ | ⟨x', y'⟩
        · simp
        · dsimp only
          intro h
          injection h with h
          injection h with h4 h5
          rw [← h4, ← h5], rfl⟩
  refine ⟨shift2 ++ shift3, _, pos3, by rw [List.length_append, l2, l3, his], hh.fresh, hh.range, fun s => ?_, fun s masks noises hs => ?_⟩
  · have : Binary (0 : Poly n) := fun k => Or.inl rfl
    rw [hh.len ⟨0, this⟩]
    simp only [List.length_append, negShift, gadgetShift_length]
  · obtain ⟨⟨negS, cts, qss⟩, e1, e2⟩ := hh.run ⟨s, hs⟩ masks noises
    revert e1
    obtain ⟨a, f1, _⟩ := h1.run ⟨s, hs⟩ masks noises
    obtain ⟨b, f2, f2'⟩ := h2.run ⟨s, hs⟩ masks noises
    obtain ⟨c, f3, _⟩ := h3.run s masks noises
    dsimp only at f1 f2 f3
    simp only [f1, f2, f3]
    intro h
    simp only [Option.some.injEq, Prod.mk.injEq, and_true] at h
    obtain ⟨rfl, rfl, rfl⟩ := h
    obtain ⟨pts, e3⟩ := (hd s _).2 b _ f2
    refine ⟨Server.new (place layout b) a ctx, c, b, ?_, rfl, ?_, e2⟩
    · unfold opsClient setupRandomOram
      rw [if_pos hsize]
      simp only [f1, e3, f3]
    · have h5 := congrArg List.length f2'
      rw [List.length_zipWith, List.length_map, h2.len, min_self, l2, his] at h5
      exact h5

theorem viewRgsw_negS {ctx : Ctx} {s : Poly n} {rows cols : Nat} {H : NaiveHash} {ops : List (ClientOp n)} {g g' : Gen n} {S : Server n}
    {qss : List (List (ClientQuery n))} (h : opsClient ctx s rows cols H ops g = some ((S, qss), g')) (hs : Binary s) :
    (viewRgsw S.negS).length = (negShift ctx s).length := by
  unfold opsClient setupRandomOram at h
  split at h
  · cases h
  · rename_i S' pts g1 h1
    split at h
    · cases h
    · cases h
      split at h1
      swap
      · cases h1
      split at h1
      · cases h1
      · rename_i negS g2 h2
        split at h1
        · cases h1
        · cases h1
          obtain ⟨ps, pos', hh⟩ := Hidden.neg (plains := g.plains) ctx g.pos
          obtain ⟨a, e1, e2⟩ := hh.run ⟨s, hs⟩ g.masks g.noises
          have e3 : some (a, _) = some (negS, g2) := e1.symm.trans h2
          cases e3
          show (viewRgsw negS).length = _
          rw [e2, List.length_zipWith, List.length_map, hh.len ⟨s, hs⟩, min_self]

/-- C90 (ORAM, simulation): whatever the client stores, reads and writes, the server cannot tell what it gets from random pairs copied into the
database according to the sizes and hash functions: the simulation needs to know nothing but the sizes, the hash functions and the number of
queries of every operation. -/
theorem C90_oram_simulated (ctx : Ctx) (rows cols : Nat) (H : NaiveHash) (sizes : List Nat) :
    ∃ (L : Nat) (wires : List (Option Nat)), ∀ {Ω : Type} [MeasurableSpace Ω] (μ : MeasureTheory.Measure Ω) [MeasureTheory.IsProbabilityMeasure μ]
      (key : Ω → Poly n) (masks noises : Ω → Nat → Poly n) (N : Nat) (adv tests : Set (List (RLWE n) → Prop)) (ε : ℝ), (∀ ω, Binary (key ω)) →
      Hard μ key masks noises (negShift ctx) N tests ε → Reduces adv tests →
      ∀ (ops : List (ClientOp n)) (plains : Nat → Poly n) (pos : Nat), ops.map (ClientOp.size rows) = sizes →
      (∀ ω, ∃ r g, opsClient ctx (key ω) rows cols H ops ⟨masks ω, noises ω, plains, pos⟩ = some (r, g) ∧ g.pos ≤ N) →
      ∀ A ∈ adv, |μ.real {ω | Guess A oramWire (fun ω => opsClient ctx (key ω) rows cols H ops ⟨masks ω, noises ω, plains, pos⟩) ω} -
        idealChance n L (fun x => A (wires.map (pick x)))| ≤ ε := by
  obtain ⟨layout, hview⟩ := ops_view (n := n) ctx rows cols H
  set m := min (rows * cols / H.hCount) 128 with hm
  set Q := sizes.sum * querySize ctx cols with hQ
  refine ⟨(negShift ctx (0 : Poly n)).length + (m + Q), oramWires layout (negShift ctx (0 : Poly n)).length m Q, ?_⟩
  intro Ω _ μ _ key masks noises N adv tests ε hkey hard closed ops plains pos hK hok A hA
  obtain ⟨ω0⟩ : Nonempty Ω := by
    by_contra hne
    rw [not_nonempty_iff] at hne
    have h1 : μ Set.univ = 1 := MeasureTheory.IsProbabilityMeasure.measure_univ
    rw [Set.univ_eq_empty_iff.mpr hne, MeasureTheory.measure_empty] at h1
    exact zero_ne_one h1
  rcases hview ops plains pos with hn | ⟨shift, ps, pos', l1, fresh, range, l2, hrun⟩
  · obtain ⟨r, g, e, _⟩ := hok ω0
    rw [hn _ _ _ (hkey ω0)] at e
    cases e
  have hN : pos' ≤ N := by
    obtain ⟨r, g, e, hg⟩ := hok ω0
    obtain ⟨S, qss, cts, e1, _⟩ := hrun (key ω0) (masks ω0) (noises ω0) (hkey ω0)
    rw [e1] at e
    cases e
    exact hg
  have hL : ps.length = (negShift ctx (0 : Poly n)).length + (m + Q) := by
    rw [l2 0, List.length_append, l1, hm, hQ, hK]
  rw [← hL]
  refine reduction hard closed fresh (fun p hp => lt_of_lt_of_le (range p hp).2 hN) l2 (fun ω => ?_) hA
  obtain ⟨S, qss, cts, e1, e2, e3, e4⟩ := hrun (key ω) (masks ω) (noises ω) (hkey ω)
  refine ⟨(S, qss), _, e1, ?_⟩
  rw [← e4]
  have hk : (negShift ctx (0 : Poly n)).length = (viewRgsw S.negS).length := by
    rw [viewRgsw_negS e1 (hkey ω)]
    simp [negShift, gadgetShift_length]
  have hq : Q = (qss.flatMap fun qs => qs.flatMap viewQuery).length := by
    have h5 := congrArg List.length e4
    rw [List.length_zipWith, List.length_map, ← l2 (key ω), min_self, List.length_append, List.length_append, e3, ← hk, hL] at h5
    omega
  rw [hk, hq, ← e3, oramWires_map]
  unfold oramWire
  rw [e2]

/-- C90 (ORAM): no test can tell two sessions with the same sizes apart better than by twice the advantage against RLWE, whatever is stored, read and
written, and whether the operations are reads or writes. -/
theorem C90_oram (ctx : Ctx) (rows cols : Nat) (H : NaiveHash) {Ω : Type} [MeasurableSpace Ω] (μ : MeasureTheory.Measure Ω)
    [MeasureTheory.IsProbabilityMeasure μ] (key : Ω → Poly n) (masks noises : Ω → Nat → Poly n) (N : Nat) (adv tests : Set (List (RLWE n) → Prop)) (ε : ℝ)
    (hkey : ∀ ω, Binary (key ω)) (hard : Hard μ key masks noises (negShift ctx) N tests ε) (closed : Reduces adv tests)
    (ops ops' : List (ClientOp n)) (hsize : ops.map (ClientOp.size rows) = ops'.map (ClientOp.size rows)) (plains plains' : Nat → Poly n) (pos pos' : Nat)
    (hok : ∀ ω, ∃ r g, opsClient ctx (key ω) rows cols H ops ⟨masks ω, noises ω, plains, pos⟩ = some (r, g) ∧ g.pos ≤ N)
    (hok' : ∀ ω, ∃ r g, opsClient ctx (key ω) rows cols H ops' ⟨masks ω, noises ω, plains', pos'⟩ = some (r, g) ∧ g.pos ≤ N)
    (A : List (RLWE n) → Prop) (hA : A ∈ adv) :
    |μ.real {ω | Guess A oramWire (fun ω => opsClient ctx (key ω) rows cols H ops ⟨masks ω, noises ω, plains, pos⟩) ω} -
      μ.real {ω | Guess A oramWire (fun ω => opsClient ctx (key ω) rows cols H ops' ⟨masks ω, noises ω, plains', pos'⟩) ω}| ≤ 2 * ε := by
  obtain ⟨L, wires, h⟩ := C90_oram_simulated (n := n) ctx rows cols H (ops.map (ClientOp.size rows))
  have h1 := h μ key masks noises N adv tests ε hkey hard closed ops plains pos rfl hok A hA
  have h2 := h μ key masks noises N adv tests ε hkey hard closed ops' plains' pos' hsize.symm hok' A hA
  rw [abs_le] at *
  constructor <;> linarith [h1.1, h1.2, h2.1, h2.2]

/-- The key-dependent messages of a decision-tree session. -/
abbrev treeKdm (ctx : Ctx) (d : Nat) (s : Poly (2 ^ d)) : List (RLWE (2 ^ d)) := negShift ctx s ++ kskShift ctx d s

theorem map_pick_all (a : List (RLWE n)) : ((List.range' 0 a.length).map some).map (pick a) = a := by
  have := map_pick_range [] a []
  simpa using this

/-- C90 (decision trees, simulation): whatever the feature vectors are, the server cannot tell what it gets from random pairs, whose number depends on
the parameters and the number and length of the vectors only. -/
theorem C90_tree_simulated {d : Nat} (hd : d < 64) (ctx : Ctx) (len K : Nat) :
    ∃ L : Nat, ∀ {Ω : Type} [MeasurableSpace Ω] (μ : MeasureTheory.Measure Ω) [MeasureTheory.IsProbabilityMeasure μ]
      (key : Ω → Poly (2 ^ d)) (masks noises : Ω → Nat → Poly (2 ^ d)) (N : Nat) (adv tests : Set (List (RLWE (2 ^ d)) → Prop)) (ε : ℝ),
      (∀ ω, Binary (key ω)) → Hard μ key masks noises (treeKdm ctx d) N tests ε → Reduces adv tests →
      ∀ (vss : List (List Nat)) (plains : Nat → Poly (2 ^ d)) (pos : Nat), vss.length = K → (∀ vs ∈ vss, vs.length = len) →
      (∀ ω, ∃ r g, treeClient ctx (key ω) vss ⟨masks ω, noises ω, plains, pos⟩ = some (r, g) ∧ g.pos ≤ N) →
      ∀ A ∈ adv, |μ.real {ω | Guess A (treeWire d) (fun ω => treeClient ctx (key ω) vss ⟨masks ω, noises ω, plains, pos⟩) ω} -
        idealChance (2 ^ d) L (fun x => A (((List.range L).map some).map (pick x)))| ≤ ε := by
  refine ⟨(treeKdm ctx d 0).length + K * (len * ctx.levelCount), ?_⟩
  intro Ω _ μ _ key masks noises N adv tests ε hkey hard closed vss plains pos hK hlen hok A hA
  obtain ⟨ω0⟩ : Nonempty Ω := by
    by_contra hne
    rw [not_nonempty_iff] at hne
    have h1 : μ Set.univ = 1 := MeasureTheory.IsProbabilityMeasure.measure_univ
    rw [Set.univ_eq_empty_iff.mpr hne, MeasureTheory.measure_empty] at h1
    exact zero_ne_one h1
  rcases C75_tree_view hd ctx len vss hlen plains pos with hn | ⟨shift, ps, pos', l1, hh⟩
  · obtain ⟨r, g, e, _⟩ := hok ω0
    rw [hn _ _ _ (hkey ω0)] at e
    cases e
  have hN : pos' ≤ N := by
    obtain ⟨r, g, e, hg⟩ := hok ω0
    obtain ⟨a, e1, _⟩ := hh.run ⟨key ω0, hkey ω0⟩ (masks ω0) (noises ω0)
    dsimp only at e1
    rw [e1] at e
    cases e
    exact hg
  have hk : ∀ s, (kskShift ctx d s).length = (kskShift ctx d 0).length := fun s => by
    unfold kskShift
    simp only [List.length_flatMap, List.length_map]
  have hl : ∀ s, ps.length = (treeKdm ctx d s ++ shift).length := fun s => by
    have := hh.len ⟨0, fun k => Or.inl rfl⟩
    simp only [List.length_append, negShift, gadgetShift_length] at this ⊢
    rw [this, hk s]
    ring
  have hL : ps.length = (treeKdm ctx d 0).length + K * (len * ctx.levelCount) := by
    rw [hl 0, List.length_append, l1, hK]
  rw [← hL]
  refine reduction hard closed hh.fresh (fun p hp => lt_of_lt_of_le (hh.range p hp).2 hN) hl (fun ω => ?_) hA
  obtain ⟨a, e1, e2⟩ := hh.run ⟨key ω, hkey ω⟩ (masks ω) (noises ω)
  refine ⟨a, _, e1, ?_⟩
  unfold treeKdm treeWire
  rw [List.append_assoc, ← e2, List.range_eq_range']
  have hx : ps.length = (viewRgsw a.1 ++ (viewKsks d a.2.1 ++ a.2.2.flatMap fun cts => cts.flatMap id)).length := by
    rw [e2, List.length_zipWith, List.length_map, ← hh.len ⟨key ω, hkey ω⟩, min_self]
  rw [hx, map_pick_all]

/-- C90 (decision trees): no test can tell two lists of equally long feature vectors apart better than by twice the advantage against RLWE. -/
theorem C90_tree {d : Nat} (hd : d < 64) (ctx : Ctx) (len : Nat) {Ω : Type} [MeasurableSpace Ω] (μ : MeasureTheory.Measure Ω)
    [MeasureTheory.IsProbabilityMeasure μ] (key : Ω → Poly (2 ^ d)) (masks noises : Ω → Nat → Poly (2 ^ d)) (N : Nat)
    (adv tests : Set (List (RLWE (2 ^ d)) → Prop)) (ε : ℝ) (hkey : ∀ ω, Binary (key ω)) (hard : Hard μ key masks noises (treeKdm ctx d) N tests ε)
    (closed : Reduces adv tests) (vss vss' : List (List Nat)) (hK : vss.length = vss'.length) (hlen : ∀ vs ∈ vss, vs.length = len)
    (hlen' : ∀ vs ∈ vss', vs.length = len) (plains plains' : Nat → Poly (2 ^ d)) (pos pos' : Nat)
    (hok : ∀ ω, ∃ r g, treeClient ctx (key ω) vss ⟨masks ω, noises ω, plains, pos⟩ = some (r, g) ∧ g.pos ≤ N)
    (hok' : ∀ ω, ∃ r g, treeClient ctx (key ω) vss' ⟨masks ω, noises ω, plains', pos'⟩ = some (r, g) ∧ g.pos ≤ N)
    (A : List (RLWE (2 ^ d)) → Prop) (hA : A ∈ adv) :
    |μ.real {ω | Guess A (treeWire d) (fun ω => treeClient ctx (key ω) vss ⟨masks ω, noises ω, plains, pos⟩) ω} -
      μ.real {ω | Guess A (treeWire d) (fun ω => treeClient ctx (key ω) vss' ⟨masks ω, noises ω, plains', pos'⟩) ω}| ≤ 2 * ε := by
  obtain ⟨L, h⟩ := C90_tree_simulated hd ctx len vss.length
  have h1 := h μ key masks noises N adv tests ε hkey hard closed vss plains pos rfl hlen hok A hA
  have h2 := h μ key masks noises N adv tests ε hkey hard closed vss' plains' pos' hK.symm hlen' hok' A hA
  rw [abs_le] at *
  constructor <;> linarith [h1.1, h1.2, h2.1, h2.2]

/-! ### The ideal world, and an instance of the assumption -/

/-- Coefficient vectors. -/
def polyEquiv (n : Nat) : Poly n ≃ (Fin n → BitVec 64) := ⟨fun p => p.coeff, fun f => ⟨f⟩, fun _ => rfl, fun _ => rfl⟩

/-- Ciphertexts as pairs. -/
def rlweEquiv (n : Nat) : RLWE n ≃ Poly n × Poly n := ⟨fun c => (c.mask, c.body), fun p => ⟨p.1, p.2⟩, fun _ => rfl, fun _ => rfl⟩

instance : Finite (BitVec 64) := Finite.of_equiv (Fin (2 ^ 64)) (BitVec.equivFin (m := 64)).symm.toEquiv
instance : Finite (Poly n) := Finite.of_equiv _ (polyEquiv n).symm
instance : Finite (RLWE n) := Finite.of_equiv _ (rlweEquiv n).symm

theorem poly_card : Nat.card (Poly n) = 2 ^ (64 * n) := by
  rw [Nat.card_congr (polyEquiv n), Nat.card_fun, Nat.card_congr BitVec.equivFin.toEquiv, Nat.card_fin, Nat.card_fin, ← pow_mul]

/-- C90 (the ideal world is a probability distribution): there are `2^(128 n L)` lists of `L` pairs, each of them is equally likely. -/
theorem C90_ideal (n L : Nat) : Nat.card (Fin L → RLWE n) = 2 ^ (128 * n * L) ∧ idealChance n L (fun _ => True) = 1 ∧
    ∀ y : List (RLWE n), y.length = L → idealChance n L (fun x => x = y) = 1 / 2 ^ (128 * n * L) := by
  have hc : Nat.card (Fin L → RLWE n) = 2 ^ (128 * n * L) := by
    rw [Nat.card_fun, Nat.card_congr (rlweEquiv n), Nat.card_prod, poly_card, Nat.card_fin, ← pow_add, ← pow_mul]
    congr 1
    ring
  refine ⟨hc, ?_, ?_⟩
  · unfold idealChance
    rw [Nat.card_congr (Equiv.subtypeUnivEquiv fun _ => trivial)]
    refine div_self ?_
    rw [hc]
    positivity
  · intro y hy
    unfold idealChance
    have : Nat.card {x : Fin L → RLWE n // List.ofFn x = y} = 1 := by
      rw [Nat.card_eq_one_iff_unique]
      refine ⟨⟨fun a b => Subtype.ext (List.ofFn_injective (a.2.trans b.2.symm))⟩, ⟨⟨fun i => y[i.1]'(by rw [hy]; exact i.2), ?_⟩⟩⟩
      refine List.ext_getElem (by simp [hy]) fun i h1 h2 => by simp
    rw [this, hc]
    push_cast
    rfl

/-- All streams that are zero from position `N` on. -/
def Streams (n N : Nat) : Type := Fin N → Poly n × Poly n

instance (n N : Nat) : AddCommGroup (Streams n N) := inferInstanceAs (AddCommGroup (Fin N → Poly n × Poly n))
instance (n N : Nat) : Finite (Streams n N) := inferInstanceAs (Finite (Fin N → Poly n × Poly n))
instance (n N : Nat) : Nonempty (Streams n N) := ⟨0⟩
instance (n N : Nat) : MeasurableSpace (Streams n N) := ⊤
instance (n N : Nat) : DiscreteMeasurableSpace (Streams n N) := ⟨fun _ => trivial⟩

/-- The masks of a choice of streams. -/
def Streams.masks {N : Nat} (ω : Streams n N) (p : Nat) : Poly n := if h : p < N then (ω ⟨p, h⟩).1 else 0
/-- The noises of a choice of streams. -/
def Streams.noises {N : Nat} (ω : Streams n N) (p : Nat) : Poly n := if h : p < N then (ω ⟨p, h⟩).2 else 0

/-- A surjective homomorphism of finite groups maps the uniform distribution to the uniform distribution. -/
theorem card_preimage {G K : Type} [AddCommGroup G] [AddCommGroup K] [Finite G] (F : G →+ K) (hF : Function.Surjective F) (B : K → Prop) :
    (Nat.card {g // B (F g)} : ℝ) / Nat.card G = (Nat.card {k // B k} : ℝ) / Nat.card K := by
  have key : ∀ B : K → Prop, Nat.card {g // B (F g)} = Nat.card {k // B k} * Nat.card F.ker := fun B => by
    rw [← Nat.card_prod]
    have hσ : ∀ k, F (Function.surjInv hF k) = k := Function.surjInv_eq hF
    refine Nat.card_congr ⟨fun g => (⟨F g.1, g.2⟩, ⟨g.1 - Function.surjInv hF (F g.1), by rw [AddMonoidHom.mem_ker, map_sub, hσ, sub_self]⟩),
      fun x => ⟨x.2.1 + Function.surjInv hF x.1.1, by rw [map_add, AddMonoidHom.mem_ker.mp x.2.2, zero_add, hσ]; exact x.1.2⟩, ?_, ?_⟩
    · rintro ⟨g, hg⟩
      simp
    · rintro ⟨⟨k, hk⟩, ⟨u, hu⟩⟩
      have h1 : F (u + Function.surjInv hF k) = k := by rw [map_add, AddMonoidHom.mem_ker.mp hu, zero_add, hσ]
      simp only [Prod.mk.injEq, Subtype.mk.injEq]
      exact ⟨h1, by rw [h1, add_sub_cancel_right]⟩
  have hG := key fun _ => True
  rw [Nat.card_congr (Equiv.subtypeUnivEquiv fun _ => trivial), Nat.card_congr (Equiv.subtypeUnivEquiv fun _ => trivial)] at hG
  rw [key B, hG]
  have hk : (Nat.card F.ker : ℝ) ≠ 0 := by
    have : 0 < Nat.card F.ker := Nat.card_pos
    positivity
  push_cast
  exact mul_div_mul_right _ _ hk

/-- The samples at the positions `ps`, as a function of the streams. -/
def sampleHom {N : Nat} (s : Poly n) (ps : List Nat) : Streams n N →+ (Fin ps.length → RLWE n) where
  toFun ω i := sample s ω.masks ω.noises ps[i]
  map_zero' := by
    funext i
    have h1 : (0 : Streams n N).masks = 0 := by funext p; unfold Streams.masks; split <;> rfl
    have h2 : (0 : Streams n N).noises = 0 := by funext p; unfold Streams.noises; split <;> rfl
    rw [h1, h2]
    show RLWE.mk (0 : Poly n) ((0 : Poly n) * s + 0) = RLWE.mk 0 0
    rw [zero_mul, add_zero]
  map_add' ω ω' := by
    funext i
    have h1 : ∀ p, (ω + ω').masks p = ω.masks p + ω'.masks p := fun p => by
      unfold Streams.masks
      split
      · rfl
      · rw [add_zero]
    have h2 : ∀ p, (ω + ω').noises p = ω.noises p + ω'.noises p := fun p => by
      unfold Streams.noises
      split
      · rfl
      · rw [add_zero]
    show RLWE.mk _ _ = RLWE.mk _ _
    rw [h1, h2]
    refine congrArg₂ RLWE.mk rfl ?_
    show _ = (ω.masks ps[i] * s + ω.noises ps[i]) + (ω'.masks ps[i] * s + ω'.noises ps[i])
    ring

theorem sampleHom_surjective {N : Nat} (s : Poly n) {ps : List Nat} (hps : ps.Pairwise (· < ·)) (hN : ∀ p ∈ ps, p < N) :
    Function.Surjective (sampleHom (N := N) s ps) := by
  intro y
  have hinj : ∀ i j : Fin ps.length, ps[i] = ps[j] → i = j := fun i j h => by
    rw [List.pairwise_iff_getElem] at hps
    rcases lt_trichotomy i.1 j.1 with hl | hl | hl
    · exact absurd h (Nat.ne_of_lt (hps _ _ i.2 j.2 hl))
    · exact Fin.ext hl
    · exact absurd h.symm (Nat.ne_of_lt (hps _ _ j.2 i.2 hl))
  classical
  refine ⟨fun p => if h : ∃ i : Fin ps.length, ps[i] = p.1 then ((y h.choose).mask, (y h.choose).body - (y h.choose).mask * s) else 0, ?_⟩
  funext i
  have hi : ps[i] < N := hN _ (List.getElem_mem _)
  have hex : ∃ j : Fin ps.length, ps[j] = ps[i] := ⟨i, rfl⟩
  have hc : hex.choose = i := hinj _ _ hex.choose_spec
  show sample s _ _ ps[i] = y i
  unfold sample Streams.masks Streams.noises
  simp only [dif_pos hi, dif_pos hex, hc]
  show RLWE.mk _ _ = RLWE.mk (y i).mask (y i).body
  exact congrArg₂ RLWE.mk rfl (by ring)

theorem zipWith_take : ∀ (x t : List (RLWE n)), List.zipWith (· + ·) x t = List.zipWith (· + ·) x (t.take x.length)
  | [], _ => by simp
  | _ :: _, [] => by simp
  | x :: xs, a :: as => by
    simp only [List.zipWith_cons_cons, List.length_cons, List.take_succ_cons]
    rw [zipWith_take xs as]

theorem uniform_real {Ω : Type} [Finite Ω] [MeasurableSpace Ω] [DiscreteMeasurableSpace Ω] (B : Set Ω) :
    (ProbabilityTheory.uniformOn (Set.univ : Set Ω)).real B = (Nat.card B : ℝ) / Nat.card Ω := by
  haveI := Fintype.ofFinite Ω
  rw [MeasureTheory.measureReal_def, ProbabilityTheory.uniformOn_univ, MeasureTheory.Measure.count_apply (MeasurableSet.of_discrete),
    ENNReal.toReal_div, Nat.card_eq_fintype_card (α := Ω)]
  congr 1
  rw [← (Set.toFinite B).cast_ncard_eq, Nat.card_coe_set_eq]
  rfl

/-- C90 (the assumption holds perfectly for uniform noise): if masks and noises are uniformly random and independent then no test at all has any
advantage, for every key; then by the other theorems the privacy of the sessions is perfect. -/
theorem C90_uniform_noise (s : Poly n) (kdm : Poly n → List (RLWE n)) (N : Nat) :
    Hard (ProbabilityTheory.uniformOn (Set.univ : Set (Streams n N))) (fun _ => s) Streams.masks Streams.noises kdm N Set.univ 0 := by
  intro D _ ps hps hN hlen
  rw [abs_nonpos_iff, sub_eq_zero]
  have hx : ∀ ω : Streams n N, ps.map (sample s ω.masks ω.noises) = List.ofFn (sampleHom s ps ω) := fun ω =>
    List.ext_getElem (by simp) fun i h1 h2 => by simp [sampleHom]
  have hc : ∀ ω : Streams n N, challenge s ω.masks ω.noises (kdm s) ps = List.zipWith (· + ·) (List.ofFn (sampleHom s ps ω))
      ((kdm s ++ List.replicate (ps.length - (kdm s).length) 0).take ps.length) := fun ω => by
    unfold challenge
    rw [hx, zipWith_take, List.length_ofFn]
  simp only [hc]
  have h2 := idealChance_shift (n := n) (L := ps.length) (t := (kdm s ++ List.replicate (ps.length - (kdm s).length) 0).take ps.length)
    (by rw [List.length_take, List.length_append, List.length_replicate]; omega) D
  rw [← h2, uniform_real]
  exact card_preimage (sampleHom s ps) (sampleHom_surjective s hps hN) fun y => D (List.zipWith (· + ·) (List.ofFn y) _)

/-- What the position of a client depends on: not on the key, the masks and the noises. -/
theorem ops_ends {ctx : Ctx} {rows cols : Nat} {H : NaiveHash} {ops : List (ClientOp n)} {s : Poly n} {g g' : Gen n}
    {r : Server n × List (List (ClientQuery n))} (hs : Binary s) (h : opsClient ctx s rows cols H ops g = some (r, g')) (s' : Poly n) (hs' : Binary s')
    (masks noises : Nat → Poly n) : ∃ r' g'', opsClient ctx s' rows cols H ops ⟨masks, noises, g.plains, g.pos⟩ = some (r', g'') ∧ g''.pos = g'.pos := by
  obtain ⟨layout, hview⟩ := ops_view (n := n) ctx rows cols H
  rcases hview ops g.plains g.pos with hn | ⟨shift, ps, pos', l1, fresh, range, l2, hrun⟩
  · rw [hn s g.masks g.noises hs] at h
    cases h
  · obtain ⟨S, qss, cts, e1, _⟩ := hrun s g.masks g.noises hs
    rw [e1] at h
    cases h
    obtain ⟨S', qss', cts', e2, _⟩ := hrun s' masks noises hs'
    exact ⟨_, _, e2, rfl⟩

/-- Two sessions: a READ and a WRITE batch and a single READ; two WRITE batches with other indices and values and a single WRITE. -/
def exOps : List (ClientOp 4) := [.batch (.read [0, 1]), .batch (.write [2] (Poly.const 4 7)), .readOne 1]
/-- See `exOps`. -/
def exOps' : List (ClientOp 4) := [.batch (.write [3] (Poly.const 4 1)), .batch (.write [0, 2] (Poly.const 4 5)), .writeOne 2 (Poly.const 4 3)]

/-- All hypotheses of `C90_oram` can be met (uniform masks and noises, all tests, `ε = 0`), by two sessions that do different things; here the privacy
is perfect: everything the server can look at has the same probability in both. -/
theorem C90_witness : ∃ N, ∀ A : List (RLWE 4) → Prop,
    (ProbabilityTheory.uniformOn (Set.univ : Set (Streams 4 N))).real
        {ω | Guess A oramWire (fun ω => opsClient exTreeCtx exKey 3 4 exHash exOps ⟨ω.masks, ω.noises, exGen.plains, 0⟩) ω} =
      (ProbabilityTheory.uniformOn (Set.univ : Set (Streams 4 N))).real
        {ω | Guess A oramWire (fun ω => opsClient exTreeCtx exKey 3 4 exHash exOps' ⟨ω.masks, ω.noises, exGen.plains, 0⟩) ω} ∧
    ∃ ω : Streams 4 N, Guess (fun x => x ≠ []) oramWire (fun ω => opsClient exTreeCtx exKey 3 4 exHash exOps ⟨ω.masks, ω.noises, exGen.plains, 0⟩) ω := by
  have h1 : (opsClient exTreeCtx exKey 3 4 exHash exOps exGen).isSome := by decide +kernel
  have h2 : (opsClient exTreeCtx exKey 3 4 exHash exOps' exGen).isSome := by decide +kernel
  obtain ⟨⟨r1, g1⟩, e1⟩ := Option.isSome_iff_exists.mp h1
  obtain ⟨⟨r2, g2⟩, e2⟩ := Option.isSome_iff_exists.mp h2
  refine ⟨max g1.pos g2.pos, fun A => ⟨?_, ?_⟩⟩
  · have h := C90_oram exTreeCtx 3 4 exHash (ProbabilityTheory.uniformOn (Set.univ : Set (Streams 4 (max g1.pos g2.pos)))) (fun _ => exKey)
      Streams.masks Streams.noises (max g1.pos g2.pos) Set.univ Set.univ 0 (fun _ => exKey_binary) (C90_uniform_noise exKey _ _)
      (fun _ _ _ _ => trivial) exOps exOps' rfl exGen.plains exGen.plains 0 0 (fun ω => by
        obtain ⟨r, g, e, hp⟩ := ops_ends exKey_binary e1 exKey exKey_binary ω.masks ω.noises
        exact ⟨r, g, e, hp ▸ le_max_left _ _⟩) (fun ω => by
        obtain ⟨r, g, e, hp⟩ := ops_ends exKey_binary e2 exKey exKey_binary ω.masks ω.noises
        exact ⟨r, g, e, hp ▸ le_max_right _ _⟩) A trivial
    rw [mul_zero, abs_nonpos_iff, sub_eq_zero] at h
    exact h
  · obtain ⟨r, g, e, hp⟩ := ops_ends exKey_binary e1 exKey exKey_binary (0 : Streams 4 (max g1.pos g2.pos)).masks
      (0 : Streams 4 (max g1.pos g2.pos)).noises
    refine ⟨0, r, g, e, ?_⟩
    have hl := viewRgsw_negS (S := r.1) (qss := r.2) e exKey_binary
    intro hnil
    unfold oramWire at hnil
    rw [List.append_eq_nil_iff] at hnil
    rw [hnil.1, negShift, gadgetShift_length] at hl
    cases hl

theorem tree_ends {d : Nat} (hd : d < 64) {ctx : Ctx} {len : Nat} {vss : List (List Nat)} (hlen : ∀ vs ∈ vss, vs.length = len) {s : Poly (2 ^ d)}
    {g : Gen (2 ^ d)} (hs : Binary s) (h : treeClient ctx s vss g ≠ none) : ∃ N, ∀ masks noises, ∃ r' g'',
    treeClient ctx s vss ⟨masks, noises, g.plains, g.pos⟩ = some (r', g'') ∧ g''.pos = N := by
  rcases C75_tree_view hd ctx len vss hlen g.plains g.pos with hn | ⟨shift, ps, pos', l1, hh⟩
  · exact absurd (hn s g.masks g.noises hs) h
  · refine ⟨pos', fun masks noises => ?_⟩
    obtain ⟨a, e1, _⟩ := hh.run ⟨s, hs⟩ masks noises
    exact ⟨_, _, e1, rfl⟩

/-- Uniform masks and noises: perfect privacy of the feature vectors. -/
theorem tree_perfect {d : Nat} (hd : d < 64) (ctx : Ctx) (len : Nat) {s : Poly (2 ^ d)} (hs : Binary s) (vss vss' : List (List Nat))
    (hK : vss.length = vss'.length) (hlen : ∀ vs ∈ vss, vs.length = len) (hlen' : ∀ vs ∈ vss', vs.length = len) (plains : Nat → Poly (2 ^ d)) {N1 N2 : Nat}
    (e1 : ∀ masks noises, ∃ r g, treeClient ctx s vss ⟨masks, noises, plains, 0⟩ = some (r, g) ∧ g.pos = N1)
    (e2 : ∀ masks noises, ∃ r g, treeClient ctx s vss' ⟨masks, noises, plains, 0⟩ = some (r, g) ∧ g.pos = N2)
    (A : List (RLWE (2 ^ d)) → Prop) :
    (ProbabilityTheory.uniformOn (Set.univ : Set (Streams (2 ^ d) (max N1 N2)))).real
        {ω | Guess A (treeWire d) (fun ω => treeClient ctx s vss ⟨ω.masks, ω.noises, plains, 0⟩) ω} =
      (ProbabilityTheory.uniformOn (Set.univ : Set (Streams (2 ^ d) (max N1 N2)))).real
        {ω | Guess A (treeWire d) (fun ω => treeClient ctx s vss' ⟨ω.masks, ω.noises, plains, 0⟩) ω} := by
  have h := C90_tree hd ctx len (ProbabilityTheory.uniformOn (Set.univ : Set (Streams (2 ^ d) (max N1 N2)))) (fun _ => s)
    Streams.masks Streams.noises (max N1 N2) Set.univ Set.univ 0 (fun _ => hs) (C90_uniform_noise s _ _)
    (fun _ _ _ _ => trivial) vss vss' hK hlen hlen' plains plains 0 0 (fun ω => by
      obtain ⟨r, g, e, hp⟩ := e1 ω.masks ω.noises
      exact ⟨r, g, e, hp ▸ le_max_left _ _⟩) (fun ω => by
      obtain ⟨r, g, e, hp⟩ := e2 ω.masks ω.noises
      exact ⟨r, g, e, hp ▸ le_max_right _ _⟩) A trivial
  rw [mul_zero, abs_nonpos_iff, sub_eq_zero] at h
  exact h

/-- The same for `C90_tree`: two different lists of two feature vectors. -/
theorem C90_tree_witness : ∃ N, ∀ A : List (RLWE (2 ^ 2)) → Prop,
    (ProbabilityTheory.uniformOn (Set.univ : Set (Streams (2 ^ 2) N))).real
        {ω | Guess A (treeWire 2) (fun ω => treeClient exTreeCtx exKey [[0, 3], [2, 1]] ⟨ω.masks, ω.noises, exGen.plains, 0⟩) ω} =
      (ProbabilityTheory.uniformOn (Set.univ : Set (Streams (2 ^ 2) N))).real
        {ω | Guess A (treeWire 2) (fun ω => treeClient exTreeCtx exKey [[1, 1], [3, 0]] ⟨ω.masks, ω.noises, exGen.plains, 0⟩) ω} := by
  have h2 : (treeClient (n := 2 ^ 2) exTreeCtx exKey [[1, 1], [3, 0]] exGen).isSome := by decide +kernel
  obtain ⟨N1, e1⟩ := tree_ends (d := 2) (by norm_num) (ctx := exTreeCtx) (len := 2) (vss := [[0, 3], [2, 1]]) (by simp) (s := exKey) (g := exGen) exKey_binary C75_tree_witness
  obtain ⟨N2, e2⟩ := tree_ends (d := 2) (by norm_num) (ctx := exTreeCtx) (len := 2) (vss := [[1, 1], [3, 0]]) (by simp) (s := exKey) (g := exGen) exKey_binary (Option.isSome_iff_ne_none.mp h2)
  exact ⟨max N1 N2, fun A => tree_perfect (d := 2) (by norm_num) exTreeCtx 2 exKey_binary [[0, 3], [2, 1]] [[1, 1], [3, 0]] rfl (by simp) (by simp)
    exGen.plains e1 e2 A⟩

end Panacea
