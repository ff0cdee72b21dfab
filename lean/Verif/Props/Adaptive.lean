import Verif.Spec.Adaptive
import Verif.Props.Secure
import Verif.Lemmas.Draws
import Mathlib.Data.Fin.Tuple.Basic
import Mathlib.Algebra.BigOperators.Fin

/-!
# C91: a server that chooses the accesses learns nothing either
-/

namespace Panacea
open Spec
variable {n : Nat}

noncomputable instance : Fintype (RLWE n) := Fintype.ofFinite _

/-! ### Averages -/

/-- The average of a function on a finite type. -/
noncomputable def avg {G : Type} [Fintype G] (f : G → ℝ) : ℝ := (∑ g, f g) / Fintype.card G

theorem avg_equiv {G K : Type} [Fintype G] [Fintype K] (e : G ≃ K) (f : K → ℝ) : avg (fun g => f (e g)) = avg f := by
  unfold avg
  rw [Equiv.sum_comp e, Fintype.card_congr e]

theorem avg_prod {G K : Type} [Fintype G] [Fintype K] (f : G → K → ℝ) : avg (fun p : G × K => f p.1 p.2) = avg fun g => avg fun k => f g k := by
  unfold avg
  rw [Fintype.sum_prod_type, Fintype.card_prod, ← Finset.sum_div, div_div, mul_comm (Fintype.card K : ℝ)]
  push_cast
  rfl

theorem avg_const {G : Type} [Fintype G] [Nonempty G] (c : ℝ) : avg (fun _ : G => c) = c := by
  unfold avg
  rw [Finset.sum_const, Finset.card_univ, nsmul_eq_mul]
  exact mul_div_cancel_left₀ _ (by exact_mod_cast Fintype.card_ne_zero)

theorem avg_surj {G K : Type} [AddCommGroup G] [AddCommGroup K] [Fintype G] [Fintype K] (F : G →+ K) (hF : Function.Surjective F) (f : K → ℝ) :
    avg (fun g => f (F g)) = avg f := by
  classical
  have hσ : ∀ k, F (Function.surjInv hF k) = k := Function.surjInv_eq hF
  have hk : ∀ (k : K) (u : F.ker), F (u.1 + Function.surjInv hF k) = k := fun k u => by
    rw [map_add, AddMonoidHom.mem_ker.mp u.2, zero_add, hσ]
  let e : G ≃ K × F.ker := ⟨fun g => (F g, ⟨g - Function.surjInv hF (F g), by rw [AddMonoidHom.mem_ker, map_sub, hσ, sub_self]⟩),
    fun x => x.2.1 + Function.surjInv hF x.1, fun g => by simp, fun ⟨k, u⟩ => by
      refine Prod.ext (hk k u) (Subtype.ext ?_)
      show u.1 + Function.surjInv hF k - Function.surjInv hF (F (u.1 + Function.surjInv hF k)) = u.1
      rw [hk, add_sub_cancel_right]⟩
  haveI : Fintype F.ker := Fintype.ofFinite _
  refine (avg_equiv e (fun p : K × F.ker => f p.1)).trans ?_
  rw [avg_prod (fun k (_ : F.ker) => f k)]
  refine congrArg avg (funext fun k => avg_const _)

theorem avg_append {α : Type} [Fintype α] {a b : Nat} (f : (Fin (a + b) → α) → ℝ) :
    avg f = avg fun h : Fin a → α => avg fun t : Fin b → α => f (Fin.append h t) := by
  rw [← avg_prod (fun h t => f (Fin.append h t)), ← avg_equiv (Fin.appendEquiv a b)]
  rfl

open Classical in
theorem idealChance_avg (L : Nat) (D : List (RLWE n) → Prop) :
    idealChance n L D = avg fun x : Fin L → RLWE n => if D (List.ofFn x) then 1 else 0 := by
  unfold idealChance avg
  rw [Nat.card_eq_fintype_card, Nat.card_eq_fintype_card, Fintype.card_subtype, Finset.sum_boole]

/-! ### Reading fresh pairs -/

/-- A finite list of pairs read as a stream that begins at position `pos`. -/
def streamAt (pos : Nat) {M : Nat} (y : Fin M → RLWE n) (p : Nat) : RLWE n := if h : p - pos < M then y ⟨p - pos, h⟩ else 0

/-- The plan reads increasing positions before its next position. -/
structure Plan.Good (plan : Plan n) (C : Nat) (size : ClientOp n → Nat) (ok : ClientOp n → Prop) : Prop where
  le : ∀ op pos, ok op → pos ≤ (plan op pos).2
  adv : ∀ op pos, ok op → (plan op pos).2 ≤ pos + C
  fresh : ∀ op pos, ok op → ((plan op pos).1.map Prod.fst).Pairwise (· < ·)
  range : ∀ op pos, ok op → ∀ p ∈ (plan op pos).1, pos ≤ p.1 ∧ p.1 < (plan op pos).2
  size : ∀ op pos, ok op → (plan op pos).1.length = size op

theorem replay_congr {plan : Plan n} {C : Nat} {size : ClientOp n → Nat} {ok : ClientOp n → Prop} (hp : Plan.Good plan C size ok)
    {strat : Strategy n} (hs : ∀ v, ok (strat v)) {x x' : Nat → RLWE n} : ∀ (k : Nat) (v : List (RLWE n)) (pos : Nat),
    (∀ p, pos ≤ p → p < pos + k * C → x p = x' p) → replay plan strat x k v pos = replay plan strat x' k v pos
  | 0, _, _, _ => rfl
  | k + 1, v, pos, h => by
    rw [replay, replay]
    have h1 : ((plan (strat v) pos).1.map fun p => x p.1 + p.2) = (plan (strat v) pos).1.map fun p => x' p.1 + p.2 :=
      List.map_congr_left fun p hpp => by
        have h2 := hp.range _ _ (hs v) p hpp
        have h3 := hp.adv (strat v) pos (hs v)
        have h4 : (k + 1) * C = k * C + C := by ring
        rw [h p.1 h2.1 (by omega)]
    rw [h1]
    refine replay_congr hp hs k _ _ fun p hpp hpl => h p (le_trans (hp.le _ _ (hs v)) hpp) ?_
    have h3 := hp.adv (strat v) pos (hs v)
    have h4 : (k + 1) * C = k * C + C := by ring
    omega

open Classical in
/-- The ideal game: every operation adds as many random pairs as its size says. -/
noncomputable def idealGame (A : List (RLWE n) → Prop) (size : List (RLWE n) → Nat) : Nat → List (RLWE n) → ℝ
  | 0, v => if A v then 1 else 0
  | k + 1, v => avg fun z : Fin (size v) → RLWE n => idealGame A size k (v ++ List.ofFn z)

/-- The pairs read from a block, as a homomorphism. -/
def readHom (a pos : Nat) (ps : List Nat) : (Fin a → RLWE n) →+ (Fin ps.length → RLWE n) where
  toFun h i := streamAt pos h ps[i]
  map_zero' := by
    funext i
    unfold streamAt
    split <;> rfl
  map_add' x y := by
    funext i
    show streamAt pos (x + y) _ = streamAt pos x _ + streamAt pos y _
    unfold streamAt
    split
    · rfl
    · rw [add_zero]

theorem readHom_surjective {a pos : Nat} {ps : List Nat} (hps : ps.Pairwise (· < ·)) (hr : ∀ p ∈ ps, pos ≤ p ∧ p < pos + a) :
    Function.Surjective (readHom (n := n) a pos ps) := by
  intro y
  have hinj : ∀ i j : Fin ps.length, ps[i] = ps[j] → i = j := fun i j h => by
    rw [List.pairwise_iff_getElem] at hps
    rcases lt_trichotomy i.1 j.1 with hl | hl | hl
    · exact absurd h (Nat.ne_of_lt (hps _ _ i.2 j.2 hl))
    · exact Fin.ext hl
    · exact absurd h.symm (Nat.ne_of_lt (hps _ _ j.2 i.2 hl))
  classical
  refine ⟨fun p => if h : ∃ i : Fin ps.length, ps[i] = pos + p.1 then y h.choose else 0, ?_⟩
  funext i
  have hi := hr ps[i] (List.getElem_mem _)
  have hex : ∃ j : Fin ps.length, ps[j] = pos + (ps[i] - pos) := ⟨i, by omega⟩
  have hc : hex.choose = i := hinj _ _ (by have := hex.choose_spec; omega)
  show streamAt pos (fun p : Fin a => if h : ∃ i : Fin ps.length, ps[i] = pos + p.1 then y h.choose else 0) ps[i] = y i
  unfold streamAt
  rw [dif_pos (show ps[i] - pos < a by omega)]
  show (if h : ∃ j : Fin ps.length, ps[j] = pos + (ps[i] - pos) then y h.choose else 0) = y i
  rw [dif_pos hex, hc]

open Classical in
/-- With uniformly random pairs the replayed game is the ideal game. -/
theorem replay_ideal {plan : Plan n} {C : Nat} {size : ClientOp n → Nat} {ok : ClientOp n → Prop} (hp : Plan.Good plan C size ok)
    {strat : Strategy n} (hs : ∀ v, ok (strat v)) (A : List (RLWE n) → Prop) : ∀ (k : Nat) (v : List (RLWE n)) (pos M : Nat), k * C ≤ M →
    (avg fun y : Fin M → RLWE n => if A (replay plan strat (streamAt pos y) k v pos) then (1 : ℝ) else 0) = idealGame A (fun v => size (strat v)) k v
  | 0, v, pos, M, _ => by
    exact avg_const (G := Fin M → RLWE n) (if A v then (1 : ℝ) else 0)
  | k + 1, v, pos, M, hM => by
    obtain ⟨a, ha⟩ : ∃ a, (plan (strat v) pos).2 = pos + a := ⟨_, (Nat.add_sub_cancel' (hp.le _ _ (hs v))).symm⟩
    have hC := hp.adv (strat v) pos (hs v)
    have hab : a ≤ C := by omega
    have hCM : C ≤ M := le_trans (Nat.le_mul_of_pos_left C (Nat.succ_pos k)) hM
    obtain ⟨b, rfl⟩ : ∃ b, M = a + b := ⟨M - a, by omega⟩
    have hb : k * C ≤ b := by
      have : (k + 1) * C = k * C + C := by ring
      omega
    set P := (plan (strat v) pos).1 with hP
    have hread : ∀ (h : Fin a → RLWE n) (t : Fin b → RLWE n), ∀ p ∈ P, streamAt pos (Fin.append h t) p.1 = streamAt pos h p.1 := by
      intro h t p hpp
      have hr := hp.range (strat v) pos (hs v) p hpp
      rw [ha] at hr
      unfold streamAt
      rw [dif_pos (show p.1 - pos < a + b by omega), dif_pos (show p.1 - pos < a by omega)]
      exact Fin.append_left h t ⟨p.1 - pos, by omega⟩
    have htail : ∀ (h : Fin a → RLWE n) (t : Fin b → RLWE n) p, pos + a ≤ p → streamAt pos (Fin.append h t) p = streamAt (pos + a) t p := by
      intro h t p hpp
      unfold streamAt
      by_cases hlt : p - pos < a + b
      · rw [dif_pos hlt, dif_pos (show p - (pos + a) < b by omega)]
        have := Fin.append_right h t ⟨p - (pos + a), by omega⟩
        rw [← this]
        congr 1
        refine Fin.ext ?_
        show p - pos = a + (p - (pos + a))
        omega
      · rw [dif_neg hlt, dif_neg (show ¬ p - (pos + a) < b by omega)]
    have hstep : ∀ (h : Fin a → RLWE n) (t : Fin b → RLWE n), replay plan strat (streamAt pos (Fin.append h t)) (k + 1) v pos =
        replay plan strat (streamAt (pos + a) t) k (v ++ P.map fun p => streamAt pos h p.1 + p.2) (pos + a) := by
      intro h t
      rw [replay, ha, ← hP]
      rw [show (P.map fun p => streamAt pos (Fin.append h t) p.1 + p.2) = P.map fun p => streamAt pos h p.1 + p.2 from
        List.map_congr_left fun p hpp => by rw [hread h t p hpp]]
      exact replay_congr hp hs k _ _ fun p hpp _ => htail h t p hpp
    rw [avg_append]
    simp only [hstep]
    have hih : ∀ h : Fin a → RLWE n, (avg fun t : Fin b → RLWE n => if A (replay plan strat (streamAt (pos + a) t) k
        (v ++ P.map fun p => streamAt pos h p.1 + p.2) (pos + a)) then (1 : ℝ) else 0) =
        idealGame A (fun v => size (strat v)) k (v ++ P.map fun p => streamAt pos h p.1 + p.2) := fun h =>
      replay_ideal hp hs A k _ (pos + a) b hb
    simp only [hih]
    have hsz : P.length = size (strat v) := hp.size _ _ (hs v)
    have hlen : (P.map Prod.fst).length = size (strat v) := by rw [List.length_map, hsz]
    -- the pairs read are uniform
    have hW : ∀ h : Fin a → RLWE n, (P.map fun p => streamAt pos h p.1 + p.2) =
        List.ofFn (fun i : Fin (P.map Prod.fst).length => readHom a pos (P.map Prod.fst) h i + (P[i.1]'(by have := i.2; simpa using this)).2) := fun h => by
      refine List.ext_getElem (by simp) fun i h1 h2 => ?_
      simp [readHom]
    simp only [hW]
    rw [avg_surj (readHom a pos (P.map Prod.fst)) (readHom_surjective (hp.fresh _ _ (hs v)) (fun p hpp => by
      obtain ⟨q, hq, rfl⟩ := List.mem_map.mp hpp
      have := hp.range _ _ (hs v) q hq
      rw [ha] at this
      exact this)) (fun z => idealGame A (fun v => size (strat v)) k
        (v ++ List.ofFn (fun i : Fin (P.map Prod.fst).length => z i + (P[i.1]'(by have := i.2; simpa using this)).2)))]
    refine (avg_equiv (Equiv.addRight (fun i : Fin (P.map Prod.fst).length => (P[i.1]'(by have := i.2; simpa using this)).2))
      (fun z => idealGame A (fun v => size (strat v)) k (v ++ List.ofFn z))).trans ?_
    rw [idealGame, hlen]

/-! ### The real game -/

theorem rounds_replay {ctx : Ctx} {rows cols : Nat} {H : NaiveHash} {plains : Nat → Poly n} {plan : Plan n} {strat : Strategy n} {s : Poly n}
    {masks noises : Nat → Poly n}
    (hplan : ∀ v pos, ∃ qs, (strat v).queries ctx s rows cols H ⟨masks, noises, plains, pos⟩ = some (qs, ⟨masks, noises, plains, (plan (strat v) pos).2⟩) ∧
      qs.flatMap viewQuery = (plan (strat v) pos).1.map fun p => sample s masks noises p.1 + p.2) : ∀ (k : Nat) (v : List (RLWE n)) (pos : Nat),
    ∃ g, rounds ctx s rows cols H strat k v ⟨masks, noises, plains, pos⟩ = some (replay plan strat (sample s masks noises) k v pos, g)
  | 0, v, pos => ⟨_, rfl⟩
  | k + 1, v, pos => by
    obtain ⟨qs, e1, e2⟩ := hplan v pos
    obtain ⟨g, e3⟩ := rounds_replay hplan k (v ++ qs.flatMap viewQuery) (plan (strat v) pos).2
    refine ⟨g, ?_⟩
    rw [rounds, e1]
    simp only [e3]
    rw [e2]
    rfl

/-- The public plan of an operation. -/
theorem exists_plan (ctx : Ctx) (rows cols : Nat) (H : NaiveHash) (plains : Nat → Poly n) (C : Nat) : ∃ plan : Plan n,
    Plan.Good plan C (fun op => op.size rows * querySize ctx cols) (Accepted ctx rows cols H plains C) ∧
    ∀ op pos s masks noises, Accepted ctx rows cols H plains C op → ∃ qs, op.queries ctx s rows cols H ⟨masks, noises, plains, pos⟩ =
      some (qs, ⟨masks, noises, plains, (plan op pos).2⟩) ∧ qs.flatMap viewQuery = (plan op pos).1.map fun p => sample s masks noises p.1 + p.2 := by
  classical
  have h0 : Binary (0 : Poly n) := fun k => Or.inl rfl
  have h : ∀ (op : ClientOp n) (pos : Nat), ∃ r : List (Nat × RLWE n) × Nat, Accepted ctx rows cols H plains C op →
      ∃ shift ps, r = (List.zip ps shift, r.2) ∧ shift.length = op.size rows * querySize ctx cols ∧
        Hid id (fun s g => op.queries ctx s rows cols H g) (fun qs => qs.flatMap viewQuery) plains pos shift ps r.2 := fun op pos => by
    rcases op_hidOrPanic (n := n) id ctx rows cols H op plains pos with hn | ⟨shift, ps, pos', hl, hh⟩
    · refine ⟨([], 0), fun ha => ?_⟩
      obtain ⟨qs, g, e, _⟩ := ha 0 (fun _ => 0) (fun _ => 0) pos h0
      have := e.symm.trans (hn 0 (fun _ => 0) (fun _ => 0))
      cases this
    · exact ⟨(List.zip ps shift, pos'), fun _ => ⟨shift, ps, rfl, hl, hh⟩⟩
  choose plan hplan using h
  have hfst : ∀ op pos, Accepted ctx rows cols H plains C op → ∃ shift ps, (plan op pos).1 = List.zip ps shift ∧ ps.length = shift.length ∧
      shift.length = op.size rows * querySize ctx cols ∧
      Hid id (fun s g => op.queries ctx s rows cols H g) (fun qs => qs.flatMap viewQuery) plains pos shift ps (plan op pos).2 := fun op pos ha => by
    obtain ⟨shift, ps, e, hl, hh⟩ := hplan op pos ha
    exact ⟨shift, ps, congrArg Prod.fst e, hh.len, hl, hh⟩
  refine ⟨plan, ⟨?_, ?_, ?_, ?_, ?_⟩, ?_⟩
  · intro op pos ha
    obtain ⟨shift, ps, e, l1, l2, hh⟩ := hfst op pos ha
    exact hh.le
  · intro op pos ha
    obtain ⟨shift, ps, e, l1, l2, hh⟩ := hfst op pos ha
    obtain ⟨a, e1, _⟩ := hh.run 0 (fun _ => 0) (fun _ => 0)
    obtain ⟨qs, g, e2, hg⟩ := ha 0 (fun _ => 0) (fun _ => 0) pos h0
    have e3 := e2.symm.trans e1
    cases e3
    exact hg
  · intro op pos ha
    obtain ⟨shift, ps, e, l1, l2, hh⟩ := hfst op pos ha
    rw [e, List.map_fst_zip (le_of_eq l1)]
    exact hh.fresh
  · intro op pos ha p hp
    obtain ⟨shift, ps, e, l1, l2, hh⟩ := hfst op pos ha
    rw [e] at hp
    exact hh.range _ (List.of_mem_zip hp).1
  · intro op pos ha
    obtain ⟨shift, ps, e, l1, l2, hh⟩ := hfst op pos ha
    rw [e, List.length_zip, l1, min_self, l2]
  · intro op pos s masks noises ha
    obtain ⟨shift, ps, e, l1, l2, hh⟩ := hfst op pos ha
    obtain ⟨a, e1, e2⟩ := hh.run s masks noises
    refine ⟨a, e1, ?_⟩
    rw [e2, e, List.zipWith_map_left, List.zip_eq_zipWith, List.map_zipWith]
    rfl

theorem ofFn_append_take {a b : Nat} (h : Fin a → RLWE n) (t : Fin b → RLWE n) : (List.ofFn (Fin.append h t)).take a = List.ofFn h := by
  rw [List.ofFn_fin_append]
  exact List.take_left' (by simp)

theorem ofFn_append_getD {a b : Nat} (h : Fin a → RLWE n) (t : Fin b → RLWE n) (pos p : Nat) :
    (List.ofFn (Fin.append h t)).getD (a + (p - pos)) 0 = streamAt pos t p := by
  rw [List.ofFn_fin_append, List.getD_append_right _ _ _ _ (by simp)]
  simp only [List.length_ofFn, Nat.add_sub_cancel_left, streamAt]
  split
  · rename_i h1
    rw [List.getD_eq_getElem _ _ (by simpa using h1)]
    simp
  · rename_i h1
    rw [List.getD_eq_default _ _ (by simpa using h1)]

/-- The chance of the test in the ideal world. -/
theorem adaptiveTest_ideal {plan : Plan n} {C : Nat} {size : ClientOp n → Nat} {ok : ClientOp n → Prop} (hp : Plan.Good plan C size ok)
    {strat : Strategy n} (hs : ∀ v, ok (strat v)) (A : List (RLWE n) → Prop) (shift : List (RLWE n)) (wires : List (Option Nat)) (L0 pos0 K : Nat) :
    idealChance n (L0 + K * C) (adaptiveTest shift wires plan L0 pos0 K strat A) =
      avg fun x : Fin L0 → RLWE n => idealGame A (fun v => size (strat v)) K (wires.map (pick (List.zipWith (· + ·) (List.ofFn x) shift))) := by
  classical
  rw [idealChance_avg, avg_append]
  refine congrArg avg (funext fun x => ?_)
  rw [← replay_ideal hp hs A K _ pos0 (K * C) le_rfl]
  refine congrArg avg (funext fun y => ?_)
  refine if_congr ?_ rfl rfl
  unfold adaptiveTest
  rw [ofFn_append_take]
  simp only [ofFn_append_getD]

theorem challenge_take {s : Poly n} {masks noises : Nat → Poly n} {kdm shift : List (RLWE n)} {ps0 ps1 : List Nat}
    (hl : ps0.length = (kdm ++ shift).length) :
    List.zipWith (· + ·) ((challenge s masks noises kdm (ps0 ++ ps1)).take ps0.length) (List.replicate kdm.length 0 ++ shift) =
      List.zipWith (· + ·) (ps0.map (sample s masks noises)) (kdm ++ shift) := by
  have hk : ps0.length = kdm.length + shift.length := by rw [hl, List.length_append]
  unfold challenge
  rw [List.take_zipWith, List.map_append, List.take_left' (by simp), List.length_append,
    show ps0.length + ps1.length - kdm.length = shift.length + ps1.length by omega, List.replicate_add, ← List.append_assoc,
    List.take_left' (by simp [hk]), zipWith_zipWith_add, kdm_split]

theorem challenge_getD {s : Poly n} {masks noises : Nat → Poly n} {kdm : List (RLWE n)} {ps0 : List Nat} {pos0 M p : Nat}
    (hl : kdm.length ≤ ps0.length) (h1 : pos0 ≤ p) (h2 : p < pos0 + M) :
    (challenge s masks noises kdm (ps0 ++ List.range' pos0 M)).getD (ps0.length + (p - pos0)) 0 = sample s masks noises p := by
  unfold challenge
  rw [List.getD_eq_getElem _ _ (by simp; omega)]
  simp only [List.getElem_zipWith, List.getElem_map]
  rw [List.getElem_append_right (by omega), List.getElem_append_right (by omega)]
  simp only [List.getElem_replicate, add_zero, List.getElem_range']
  congr 1
  omega

/-- One side of C91: the game is close to the ideal one. -/
theorem adaptive_side (ctx : Ctx) (rows cols : Nat) (H : NaiveHash) (plains : Nat → Poly n) (pos K C : Nat)
    (hset : ∃ s masks noises, Binary s ∧ setupRandomOram ctx s rows cols H ⟨masks, noises, plains, pos⟩ ≠ none) :
    ∃ (shift : List (RLWE n)) (wires : List (Option Nat)) (plan : Plan n) (L0 pos0 : Nat) (val : (List (RLWE n) → Nat) → (List (RLWE n) → Prop) → ℝ),
    ∀ {Ω : Type} [MeasurableSpace Ω] (μ : MeasureTheory.Measure Ω) (key : Ω → Poly n)
      (masks noises : Ω → Nat → Poly n) (tests : Set (List (RLWE n) → Prop)) (ε : ℝ), (∀ ω, Binary (key ω)) →
      Hard μ key masks noises (negShift ctx) (pos0 + K * C) tests ε →
      ∀ (strat : Strategy n) (A : List (RLWE n) → Prop), (∀ v, Accepted ctx rows cols H plains C (strat v)) →
      adaptiveTest shift wires plan L0 pos0 K strat A ∈ tests →
      |μ.real {ω | Guess A id (fun ω => game ctx (key ω) rows cols H strat K ⟨masks ω, noises ω, plains, pos⟩) ω} -
        val (fun v => (strat v).size rows) A| ≤ ε := by
  obtain ⟨layout, hview⟩ := ops_view (n := n) ctx rows cols H
  obtain ⟨s0, m0, e0, hs0, hne⟩ := hset
  rcases hview [] plains pos with hn | ⟨shift, ps0, pos0, l1, fresh, range, l2, hrun⟩
  · have h1 := hn s0 m0 e0 hs0
    unfold opsClient at h1
    rcases h2 : setupRandomOram ctx s0 rows cols H ⟨m0, e0, plains, pos⟩ with _ | ⟨S, pts, g⟩
    · exact absurd h2 hne
    · rw [h2] at h1
      cases h1
  obtain ⟨plan, hgood, hq⟩ := exists_plan ctx rows cols H plains C
  have hk : ∀ s : Poly n, (negShift ctx s).length = (negShift ctx (0 : Poly n)).length := fun s => by simp [negShift, gadgetShift_length]
  refine ⟨List.replicate (negShift ctx (0 : Poly n)).length 0 ++ shift,
    oramWires layout (negShift ctx (0 : Poly n)).length (min (rows * cols / H.hCount) 128) 0, plan, ps0.length, pos0,
    fun size A => avg fun x : Fin ps0.length → RLWE n => idealGame A (fun v => size v * querySize ctx cols) K
      ((oramWires layout (negShift ctx (0 : Poly n)).length (min (rows * cols / H.hCount) 128) 0).map
        (pick (List.zipWith (· + ·) (List.ofFn x) (List.replicate (negShift ctx (0 : Poly n)).length 0 ++ shift)))), ?_⟩
  intro Ω _ μ key masks noises tests ε hkey hard strat A hacc hA
  have hlk : ∀ s : Poly n, (negShift ctx s).length ≤ ps0.length := fun s => by rw [l2 s, List.length_append]; omega
  have h := hard _ hA (ps0 ++ List.range' pos0 (K * C)) (by
    rw [List.pairwise_append]
    refine ⟨fresh, List.pairwise_lt_range', fun a ha b hb => ?_⟩
    have := (range a ha).2
    rw [List.mem_range'_1] at hb
    omega) (fun p hp => by
      rcases List.mem_append.mp hp with h1 | h1
      · have := (range p h1).2; omega
      · rw [List.mem_range'_1] at h1; omega) (by rw [List.length_append]; exact le_trans (hlk 0) (Nat.le_add_right _ _))
  rw [List.length_append, List.length_range', adaptiveTest_ideal hgood hacc] at h
  refine le_of_eq_of_le ?_ h
  congr 2
  refine congrArg _ (Set.ext fun ω => ?_)
  obtain ⟨S, qss, cts, e1, e2, e3, e4⟩ := hrun (key ω) (masks ω) (noises ω) (hkey ω)
  have hset2 : ∃ pts, setupRandomOram ctx (key ω) rows cols H ⟨masks ω, noises ω, plains, pos⟩ = some (S, pts, ⟨masks ω, noises ω, plains, pos0⟩) ∧ qss = [] := by
    unfold opsClient at e1
    rcases h2 : setupRandomOram ctx (key ω) rows cols H ⟨masks ω, noises ω, plains, pos⟩ with _ | ⟨S', pts, g⟩
    · rw [h2] at e1
      cases e1
    · rw [h2] at e1
      cases e1
      exact ⟨pts, rfl, rfl⟩
  obtain ⟨pts, e5, rfl⟩ := hset2
  obtain ⟨g, e6⟩ := rounds_replay (ctx := ctx) (rows := rows) (cols := cols) (H := H) (plains := plains) (plan := plan) (strat := strat) (s := key ω)
    (masks := masks ω) (noises := noises ω) (fun v pos => hq (strat v) pos (key ω) (masks ω) (noises ω) (hacc v)) K (oramWire (S, [])) pos0
  have hgame : game ctx (key ω) rows cols H strat K ⟨masks ω, noises ω, plains, pos⟩ =
      some (replay plan strat (sample (key ω) (masks ω) (noises ω)) K (oramWire (S, [])) pos0, g) := by
    unfold game
    rw [e5]
    exact e6
  have hwire : oramWire (S, []) = (oramWires layout (negShift ctx (0 : Poly n)).length (min (rows * cols / H.hCount) 128) 0).map
      (pick (List.zipWith (· + ·) ((challenge (key ω) (masks ω) (noises ω) (negShift ctx (key ω)) (ps0 ++ List.range' pos0 (K * C))).take ps0.length)
        (List.replicate (negShift ctx (0 : Poly n)).length 0 ++ shift))) := by
    rw [← hk (key ω), challenge_take (l2 (key ω)), ← e4, ← e3]
    have hk2 : (negShift ctx (key ω)).length = (viewRgsw S.negS).length := by
      rw [viewRgsw_negS e1 (hkey ω)]
    rw [hk2]
    have := oramWires_map layout (viewRgsw S.negS) cts []
    simp only [List.length_nil] at this
    simp only [List.flatMap_nil]
    rw [this]
    unfold oramWire
    rw [e2]
    rfl
  have hx : replay plan strat (fun p => (challenge (key ω) (masks ω) (noises ω) (negShift ctx (key ω)) (ps0 ++ List.range' pos0 (K * C))).getD
      (ps0.length + (p - pos0)) 0) K (oramWire (S, [])) pos0 = replay plan strat (sample (key ω) (masks ω) (noises ω)) K (oramWire (S, [])) pos0 :=
    replay_congr hgood hacc K _ _ fun p h1 h2 => challenge_getD (hlk _) h1 h2
  simp only [Set.mem_ofPred_eq]
  unfold adaptiveTest
  rw [← hwire, hx]
  constructor
  · rintro ⟨r', g', e, hr⟩
    have := e.symm.trans hgame
    cases this
    exact hr
  · exact fun hr => ⟨_, g, hgame, hr⟩

/-- C91: the server may choose every operation of the client depending on everything it has seen.  Even then, no guess can tell two strategies that
ask for operations of the same sizes apart better than by twice the advantage of an explicit test against RLWE that runs the strategy once. -/
theorem C91_adaptive (ctx : Ctx) (rows cols : Nat) (H : NaiveHash) (plains : Nat → Poly n) (pos K C : Nat)
    (hset : ∃ s masks noises, Binary s ∧ setupRandomOram ctx s rows cols H ⟨masks, noises, plains, pos⟩ ≠ none) :
    ∃ (shift : List (RLWE n)) (wires : List (Option Nat)) (plan : Plan n) (L0 pos0 : Nat),
    ∀ {Ω : Type} [MeasurableSpace Ω] (μ : MeasureTheory.Measure Ω) [MeasureTheory.IsProbabilityMeasure μ] (key : Ω → Poly n)
      (masks noises : Ω → Nat → Poly n) (tests : Set (List (RLWE n) → Prop)) (ε : ℝ), (∀ ω, Binary (key ω)) →
      Hard μ key masks noises (negShift ctx) (pos0 + K * C) tests ε →
      ∀ (strat strat' : Strategy n) (A : List (RLWE n) → Prop), (∀ v, (strat v).size rows = (strat' v).size rows) →
      (∀ v, Accepted ctx rows cols H plains C (strat v)) → (∀ v, Accepted ctx rows cols H plains C (strat' v)) →
      adaptiveTest shift wires plan L0 pos0 K strat A ∈ tests → adaptiveTest shift wires plan L0 pos0 K strat' A ∈ tests →
      |μ.real {ω | Guess A id (fun ω => game ctx (key ω) rows cols H strat K ⟨masks ω, noises ω, plains, pos⟩) ω} -
        μ.real {ω | Guess A id (fun ω => game ctx (key ω) rows cols H strat' K ⟨masks ω, noises ω, plains, pos⟩) ω}| ≤ 2 * ε := by
  obtain ⟨shift, wires, plan, L0, pos0, val, h⟩ := adaptive_side ctx rows cols H plains pos K C hset
  refine ⟨shift, wires, plan, L0, pos0, ?_⟩
  intro Ω _ μ _ key masks noises tests ε hkey hard strat strat' A hsize ha ha' hA hA'
  have h1 := h μ key masks noises tests ε hkey hard strat A ha hA
  have h2 := h μ key masks noises tests ε hkey hard strat' A ha' hA'
  rw [← funext hsize] at h2
  rw [abs_le] at *
  constructor <;> linarith [h1.1, h1.2, h2.1, h2.2]

/-! ### Which operations are accepted -/

/-- `f` advances the streams by at most `C` when it returns. -/
def Adv {α : Type} (f : Gen n → Option (α × Gen n)) (C : Nat) : Prop := ∀ g a g', f g = some (a, g') → g'.pos ≤ g.pos + C

theorem Adv.list {α β : Type} {f : α → Gen n → Option (β × Gen n)} {C : Nat} : ∀ {l : List α}, (∀ a ∈ l, Adv (f a) C) → Adv (mapGenM f l) (l.length * C)
  | [], _, g, a, g', h => by
    cases h
    exact Nat.le_add_right _ _
  | a :: l, hf, g, b, g', h => by
    rw [mapGenM] at h
    rcases h1 : f a g with _ | ⟨x, g1⟩
    · rw [h1] at h; cases h
    rw [h1] at h
    simp only at h
    rcases h2 : mapGenM f l g1 with _ | ⟨xs, g2⟩
    · rw [h2] at h; cases h
    rw [h2] at h
    cases h
    have e1 := hf a (by simp) g x g1 h1
    have e2 := Adv.list (fun b hb => hf b (by simp [hb])) g1 xs _ h2
    rw [List.length_cons, Nat.succ_mul]
    omega

theorem mapGen_pos {α β : Type} {f : α → Gen n → β × Gen n} {C : Nat} : ∀ {l : List α}, (∀ a ∈ l, ∀ g, (f a g).2.pos ≤ g.pos + C) → ∀ g,
    (mapGen f l g).2.pos ≤ g.pos + l.length * C
  | [], _, _ => Nat.le_add_right _ _
  | a :: l, hf, g => by
    have e1 := hf a (by simp) g
    have e2 := mapGen_pos (l := l) (fun b hb => hf b (by simp [hb])) (f a g).2
    rw [List.length_cons, Nat.succ_mul]
    show (mapGen f l (f a g).2).2.pos ≤ _
    omega

theorem constRgsw_pos (s : Poly n) (bl lv : Nat) (mu : Scalar) (g : Gen n) : (encryptConstantRgsw s bl lv mu g).2.pos ≤ g.pos + 2 * lv := by
  have h := mapGen_pos (f := fun l => ggswLevel s bl mu l) (l := List.range' 1 lv) (C := 2) (fun l _ g => le_rfl) g
  rw [List.length_range', Nat.mul_comm] at h
  exact h

theorem bits_adv (ctx : Ctx) (s : Poly n) (i cols : Nat) : Adv (bitDecomposedRgsw ctx s i cols) (2 * ctx.levelCount * (log2 cols).getD 0) := by
  intro g a g' h
  unfold bitDecomposedRgsw at h
  rcases hD : log2 cols with _ | D
  · rw [hD] at h; cases h
  rw [hD] at h
  have h1 := mapGen_pos (f := fun (b : Bool) => encryptConstantRgsw s ctx.baseLog ctx.levelCount (if b then 0 else 1)) (l := indexBits i D)
    (C := 2 * ctx.levelCount) (fun b _ g => constRgsw_pos s _ _ _ g) g
  have : (indexBits i D).length = D := by simp [indexBits]
  rw [this, Nat.mul_comm] at h1
  rw [Option.getD_some]
  refine le_of_eq_of_le ?_ h1
  exact congrArg (fun r : List (RGSW n) × Gen n => r.2.pos) (Option.some.inj h).symm

theorem encode_adv (ctx : Ctx) (s m : Poly n) : Adv (encodeEncryptRlwe ctx s m) 1 := by
  intro g a g' h
  unfold encodeEncryptRlwe at h
  cases hm : ctx.codec.polyEncode m with
  | none => rw [hm] at h; cases h
  | some x => rw [hm] at h; cases h; exact le_rfl

theorem read_adv (ctx : Ctx) (s : Poly n) (cols i : Nat) : Adv (makeReadQuery ctx s cols i) (querySize ctx cols + 1) := by
  intro g a g' h
  unfold makeReadQuery at h
  rcases h1 : bitDecomposedRgsw ctx s i cols g with _ | ⟨b, g1⟩
  · rw [h1] at h; cases h
  rw [h1] at h
  dsimp only at h
  have e1 := bits_adv ctx s i cols _ _ _ h1
  have e2 : (genEncOp ctx s .read (genBinaryPt g1).2).2.pos ≤ g1.pos + 1 + 2 * ctx.levelCount := constRgsw_pos s ctx.baseLog ctx.levelCount _ _
  rcases h2 : encodeEncryptRlwe ctx s (genBinaryPt g1).1 (genEncOp ctx s .read (genBinaryPt g1).2).2 with _ | ⟨d, g2⟩
  · rw [h2] at h; cases h
  rw [h2] at h
  have e3 := encode_adv ctx s _ _ _ _ h2
  cases h
  have : 2 * ctx.levelCount * ((log2 cols).getD 0 + 1) = 2 * ctx.levelCount * (log2 cols).getD 0 + 2 * ctx.levelCount := by ring
  unfold querySize
  omega

theorem write_adv (ctx : Ctx) (s : Poly n) (cols i : Nat) (alpha : Poly n) : Adv (makeWriteQuery ctx s cols i alpha) (querySize ctx cols + 1) := by
  intro g a g' h
  unfold makeWriteQuery at h
  rcases h1 : bitDecomposedRgsw ctx s i cols g with _ | ⟨b, g1⟩
  · rw [h1] at h; cases h
  rw [h1] at h
  dsimp only at h
  have e1 := bits_adv ctx s i cols _ _ _ h1
  have e2 : (genEncOp ctx s .write g1).2.pos ≤ g1.pos + 2 * ctx.levelCount := constRgsw_pos s ctx.baseLog ctx.levelCount _ _
  rcases h2 : encodeEncryptRlwe ctx s alpha (genEncOp ctx s .write g1).2 with _ | ⟨d, g2⟩
  · rw [h2] at h; cases h
  rw [h2] at h
  have e3 := encode_adv ctx s _ _ _ _ h2
  cases h
  have : 2 * ctx.levelCount * ((log2 cols).getD 0 + 1) = 2 * ctx.levelCount * (log2 cols).getD 0 + 2 * ctx.levelCount := by ring
  unfold querySize
  omega

theorem batch_adv (ctx : Ctx) (s : Poly n) (rows cols : Nat) (H : NaiveHash) (c : BatchCmd n) :
    Adv (clientBatch ctx s rows cols H c) (rows * (querySize ctx cols + 1)) := by
  intro g a g' h
  rw [← List.length_range (n := rows)]
  rcases c with is | ⟨is, alpha⟩
  · change genReadQueryBatch ctx s rows cols H is g = _ at h
    unfold genReadQueryBatch at h
    rcases hm : H.hashToMapping is cols with _ | mapping
    · rw [hm] at h; cases h
    rw [hm] at h
    refine Adv.list (f := readQueryRow ctx s cols mapping) (fun r _ => ?_) g a g' h
    unfold readQueryRow
    rcases mapping r with _ | c <;> exact read_adv ctx s cols _
  · change genWriteQueryBatch ctx s rows cols H is alpha g = _ at h
    unfold genWriteQueryBatch at h
    rcases hm : H.hashToMapping is cols with _ | mapping
    · rw [hm] at h; cases h
    rw [hm] at h
    refine Adv.list (f := writeQueryRow ctx s cols alpha mapping) (fun r _ => ?_) g a g' h
    unfold writeQueryRow
    rcases mapping r with _ | c
    · exact read_adv ctx s cols _
    · exact write_adv ctx s cols _ _

/-- Every noise is bounded by the size of a word. -/
theorem bounded_any (g : Gen n) : g.Bounded (2 ^ 63) := fun i k => by
  have h1 : (g.noises i k).toInt < 2 ^ 63 := by simpa using BitVec.toInt_lt (x := g.noises i k)
  have h2 : -2 ^ 63 ≤ (g.noises i k).toInt := by simpa using BitVec.le_toInt (g.noises i k)
  omega

/-- The operations on existing items with encodable data are accepted, and use at most `querySize + 1` positions of the streams per row. -/
theorem C91_accepted {t : Scalar} {ctx : Ctx} (hcd : Codec.new t = some ctx.codec) (h1 : 1 ≤ ctx.baseLog) (h2 : 1 ≤ ctx.levelCount)
    (h3 : ctx.baseLog * ctx.levelCount < 64) (shuffle : List Nat → List Nat) (hsh : ∀ l, (shuffle l).Perm l) {hc N : Nat}
    {H : NaiveHash} (hnew : NaiveHash.new shuffle hc N = some H) {D rows : Nat} (hD : D < 64) (hsize : rows * 2 ^ D = hc * N)
    (plains : Nat → Poly n) (op : ClientOp n) (hop : op.Ok N t) :
    Accepted ctx rows (2 ^ D) H plains (rows * (querySize ctx (2 ^ D) + 1)) op := by
  have hcpos : 0 < hc := by
    rcases Nat.eq_zero_or_pos hc with h0 | h0
    · have := (C09_new_panics shuffle hc N).mpr h0
      rw [hnew] at this; cases this
    · exact h0
  have hrows : ∀ i, i < N → 0 < rows := fun i hi => by
    have : 0 < rows * 2 ^ D := hsize ▸ Nat.mul_pos hcpos (by omega)
    exact Nat.pos_of_mul_pos_right this
  have hb : ∀ (s : Poly n) (c : BatchCmd n) (g : Gen n), (∀ i ∈ c.indices, i < N) → (∀ is a, c = .write is a → Spec.Encodable t a) →
      ∃ qs g', clientBatch ctx s rows (2 ^ D) H c g = some (qs, g') ∧ qs.length = rows ∧ g'.pos ≤ g.pos + rows * (querySize ctx (2 ^ D) + 1) := by
    intro s c g hr hea
    obtain ⟨mapping, qs, specs, g', w, m, _, e, _, hq, hl, _⟩ := clientBatch_spec hcd h1 h2 h3 s shuffle hsh hnew hD hsize hr hea (bounded_any g)
    exact ⟨qs, g', e, (List.Forall₂.length_eq hq).symm.trans hl, batch_adv ctx s rows (2 ^ D) H c g qs g' e⟩
  intro s masks noises pos _
  rcases op with c | i | ⟨i, alpha⟩
  · obtain ⟨qs, g', e, _, hp⟩ := hb s c ⟨masks, noises, plains, pos⟩ (by rcases c with is | ⟨is, a⟩; exact hop; exact hop.1)
      (by rintro is a rfl; exact hop.2)
    exact ⟨qs, g', e, hp⟩
  · obtain ⟨qs, g', e, hl, hp⟩ := hb s (.read [i]) ⟨masks, noises, plains, pos⟩ (by
      intro j hj
      cases List.mem_singleton.mp hj
      exact hop) (by rintro is a ⟨⟩)
    have hr := hrows i hop
    rcases qs with _ | ⟨q, qs⟩
    · rw [List.length_nil] at hl; omega
    refine ⟨[q], g', ?_, hp⟩
    show (genReadQueryOne ctx s rows (2 ^ D) H i ⟨masks, noises, plains, pos⟩).map _ = _
    unfold genReadQueryOne
    rw [show genReadQueryBatch ctx s rows (2 ^ D) H [i] ⟨masks, noises, plains, pos⟩ = some (q :: qs, g') from e]
    rfl
  · obtain ⟨qs, g', e, hl, hp⟩ := hb s (.write [i] alpha) ⟨masks, noises, plains, pos⟩ (by
      intro j hj
      cases List.mem_singleton.mp hj
      exact hop.1) (by rintro is a ⟨⟩; exact hop.2)
    have hr := hrows i hop.1
    rcases qs with _ | ⟨q, qs⟩
    · rw [List.length_nil] at hl; omega
    refine ⟨[q], g', ?_, hp⟩
    show (genWriteQueryOne ctx s rows (2 ^ D) H i alpha ⟨masks, noises, plains, pos⟩).map _ = _
    unfold genWriteQueryOne
    rw [show genWriteQueryBatch ctx s rows (2 ^ D) H [i] alpha ⟨masks, noises, plains, pos⟩ = some (q :: qs, g') from e]
    rfl

/-- C91 for the library's own contexts and hash tables: strategies that ask for existing items and encodable data. -/
theorem C91_private {t : Scalar} {ctx : Ctx} (hctx : ctx.Good t) (shuffle : List Nat → List Nat) (hsh : ∀ l, (shuffle l).Perm l) {hc N : Nat}
    {H : NaiveHash} (hnew : NaiveHash.new shuffle hc N = some H) {D rows : Nat} (hD : D < 64) (hsize : rows * 2 ^ D = hc * N)
    (plains : Nat → Poly n) (pos K : Nat) :
    ∃ (shift : List (RLWE n)) (wires : List (Option Nat)) (plan : Plan n) (L0 pos0 : Nat),
    ∀ {Ω : Type} [MeasurableSpace Ω] (μ : MeasureTheory.Measure Ω) [MeasureTheory.IsProbabilityMeasure μ] (key : Ω → Poly n)
      (masks noises : Ω → Nat → Poly n) (tests : Set (List (RLWE n) → Prop)) (ε : ℝ), (∀ ω, Binary (key ω)) →
      Hard μ key masks noises (negShift ctx) (pos0 + K * (rows * (querySize ctx (2 ^ D) + 1))) tests ε →
      ∀ (strat strat' : Strategy n) (A : List (RLWE n) → Prop), (∀ v, (strat v).size rows = (strat' v).size rows) →
      (∀ v, (strat v).Ok N t) → (∀ v, (strat' v).Ok N t) →
      adaptiveTest shift wires plan L0 pos0 K strat A ∈ tests → adaptiveTest shift wires plan L0 pos0 K strat' A ∈ tests →
      (∀ ω, ∃ v g, game ctx (key ω) rows (2 ^ D) H strat K ⟨masks ω, noises ω, plains, pos⟩ = some (v, g)) ∧
      (∀ ω, ∃ v g, game ctx (key ω) rows (2 ^ D) H strat' K ⟨masks ω, noises ω, plains, pos⟩ = some (v, g)) ∧
      |μ.real {ω | Guess A id (fun ω => game ctx (key ω) rows (2 ^ D) H strat K ⟨masks ω, noises ω, plains, pos⟩) ω} -
        μ.real {ω | Guess A id (fun ω => game ctx (key ω) rows (2 ^ D) H strat' K ⟨masks ω, noises ω, plains, pos⟩) ω}| ≤ 2 * ε := by
  have hacc := fun op hop => C91_accepted (n := n) hctx.codec hctx.bl hctx.lv hctx.lt shuffle hsh hnew hD hsize plains op hop
  have hset : ∀ (s : Poly n) masks noises, Binary s → ∃ S pts g1, setupRandomOram ctx s rows (2 ^ D) H ⟨masks, noises, plains, pos⟩ = some (S, pts, g1) ∧
      g1.plains = plains := fun s masks noises hs => by
    obtain ⟨S, pts, g1, e, _⟩ := setup_shape (n := n) hctx (s := s) hs shuffle hsh hnew (cols := 2 ^ D) (by positivity) hsize
      (bounded_any ⟨masks, noises, plains, pos⟩)
    refine ⟨S, pts, g1, e, ?_⟩
    obtain ⟨K, P, _, hd⟩ := draws_setup (ι := Unit) ctx (fun _ => s) rows (2 ^ D) H
    have := hd.adv () ⟨masks, noises, plains, pos⟩ (S, pts) g1 (by rw [e]; rfl)
    rw [this]
  have hgame : ∀ (strat : Strategy n), (∀ v, (strat v).Ok N t) → ∀ (s : Poly n) masks noises, Binary s →
      ∃ v g, game ctx s rows (2 ^ D) H strat K ⟨masks, noises, plains, pos⟩ = some (v, g) := fun strat hok s masks noises hs => by
    obtain ⟨S, pts, g1, e, hp⟩ := hset s masks noises hs
    unfold game
    rw [e]
    dsimp only
    obtain ⟨plan, hgood, hq⟩ := exists_plan ctx rows (2 ^ D) H plains (rows * (querySize ctx (2 ^ D) + 1))
    obtain ⟨m1, e1, p1, q1⟩ := g1
    cases hp
    obtain ⟨g, e3⟩ := rounds_replay (ctx := ctx) (rows := rows) (cols := 2 ^ D) (H := H) (plains := p1) (plan := plan) (strat := strat) (s := s)
      (masks := m1) (noises := e1) (fun v pos => hq (strat v) pos s m1 e1 (hacc _ (hok v))) K (oramWire (S, [])) q1
    exact ⟨_, g, e3⟩
  obtain ⟨shift, wires, plan, L0, pos0, h⟩ := C91_adaptive (n := n) ctx rows (2 ^ D) H plains pos K (rows * (querySize ctx (2 ^ D) + 1))
    ⟨0, fun _ => 0, fun _ => 0, fun k => Or.inl rfl, by
      obtain ⟨S, pts, g1, e, _⟩ := hset 0 (fun _ => 0) (fun _ => 0) (fun k => Or.inl rfl)
      rw [e]
      exact Option.some_ne_none _⟩
  refine ⟨shift, wires, plan, L0, pos0, ?_⟩
  intro Ω _ μ _ key masks noises tests ε hkey hard strat strat' A hsize' hok hok' hA hA'
  exact ⟨fun ω => hgame strat hok _ _ _ (hkey ω), fun ω => hgame strat' hok' _ _ _ (hkey ω),
    h μ key masks noises tests ε hkey hard strat strat' A hsize' (fun v => hacc _ (hok v)) (fun v => hacc _ (hok' v)) hA hA'⟩

/-- A server that looks at the last ciphertext it got before it chooses between a READ and a WRITE. -/
def exStrat : Strategy 4 := fun v => if (v.getLast?.getD 0).body 0 % 2 = 0 then .batch (.read [0, 1]) else .batch (.write [2] (Poly.const 4 7))
/-- Another one: always the same WRITE. -/
def exStrat' : Strategy 4 := fun _ => .batch (.write [0, 3] (Poly.const 4 5))

/-- The first example strategy depends on what the server has seen. -/
example : exStrat [⟨0, 0⟩] = .batch (.read [0, 1]) ∧ exStrat [⟨0, Poly.const 4 1⟩] = .batch (.write [2] (Poly.const 4 7)) :=
  ⟨if_pos (by decide), if_neg (by decide)⟩

theorem exStrat_ok (v : List (RLWE 4)) : (exStrat v).Ok 4 16 := by
  unfold exStrat
  split
  · show ∀ i ∈ [0, 1], i < 4
    decide
  · refine ⟨by decide, fun k => ?_⟩
    revert k
    decide

theorem exStrat'_ok (v : List (RLWE 4)) : (exStrat' v).Ok 4 16 := by
  refine ⟨by decide, fun k => ?_⟩
  revert k
  decide

/-- All hypotheses of `C91_private` can be met (uniform masks and noises, all tests, `ε = 0`), by two different strategies, one of which is adaptive;
for any number of operations no guess tells them apart. -/
theorem C91_witness (K : Nat) : ∃ N, ∀ A : List (RLWE 4) → Prop,
    (ProbabilityTheory.uniformOn (Set.univ : Set (Streams 4 N))).real
        {ω | Guess A id (fun ω => game exTreeCtx exKey 3 4 exHash exStrat K ⟨ω.masks, ω.noises, exGen.plains, 0⟩) ω} =
      (ProbabilityTheory.uniformOn (Set.univ : Set (Streams 4 N))).real
        {ω | Guess A id (fun ω => game exTreeCtx exKey 3 4 exHash exStrat' K ⟨ω.masks, ω.noises, exGen.plains, 0⟩) ω} ∧
    ∀ ω : Streams 4 N, ∃ v g, game exTreeCtx exKey 3 4 exHash exStrat K ⟨ω.masks, ω.noises, exGen.plains, 0⟩ = some (v, g) := by
  have hgood : exTreeCtx.Good 16 := ⟨by decide, by decide, by decide, by decide, rfl, by decide, by decide⟩
  obtain ⟨shift, wires, plan, L0, pos0, h⟩ := C91_private (n := 4) hgood exShuffle exShuffle_perm exHash_new (D := 2) (rows := 3) (by decide) (by decide)
    exGen.plains 0 K
  refine ⟨pos0 + K * (3 * (querySize exTreeCtx (2 ^ 2) + 1)), fun A => ?_⟩
  obtain ⟨h1, _, h2⟩ := h (ProbabilityTheory.uniformOn (Set.univ : Set (Streams 4 (pos0 + K * (3 * (querySize exTreeCtx (2 ^ 2) + 1)))))) (fun _ => exKey)
    Streams.masks Streams.noises Set.univ 0 (fun _ => exKey_binary) (C90_uniform_noise exKey _ _) exStrat exStrat' A (fun v => by
      unfold exStrat exStrat'
      split <;> rfl) exStrat_ok exStrat'_ok trivial trivial
  refine ⟨?_, h1⟩
  rw [mul_zero, abs_nonpos_iff, sub_eq_zero] at h2
  exact h2

end Panacea
