import Verif.Model.FlatTree
import Verif.Spec.FlatTree
import Verif.Lemmas.Circuit
import Verif.Lemmas.PdteCircuit
import Verif.Props.FlatKeys

/-! # C85: decision tree evaluation in memory -/

namespace Panacea
namespace Flat
variable {n : Nat}

/-! ## Ciphertext operations -/

theorem ext_out (fft : Fft n) (C : RGSW n) (o d : RLWE n) :
    externalProduct fft (outRgsw C) (outRlwe o) (outRlwe d) = outRlwe (Panacea.externalProduct fft C o d) := by
  unfold externalProduct; simp

theorem cmux_out (fft : Fft n) (C : RGSW n) (o a b : RLWE n) :
    cmux fft (outRgsw C) (outRlwe o) (outRlwe a) (outRlwe b) = outRlwe (Panacea.cmux fft C o a b) := by
  unfold cmux
  simp only [allocate_out, copy_outRlwe, updateWithSub_out]
  unfold externalProduct; simp; rfl

theorem ggswAdd_out (R S : RGSW n) (hl : R.rows.length = S.rows.length) :
    ggswUpdateWithAdd (outRgsw R) (outRgsw S) = outRgsw (R.updateWithAdd S) :=
  have h0 : StoresRlwe (outRlwe (0 : RLWE n)) 0 := storesRlwe_iff.2 rfl
  storesRgsw_iff.1 (C79_rgsw (n := n) ⟨fun _ => 0⟩ (storesRgsw_iff.2 rfl) (storesRgsw_iff.2 rfl) hl h0 h0 h0).1

theorem demuxRec_out (fft : Fft n) (bits : List (RGSW n)) : ∀ (k level : Nat) (b : RLWE n), bits.length - level = k →
    demuxRec fft (bits.map outRgsw) level (outRlwe b) = (Panacea.demuxRec fft (bits.drop level) b).map (List.map outRlwe) := by
  intro k
  induction k with
  | zero =>
    intro level b hk
    rw [demuxRec, dif_neg (by simp; omega), List.drop_of_length_le (by omega)]; rfl
  | succ k ih =>
    intro level b hk
    have hl : level < bits.length := by omega
    rw [demuxRec, dif_pos (by simpa using hl), List.drop_eq_getElem_cons hl]
    simp only [List.getElem_map, allocate_out, ext_out, updateWithSub_out, List.length_map]
    by_cases h1 : level + 1 = bits.length
    · rw [if_pos h1, List.drop_of_length_le (by omega)]; rfl
    · rw [if_neg h1, ih (level + 1) _ (by omega), ih (level + 1) _ (by omega)]
      rw [List.drop_eq_getElem_cons (show level + 1 < bits.length by omega)]
      rw [Panacea.demuxRec]
      rw [← List.drop_eq_getElem_cons (show level + 1 < bits.length by omega)]
      cases Panacea.demuxRec fft (bits.drop (level + 1)) (Panacea.externalProduct fft bits[level] 0 b) with
      | none => rfl
      | some lo =>
        cases Panacea.demuxRec fft (bits.drop (level + 1)) (b - Panacea.externalProduct fft bits[level] 0 b) with
        | none => rfl
        | some ro => simp

theorem demuxWith_out (fft : Fft n) (b : RLWE n) (bits : List (RGSW n)) :
    demuxWith fft (outRlwe b) (bits.map outRgsw) = (Panacea.demuxWith fft b bits).map (List.map outRlwe) := by
  unfold demuxWith Panacea.demuxWith
  rw [demuxRec_out fft bits _ 0 b rfl, List.drop_zero]

theorem trivial_words (v : Scalar) : modBody n (fun b => b.set 0 v) (allocate n) = outRlwe (⟨0, Poly.set 0 0 v⟩ : RLWE n) := by
  rw [allocate_out]
  exact modBody_out (0 : RLWE n) (set_out _ 0 v)

theorem trivialOne_out (hn : 0 < n) (ctx : Ctx) : trivialOne n ctx = (Panacea.trivialOne ctx).map (outRlwe (n := n)) := by
  unfold trivialOne Panacea.trivialOne
  simp only [trivial_words, getBody_out, getD_out]
  have h1 : (Poly.set 0 0 1 : Poly n).get 0 = 1 := by
    unfold Poly.get Poly.set
    rw [dif_pos hn]; simp
  rw [h1]
  cases ctx.codec.encode 1 with
  | none => rfl
  | some v =>
    refine congrArg some ?_
    rw [modBody_out (⟨0, Poly.set 0 0 1⟩ : RLWE n) (set_out (Poly.set 0 0 1 : Poly n) 0 v)]
    congr 2
    refine Poly.ext (funext fun k => ?_)
    simp only [Poly.set]
    split <;> rfl

theorem demux_out (hn : 0 < n) (fft : Fft n) (ctx : Ctx) (bits : List (RGSW n)) :
    demux fft ctx (bits.map outRgsw) = (Panacea.demux fft ctx bits).map (List.map outRlwe) := by
  unfold demux Panacea.demux
  rw [trivialOne_out hn]
  cases Panacea.trivialOne (n := n) ctx with
  | none => rfl
  | some c => exact demuxWith_out fft c bits

/-! ## Encrypted trees -/

/-- An encrypted tree of the other models as a node in memory: every child is there. -/
def ofEnc : EncTree (RGSW n) → EncNode
  | .leaf x => .leaf x
  | .internal C l r => .internal (outRgsw C) (ofEnc l) (ofEnc r)

theorem mapOption_append {α β : Type} (f : α → Option β) (l m : List α) : mapOption f (l ++ m) =
    match mapOption f l, mapOption f m with
    | some a, some b => some (a ++ b)
    | _, _ => none := by
  induction l with
  | nil => cases h : mapOption f m <;> simp [mapOption, h]
  | cons a l ih =>
    rw [List.cons_append, mapOption, ih, mapOption]
    cases f a <;> cases mapOption f l <;> cases mapOption f m <;> rfl

theorem length_of_mapOption {α β : Type} {f : α → Option β} : ∀ {l : List α} {m : List β}, mapOption f l = some m → m.length = l.length
  | [], m, h => by cases h; rfl
  | a :: l, m, h => by
    rw [mapOption] at h
    cases hf : f a with
    | none => rw [hf] at h; cases h
    | some b =>
      cases hl : mapOption f l with
      | none => rw [hf, hl] at h; cases h
      | some bs =>
        rw [hf, hl] at h
        simp only [Option.some.injEq] at h
        rw [← h, List.length_cons, List.length_cons, length_of_mapOption hl]

theorem length_flatten (t : Tree) : t.flatten.length = t.countInternal := by
  induction t with
  | missing => rfl
  | leaf => rfl
  | internal d l r hl hr => simp [Tree.flatten, Tree.countInternal, hl, hr]; omega

/-- Building consumes exactly one ciphertext per internal node and leaves the others. -/
theorem build_exact {C : Type} : ∀ (t : Tree) (cts rest : List C), cts.length = t.countInternal →
    ∃ e, EncTree.build t cts = some (e, []) ∧ EncTree.build t (cts ++ rest) = some (e, rest) := by
  intro t
  induction t with
  | missing => intro cts rest h; cases List.length_eq_zero_iff.1 h; exact ⟨_, rfl, rfl⟩
  | leaf => intro cts rest h; cases List.length_eq_zero_iff.1 h; exact ⟨_, rfl, rfl⟩
  | internal d l r ihl ihr =>
    intro cts rest h
    rw [Tree.countInternal] at h
    cases cts with
    | nil => simp at h; omega
    | cons c cts =>
      have hlen : cts.length = l.countInternal + r.countInternal := by rw [List.length_cons] at h; omega
      obtain ⟨c1, c2, rfl, h1, h2⟩ : ∃ c1 c2, cts = c1 ++ c2 ∧ c1.length = l.countInternal ∧ c2.length = r.countInternal :=
        ⟨cts.take l.countInternal, cts.drop l.countInternal, (List.take_append_drop _ _).symm, by simp; omega, by simp; omega⟩
      obtain ⟨el, _, a2⟩ := ihl c1 c2 h1
      obtain ⟨_, a1', a2'⟩ := ihl c1 (c2 ++ rest) h1
      obtain ⟨er, b1, b2⟩ := ihr c2 rest h2
      obtain ⟨el', e1, _⟩ := ihl c1 [] h1
      rw [a1'] at e1
      obtain ⟨e3, f1, f2⟩ := ihl c1 c2 h1
      rw [a1'] at f1
      cases f1
      rw [f2] at a2
      cases a2
      refine ⟨.internal c el er, ?_, ?_⟩
      · rw [EncTree.build, f2]; simp only; rw [b1]
      · rw [List.cons_append, EncTree.build, List.append_assoc, a2']; simp only; rw [b2]

theorem newChild_out {P : NodeData → Option (RGSW n)} {pull : NodeData → Option Ggsw} (hP : ∀ d, pull d = (P d).map outRgsw) :
    ∀ (t : Tree) (rest : List NodeData), newChild pull t (.leaf 0) (t.flatten ++ rest) =
      match mapOption P t.flatten with
      | none => none
      | some cts => (EncTree.build t cts).map fun x => (ofEnc x.1, rest) := by
  intro t
  induction t with
  | missing => intro rest; rfl
  | leaf => intro rest; rfl
  | internal d l r ihl ihr =>
    intro rest
    rw [newChild, Tree.flatten, List.cons_append, nextCt, hP d, mapOption]
    cases hd : P d with
    | none => rfl
    | some C =>
      simp only [Option.map_some]
      rw [List.append_assoc, ihl, mapOption_append]
      cases hl : mapOption P l.flatten with
      | none => rfl
      | some cl =>
        simp only
        have hll := (length_of_mapOption hl).trans (length_flatten l)
        obtain ⟨el, a1, _⟩ := build_exact l cl [] hll
        rw [a1]
        simp only [Option.map_some]
        rw [ihr]
        cases hr : mapOption P r.flatten with
        | none => rfl
        | some cr =>
          simp only
          have hrr := (length_of_mapOption hr).trans (length_flatten r)
          obtain ⟨er, b1, _⟩ := build_exact r cr [] hrr
          obtain ⟨el', a1', a2'⟩ := build_exact l cl cr hll
          rw [a1] at a1'; cases a1'
          rw [b1, EncTree.build, a2']
          simp only [Option.map_some]
          rw [b1]; rfl

theorem new_out {P : NodeData → Option (RGSW n)} {pull : NodeData → Option Ggsw} (hP : ∀ d, pull d = (P d).map outRgsw) (t : Tree) :
    (EncNode.new pull t t.flatten).map Prod.fst =
      match mapOption P t.flatten with
      | none => none
      | some cts => (EncTree.new t cts).map fun x => ofEnc x.1 := by
  cases t with
  | missing => rfl
  | leaf => rfl
  | internal d l r =>
    have h := newChild_out hP (.internal d l r) []
    rw [List.append_nil] at h
    have h' : EncNode.new pull (.internal d l r) (Tree.internal d l r).flatten =
        newChild pull (.internal d l r) (.leaf 0) (Tree.internal d l r).flatten := by
      rw [EncNode.new, newChild]
      cases nextCt pull (Tree.internal d l r).flatten with
      | none => rfl
      | some x => rcases x with ⟨_ | c, it⟩ <;> rfl
    rw [h', h]
    cases hm : mapOption P (Tree.internal d l r).flatten with
    | none => rfl
    | some cts =>
      simp only
      cases cts with
      | nil => rfl
      | cons c cts =>
        rw [EncTree.new]
        cases EncTree.build (Tree.internal d l r) (c :: cts) <;> rfl

theorem maxLeaf_out (e : EncTree (RGSW n)) : (ofEnc e).maxLeaf = some e.maxLeaf := by
  induction e with
  | leaf => rfl
  | internal C l r hl hr => rw [ofEnc, EncNode.maxLeaf, hl, hr]; rfl

theorem addLabel_out (x : Nat) (hx : x < 2 ^ 64) (b : RLWE n) (o : List (RLWE n)) :
    addLabel n x (outRlwe b) (o.map outRlwe) = (Panacea.addLabel x b o).map outRlwe := by
  refine List.ext_getElem? fun i => ?_
  unfold addLabel Panacea.addLabel
  rw [List.getElem?_map, List.getElem?_mapIdx]
  have hlen : (List.zipWith (fun bit ct => if bit = true then updateWithAdd n ct (outRlwe b) else ct) ((List.range 64).map x.testBit)
      (o.map outRlwe)).length = min 64 o.length := by simp
  by_cases hi : i < o.length
  · rw [List.getElem?_eq_getElem hi]
    simp only [Option.map_some]
    by_cases h64 : i < 64
    · rw [List.getElem?_append_left (by rw [hlen]; omega), List.getElem?_zipWith]
      simp only [List.getElem?_map, List.getElem?_range h64, List.getElem?_eq_getElem hi, Option.map_some]
      by_cases hb : x.testBit i = true
      · rw [if_pos hb, if_pos hb, updateWithAdd_out]
      · rw [if_neg hb, if_neg hb]
    · rw [List.getElem?_append_right (by rw [hlen]; omega), List.getElem?_drop, hlen]
      rw [show 64 + (i - min 64 o.length) = i by omega, List.getElem?_map, List.getElem?_eq_getElem hi]
      rw [if_neg]; · rfl
      have : x.testBit i = false := Nat.testBit_lt_two_pow (lt_of_lt_of_le hx (Nat.pow_le_pow_right (by norm_num) (by omega)))
      rw [this]; decide
  · rw [List.getElem?_eq_none (by rw [List.length_append, hlen]; simp; omega), List.getElem?_eq_none (by omega)]; rfl

/-- All labels of an encrypted tree are 64-bit numbers. -/
def LabelsFit {C : Type} : EncTree C → Prop
  | .leaf x => x < 2 ^ 64
  | .internal _ l r => LabelsFit l ∧ LabelsFit r

theorem evalEncNode_out (fft : Fft n) : ∀ (e : EncTree (RGSW n)), LabelsFit e → ∀ (o : List (RLWE n)) (b : RLWE n),
    evalEncNode fft (ofEnc e) (o.map outRlwe) (outRlwe b) = (Panacea.evalEncNode fft e o b).map outRlwe := by
  intro e
  induction e with
  | leaf x => intro h o b; exact addLabel_out x h b o
  | internal C l r hl hr =>
    intro h o b
    rw [ofEnc, evalEncNode, Panacea.evalEncNode]
    simp only [allocate_out, ext_out, updateWithSub_out]
    rw [hl h.1, hr h.2]

theorem eval_out (hn : 0 < n) (fft : Fft n) (ctx : Ctx) (cl : Nat → Nat) (e : EncTree (RGSW n)) (h : LabelsFit e) :
    (ofEnc e).eval fft ctx cl = (encEval fft ctx cl e).map (List.map outRlwe) := by
  unfold EncNode.eval encEval
  rw [maxLeaf_out, trivialOne_out hn]
  cases Panacea.trivialOne (n := n) ctx with
  | none => rfl
  | some c =>
    simp only [Option.map_some]
    rw [allocate_out, ← List.map_replicate, evalEncNode_out fft e h]

theorem labelsFit_build {C : Type} : ∀ (t : Tree), (∀ x, Spec.HasLeaf x t → x < 2 ^ 64) → ∀ (cts rest : List C) (e : EncTree C),
    EncTree.build t cts = some (e, rest) → LabelsFit e := by
  intro t
  induction t with
  | missing => intro _ cts rest e h; cases h; exact Nat.pos_of_ne_zero (by positivity)
  | leaf x => intro hx cts rest e h; cases h; exact hx x .here
  | internal d l r hl hr =>
    intro hx cts rest e h
    cases cts with
    | nil => cases h
    | cons c cts =>
      rw [EncTree.build] at h
      cases h1 : EncTree.build l cts with
      | none => rw [h1] at h; cases h
      | some x1 =>
        rw [h1] at h; simp only at h
        cases h2 : EncTree.build r x1.2 with
        | none => rw [h2] at h; cases h
        | some x2 =>
          rw [h2] at h; simp only [Option.some.injEq, Prod.mk.injEq] at h
          rw [← h.1]
          exact ⟨hl (fun x hh => hx x (.left d l r hh)) _ _ _ h1, hr (fun x hh => hx x (.right d l r hh)) _ _ _ h2⟩

theorem labelsFit_new {C : Type} {t : Tree} (ht : ∀ x, Spec.HasLeaf x t → x < 2 ^ 64) {cts : List C} {x : EncTree C × List C}
    (h : EncTree.new t cts = some x) : LabelsFit x.1 := by
  unfold EncTree.new at h
  split at h
  · cases h
  · split at h
    · exact labelsFit_build _ ht _ _ _ h
    · cases h

theorem lessEqThan_out (fft : Fft n) (c : RLWE n) (d : Nat) : lessEqThan fft (outRlwe c) d = (c.lessEqThan fft d).map outRlwe := by
  have h := (C79_compare fft (storesRlwe_iff.2 (rfl : outRlwe c = outRlwe c)) d).1
  revert h
  cases lessEqThan fft (outRlwe c) d <;> cases c.lessEqThan fft d <;> intro h
  · rfl
  · exact absurd h id
  · exact absurd h id
  · exact congrArg some (storesRlwe_iff.1 h)

theorem compareCt_out (fft : Fft n) (d : NodeData) (c : RLWE n) : compareCt fft d (outRlwe c) = (Panacea.compareCt fft d c).map outRlwe := by
  unfold compareCt Panacea.compareCt
  simp only [allocate_out, copy_outRlwe]
  cases d.op with
  | leq => exact lessEqThan_out fft c _
  | gt => rfl

theorem compareExpandOne_out (hn : 0 < n) (fft : Fft n) (ctx : Ctx) (cts : List (List (RLWE n))) (ksks : KskMap n) (negS : RGSW n)
    (d : NodeData) : compareExpandOne fft ctx (cts.map (List.map outRlwe)) ksks (outRgsw negS) d =
      (Panacea.compareExpandOne fft ctx cts ksks negS d).map outRgsw := by
  unfold compareExpandOne Panacea.compareExpandOne
  rw [List.getElem?_map]
  cases cts[d.feature]? with
  | none => rfl
  | some c =>
    simp only [Option.map_some]
    rw [mapOption_comm (compareCt_out fft d)]
    cases mapOption (Panacea.compareCt fft d) c with
    | none => rfl
    | some c' => exact expandFourier_out hn fft ctx c' ksks negS

theorem simulateServer_out (hn : 0 < n) (fft : Fft n) (ctx : Ctx) (cl : Nat → Nat) {model : Tree}
    (ht : ∀ x, Spec.HasLeaf x model → x < 2 ^ 64) (ksks : KskMap n) (negS : RGSW n) (cts : List (List (RLWE n))) :
    simulateServer fft ctx cl model ksks (outRgsw negS) (cts.map (List.map outRlwe)) =
      (Panacea.simulateServer fft ctx cl model ksks negS cts).map (List.map outRlwe) := by
  unfold simulateServer Panacea.simulateServer compareExpand
  have h := new_out (compareExpandOne_out hn fft ctx cts ksks negS) model
  cases hm : mapOption (Panacea.compareExpandOne fft ctx cts ksks negS) model.flatten with
  | none =>
    rw [hm] at h
    rw [Option.map_eq_none_iff.1 h]; rfl
  | some rgsws =>
    rw [hm] at h
    simp only at h ⊢
    cases hx : EncTree.new model rgsws with
    | none =>
      rw [hx] at h
      rw [Option.map_eq_none_iff.1 h]; rfl
    | some x =>
      rw [hx] at h
      obtain ⟨y, hy, hy1⟩ := Option.map_eq_some_iff.1 h
      rw [hy]
      simp only
      rw [hy1, eval_out hn fft ctx cl x.1 (labelsFit_new ht hx)]

/-! ## Client -/

theorem log2_le {m k : Nat} (h : log2 m = some k) : k < 64 := by
  unfold log2 at h
  simp only at h
  split at h
  · cases h
  · cases h; omega

/-- One iteration of the loop of `bit_decomposed_rgsw`. -/
theorem fill_loop (s : Poly n) (bl lc : Nat) (c0 : Ggsw) (hc : c0.baseLog = bl ∧ c0.levelCount = lc) (iBits : List Bool) :
    ∀ (bs pre : List Bool) (done : List Ggsw) (g : Gen n), pre.length = done.length → iBits = pre ++ bs →
    loop (fillStep s iBits) (List.range' done.length bs.length) (done ++ List.replicate bs.length c0, g) =
    some (done ++ (mapGen (fun (b : Bool) g => Panacea.encryptConstantRgsw s bl lc (if b then 0 else 1) g) bs g).1.map outRgsw,
      (mapGen (fun (b : Bool) g => Panacea.encryptConstantRgsw s bl lc (if b then 0 else 1) g) bs g).2) := by
  intro bs
  induction bs with
  | nil => intro pre done g _ _; simp [loop, mapGen]
  | cons b bs ih =>
    intro pre done g hp hb
    rw [List.length_cons, List.range'_succ, loop, List.replicate_succ]
    have h1 : (done ++ c0 :: List.replicate bs.length c0)[done.length]? = some c0 := by simp
    have h2 : iBits[done.length]? = some b := by rw [hb, ← hp]; simp
    rw [fillStep]
    simp only [h1, h2]
    have h3 : (done ++ c0 :: List.replicate bs.length c0).set done.length (encryptConstantRgsw s c0 (if b = true then 0 else 1) g).1 =
        (done ++ [(encryptConstantRgsw s c0 (if b = true then 0 else 1) g).1]) ++ List.replicate bs.length c0 := by simp
    rw [h3]
    have := ih (pre ++ [b]) (done ++ [(encryptConstantRgsw s c0 (if b = true then 0 else 1) g).1])
      (encryptConstantRgsw s c0 (if b = true then 0 else 1) g).2 (by simp [hp]) (by simp [hb])
    rw [List.length_append, List.length_singleton] at this
    rw [this]
    unfold encryptConstantRgsw
    rw [hc.1, hc.2, mapGen]
    simp

theorem bitDecomposedRgsw_out (ctx : Ctx) (s : Poly n) (i m : Nat) (g : Gen n) :
    bitDecomposedRgsw ctx s i m g = (Panacea.bitDecomposedRgsw ctx s i m g).map fun x => (x.1.map outRgsw, x.2) := by
  unfold bitDecomposedRgsw Panacea.bitDecomposedRgsw
  cases hl : log2 m with
  | none => rfl
  | some k =>
    have hk := log2_le hl
    have hb : (((List.range 64).map i.testBit).take k).reverse = indexBits i k := by
      unfold indexBits
      rw [← List.map_take, List.take_range, Nat.min_eq_left (by omega)]
    simp only [hb, List.length_replicate]
    have := fill_loop s ctx.baseLog ctx.levelCount (ggswAllocate n ctx.baseLog ctx.levelCount) ⟨rfl, rfl⟩ (indexBits i k) (indexBits i k) [] [] g
      rfl rfl
    simp only [List.nil_append, List.length_nil] at this
    rw [List.range_eq_range', this]; rfl

/-- A computation with a buffer of `n` words in its state, compared with one without it. -/
def Buffered {β β' : Type} (eb : β' → β) (x : Words → Gen n → Option (β × Words × Gen n)) (X : Gen n → Option (β' × Gen n)) : Prop :=
  ∀ pt g, pt.length = n → match X g with
    | none => x pt g = none
    | some (b, g') => ∃ pt', pt'.length = n ∧ x pt g = some (eb b, pt', g')

theorem buffered_collect {α β β' : Type} {eb : β' → β} {f : α → Words × Gen n → Option (β × Words × Gen n)}
    {F : α → Gen n → Option (β' × Gen n)} (h : ∀ a, Buffered eb (fun pt g => f a (pt, g)) (F a)) : ∀ l : List α,
    Buffered (List.map eb) (fun pt g => collect f l (pt, g)) (mapGenM F l) := by
  intro l
  induction l with
  | nil => intro pt g hpt; exact ⟨pt, hpt, rfl⟩
  | cons a l ih =>
    intro pt g hpt
    have h1 := h a pt g hpt
    simp only [mapGenM, collect]
    cases hF : F a g with
    | none => rw [hF] at h1; simp only at h1; rw [h1]
    | some x =>
      obtain ⟨b, g1⟩ := x
      rw [hF] at h1
      obtain ⟨pt1, hpt1, e1⟩ := h1
      simp only at e1 ⊢
      rw [e1]
      have h2 := ih pt1 g1 hpt1
      simp only
      cases hL : mapGenM F l g1 with
      | none => rw [hL] at h2; simp only at h2; rw [h2]
      | some y =>
        obtain ⟨bs, g2⟩ := y
        rw [hL] at h2
        obtain ⟨pt2, hpt2, e2⟩ := h2
        simp only at e2
        rw [e2]
        exact ⟨pt2, hpt2, rfl⟩

theorem encryptFeatureLevel_out (ctx : Ctx) (s : Poly n) (logn v level : Nat) :
    Buffered outRlwe (fun pt g => encryptFeatureLevel ctx s logn v level (pt, g)) (Panacea.encryptFeatureLevel ctx s logn v level) := by
  intro pt g hpt
  unfold encryptFeatureLevel Panacea.encryptFeatureLevel
  by_cases h : v < n ∧ ctx.baseLog * level + logn ≤ 64 ∧ 64 - ctx.baseLog * level - logn < 64
  · rw [if_pos h]
    simp only
    rw [if_pos h.1, if_pos (by omega), if_pos (by omega), if_pos h.2.2]
    refine ⟨(clear pt).set v ((1 : Scalar) <<< (64 - ctx.baseLog * level - logn)), ?_, ?_⟩
    · simp [clear, hpt]
    · simp only [encryptRlwe]
      have : clear pt = out (0 : Poly n) := by
        rw [← replicate_out]; unfold clear; rw [List.map_const', hpt]
      rw [this, set_out, poly_out]
  · rw [if_neg h]
    simp only
    split
    · split
      · split
        · split
          · omega
          · rfl
        · rfl
      · rfl
    · rfl

theorem encryptFeatureVector_out (ctx : Ctx) (s : Poly n) (vs : List Nat) (g : Gen n) :
    encryptFeatureVector ctx s vs g = (Panacea.encryptFeatureVector ctx s vs g).map fun x => (x.1.map (List.map outRlwe), x.2) := by
  unfold encryptFeatureVector Panacea.encryptFeatureVector
  cases log2 n with
  | none => rfl
  | some logn =>
    simp only
    have h := buffered_collect (fun v => buffered_collect (encryptFeatureLevel_out ctx s logn v) (List.range' 1 ctx.levelCount)) vs
      (List.replicate n 0) g (by simp)
    cases hm : mapGenM (fun v g => mapGenM (Panacea.encryptFeatureLevel ctx s logn v) (List.range' 1 ctx.levelCount) g) vs g with
    | none => rw [hm] at h; simp only at h; rw [h]; rfl
    | some x =>
      obtain ⟨b, g'⟩ := x
      rw [hm] at h
      obtain ⟨pt', _, e⟩ := h
      simp only at e
      rw [e]; rfl

theorem decryptDecode_out (ctx : Ctx) (s : Poly n) {pt : Words} (hpt : pt.length = n) (c : RLWE n) :
    decryptDecodeRlwe ctx s pt (outRlwe c) = out (Panacea.decryptDecodeRlwe ctx s c) := by
  unfold decryptDecodeRlwe
  rw [rlwe_out, ← out_poly hpt, copy_out]

theorem decryptLoop_out (hn : 0 < n) (ctx : Ctx) (s : Poly n) : ∀ (cts : List (RLWE n)) (bv : List Bool) (pt : Words), pt.length = n →
    (loop (decryptStep ctx s) (cts.map outRlwe) (bv, pt)).map Prod.fst = (decryptBits ctx s cts).map (bv ++ ·) := by
  intro cts
  induction cts with
  | nil => intro bv pt _; simp [loop, decryptBits]
  | cons c cts ih =>
    intro bv pt hpt
    rw [List.map_cons, loop, decryptStep, decryptBits]
    simp only [decryptDecode_out ctx s hpt]
    have h0 : (out (Panacea.decryptDecodeRlwe ctx s c))[0]? = some ((Panacea.decryptDecodeRlwe ctx s c).get 0) := by
      rw [out_getElem? _ ⟨0, hn⟩]; unfold Poly.get; rw [dif_pos hn]
    rw [h0]
    simp only
    by_cases h1 : (Panacea.decryptDecodeRlwe ctx s c).get 0 = 0
    · rw [if_pos h1, if_pos h1]
      simp only
      rw [ih _ _ (by simp)]
      cases decryptBits ctx s cts <;> simp
    · rw [if_neg h1, if_neg h1]
      by_cases h2 : (Panacea.decryptDecodeRlwe ctx s c).get 0 = 1
      · rw [if_pos h2, if_pos h2]
        simp only
        rw [ih _ _ (by simp)]
        cases decryptBits ctx s cts <;> simp
      · rw [if_neg h2, if_neg h2]; rfl

theorem decryptAndRecompose_out (hn : 0 < n) (ctx : Ctx) (s : Poly n) (cts : List (RLWE n)) :
    decryptAndRecompose ctx s (cts.map outRlwe) = Panacea.decryptAndRecompose ctx s cts := by
  unfold decryptAndRecompose Panacea.decryptAndRecompose
  have h := decryptLoop_out hn ctx s cts [] (List.replicate n 0) (by simp)
  cases hb : decryptBits ctx s cts with
  | none => rw [hb] at h; rw [Option.map_eq_none_iff.1 h]
  | some bs =>
    rw [hb] at h
    obtain ⟨y, hy, hy1⟩ := Option.map_eq_some_iff.1 h
    rw [hy]
    simp only [List.nil_append] at hy1 ⊢
    rw [hy1]

theorem check_out (hn : 0 < n) (ctx : Ctx) (s : Poly n) (model : Tree) : ∀ (rs : List (List (RLWE n) × List Nat)) (ps : List Nat),
    loop (simulateCheck ctx s model) (rs.map fun r => (r.1.map outRlwe, r.2)) ps =
      (mapOption (Panacea.simulateCheck ctx s model) rs).map (ps ++ ·) := by
  intro rs
  induction rs with
  | nil => intro ps; simp [loop, mapOption]
  | cons r rs ih =>
    intro ps
    rw [List.map_cons, loop, mapOption, simulateCheck, Panacea.simulateCheck]
    simp only [decryptAndRecompose_out hn]
    cases Panacea.decryptAndRecompose ctx s r.1 with
    | none => rfl
    | some a =>
      cases model.eval r.2 with
      | none => rfl
      | some e =>
        simp only
        by_cases he : e = a
        · rw [if_pos he, if_pos he]
          simp only
          rw [ih]
          cases mapOption (Panacea.simulateCheck ctx s model) rs <;> simp
        · rw [if_neg he, if_neg he]; rfl

theorem collect_eq_mapGenM {α β β' : Type} {eb : β' → β} {f : α → Gen n → Option (β × Gen n)} {F : α → Gen n → Option (β' × Gen n)}
    (h : ∀ a g, f a g = (F a g).map fun x => (eb x.1, x.2)) : ∀ (l : List α) (g : Gen n),
    collect f l g = (mapGenM F l g).map fun x => (x.1.map eb, x.2) := by
  intro l
  induction l with
  | nil => intro g; rfl
  | cons a l ih =>
    intro g
    rw [collect, mapGenM, h]
    cases F a g with
    | none => rfl
    | some x =>
      simp only [Option.map_some]
      rw [ih]
      cases mapGenM F l x.2 <;> rfl

theorem negGsw_out (hn : 0 < n) (ctx : Ctx) (s : Poly n) (g : Gen n) (h0 : 0 < ctx.baseLog) (hneg : ctx.baseLog * ctx.negsLevelCount ≤ 64) :
    negGsw ctx (out s) g = (Panacea.negGsw ctx s g).map fun x => (outRgsw x.1, x.2) := by
  have h := (C79_encrypt_rgsw hn ctx (storesPoly_iff.2 (rfl : out s = out s)) s 1 0 g h0 (by omega) hneg).2
  revert h
  cases negGsw ctx (out s) g <;> cases Panacea.negGsw ctx s g <;> intro h
  · rfl
  · exact absurd h id
  · exact absurd h id
  · exact congrArg some (Prod.ext (storesRgsw_iff.1 h.1) h.2)

/-! ## C85 -/

theorem storesRlwes {ws : List Words} {cs : List (RLWE n)} : StoresAll StoresRlwe ws cs ↔ ws = cs.map outRlwe :=
  storesAll_iff (f := outRlwe) (fun _ _ => storesRlwe_iff)

theorem storesRgsws {Cs : List Ggsw} {Rs : List (RGSW n)} : StoresAll StoresRgsw Cs Rs ↔ Cs = Rs.map outRgsw :=
  storesAll_iff (f := outRgsw) (fun _ _ => storesRgsw_iff)

theorem storesTable {ws : List (List Words)} {cs : List (List (RLWE n))} :
    StoresAll (StoresAll StoresRlwe) ws cs ↔ ws = cs.map (List.map outRlwe) :=
  storesAll_iff (f := List.map outRlwe) (fun _ _ => storesRlwes)

/-- **C85** (demultiplexer) The recursion over level numbers on ciphertexts in memory produces the memory images of the ciphertexts of the other
model, in the same order, and panics in the same cases. -/
theorem C85_demux (hn : 0 < n) (fft : Fft n) (ctx : Ctx) {w : Words} {b : RLWE n} {Cs : List Ggsw} {bits : List (RGSW n)}
    (hw : StoresRlwe w b) (hC : StoresAll StoresRgsw Cs bits) :
    Agree (StoresAll StoresRlwe) (demuxWith fft w Cs) (Panacea.demuxWith fft b bits) ∧
    Agree (StoresAll StoresRlwe) (demux fft ctx Cs) (Panacea.demux fft ctx bits) := by
  rw [storesRlwe_iff] at hw; rw [storesRgsws] at hC
  subst hw hC
  exact ⟨agree_of_eq (demuxWith_out fft b bits) fun _ => storesRlwes.2 rfl, agree_of_eq (demux_out hn fft ctx bits) fun _ => storesRlwes.2 rfl⟩

/-- **C85** (server) Comparing lazily, building the encrypted tree with optional children and evaluating it on word vectors gives the memory
images of the outputs of the other model, and panics in the same cases, for every tree with 64-bit labels. -/
theorem C85_server (hn : 0 < n) (fft : Fft n) (ctx : Ctx) (ceilLog2 : Nat → Nat) {model : Tree}
    (ht : ∀ x, Spec.HasLeaf x model → x < 2 ^ 64) (ksks : KskMap n) {C : Ggsw} {negS : RGSW n} (hC : StoresRgsw C negS)
    {ws : List (List Words)} {cts : List (List (RLWE n))} (hw : StoresAll (StoresAll StoresRlwe) ws cts) :
    Agree (StoresAll StoresRlwe) (simulateServer fft ctx ceilLog2 model ksks C ws)
      (Panacea.simulateServer fft ctx ceilLog2 model ksks negS cts) := by
  rw [storesRgsw_iff] at hC; rw [storesTable] at hw
  subst hC hw
  exact agree_of_eq (simulateServer_out hn fft ctx ceilLog2 ht ksks negS cts) fun _ => storesRlwes.2 rfl

/-- **C85** (client) The index loop over preallocated ciphertexts, the shared plaintext buffers of encryption and decryption: same
ciphertexts, same number, same random stream position, same panics. -/
theorem C85_client (hn : 0 < n) (ctx : Ctx) (s : Poly n) (g : Gen n) (i m : Nat) (vs : List Nat) {ws : List Words} {cts : List (RLWE n)}
    (hw : StoresAll StoresRlwe ws cts) :
    Agree (fun a b => StoresAll StoresRgsw a.1 b.1 ∧ a.2 = b.2) (bitDecomposedRgsw ctx s i m g) (Panacea.bitDecomposedRgsw ctx s i m g) ∧
    Agree (fun a b => StoresAll (StoresAll StoresRlwe) a.1 b.1 ∧ a.2 = b.2) (encryptFeatureVector ctx s vs g)
      (Panacea.encryptFeatureVector ctx s vs g) ∧
    decryptAndRecompose ctx s ws = Panacea.decryptAndRecompose ctx s cts := by
  rw [storesRlwes] at hw; subst hw
  exact ⟨agree_of_eq (bitDecomposedRgsw_out ctx s i m g) fun _ => ⟨storesRgsws.2 rfl, rfl⟩,
    agree_of_eq (encryptFeatureVector_out ctx s vs g) fun _ => ⟨storesTable.2 rfl, rfl⟩, decryptAndRecompose_out hn ctx s cts⟩

/-- **C85** (simulation) `simulate` on memory returns exactly what `simulate` of the other model returns, or both panic: all theorems about
predictions hold for the program with its buffers, index loops and lazy iterator. -/
theorem C85_simulate (hn : 0 < n) (fft : Fft n) (ctx : Ctx) (ceilLog2 : Nat → Nat) (s : Poly n) {model : Tree}
    (ht : ∀ x, Spec.HasLeaf x model → x < 2 ^ 64) (features : List (List Nat)) (g : Gen n) (h0 : 0 < ctx.baseLog)
    (hneg : ctx.baseLog * ctx.negsLevelCount ≤ 64) :
    simulate fft ctx ceilLog2 s model features g = Panacea.simulate fft ctx ceilLog2 s model features g := by
  unfold simulate Panacea.simulate
  rw [negGsw_out hn ctx s g h0 hneg]
  cases Panacea.negGsw ctx s g with
  | none => rfl
  | some x =>
    simp only [Option.map_some]
    cases genAllSubsKsk ctx s x.2 with
    | none => rfl
    | some y =>
      simp only
      rw [collect_eq_mapGenM (encryptFeatureVector_out ctx s)]
      cases mapGenM (Panacea.encryptFeatureVector ctx s) features y.2 with
      | none => rfl
      | some z =>
        simp only [Option.map_some]
        rw [mapOption_comm (simulateServer_out hn fft ctx ceilLog2 ht y.1 x.1)]
        cases mapOption (Panacea.simulateServer fft ctx ceilLog2 model y.1 x.1) z.1 with
        | none => rfl
        | some outputs =>
          simp only [Option.map_some]
          have hz : (outputs.map (List.map outRlwe)).zip features = (outputs.zip features).map fun r => (r.1.map outRlwe, r.2) := by
            have := zip_comm (List.map outRlwe) (id : List Nat → List Nat) outputs features
            rwa [List.map_id] at this
          rw [hz, check_out hn]
          cases mapOption (Panacea.simulateCheck ctx s model) (outputs.zip features) <;> simp

/-- **C85** (laziness) The choice bits are computed only when the encrypted tree asks for them: nodes beyond those of the tree are left in the
iterator and never compared, even if comparing them would panic. -/
theorem C85_lazy (pull : NodeData → Option Ggsw) {t : Tree} (ht : t.isInternal = true) (extra : List NodeData) :
    EncNode.new pull t (t.flatten ++ extra) = (EncNode.new pull t t.flatten).map fun x => (x.1, extra) := by
  have key : ∀ (t : Tree) (cur : EncNode), ∃ r : Option EncNode, ∀ X, newChild pull t cur (t.flatten ++ X) = r.map fun e => (e, X) := by
    intro t
    induction t with
    | missing => intro cur; exact ⟨some cur, fun X => rfl⟩
    | leaf x => intro cur; exact ⟨some (.leaf x), fun X => rfl⟩
    | internal d l r hl hr =>
      intro cur
      obtain ⟨el, hl⟩ := hl (.leaf 0)
      obtain ⟨er, hr⟩ := hr (.leaf 0)
      refine ⟨(pull d).bind fun C => el.bind fun a => er.map fun b => .internal C a b, fun X => ?_⟩
      rw [Tree.flatten, newChild, List.cons_append, nextCt, List.append_assoc]
      cases pull d with
      | none => rfl
      | some C =>
        simp only [hl, Option.bind_some]
        cases el with
        | none => rfl
        | some a =>
          simp only [hr, Option.map_some, Option.bind_some]
          cases er <;> rfl
  cases t with
  | missing => cases ht
  | leaf => cases ht
  | internal d l r =>
    have hnew : ∀ it, EncNode.new pull (.internal d l r) it = newChild pull (.internal d l r) (.leaf 0) it := by
      intro it
      rw [EncNode.new, newChild]
      cases nextCt pull it with
      | none => rfl
      | some x => rcases x with ⟨_ | c, it⟩ <;> rfl
    obtain ⟨e, he⟩ := key (.internal d l r) (.leaf 0)
    have h0 := he []
    rw [List.append_nil] at h0
    rw [hnew, hnew, he, h0]
    cases e <;> rfl

theorem addLabel_zero (n : Nat) (b : Words) (o : List Words) : addLabel n 0 b o = o := by
  unfold addLabel
  have h : (List.range 64).map (Nat.testBit 0) = List.replicate 64 false := by decide
  rw [h]
  have : ∀ (k : Nat) (o : List Words), List.zipWith (fun bit ct => if bit = true then updateWithAdd n ct b else ct)
      (List.replicate k false) o = o.take k := by
    intro k
    induction k with
    | zero => intro o; simp
    | succ k ih => intro o; cases o <;> simp [List.replicate_succ, ih]
  rw [this, List.take_append_drop]

theorem evalEncNode_fill (fft : Fft n) : ∀ (e : EncNode) (o : List Words) (b : Words),
    evalEncNode fft e.fillMissing o b = evalEncNode fft e o b := by
  intro e
  induction e with
  | missing => intro o b; exact addLabel_zero n b o
  | leaf => intro o b; rfl
  | internal C l r hl hr => intro o b; simp only [EncNode.fillMissing, evalEncNode, hl, hr]

/-- **C85** (missing children) `EncInternal` has public optional children: an encrypted tree with absent children evaluates to exactly the same
words as the tree with `Leaf(0)` in their place, and has the same largest label. -/
theorem C85_missing (fft : Fft n) (ctx : Ctx) (ceilLog2 : Nat → Nat) (ct : Ggsw) (l r : EncNode) :
    (EncNode.internal ct l r).fillMissing.maxLeaf = (EncNode.internal ct l r).maxLeaf ∧
    (EncNode.internal ct l r).fillMissing.eval fft ctx ceilLog2 = (EncNode.internal ct l r).eval fft ctx ceilLog2 := by
  have aux : ∀ e : EncNode, e.fillMissing.maxLeaf = some (e.maxLeaf.getD 0) := by
    intro e
    induction e with
    | missing => rfl
    | leaf => rfl
    | internal C l r hl hr =>
      rw [EncNode.fillMissing, EncNode.maxLeaf, hl, hr]
      rw [EncNode.maxLeaf]
      cases l.maxLeaf <;> cases r.maxLeaf <;> simp
  have hm : (EncNode.internal ct l r).fillMissing.maxLeaf = (EncNode.internal ct l r).maxLeaf := by
    rw [aux, EncNode.maxLeaf]
    cases l.maxLeaf <;> cases r.maxLeaf <;> rfl
  refine ⟨hm, ?_⟩
  unfold EncNode.eval
  rw [hm]
  simp only [evalEncNode_fill]

/-! ## Non-vacuity -/

/-- A tree with one comparison, an absent left child and label 5 on the right. -/
example : (EncNode.internal exGgsw .missing (.leaf 5)).maxLeaf = some 5 := by decide
example : (EncNode.new (fun d : NodeData => if d.feature = 0 then some exGgsw else none) (.internal ⟨1, 0, 0, .leq⟩ .missing (.leaf 5))
    [⟨1, 0, 0, .leq⟩, ⟨1, 7, 0, .leq⟩]).map (fun x => x.2.length) = some 1 := by decide
/-- The end-to-end run of C39, in memory. -/
example : ∃ ys, simulate exFft exTreeCtx exF64.ceilLog2 exKey exTree [[1, 3], [3, 0]] exGen = some ys ∧ ys.length = 2 := by
  have ht : ∀ x, Spec.HasLeaf x exTree → x < 2 ^ 64 := by
    intro x h
    cases h with
    | left _ _ _ h => cases h with
      | left _ _ _ h => cases h; decide
      | right _ _ _ h => cases h; decide
    | right _ _ _ h => cases h; decide
  obtain ⟨ys, h1, h2⟩ := exTree_simulate
  exact ⟨ys, by rw [C85_simulate (by decide) exFft exTreeCtx _ exKey ht _ exGen (by decide) (by decide)]; exact h1, h2.length_eq.symm⟩
example : addLabel 1 5 [1, 2] [[0, 0], [0, 0], [7, 7]] = [[1, 2], [0, 0], [8, 9]] := by decide

end Flat
end Panacea
