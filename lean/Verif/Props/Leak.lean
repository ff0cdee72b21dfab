import Verif.Spec.Leak
import Verif.Props.FlatTree

/-!
# C95: what the answers of the tree server show
-/

namespace Panacea
open Spec
variable {n : Nat}

/-- The selectors the server makes for the nodes of the model. -/
def selOf (fft : Fft n) (ctx : Ctx) (cts : List (List (RLWE n))) (ksks : KskMap n) (negS : RGSW n) (d : NodeData) : RGSW n :=
  (compareExpandOne fft ctx cts ksks negS d).getD negS

/-- The encrypted tree with given selectors. -/
def toEnc {C : Type} (sel : NodeData → C) : Tree → EncTree C
  | .missing => .leaf 0
  | .leaf x => .leaf x
  | .internal d l r => .internal (sel d) (toEnc sel l) (toEnc sel r)

theorem build_toEnc {C : Type} (sel : NodeData → C) : ∀ (t : Tree) (rest : List C), EncTree.build t (t.flatten.map sel ++ rest) = some (toEnc sel t, rest)
  | .missing, _ => rfl
  | .leaf _, _ => rfl
  | .internal d l r, rest => by
    simp only [Tree.flatten, List.map_cons, List.map_append, List.cons_append, EncTree.build, List.append_assoc]
    rw [build_toEnc sel l]
    simp only
    rw [build_toEnc sel r]
    rfl

theorem mapOption_getD {α β : Type} {f : α → Option β} (z : β) : ∀ {l : List α} {r : List β}, mapOption f l = some r → r = l.map fun a => (f a).getD z
  | [], r, h => by cases h; rfl
  | a :: l, r, h => by
    rw [mapOption] at h
    split at h
    · rename_i b r' hb hr
      cases h
      rw [List.map_cons, hb, ← mapOption_getD z hr]
      rfl
    · cases h

/-- Bit `i` of the evaluation of an encrypted tree. -/
def bitEval (fft : Fft n) (i : Nat) : EncTree (RGSW n) → RLWE n → RLWE n
  | .leaf x, b => if x.testBit i then b else 0
  | .internal C l r, b => bitEval fft i l (externalProduct fft C 0 b) + bitEval fft i r (b - externalProduct fft C 0 b)

theorem evalEncNode_bit (fft : Fft n) (i : Nat) : ∀ (t : EncTree (RGSW n)) (out : List (RLWE n)) (b : RLWE n),
    (evalEncNode fft t out b)[i]? = out[i]?.map (· + bitEval fft i t b)
  | .leaf x, out, b => by
    rw [evalEncNode, addLabel, List.getElem?_mapIdx]
    congr 1
    funext c
    rw [bitEval]
    split
    · rfl
    · rw [add_zero]
  | .internal C l r, out, b => by
    rw [evalEncNode]
    rw [evalEncNode_bit fft i r, evalEncNode_bit fft i l, Option.map_map]
    congr 1
    funext c
    simp only [Function.comp_apply, bitEval, add_assoc]

/-- The answers of the server, bit by bit. -/
theorem server_bits {fft : Fft n} {ctx : Ctx} {cl : Nat → Nat} {model : Tree} {ksks : KskMap n} {negS : RGSW n} {cts : List (List (RLWE n))}
    {ys : List (RLWE n)} (h : simulateServer fft ctx cl model ksks negS cts = some ys) :
    ∃ c : RLWE n, trivialOne ctx = some c ∧ ys.length = cl ((toEnc (selOf fft ctx cts ksks negS) model).maxLeaf + 1) ∧
      ∀ i, i < ys.length → ys[i]? = some (bitEval fft i (toEnc (selOf fft ctx cts ksks negS) model) c) := by
  unfold simulateServer at h
  split at h
  · cases h
  · rename_i rgsws hr
    split at h
    · cases h
    · rename_i root rest hnew
      have hx := mapOption_getD negS hr
      have hb : EncTree.build model rgsws = some (root, rest) := by
        unfold EncTree.new at hnew
        split at hnew
        · cases hnew
        · split at hnew
          · exact hnew
          · cases hnew
      have hb' := build_toEnc (selOf fft ctx cts ksks negS) model []
      rw [List.append_nil] at hb'
      rw [hx] at hb
      rw [show (fun a => (compareExpandOne fft ctx cts ksks negS a).getD negS) = selOf fft ctx cts ksks negS from rfl, hb'] at hb
      cases hb
      unfold encEval at h
      dsimp only at h
      split at h
      · cases h
      · rename_i c hc
        cases h
        have hlen : (evalEncNode fft (toEnc (selOf fft ctx cts ksks negS) model)
            (List.replicate (cl ((toEnc (selOf fft ctx cts ksks negS) model).maxLeaf + 1)) 0) c).length
            = cl ((toEnc (selOf fft ctx cts ksks negS) model).maxLeaf + 1) := by
          have : ∀ (t : EncTree (RGSW n)) (out : List (RLWE n)) b, (evalEncNode fft t out b).length = out.length := by
            intro t
            induction t with
            | leaf x => intro out b; simp [evalEncNode, addLabel]
            | internal C l r hl hr => intro out b; rw [evalEncNode, hr, hl]
          rw [this, List.length_replicate]
        refine ⟨c, hc, hlen, fun i hi => ?_⟩
        rw [hlen] at hi
        rw [evalEncNode_bit, List.getElem?_replicate, if_pos hi, Option.map_some, zero_add]

theorem bitEval_const (fft : Fft n) (sel : NodeData → RGSW n) {i : Nat} {β : Bool} : ∀ {t : Tree}, ConstBit i β t → ∀ b,
    bitEval fft i (toEnc sel t) b = if β then b else 0
  | .missing, h, b => by
    have h0 := h 0 (.missing rfl)
    rw [toEnc, bitEval, h0]
  | .leaf x, h, b => by
    rw [toEnc, bitEval, h x .leaf]
  | .internal d l r, h, b => by
    rw [toEnc, bitEval, bitEval_const fft sel (t := l) (fun x hx => h x (.left d l r hx)), bitEval_const fft sel (t := r) (fun x hx => h x (.right d l r hx))]
    cases β
    · simp
    · simp

/-- The selectors do not depend on the node numbers. -/
theorem selOf_index (fft : Fft n) (ctx : Ctx) (cts : List (List (RLWE n))) (ksks : KskMap n) (negS : RGSW n) (d : NodeData) (k : Nat) :
    selOf fft ctx cts ksks negS { d with index := k } = selOf fft ctx cts ksks negS d := rfl

theorem bitEval_collapse (fft : Fft n) {sel : NodeData → RGSW n} (hsel : ∀ d, sel { d with index := 0 } = sel d) (i : Nat) : ∀ (t : Tree) (b : RLWE n),
    bitEval fft i (toEnc sel (collapse i t)) b = bitEval fft i (toEnc sel t) b
  | .missing, b => rfl
  | .leaf x, b => by
    rw [collapse, toEnc, toEnc, bitEval, bitEval]
    by_cases h : x.testBit i
    · rw [if_pos h, if_pos h, if_pos Nat.testBit_two_pow_self]
    · rw [if_neg h, if_neg h, Nat.zero_testBit]; rfl
  | .internal d l r, b => by
    have hl := bitEval_collapse fft hsel i l
    have hr := bitEval_collapse fft hsel i r
    rw [toEnc, bitEval, ← hl, ← hr, collapse]
    split
    · rename_i x y hx hy
      split
      · rename_i hxy
        subst hxy
        rw [hx, hy]
        simp only [toEnc, bitEval]
        split
        · abel
        · simp
      · rw [hx, hy]
        show bitEval fft i (.internal (sel { d with index := 0 }) _ _) b = _
        rw [hsel]
        rfl
    · show bitEval fft i (.internal (sel { d with index := 0 }) _ _) b = _
      rw [hsel]
      rfl

theorem maxLeaf_toEnc {C : Type} (sel : NodeData → C) : ∀ t : Tree, CanReturn (toEnc sel t).maxLeaf t ∧ ∀ x, CanReturn x t → x ≤ (toEnc sel t).maxLeaf
  | .missing => ⟨.missing rfl, fun x h => by cases h with | missing h => exact le_of_eq h⟩
  | .leaf y => ⟨.leaf, fun x h => by cases h with | leaf => exact le_refl _⟩
  | .internal d l r => by
    obtain ⟨l1, l2⟩ := maxLeaf_toEnc sel l
    obtain ⟨r1, r2⟩ := maxLeaf_toEnc sel r
    rw [toEnc, EncTree.maxLeaf]
    refine ⟨?_, ?_⟩
    · rcases max_choice (toEnc sel l).maxLeaf (toEnc sel r).maxLeaf with h | h <;> rw [h]
      · exact .left d l r l1
      · exact .right d l r r1
    · intro x h
      cases h with
      | left _ _ _ h => exact le_max_of_le_left (l2 x h)
      | right _ _ _ h => exact le_max_of_le_right (r2 x h)

/-- C95 (label bits in the clear): whatever the client sends, an answer bit that is the same for all labels of the model is answered without encryption: the
mask is zero and the body is the encoded bit. Anybody who sees the answer can read it. -/
theorem C95_constant_bit {fft : Fft n} {ctx : Ctx} {cl : Nat → Nat} {model : Tree} {ksks : KskMap n} {negS : RGSW n} {cts : List (List (RLWE n))}
    {ys : List (RLWE n)} (h : simulateServer fft ctx cl model ksks negS cts = some ys) {i : Nat} (hi : i < ys.length) {b : Bool} (hb : ConstBit i b model) :
    ∃ v y, ctx.codec.encode 1 = some v ∧ ys[i]? = some y ∧ y.mask = 0 ∧ y.body = if b then Poly.set 0 0 v else 0 := by
  obtain ⟨c, hc, _, hall⟩ := server_bits h
  have hy := hall i hi
  rw [bitEval_const fft _ hb] at hy
  unfold trivialOne at hc
  split at hc
  · cases hc
  · rename_i v hv
    cases hc
    refine ⟨v, _, hv, hy, ?_, ?_⟩ <;> cases b <;> rfl

/-- C95 (largest label): the number of answers is the number of bits of the largest label of the model. -/
theorem C95_answers {F : F64Ops} (hF : F.Ok) {fft : Fft n} {ctx : Ctx} {model : Tree} {ksks : KskMap n} {negS : RGSW n} {cts : List (List (RLWE n))}
    {ys : List (RLWE n)} (h : simulateServer fft ctx F.ceilLog2 model ksks negS cts = some ys) {M : Nat} (hM : CanReturn M model)
    (hmax : ∀ x, CanReturn x model → x ≤ M) (h48 : M < 2 ^ 48) : M < 2 ^ ys.length ∧ ∀ k, M < 2 ^ k → ys.length ≤ k := by
  obtain ⟨c, _, hlen, _⟩ := server_bits h
  obtain ⟨m1, m2⟩ := maxLeaf_toEnc (selOf fft ctx cts ksks negS) model
  have : (toEnc (selOf fft ctx cts ksks negS) model).maxLeaf = M := le_antisymm (hmax _ m1) (m2 _ hM)
  rw [hlen, this]
  exact C39_label_bits hF h48

/-- C95 (nothing else): answer `i` is determined by the client's message and the tree as far as bit `i` of its labels is concerned: two models that agree
after collapsing subtrees with a constant bit are answered with the same ciphertext. -/
theorem C95_collapse {fft : Fft n} {ctx : Ctx} {cl cl' : Nat → Nat} {model model' : Tree} {ksks : KskMap n} {negS : RGSW n} {cts : List (List (RLWE n))}
    {ys ys' : List (RLWE n)} (h : simulateServer fft ctx cl model ksks negS cts = some ys) (h' : simulateServer fft ctx cl' model' ksks negS cts = some ys')
    {i : Nat} (hi : i < ys.length) (hi' : i < ys'.length) (hc : collapse i model = collapse i model') : ys[i]? = ys'[i]? := by
  obtain ⟨c, hc1, _, hall⟩ := server_bits h
  obtain ⟨c', hc2, _, hall'⟩ := server_bits h'
  rw [hc1] at hc2
  cases hc2
  have hsel := fun d => selOf_index fft ctx cts ksks negS d 0
  rw [hall i hi, hall' i hi', ← bitEval_collapse fft hsel i model, ← bitEval_collapse fft hsel i model', hc]

/-- C95 (the reduced tree predicts the same bit): collapsing keeps bit `i` of every prediction. -/
theorem C95_collapse_sound (i : Nat) : ∀ (t : Tree) (features : List Nat) (y : Nat), Path features t y →
    ∃ y', Path features (collapse i t) y' ∧ y'.testBit i = y.testBit i := by
  intro t features y h
  induction h with
  | missing => exact ⟨0, .leaf 0, rfl⟩
  | leaf x =>
    refine ⟨_, .leaf _, ?_⟩
    by_cases h : x.testBit i
    · rw [if_pos h, h, Nat.testBit_two_pow_self]
    · rw [if_neg h, Nat.zero_testBit]; exact (Bool.eq_false_iff.mpr h).symm
  | goLeft d l r v y hv hle _ ih =>
    obtain ⟨y', p, e⟩ := ih
    rw [collapse]
    split
    · rename_i a b ha hb
      split
      · rw [ha] at p; exact ⟨y', p, e⟩
      · rw [ha] at p; exact ⟨y', .goLeft _ _ _ v y' hv hle p, e⟩
    · exact ⟨y', .goLeft _ _ _ v y' hv hle p, e⟩
  | goRight d l r v y hv hle _ ih =>
    obtain ⟨y', p, e⟩ := ih
    rw [collapse]
    split
    · rename_i a b ha hb
      split
      · rename_i hab
        subst hab; rw [hb] at p; exact ⟨y', p, e⟩
      · rw [hb] at p; exact ⟨y', .goRight _ _ _ v y' hv hle p, e⟩
    · exact ⟨y', .goRight _ _ _ v y' hv hle p, e⟩

/-- An honest run with ring size 2: the client's material is made by the code's own functions. -/
def leakCtx : Ctx := { exCtx with baseLog := 12, levelCount := 3, negsBaseLog := 12, negsLevelCount := 3, ksBaseLog := 12, ksLevelCount := 3 }

/-- A generator for the run. -/
def leakGen : Gen 2 := ⟨fun i => ⟨fun k => BitVec.ofNat 64 (7919 * i + 104729 * k.val + 13)⟩,
  fun i => ⟨fun k => BitVec.ofInt 64 (((i + k.val) % 7 : Nat) - 3 : Int)⟩, fun i => ⟨fun k => BitVec.ofNat 64 (i + k.val)⟩, 0⟩

/-- The answers to a client with the one feature 0. -/
def leakRun (T : Tree) : Option (List (RLWE 2)) :=
  match negGsw leakCtx (⟨fun _ => 1⟩ : Poly 2) leakGen with
  | none => none
  | some (negS, g) =>
    match genAllSubsKsk leakCtx (⟨fun _ => 1⟩ : Poly 2) g with
    | none => none
    | some (ksks, g) =>
      match encryptFeatureVector leakCtx (⟨fun _ => 1⟩ : Poly 2) [0] g with
      | none => none
      | some (cts, _) => simulateServer ⟨fun _ => 0⟩ leakCtx (fun _ => 1) T ksks negS cts

/-- A test that every feature below the ring size passes. -/
def leakTree (y : Nat) : Tree := .internal ⟨1, 0, 0, .leq⟩ (.leaf 1) (.leaf y)

theorem leakTree_predicts (y v : Nat) (hv : v < 2) (out : Nat) : Path [v] (leakTree y) out ↔ out = 1 := by
  constructor
  · intro h
    cases h with
    | goLeft _ _ _ w _ hw hle hp => cases hp; rfl
    | goRight _ _ _ w _ hw hle hp =>
      simp at hw
      subst hw
      exact absurd (Nat.le_of_lt_succ hv) (not_le.mpr hle)
  · rintro rfl
    exact .goLeft _ _ _ v 1 rfl (Nat.le_of_lt_succ hv) (.leaf 1)

set_option maxRecDepth 10000 in
theorem leakRun_mask : (leakRun (leakTree 0)).map (fun l => l.map fun c => c.mask 0) ≠ some [0] := by decide +kernel

set_option maxRecDepth 10000 in
theorem leakRun_decrypts : (leakRun (leakTree 0)).map (fun l => l.map fun c => decryptDecodeRlwe leakCtx (⟨fun _ => 1⟩ : Poly 2) c 0) = some [1] := by decide +kernel

set_option maxRecDepth 10000 in
theorem leakRun_decrypts' : (leakRun (leakTree 1)).map (fun l => l.map fun c => decryptDecodeRlwe leakCtx (⟨fun _ => 1⟩ : Poly 2) c 0) = some [1] := by decide +kernel

set_option maxRecDepth 10000 in
theorem leakRun_const : (leakRun (leakTree 1)).map (fun l => l.map fun c => c.mask 0) = some [0] := by
  have hsome : (leakRun (leakTree 1)).isSome = true := by decide +kernel
  obtain ⟨ys, hys⟩ := Option.isSome_iff_exists.mp hsome
  have hrun := hys
  unfold leakRun at hys
  split at hys
  · cases hys
  split at hys
  · cases hys
  split at hys
  · cases hys
  obtain ⟨_, _, hlen, _⟩ := server_bits hys
  obtain ⟨_, y, _, hy, hm, _⟩ := C95_constant_bit hys (i := 0) (hlen ▸ Nat.one_pos) (b := true) (by
    intro x hx
    cases hx with
    | left _ _ _ h => cases h; rfl
    | right _ _ _ h => cases h; rfl)
  rw [hrun]
  match ys, hlen, hy with
  | [z], _, hy => cases hy; simp [hm]

/-- C95 (the model is not hidden): two models that predict the same on every feature vector a client can encrypt, and whose answers the same client, in the same honest run,
tells apart. Hypotheses of `C95_constant_bit` are met by the second model. -/
theorem C95_model_shows : ∃ T T' : Tree, (∀ v, v < 2 → ∀ out, Path [v] T out ↔ Path [v] T' out) ∧
    ∃ ys ys' : List (RLWE 2), leakRun T = some ys ∧ leakRun T' = some ys' ∧ ys.map (fun c => c.mask 0) ≠ ys'.map (fun c => c.mask 0) ∧
      ys.map (fun c => decryptDecodeRlwe leakCtx (⟨fun _ => 1⟩ : Poly 2) c 0) = [1] ∧ ys'.map (fun c => decryptDecodeRlwe leakCtx (⟨fun _ => 1⟩ : Poly 2) c 0) = [1] := by
  refine ⟨leakTree 0, leakTree 1, fun v hv out => (leakTree_predicts 0 v hv out).trans (leakTree_predicts 1 v hv out).symm, ?_⟩
  have hd := leakRun_decrypts
  have hd' := leakRun_decrypts'
  have hm := leakRun_mask
  have hc := leakRun_const
  cases h : leakRun (leakTree 0) with
  | none => rw [h] at hd; cases hd
  | some ys =>
    cases h' : leakRun (leakTree 1) with
    | none => rw [h'] at hc; cases hc
    | some ys' =>
      rw [h, Option.map_some] at hd hm
      rw [h', Option.map_some] at hd' hc
      refine ⟨ys, ys', rfl, rfl, ?_, Option.some.inj hd, Option.some.inj hd'⟩
      rw [Option.some.inj hc]
      exact fun e => hm (congrArg some e)

end Panacea
