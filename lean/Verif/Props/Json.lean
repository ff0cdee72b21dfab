import Verif.Spec.Json
import Verif.Props.Params
import Mathlib.Tactic.NormNum
import Mathlib.Data.List.Perm.Basic

/-! # C69: JSON parameter files and trees -/

namespace Panacea
open Spec Json
variable {F : Type}

theorem deU64_nat {x : Nat} (h : x < 2 ^ 64) : deU64 (.int (x : Int) : Json F) = some x := by
  simp only [deU64, Int.toNat_natCast]
  exact if_pos ⟨by omega, h⟩

theorem deTfhe_ser (ofInt : Int → F) (r : Nat) {p : TFHEParameters F} (h : TfheFits p) : deTfhe ofInt (r + 1) (serTfhe p) = some p := by
  obtain ⟨h1, h2, h3, h4, h5, h6, h7, h8⟩ := h
  simp only [deTfhe, serTfhe, nested, field, List.filter_cons, List.filter_nil, decide_true, decide_false, if_true, String.reduceEq,
    Bool.false_eq_true, if_false, deF64, deU64_nat h1, deU64_nat h2, deU64_nat h3, deU64_nat h4, deU64_nat h5, deU64_nat h6, deU64_nat h7,
    deU64_nat h8, deBool, Option.bind_eq_bind, Option.bind_some, pure]

theorem deOram_ser (r : Nat) {p : ORAMParameters} (h : OramFits p) : deOram (r + 2) (serOram p : Json F) = some p := by
  cases p with
  | singleQuery i k =>
    simp only [deOram, serOram, nested, deBody2, field, List.filter_cons, List.filter_nil, decide_true, decide_false, if_true, String.reduceEq,
      Bool.false_eq_true, if_false, deU64_nat h.1, deU64_nat h.2, Option.bind_eq_bind, Option.bind_some, pure, Option.map_some]
  | multiQuery i q k =>
    simp only [deOram, serOram, nested, deBody3, field, List.filter_cons, List.filter_nil, decide_true, decide_false, if_true, String.reduceEq,
      Bool.false_eq_true, if_false, deU64_nat h.1, deU64_nat h.2.1, deU64_nat h.2.2, Option.bind_eq_bind, Option.bind_some, pure, Option.map_some]
  | batched i q k =>
    simp only [deOram, serOram, nested, deBody3, field, List.filter_cons, List.filter_nil, decide_true, decide_false, if_true, String.reduceEq,
      Bool.false_eq_true, if_false, deU64_nat h.1, deU64_nat h.2.1, deU64_nat h.2.2, Option.bind_eq_bind, Option.bind_some, pure, Option.map_some]

theorem mapM_ser {α β : Type} {f : α → β} {g : β → Option α} {l : List α} (h : ∀ x ∈ l, g (f x) = some x) : (l.map f).mapM g = some l := by
  induction l with
  | nil => rfl
  | cons x xs ih =>
    rw [List.map_cons, List.mapM_cons, h x (by simp), ih (fun y hy => h y (by simp [hy]))]
    rfl

/-- C69: a parameter list written to JSON is read back unchanged. -/
theorem C69_params_roundtrip (ofInt : Int → F) {l : InputParamsList F} (h : ∀ p ∈ l, (∀ o ∈ p.1, OramFits o) ∧ ∀ t ∈ p.2, TfheFits t) :
    deParams ofInt limit (serParams l) = some l := by
  unfold deParams limit serParams nested deVec
  refine mapM_ser fun p hp => ?_
  unfold dePair nested deVec
  simp only
  rw [mapM_ser (fun o ho => deOram_ser _ ((h p hp).1 o ho)), mapM_ser (fun t ht => deTfhe_ser ofInt _ ((h p hp).2 t ht))]
  rfl

theorem filter_eq_of_member {l : List (String × Json F)} {k : String} {v : Json F} (h : Member l k v) :
    l.filter (fun kv => kv.1 = k) = [(k, v)] := by
  obtain ⟨l₁, l₂, rfl, hn⟩ := h
  have h1 : ∀ l : List (String × Json F), (∀ w, (k, w) ∉ l) → l.filter (fun kv => decide (kv.1 = k)) = [] := by
    intro l hl
    rw [List.filter_eq_nil_iff]
    rintro ⟨a, b⟩ hm
    simp only [decide_eq_true_eq]
    rintro rfl
    exact hl b hm
  rw [List.filter_append, List.filter_cons, h1 l₁ fun w => (hn w).1, h1 l₂ fun w => (hn w).2]
  simp

theorem member_of_filter {l : List (String × Json F)} {k : String} {kv : String × Json F} (h : l.filter (fun kv => kv.1 = k) = [kv]) :
    Member l k kv.2 := by
  have hm : kv ∈ l ∧ kv.1 = k := by
    have : kv ∈ l.filter (fun kv => decide (kv.1 = k)) := by rw [h]; simp
    rw [List.mem_filter] at this
    exact ⟨this.1, by simpa using this.2⟩
  obtain ⟨l₁, l₂, rfl⟩ := List.append_of_mem hm.1
  refine ⟨l₁, l₂, by rw [← hm.2], fun w => ?_⟩
  rw [List.filter_append, List.filter_cons, if_pos (by simpa using hm.2)] at h
  have hlen := congrArg List.length h
  simp only [List.length_append, List.length_cons, List.length_nil] at hlen
  have e1 : l₁.filter (fun kv => decide (kv.1 = k)) = [] := List.eq_nil_of_length_eq_zero (by omega)
  have e2 : l₂.filter (fun kv => decide (kv.1 = k)) = [] := List.eq_nil_of_length_eq_zero (by omega)
  rw [List.filter_eq_nil_iff] at e1 e2
  exact ⟨fun hw => e1 _ hw (by simp), fun hw => e2 _ hw (by simp)⟩

theorem field_eq_some {α : Type} {k : String} {de : Json F → Option α} {l : List (String × Json F)} {a : α} :
    field k de l = some a ↔ ∃ v, Member l k v ∧ de v = some a := by
  unfold field
  constructor
  · intro h
    split at h
    · rename_i kv he
      exact ⟨kv.2, member_of_filter he, h⟩
    · cases h
  · rintro ⟨v, hv, hd⟩
    rw [filter_eq_of_member hv]
    exact hd

theorem deU64_eq_some {j : Json F} {x : Nat} : deU64 j = some x ↔ j = .int x ∧ x < 2 ^ 64 := by
  constructor
  · intro h
    cases j with
    | int z =>
      simp only [deU64] at h
      split at h
      · rename_i hz
        have h := Option.some.inj h
        exact ⟨by rw [← h, Int.toNat_of_nonneg hz.1], by omega⟩
      · cases h
    | _ => simp [deU64] at h
  · rintro ⟨rfl, h⟩; exact deU64_nat h

theorem deBool_eq_some {j : Json F} {b : Bool} : deBool j = some b ↔ j = .bool b := by
  constructor
  · intro h
    cases j with
    | bool c => cases h; rfl
    | _ => cases h
  · rintro rfl; rfl

/-- C69: exactly which objects are read as which TFHE parameters: each of the ten members occurs exactly once and is a number (boolean)
of the right kind; any other members are ignored, in any order. -/
theorem C69_tfhe_iff (ofInt : Int → F) (r : Nat) (l : List (String × Json F)) (p : TFHEParameters F) :
    deTfhe ofInt (r + 1) (.obj l) = some p ↔ TfheFits p ∧
      (∃ v, Member l "standard_deviation" v ∧ (v = .float p.standardDeviation ∨ ∃ z, v = .int z ∧ ofInt z = p.standardDeviation)) ∧
      Member l "polynomial_size" (.int p.polynomialSize) ∧ Member l "base_log" (.int p.baseLog) ∧
      Member l "level_count" (.int p.levelCount) ∧ Member l "key_switch_base_log" (.int p.keySwitchBaseLog) ∧
      Member l "key_switch_level_count" (.int p.keySwitchLevelCount) ∧ Member l "negs_base_log" (.int p.negsBaseLog) ∧
      Member l "negs_level_count" (.int p.negsLevelCount) ∧ Member l "plaintext_modulus" (.int p.plaintextModulus) ∧
      Member l "secure_seed" (.bool p.secureSeed) := by
  have hf : ∀ (v : Json F) (x : F), deF64 ofInt v = some x ↔ (v = .float x ∨ ∃ z, v = .int z ∧ ofInt z = x) := by
    intro v x
    cases v <;> simp [deF64]
  have hu : ∀ (k : String) (x : Nat), field k deU64 l = some x ↔ Member l k (.int x) ∧ x < 2 ^ 64 := by
    intro k x
    rw [field_eq_some]
    constructor
    · rintro ⟨v, hv, hd⟩
      obtain ⟨rfl, h⟩ := deU64_eq_some.mp hd
      exact ⟨hv, h⟩
    · rintro ⟨hv, h⟩; exact ⟨_, hv, deU64_nat h⟩
  have hb : ∀ (k : String) (x : Bool), field k deBool l = some x ↔ Member l k (.bool x) := by
    intro k x
    rw [field_eq_some]
    constructor
    · rintro ⟨v, hv, hd⟩
      rw [deBool_eq_some] at hd
      subst hd; exact hv
    · intro hv; exact ⟨_, hv, rfl⟩
  unfold deTfhe nested
  simp only [Option.bind_eq_bind, Option.bind_eq_some_iff, pure, hu, hb, field_eq_some, hf]
  obtain ⟨a1, a2, a3, a4, a5, a6, a7, a8, a9, a10⟩ := p
  simp only [Option.some.injEq, TFHEParameters.mk.injEq, TfheFits]
  constructor
  · rintro ⟨_, hsd, _, h1, _, h2, _, h3, _, h4, _, h5, _, h6, _, h7, _, h8, _, h9, rfl, rfl, rfl, rfl, rfl, rfl, rfl, rfl, rfl, rfl⟩
    exact ⟨⟨h1.2, h2.2, h3.2, h4.2, h5.2, h6.2, h7.2, h8.2⟩, hsd, h1.1, h2.1, h3.1, h4.1, h5.1, h6.1, h7.1, h8.1, h9⟩
  · rintro ⟨⟨g1, g2, g3, g4, g5, g6, g7, g8⟩, hsd, h1, h2, h3, h4, h5, h6, h7, h8, h9⟩
    exact ⟨a1, hsd, a2, ⟨h1, g1⟩, a3, ⟨h2, g2⟩, a4, ⟨h3, g3⟩, a5, ⟨h4, g4⟩, a6, ⟨h5, g5⟩, a7, ⟨h6, g6⟩, a8, ⟨h7, g7⟩, a9, ⟨h8, g8⟩, a10, h9,
      rfl, rfl, rfl, rfl, rfl, rfl, rfl, rfl, rfl, rfl⟩

theorem mapM_none {α β : Type} {g : β → Option α} {l : List β} {x : β} (hx : x ∈ l) (h : g x = none) : l.mapM g = none := by
  induction l with
  | nil => cases hx
  | cons y ys ih =>
    rw [List.mapM_cons]
    rcases List.mem_cons.mp hx with rfl | hx
    · rw [h]; rfl
    · cases g y with
      | none => rfl
      | some a => rw [ih hx]; rfl

/-- C69 (finding): a parameter file in which *one* TFHE object lacks one of its ten members (a misspelt name, say) is rejected as a whole
and silently: the program ignores every configuration of the file, and the command line, and runs the built-in default. -/
theorem C69_missing_member (ofInt : Int → F) (m55 : F) (cli : Cli F) {pairs os ts : List (Json F)} {l : List (String × Json F)}
    (h1 : .arr [.arr os, .arr ts] ∈ pairs) (h2 : .obj l ∈ ts) {k : String} (hk : k ∈ tfheKeys) (hno : ∀ v, (k, v) ∉ l) :
    jsonParams ofInt m55 cli (some (some (.arr pairs))) = [fallback m55] := by
  have hd : deParams ofInt limit (.arr pairs) = none := by
    unfold deParams limit nested deVec
    refine mapM_none h1 ?_
    unfold dePair nested deVec
    simp only
    have hl : ∀ r, deTfhe ofInt (r + 1) (.obj l) = none := by
      intro r
      cases hx : deTfhe ofInt (r + 1) (.obj l) with
      | none => rfl
      | some p =>
        exfalso
        have hm := (C69_tfhe_iff ofInt r l p).mp hx
        have hno' : ∀ v, ¬ Member l k v := by
          rintro v ⟨l₁, l₂, rfl, _⟩
          exact hno v (by simp)
        obtain ⟨_, ⟨v, hv, _⟩, a2, a3, a4, a5, a6, a7, a8, a9, a10⟩ := hm
        simp only [tfheKeys, List.mem_cons, List.not_mem_nil, or_false] at hk
        rcases hk with rfl | rfl | rfl | rfl | rfl | rfl | rfl | rfl | rfl | rfl
        · exact hno' _ hv
        · exact hno' _ a2
        · exact hno' _ a3
        · exact hno' _ a4
        · exact hno' _ a5
        · exact hno' _ a6
        · exact hno' _ a7
        · exact hno' _ a8
        · exact hno' _ a9
        · exact hno' _ a10
    rw [mapM_none h2 (hl _)]
    cases os.mapM (deOram _) <;> rfl
  unfold jsonParams
  simp only [Option.bind_some, hd]
  rfl

/-- C69: what the program runs, for every document: the configurations of the list that was read, or the default one. -/
theorem C69_selection (ofInt : Int → F) (m55 : F) (cli : Cli F) (doc : Option (Json F)) :
    jsonParams ofInt m55 cli (some doc) =
      match doc.bind (deParams ofInt limit) with
      | some l => l.flatMap fun p => p.1.flatMap fun o => p.2.map fun t => ⟨o, t⟩
      | none => [fallback m55] := by
  unfold jsonParams
  simp only
  cases doc.bind (deParams ofInt limit) with
  | none => rfl
  | some l =>
    refine (C13_cartesian l).trans (List.flatMap_congr fun p _ => ?_)
    rw [List.product, List.map_flatMap]
    refine List.flatMap_congr fun o _ => ?_
    rw [List.map_map]; rfl

/-! ## Trees -/

/-- Levels of nesting of the JSON text of a tree. -/
def nesting : Tree → Nat
  | .missing => 0
  | .leaf _ => 1
  | .internal _ l r => 2 + max (nesting l) (nesting r)

theorem nesting_depth : ∀ t : Tree, 2 * t.countDepth ≤ nesting t ∧ nesting t ≤ 2 * t.countDepth + 1
  | .missing => by simp [nesting, Tree.countDepth]
  | .leaf _ => by simp [nesting, Tree.countDepth]
  | .internal _ l r => by
    have h1 := nesting_depth l
    have h2 := nesting_depth r
    unfold nesting Tree.countDepth
    split <;> omega

theorem deOpt_ser {r : Nat} {t : Tree} (h : t ≠ .missing → deNode r (serNode t : Json F) = if nesting t ≤ r then some t else none) :
    deOpt (deNode r) (serNode t : Json F) = if nesting t ≤ r then some t else none := by
  cases t with
  | missing => simp [serNode, deOpt, nesting]
  | leaf x => exact h (by simp)
  | internal d a b => exact h (by simp)

theorem deOp_ser (r : Nat) (op : Op) : deOp r (serOp op : Json F) = some op := by cases op <;> simp [serOp, deOp]

theorem deNode_ser : ∀ (t : Tree) (r : Nat), TreeFits t → t ≠ .missing →
    deNode r (serNode t : Json F) = if nesting t ≤ r then some t else none
  | .missing, _, _, h => absurd rfl h
  | .leaf x, r, hfit, _ => by
    have hx := hfit.2 x .here
    match r with
    | 0 => simp [deNode, nesting]
    | 1 => simp [deNode, nesting, serNode, deU64_nat hx]
    | r + 2 => simp [deNode, nesting, serNode, deU64_nat hx]
  | .internal d a b, r, hfit, _ => by
    obtain ⟨h1, h2, h3⟩ := hfit.1 d (.here _ _)
    have fa : TreeFits a := ⟨fun e he => hfit.1 e (.left _ _ _ he), fun x hx => hfit.2 x (.left _ _ _ hx)⟩
    have fb : TreeFits b := ⟨fun e he => hfit.1 e (.right _ _ _ he), fun x hx => hfit.2 x (.right _ _ _ hx)⟩
    match r with
    | 0 => simp [deNode, nesting]
    | 1 =>
      rw [if_neg (by unfold nesting; omega)]
      simp [deNode, serNode]
    | r + 2 =>
      have ha := deOpt_ser fun hm => deNode_ser a r fa hm
      have hb := deOpt_ser fun hm => deNode_ser b r fb hm
      have hop := deOp_ser (F := F) r d.op
      unfold deNode
      simp only [serNode]
      rw [if_neg (by decide), if_pos trivial]
      unfold deInternal
      simp only [field, fieldOpt, List.filter_cons, List.filter_nil, decide_true, decide_false, if_true, String.reduceEq, Bool.false_eq_true,
        if_false, deU64_nat h1, deU64_nat h2, deU64_nat h3, hop, ha, hb, Option.bind_eq_bind, Option.bind_some, pure]
      have hn : nesting (.internal d a b) ≤ r + 2 ↔ nesting a ≤ r ∧ nesting b ≤ r := by
        rw [nesting]; omega
      by_cases hA : nesting a ≤ r
      · by_cases hB : nesting b ≤ r
        · rw [if_pos hA, if_pos hB, if_pos (hn.mpr ⟨hA, hB⟩)]; rfl
        · rw [if_pos hA, if_neg hB, if_neg fun h => hB (hn.mp h).2]; rfl
      · rw [if_neg hA, if_neg fun h => hA (hn.mp h).1]; rfl

/-- C69 (finding): a tree written to JSON is read back unchanged if and only if its depth is at most 63: deeper trees can be written but
not read. -/
theorem C69_tree_roundtrip {t : Tree} (h : TreeFits t) (hm : t ≠ .missing) :
    (t.countDepth ≤ 63 → deNode limit (serNode t : Json F) = some t) ∧
    (63 < t.countDepth → deNode limit (serNode t : Json F) = none) := by
  have hn := nesting_depth t
  rw [deNode_ser t limit h hm]
  unfold limit
  exact ⟨fun hd => if_pos (by omega), fun hd => if_neg (by omega)⟩

/-- C69: reading an internal node does not depend on the order of the members, and members with other names are ignored. -/
theorem C69_tree_members (r : Nat) {l l' : List (String × Json F)}
    (h : (l.filter fun kv => kv.1 ∈ internalKeys).Perm (l'.filter fun kv => kv.1 ∈ internalKeys)) :
    deNode (r + 2) (.obj [("internal", .obj l)]) = deNode (r + 2) (.obj [("internal", .obj l')]) := by
  have hk : ∀ k ∈ internalKeys, (l.filter fun kv => decide (kv.1 = k)).Perm (l'.filter fun kv => decide (kv.1 = k)) := by
    intro k hk
    have hsub : ∀ l : List (String × Json F), (l.filter fun kv => decide (kv.1 ∈ internalKeys)).filter (fun kv => decide (kv.1 = k)) =
        l.filter fun kv => decide (kv.1 = k) := by
      intro l
      rw [List.filter_filter]
      refine List.filter_congr fun kv _ => ?_
      by_cases he : kv.1 = k
      · simp [he, hk]
      · simp [he]
    rw [← hsub l, ← hsub l']
    exact h.filter _
  have hf : ∀ k ∈ internalKeys, ∀ {α : Type} (de : Json F → Option α), field k de l = field k de l' := by
    intro k hm α de
    have hp := hk k hm
    unfold field
    generalize l.filter (fun kv => decide (kv.1 = k)) = a at hp
    generalize l'.filter (fun kv => decide (kv.1 = k)) = b at hp
    have hlen := hp.length_eq
    match a, b with
    | [], [] => rfl
    | [x], [y] => rw [List.singleton_perm_singleton.mp hp]
    | _ :: _ :: _, _ :: _ :: _ => rfl
    | [], _ :: _ => simp at hlen
    | _ :: _, [] => simp at hlen
    | [_], _ :: _ :: _ => simp at hlen
    | _ :: _ :: _, [_] => simp at hlen
  have ho : ∀ k ∈ internalKeys, ∀ {α : Type} (x : α) (de : Json F → Option α), fieldOpt k x de l = fieldOpt k x de l' := by
    intro k hm α x de
    have hp := hk k hm
    unfold fieldOpt
    generalize l.filter (fun kv => decide (kv.1 = k)) = a at hp
    generalize l'.filter (fun kv => decide (kv.1 = k)) = b at hp
    have hlen := hp.length_eq
    match a, b with
    | [], [] => rfl
    | [x], [y] => rw [List.singleton_perm_singleton.mp hp]
    | _ :: _ :: _, _ :: _ :: _ => rfl
    | [], _ :: _ => simp at hlen
    | _ :: _, [] => simp at hlen
    | [_], _ :: _ :: _ => simp at hlen
    | _ :: _ :: _, [_] => simp at hlen
  unfold deNode
  simp only
  rw [if_neg (by decide), if_pos trivial, if_neg (by decide), if_pos trivial]
  unfold deInternal
  simp only
  rw [hf "threshold" (by simp [internalKeys]), hf "feature" (by simp [internalKeys]), hf "index" (by simp [internalKeys]),
    hf "op" (by simp [internalKeys]), ho "left" (by simp [internalKeys]), ho "right" (by simp [internalKeys])]

/-- C69: the members `left` and `right` may be left out: the child is missing.  The others may not. -/
theorem C69_tree_optional (r : Nat) {l : List (String × Json F)} {k : String} (hk : k ∈ internalKeys) (hno : ∀ v, (k, v) ∉ l) :
    deNode (r + 2) (.obj [("internal", .obj l)]) =
      if k = "left" ∨ k = "right" then deNode (r + 2) (.obj [("internal", .obj ((k, .null) :: l))]) else none := by
  have hnil : l.filter (fun kv => decide (kv.1 = k)) = [] := by
    rw [List.filter_eq_nil_iff]
    rintro ⟨a, b⟩ hm
    simp only [decide_eq_true_eq]
    rintro rfl
    exact hno b hm
  have hf : ∀ {α : Type} (de : Json F → Option α), field k de l = none := by
    intro α de; unfold field; rw [hnil]
  have hdn : ∀ l : List (String × Json F), deNode (r + 2) (.obj [("internal", .obj l)]) = deInternal r (deNode r) (.obj l) := by
    intro l
    conv_lhs => unfold deNode
    simp only
    rw [if_neg (by decide), if_pos trivial]
  rw [hdn, hdn]
  simp only [internalKeys, List.mem_cons, List.not_mem_nil, or_false] at hk
  rcases hk with rfl | rfl | rfl | rfl | rfl | rfl
  · rw [if_neg (by decide)]; simp only [deInternal, hf]; rfl
  · rw [if_neg (by decide)]; simp only [deInternal, hf]
    cases field "threshold" deU64 l <;> rfl
  · rw [if_neg (by decide)]; simp only [deInternal, hf]
    cases field "threshold" deU64 l <;> cases field "feature" deU64 l <;> rfl
  · rw [if_neg (by decide)]; simp only [deInternal, hf]
    cases field "threshold" deU64 l <;> cases field "feature" deU64 l <;> cases field "index" deU64 l <;> rfl
  · rw [if_pos (by decide)]
    simp only [deInternal, field, fieldOpt, List.filter_cons, hnil, decide_true, if_true, String.reduceEq, decide_false, Bool.false_eq_true,
      if_false, deOpt]
  · rw [if_pos (by decide)]
    simp only [deInternal, field, fieldOpt, List.filter_cons, hnil, decide_true, if_true, String.reduceEq, decide_false, Bool.false_eq_true,
      if_false, deOpt]

/-- The parameter file of the repository, /repo/params.json (`m55` the literal `-55.0`). -/
def repoParams (m55 : F) : Json F :=
  .arr [.arr [.arr [
      .obj [("SingleQuery", .obj [("item_count", .int 4096), ("iterations", .int 1)])],
      .obj [("MultiQuery", .obj [("item_count", .int 4096), ("query_count", .int 36), ("iterations", .int 1)])],
      .obj [("Batched", .obj [("rows", .int 384), ("cols", .int 32), ("iterations", .int 1)])],
      .obj [("Batched", .obj [("rows", .int 384), ("cols", .int 128), ("iterations", .int 1)])],
      .obj [("Batched", .obj [("rows", .int 384), ("cols", .int 512), ("iterations", .int 1)])],
      .obj [("Batched", .obj [("rows", .int 384), ("cols", .int 2048), ("iterations", .int 1)])],
      .obj [("Batched", .obj [("rows", .int 384), ("cols", .int 4096), ("iterations", .int 1)])]],
    .arr [.obj [("standard_deviation", .float m55), ("polynomial_size", .int 2048), ("base_log", .int 5), ("level_count", .int 9),
      ("key_switch_base_log", .int 5), ("key_switch_level_count", .int 11), ("negs_base_log", .int 5), ("negs_level_count", .int 11),
      ("plaintext_modulus", .int 256), ("secure_seed", .bool true)]]]]

/-- The repository's file is read, and yields seven runs with the default TFHE parameters. -/
example (ofInt : Int → F) (m55 : F) (cli : Cli F) : jsonParams ofInt m55 cli (some (some (repoParams m55))) =
    [.singleQuery 4096 1, .multiQuery 4096 36 1, .batched 384 32 1, .batched 384 128 1, .batched 384 512 1, .batched 384 2048 1,
      .batched 384 4096 1].map fun o => ⟨o, TFHEParameters.default' m55⟩ := rfl

/-- Non-vacuity of `C69_params_roundtrip`: the built-in default list. -/
example (m55 : F) : ∀ p ∈ InputParamsList.default' m55, (∀ o ∈ p.1, OramFits o) ∧ ∀ t ∈ p.2, TfheFits t := by
  intro p hp
  simp only [InputParamsList.default', List.mem_singleton] at hp
  subst hp
  refine ⟨fun o ho => ?_, fun t ht => ?_⟩
  · rw [List.mem_singleton.mp ho]; exact ⟨by decide, by decide, by decide⟩
  · rw [List.mem_singleton.mp ht]; simp [TfheFits, TFHEParameters.default']

/-- Non-vacuity of `C69_tree_members` and `C69_tree_optional`: members in another order, a comment, no `right`. -/
example : deNode limit (.obj [("internal", .obj [("op", .str "leq"), ("comment", .str "x"), ("index", .int 0), ("left", .obj [("leaf", .int 3)]),
      ("threshold", .int 5), ("feature", .int 1)])] : Json F) = some (.internal ⟨5, 1, 0, .leq⟩ (.leaf 3) .missing) := rfl

/-- Non-vacuity of `C69_missing_member`: one configuration, `base_log` misspelt. -/
example (m55 : F) : ∃ (os ts : List (Json F)) (l : List (String × Json F)), .arr [.arr os, .arr ts] ∈ [(.arr [.arr os, .arr ts] : Json F)] ∧
    .obj l ∈ ts ∧ "base_log" ∈ tfheKeys ∧ (∀ v, ("base_log", v) ∉ l) ∧ l.length = 10 := by
  refine ⟨[], [.obj [("standard_deviation", .float m55), ("polynomial_size", .int 2048), ("baselog", .int 5), ("level_count", .int 9),
      ("key_switch_base_log", .int 5), ("key_switch_level_count", .int 11), ("negs_base_log", .int 5), ("negs_level_count", .int 11),
      ("plaintext_modulus", .int 256), ("secure_seed", .bool true)]], _, by simp, by simp; rfl, by simp [tfheKeys], ?_, rfl⟩
  intro v hv
  simp at hv

/-- Non-vacuity of `C69_tree_roundtrip`, both parts: trees of depth 1 and, for every depth, a full tree. -/
example : TreeFits (.internal ⟨1, 0, 0, .leq⟩ (.leaf 2) .missing) ∧ (Tree.newWithDepth 64).countDepth = 64 := by
  refine ⟨⟨?_, ?_⟩, ?_⟩
  · intro d h
    cases h with
    | here => decide
    | left _ _ _ h => cases h
    | right _ _ _ h => cases h
  · intro x h
    cases h with
    | left _ _ _ h => cases h; decide
    | right _ _ _ h => cases h
  · have : ∀ d b, (Tree.genFullTree d b).1.countDepth = d := by
      intro d
      induction d with
      | zero => intro b; cases b <;> rfl
      | succ d ih => intro b; unfold Tree.genFullTree Tree.countDepth; simp only [ih, gt_iff_lt, lt_self_iff_false, if_false]
    exact this 64 false

end Panacea
