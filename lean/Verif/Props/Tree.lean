import Verif.Spec.Tree
import Mathlib.Data.List.Basic
import Mathlib.Tactic.Ring
import Mathlib.Tactic.Linarith

/-! # C34-C38: clear decision trees and encrypted-tree construction -/

namespace Panacea
open _root_.Panacea.Tree Spec

/-! ### evaluation -/

/-- Every node is LEQ and its feature index is in range. -/
def Evaluable (features : List Nat) (t : Tree) : Prop :=
  ∀ d, HasNode d t → d.op = .leq ∧ d.feature < features.length

theorem evaluable_internal {features d l r} :
    Evaluable features (.internal d l r) ↔
      (d.op = .leq ∧ d.feature < features.length) ∧ Evaluable features l ∧ Evaluable features r := by
  constructor
  · intro h
    exact ⟨h d (.here l r), fun d' hd' => h d' (.left d l r hd'), fun d' hd' => h d' (.right d l r hd')⟩
  · rintro ⟨h1, h2, h3⟩ d' hd'
    cases hd' with
    | here => exact h1
    | left _ _ _ h => exact h2 d' h
    | right _ _ _ h => exact h3 d' h

theorem evalNode_zero {features t} (h : Evaluable features t) (out : Nat) : evalNode features t out 0 = some out := by
  induction t generalizing out with
  | missing => rfl
  | leaf x => simp [evalNode]
  | internal d l r ihl ihr =>
    obtain ⟨⟨h1, h2⟩, h3, h4⟩ := evaluable_internal.1 h
    simp only [evalNode, h1, List.getElem?_eq_getElem h2]
    split
    · rw [ihl h3]; simp [ihr h4]
    · simp [ihl h3, ihr h4]

theorem evalNode_path {features t} (h : Evaluable features t) (out : Nat) :
    ∃ y, Path features t y ∧ evalNode features t out 1 = some (out + y) := by
  induction t generalizing out with
  | missing => exact ⟨0, .missing, rfl⟩
  | leaf x => exact ⟨x, .leaf x, by simp [evalNode]⟩
  | internal d l r ihl ihr =>
    obtain ⟨⟨h1, h2⟩, h3, h4⟩ := evaluable_internal.1 h
    simp only [evalNode, h1, List.getElem?_eq_getElem h2]
    split
    · rename_i hv
      obtain ⟨y, hy, he⟩ := ihl h3 out
      refine ⟨y, .goLeft d l r _ y (List.getElem?_eq_getElem h2) hv hy, ?_⟩
      rw [he]
      simp [evalNode_zero h4 (out + y)]
    · rename_i hv
      obtain ⟨y, hy, he⟩ := ihr h4 out
      refine ⟨y, .goRight d l r _ y (List.getElem?_eq_getElem h2) (by omega) hy, ?_⟩
      simp [evalNode_zero h3 out, he]

theorem evalNode_none {features t} (h : ¬ Evaluable features t) (out b : Nat) (hb : b ≤ 1) :
    evalNode features t out b = none := by
  induction t generalizing out b with
  | missing => exact absurd (fun d hd => by cases hd) h
  | leaf x => exact absurd (fun d hd => by cases hd) h
  | internal d l r ihl ihr =>
    simp only [evalNode]
    cases hop : d.op with
    | gt => rfl
    | leq =>
      simp only
      cases hf : features[d.feature]? with
      | none => rfl
      | some v =>
        have hlt : d.feature < features.length := by
          by_contra hc
          rw [List.getElem?_eq_none (by omega)] at hf; cases hf
        rw [evaluable_internal] at h
        have hb' : b * (1 - b) ≤ 1 := by
          have : b = 0 ∨ b = 1 := by omega
          rcases this with rfl | rfl <;> simp
        simp only
        by_cases hl : Evaluable features l
        · have hr : ¬ Evaluable features r := fun hr => h ⟨⟨hop, hlt⟩, hl, hr⟩
          split
          · cases evalNode features l out b with
            | none => rfl
            | some o =>
              cases r with
              | missing => exact absurd (fun d hd => by cases hd) hr
              | leaf x => exact absurd (fun d hd => by cases hd) hr
              | internal d' l' r' => simp only [isMissing, if_pos hb]; exact ihr hr _ _ hb'
          · have : ∀ o : Option Nat, (match o with | none => none | some out' => evalNode features r out' b) = none := by
              intro o; cases o with
              | none => rfl
              | some o => exact ihr hr _ _ hb
            exact this _
        · split
          · rw [ihl hl _ _ hb]
          · cases l with
            | missing => exact absurd (fun d hd => by cases hd) hl
            | leaf x => exact absurd (fun d hd => by cases hd) hl
            | internal d' l' r' =>
              simp only [isMissing, if_pos hb, Bool.false_eq_true, if_false]; rw [ihl hl _ _ hb']

theorem path_unique {features t y y'} (h : Path features t y) (h' : Path features t y') : y = y' := by
  induction h generalizing y' with
  | missing => cases h'; rfl
  | leaf x => cases h'; rfl
  | goLeft d l r v y hv hle _ ih =>
    cases h' with
    | goLeft _ _ _ v' _ hv' _ hp => exact ih hp
    | goRight _ _ _ v' _ hv' hlt hp => rw [hv] at hv'; cases hv'; omega
  | goRight d l r v y hv hlt _ ih =>
    cases h' with
    | goLeft _ _ _ v' _ hv' hle hp => rw [hv] at hv'; cases hv'; omega
    | goRight _ _ _ v' _ hv' _ hp => exact ih hp

/-- C34: `eval` succeeds iff every node of the tree (even off the path) is LEQ with an in-range feature index ... -/
theorem C34_eval_panics (t : Tree) (features : List Nat) :
    t.eval features = none ↔ ∃ d, HasNode d t ∧ (d.op = .gt ∨ features.length ≤ d.feature) := by
  constructor
  · intro h
    by_contra hc
    have hev : Evaluable features t := by
      intro d hd
      constructor
      · cases hop : d.op with
        | leq => rfl
        | gt => exact absurd ⟨d, hd, Or.inl hop⟩ hc
      · by_contra hlt
        exact hc ⟨d, hd, Or.inr (by omega)⟩
    obtain ⟨y, _, he⟩ := evalNode_path hev 0
    unfold Tree.eval at h
    rw [h] at he; cases he
  · rintro ⟨d, hd, hor⟩
    refine evalNode_none ?_ 0 1 (by norm_num)
    intro hev
    obtain ⟨h1, h2⟩ := hev d hd
    rcases hor with h | h
    · rw [h1] at h; cases h
    · omega

/-- C34: ... and then it returns the label at the end of the comparison path (which exists and is unique). -/
theorem C34_eval_path (t : Tree) (features : List Nat) (y : Nat) (h : t.eval features = some y) :
    Path features t y ∧ ∀ y', Path features t y' → y' = y := by
  have hev : Evaluable features t := by
    by_contra hc
    unfold Tree.eval at h
    rw [evalNode_none hc 0 1 (by norm_num)] at h; cases h
  obtain ⟨y0, hp, he⟩ := evalNode_path hev 0
  unfold Tree.eval at h
  rw [he] at h
  simp only [zero_add, Option.some.injEq] at h
  subst h
  exact ⟨hp, fun y' h' => path_unique h' hp⟩

/-- C34: on an all-LEQ tree, a feature vector longer than `max_feature_index()` never panics. -/
theorem C34_max_feature_index (t : Tree) (features : List Nat) (hop : ∀ d, HasNode d t → d.op = .leq)
    (hlen : t.maxFeatureIndex < features.length) : (t.eval features).isSome := by
  rw [Option.isSome_iff_ne_none, Ne, C34_eval_panics]
  rintro ⟨d, hd, h | h⟩
  · rw [hop d hd] at h; cases h
  · have : ∀ t, HasNode d t → d.feature ≤ t.maxFeatureIndex := by
      intro t ht
      induction ht with
      | here l r => simp only [maxFeatureIndex]; omega
      | left d' l r _ ih => simp only [maxFeatureIndex]; omega
      | right d' l r _ ih => simp only [maxFeatureIndex]; omega
    have := this t hd
    omega

/-- C34: `max_feature_index()` is attained by some node (or 0 on a leaf). -/
theorem C34_max_feature_index_attained (t : Tree) :
    (∃ d, HasNode d t ∧ d.feature = t.maxFeatureIndex) ∨ t.maxFeatureIndex = 0 := by
  induction t with
  | missing => right; rfl
  | leaf x => right; rfl
  | internal d l r ihl ihr =>
    left
    simp only [maxFeatureIndex]
    rcases le_total (max d.feature l.maxFeatureIndex) r.maxFeatureIndex with h | h
    · rw [max_eq_right h]
      rcases ihr with ⟨d', hd', he⟩ | h0
      · exact ⟨d', .right d l r hd', he⟩
      · exact ⟨d, .here l r, by omega⟩
    · rw [max_eq_left h]
      rcases le_total d.feature l.maxFeatureIndex with h' | h'
      · rw [max_eq_right h']
        rcases ihl with ⟨d', hd', he⟩ | h0
        · exact ⟨d', .left d l r hd', he⟩
        · exact ⟨d, .here l r, by omega⟩
      · exact ⟨d, .here l r, by rw [max_eq_left h']⟩

example : (Tree.internal ⟨5, 0, 0, .leq⟩ (.internal ⟨3, 1, 0, .leq⟩ (.leaf 7) .missing) (.leaf 9)).eval [4, 2] = some 7 ∧
    (Tree.internal ⟨5, 0, 0, .leq⟩ (.internal ⟨3, 1, 0, .leq⟩ (.leaf 7) .missing) (.leaf 9)).eval [4, 8] = some 0 ∧
    (Tree.internal ⟨5, 0, 0, .leq⟩ (.internal ⟨3, 1, 0, .gt⟩ (.leaf 7) .missing) (.leaf 9)).eval [9, 2] = none := by
  decide

/-! ### fix_index and flatten -/

/-- C35 (flatten): it lists exactly the internal nodes, `count_internal()` of them. -/
theorem C35_flatten (t : Tree) :
    t.flatten.length = t.countInternal ∧ ∀ d, d ∈ t.flatten ↔ HasNode d t := by
  induction t with
  | missing => exact ⟨rfl, fun d => ⟨fun h => by simp [flatten] at h, fun h => by cases h⟩⟩
  | leaf x => exact ⟨rfl, fun d => ⟨fun h => by simp [flatten] at h, fun h => by cases h⟩⟩
  | internal d l r ihl ihr =>
    refine ⟨by simp only [flatten, countInternal, List.length_cons, List.length_append, ihl.1, ihr.1]; omega, fun d' => ?_⟩
    simp only [flatten, List.mem_cons, List.mem_append, ihl.2, ihr.2]
    constructor
    · rintro (rfl | h | h)
      · exact .here l r
      · exact .left _ l r h
      · exact .right _ l r h
    · intro h
      cases h with
      | here => exact Or.inl rfl
      | left _ _ _ h => exact Or.inr (Or.inl h)
      | right _ _ _ h => exact Or.inr (Or.inr h)

theorem fixIndexFrom_spec (t : Tree) (i : Nat) :
    SameButIndex t (t.fixIndexFrom i).1 ∧
    (t.fixIndexFrom i).1.flatten.map NodeData.index = List.range' i t.countInternal ∧
    (0 < t.countInternal → (t.fixIndexFrom i).2 + 1 = i + t.countInternal) ∧
    ((∀ d l r, t ≠ .internal d l r) → (t.fixIndexFrom i) = (t, i)) := by
  induction t generalizing i with
  | missing => exact ⟨.missing, rfl, by simp [countInternal], fun _ => rfl⟩
  | leaf x => exact ⟨.leaf x, rfl, by simp [countInternal], fun _ => rfl⟩
  | internal d l r ihl ihr =>
    have hl : ∃ pl : Tree × Nat, (if l.isInternal then fixIndexFrom l (i + 1) else (l, i)) = pl ∧ SameButIndex l pl.1 ∧
        pl.1.flatten.map NodeData.index = List.range' (i + 1) l.countInternal ∧ pl.2 = i + l.countInternal := by
      cases l with
      | missing => exact ⟨_, rfl, .missing, rfl, rfl⟩
      | leaf x => exact ⟨_, rfl, .leaf x, rfl, rfl⟩
      | internal d' l' r' =>
        obtain ⟨a, b, c, _⟩ := ihl (i + 1)
        exact ⟨_, rfl, a, b, by have := c (by simp only [countInternal]; omega); show (Tree.fixIndexFrom _ _).2 = _; omega⟩
    obtain ⟨pl, hpl, hl1, hl2, hl3⟩ := hl
    have hr : ∃ pr : Tree × Nat, (if r.isInternal then fixIndexFrom r (pl.2 + 1) else (r, pl.2)) = pr ∧ SameButIndex r pr.1 ∧
        pr.1.flatten.map NodeData.index = List.range' (pl.2 + 1) r.countInternal ∧ pr.2 = pl.2 + r.countInternal := by
      cases r with
      | missing => exact ⟨_, rfl, .missing, rfl, rfl⟩
      | leaf x => exact ⟨_, rfl, .leaf x, rfl, rfl⟩
      | internal d' l' r' =>
        obtain ⟨a, b, c, _⟩ := ihr (pl.2 + 1)
        exact ⟨_, rfl, a, b, by have := c (by simp only [countInternal]; omega); show (Tree.fixIndexFrom _ _).2 = _; omega⟩
    obtain ⟨pr, hpr, hr1, hr2, hr3⟩ := hr
    have hunf : fixIndexFrom (.internal d l r) i = (.internal { d with index := i } pl.1 pr.1, pr.2) := by
      rw [fixIndexFrom]
      simp only [hpl, hpr]
    rw [hunf]
    refine ⟨.internal _ _ _ _ _ _ rfl rfl rfl hl1 hr1, ?_, ?_, ?_⟩
    · simp only [flatten, List.map_cons, List.map_append, hl2, hr2, countInternal]
      have h1 : 1 + l.countInternal + r.countInternal = (l.countInternal + r.countInternal) + 1 := by omega
      rw [h1, List.range'_succ, ← List.range'_append_1, hl3]
      congr 3
      omega
    · intro _; simp only [countInternal]; omega
    · intro h; exact absurd rfl (h d l r)

/-- C35: `fix_index` panics exactly on a leaf; otherwise it changes nothing but indices, the i-th node of `flatten()`
gets index `i`, and it returns the last index `count_internal() - 1`. -/
theorem C35_fix_index (t : Tree) :
    (t.fixIndex = none ↔ ∀ d l r, t ≠ .internal d l r) ∧
    ∀ t' k, t.fixIndex = some (t', k) →
      SameButIndex t t' ∧ t'.flatten.map NodeData.index = List.range t.countInternal ∧ k + 1 = t.countInternal := by
  cases t with
  | missing => exact ⟨by simp [fixIndex], by simp [fixIndex]⟩
  | leaf x => exact ⟨by simp [fixIndex], by simp [fixIndex]⟩
  | internal d l r =>
    refine ⟨by simp [fixIndex], ?_⟩
    intro t' k h
    simp only [fixIndex, Option.some.injEq] at h
    obtain ⟨a, b, c, _⟩ := fixIndexFrom_spec (.internal d l r) 0
    rw [h] at a b c
    refine ⟨a, by rw [b, List.range_eq_range'], ?_⟩
    have := c (by simp only [countInternal]; omega)
    simpa using this

/-- C35: hence evaluation does not depend on the indices, before or after `fix_index`. -/
theorem C35_eval_same (t t' : Tree) (k : Nat) (features : List Nat) (h : t.fixIndex = some (t', k)) :
    t'.eval features = t.eval features := by
  have key : ∀ t t' : Tree, SameButIndex t t' → ∀ out b, evalNode features t' out b = evalNode features t out b := by
    intro t t' hs
    induction hs with
    | missing => intros; rfl
    | leaf x => intros; rfl
    | internal d d' l l' r r' h1 h2 h3 hl hr ihl ihr =>
      intro out b
      simp only [evalNode, ← h1, ← h2, ← h3, ihl]
      have hm : ∀ {x y : Tree}, SameButIndex x y → y.isMissing = x.isMissing := by
        intro x y h; cases h <;> rfl
      simp only [hm hl, hm hr, ihr]
  exact key t t' ((C35_fix_index t).2 t' k h).1 0 1

example : ((Tree.newWithDepth 3).fixIndex.map (fun p => (p.1.flatten.map NodeData.index, p.2)))
    = some ([0, 1, 2, 3, 4, 5, 6], 6) := by decide

/-! ### sizes -/

/-- C36: without missing children there is one more leaf than internal nodes; always at most `2^depth` leaves. -/
theorem C36_counts (t : Tree) :
    (Full t → t.countLeaf = t.countInternal + 1) ∧ t.countLeaf ≤ 2 ^ t.countDepth ∧ t.countLeaf = (leafLabels t).length := by
  refine ⟨?_, ?_, ?_⟩
  · intro h
    induction h with
    | leaf x => rfl
    | internal d l r _ _ ihl ihr => simp only [countLeaf, countInternal]; omega
  · induction t with
    | missing => simp [countLeaf]
    | leaf x => simp [countLeaf, countDepth]
    | internal d l r ihl ihr =>
      simp only [countLeaf, countDepth]
      split
      · have : 2 ^ r.countDepth ≤ 2 ^ l.countDepth := Nat.pow_le_pow_right (by norm_num) (by omega)
        rw [pow_succ]; omega
      · have : 2 ^ l.countDepth ≤ 2 ^ r.countDepth := Nat.pow_le_pow_right (by norm_num) (by omega)
        rw [pow_succ]; omega
  · induction t with
    | missing => rfl
    | leaf x => rfl
    | internal d l r ihl ihr => simp only [countLeaf, leafLabels, List.length_append, ihl, ihr]

theorem genFullTree_spec (d : Nat) (b : Bool) :
    Full (genFullTree d b).1 ∧ (genFullTree d b).1.countDepth = d ∧ (genFullTree d b).1.countLeaf = 2 ^ d ∧
    (genFullTree d b).2 = true ∧
    leafLabels (genFullTree d b).1 = (if b then [0] else [1]) ++ List.replicate (2 ^ d - 1) 0 := by
  induction d generalizing b with
  | zero =>
    cases b <;> refine ⟨.leaf _, rfl, rfl, rfl, rfl⟩
  | succ d ih =>
    obtain ⟨a1, a2, a3, a4, a5⟩ := ih b
    obtain ⟨b1, b2, b3, b4, b5⟩ := ih (genFullTree d b).2
    simp only [genFullTree]
    refine ⟨.internal _ _ _ a1 b1, by simp [countDepth, a2, b2], by simp [countLeaf, a3, b3, pow_succ]; omega, b4, ?_⟩
    simp only [leafLabels, a5]
    rw [b5, a4]
    have hp : 0 < 2 ^ d := by positivity
    simp only [if_true, List.append_assoc]
    congr 1
    rw [show ([0] : List Nat) = List.replicate 1 0 from rfl, ← List.replicate_add, ← List.replicate_add]
    congr 1
    rw [pow_succ]; omega

/-- C36: `new_with_depth(d)` is the full tree of depth `d` whose leftmost leaf is labelled 1 and all others 0. -/
theorem C36_new_with_depth (d : Nat) :
    Full (newWithDepth d) ∧ (newWithDepth d).countDepth = d ∧ (newWithDepth d).countLeaf = 2 ^ d ∧
    (newWithDepth d).countInternal = 2 ^ d - 1 ∧
    leafLabels (newWithDepth d) = 1 :: List.replicate (2 ^ d - 1) 0 := by
  obtain ⟨a, b, c, _, e⟩ := genFullTree_spec d false
  refine ⟨a, b, c, ?_, by simpa [newWithDepth] using e⟩
  have := (C36_counts (newWithDepth d)).1 a
  have hc : (newWithDepth d).countLeaf = 2 ^ d := c
  omega

/-! ### pruning -/

theorem trunc_path {features t y} (h : Path features t y) : Path features t.trunc y := by
  induction h with
  | missing => exact .missing
  | leaf x =>
    simp only [trunc]
    split
    · subst_vars; exact .missing
    · exact .leaf x
  | goLeft d l r v y hv hle _ ih =>
    simp only [trunc]
    split
    · rename_i h1 h2
      rw [h1] at ih; cases ih; exact .missing
    · exact .goLeft d _ _ v y hv hle ih
  | goRight d l r v y hv hlt _ ih =>
    simp only [trunc]
    split
    · rename_i h1 h2
      rw [h2] at ih; cases ih; exact .missing
    · exact .goRight d _ _ v y hv hlt ih

theorem trunc_hasNode {d : NodeData} {t : Tree} (h : HasNode d t.trunc) : HasNode d t := by
  induction t with
  | missing => exact h
  | leaf x => simp only [trunc] at h; split at h <;> cases h
  | internal d' l r ihl ihr =>
    simp only [trunc] at h
    split at h
    · cases h
    · cases h with
      | here => exact .here l r
      | left _ _ _ h => exact .left _ l r (ihl h)
      | right _ _ _ h => exact .right _ l r (ihr h)

/-- C37: if `eval` succeeds on a tree it succeeds with the same result on the pruned one; if everything was pruned the result
was 0. -/
theorem C37_trunc_eval (t : Tree) (features : List Nat) (y : Nat) (h : t.eval features = some y) :
    t.trunc.eval features = some y ∧ (t.trunc = .missing → y = 0) := by
  have hp := (C34_eval_path t features y h).1
  have hp' := trunc_path hp
  have hsome : t.trunc.eval features ≠ none := by
    rw [Ne, C34_eval_panics]
    rintro ⟨d, hd, hor⟩
    have : t.eval features = none := (C34_eval_panics t features).2 ⟨d, trunc_hasNode hd, hor⟩
    rw [h] at this; cases this
  obtain ⟨y', hy'⟩ := Option.ne_none_iff_exists'.1 hsome
  have := (C34_eval_path _ features y' hy').2 y hp'
  refine ⟨by rw [hy', this], fun hm => ?_⟩
  rw [hm] at hp'; cases hp'; rfl

/-- C37: the pruned tree has no zero leaf and no childless internal node. -/
theorem C37_trunc_no_zero (t : Tree) :
    ¬ HasLeaf 0 t.trunc ∧
    ∀ d l r, t.trunc = .internal d l r → ¬ (l = .missing ∧ r = .missing) := by
  constructor
  · induction t with
    | missing => intro h; cases h
    | leaf x =>
      simp only [trunc]
      split
      · intro h; cases h
      · rename_i hx; intro h; cases h; exact hx rfl
    | internal d l r ihl ihr =>
      simp only [trunc]
      split
      · intro h; cases h
      · intro h
        cases h with
        | left _ _ _ h => exact ihl h
        | right _ _ _ h => exact ihr h
  · intro d l r h
    cases t with
    | missing => cases h
    | leaf x => simp only [trunc] at h; split at h <;> cases h
    | internal d' l' r' =>
      simp only [trunc] at h
      split at h
      · cases h
      · rename_i hne
        cases h
        rintro ⟨h1, h2⟩
        exact hne h1 h2

/-- C37: pruning is idempotent. -/
theorem C37_trunc_idem (t : Tree) : t.trunc.trunc = t.trunc := by
  induction t with
  | missing => rfl
  | leaf x =>
    simp only [trunc]
    split
    · rfl
    · rename_i hx; simp [trunc, hx]
  | internal d l r ihl ihr =>
    simp only [trunc]
    split
    · rfl
    · rename_i hne
      simp only [trunc, ihl, ihr]

/-- C37: every non-zero leaf survives (nothing else is lost). -/
theorem C37_trunc_keeps (t : Tree) : leafLabels t.trunc = (leafLabels t).filter (· ≠ 0) := by
  induction t with
  | missing => rfl
  | leaf x => simp only [trunc]; split <;> simp_all [leafLabels]
  | internal d l r ihl ihr =>
    simp only [trunc, leafLabels, List.filter_append, ← ihl, ← ihr]
    split
    · rename_i h1 h2; rw [h1, h2]; rfl
    · rfl

example : (Tree.newWithDepth 2).trunc = .internal ⟨0, 0, 0, .leq⟩ (.internal ⟨0, 0, 0, .leq⟩ (.leaf 1) .missing) .missing := by
  decide

/-! ### encrypted-tree construction -/

/-- The encrypted tree mirrors the clear one (missing children as label-0 leaves). -/
inductive Mirrors {C : Type} : Tree → EncTree C → Prop
  | missing : Mirrors .missing (.leaf 0)
  | leaf (x) : Mirrors (.leaf x) (.leaf x)
  | internal (d ct l r l' r') : Mirrors l l' → Mirrors r r' → Mirrors (.internal d l r) (.internal ct l' r')

/-- Ciphertexts of an encrypted tree in pre-order. -/
def encFlatten {C : Type} : EncTree C → List C
  | .leaf _ => []
  | .internal ct l r => ct :: (encFlatten l ++ encFlatten r)

theorem build_spec {C : Type} (t : Tree) (cts : List C) :
    (EncTree.build t cts = none ↔ cts.length < t.countInternal) ∧
    ∀ e rest, EncTree.build t cts = some (e, rest) →
      Mirrors t e ∧ cts = encFlatten e ++ rest ∧ (encFlatten e).length = t.countInternal := by
  induction t generalizing cts with
  | missing =>
    refine ⟨by simp [EncTree.build, countInternal], ?_⟩
    intro e rest h
    simp only [EncTree.build, Option.some.injEq, Prod.mk.injEq] at h
    obtain ⟨rfl, rfl⟩ := h
    exact ⟨.missing, rfl, rfl⟩
  | leaf x =>
    refine ⟨by simp [EncTree.build, countInternal], ?_⟩
    intro e rest h
    simp only [EncTree.build, Option.some.injEq, Prod.mk.injEq] at h
    obtain ⟨rfl, rfl⟩ := h
    exact ⟨.leaf x, rfl, rfl⟩
  | internal d l r ihl ihr =>
    cases cts with
    | nil =>
      refine ⟨by simp [EncTree.build, countInternal], ?_⟩
      intro e rest h; simp [EncTree.build] at h
    | cons ct cts =>
      obtain ⟨l1, l2⟩ := ihl cts
      cases hl : EncTree.build l cts with
      | none =>
        have := l1.1 hl
        refine ⟨by simp only [EncTree.build, hl, countInternal, List.length_cons, true_iff]; omega, ?_⟩
        intro e rest h; simp [EncTree.build, hl] at h
      | some p =>
        obtain ⟨l', cts'⟩ := p
        obtain ⟨m1, m2, m3⟩ := l2 l' cts' hl
        obtain ⟨r1, r2⟩ := ihr cts'
        have hlen : cts.length = l.countInternal + cts'.length := by
          rw [← m3]; conv_lhs => rw [m2]
          simp
        cases hr : EncTree.build r cts' with
        | none =>
          have := r1.1 hr
          refine ⟨by simp only [EncTree.build, hl, hr, countInternal, List.length_cons, true_iff]; omega, ?_⟩
          intro e rest h; simp [EncTree.build, hl, hr] at h
        | some q =>
          obtain ⟨r', cts''⟩ := q
          obtain ⟨n1, n2, n3⟩ := r2 r' cts'' hr
          have hnn : ¬ cts'.length < r.countInternal := by
            intro hc; have := r1.2 hc; rw [hr] at this; cases this
          refine ⟨by simp only [EncTree.build, hl, hr, countInternal, List.length_cons, reduceCtorEq, false_iff]; omega, ?_⟩
          intro e rest h
          simp only [EncTree.build, hl, hr, Option.some.injEq, Prod.mk.injEq] at h
          obtain ⟨rfl, rfl⟩ := h
          refine ⟨.internal _ _ _ _ _ _ m1 n1, ?_, ?_⟩
          · simp only [encFlatten, List.cons_append, List.append_assoc]
            rw [← n2, ← m2]
          · simp only [encFlatten, List.length_cons, List.length_append, m3, n3, countInternal]; omega

/-- C38 (rejection): `EncNode::new` panics iff the root is a leaf or there are fewer ciphertexts than internal nodes. -/
theorem C38_new_panics {C : Type} (t : Tree) (cts : List C) :
    EncTree.new t cts = none ↔ (∀ d l r, t ≠ .internal d l r) ∨ cts.length < t.countInternal := by
  cases t with
  | missing => cases cts <;> simp [EncTree.new]
  | leaf x => cases cts <;> simp [EncTree.new]
  | internal d l r =>
    cases cts with
    | nil => simp [EncTree.new, countInternal]
    | cons ct cts =>
      simp only [EncTree.new]
      rw [(build_spec (.internal d l r) (ct :: cts)).1]
      simp

/-- C38: otherwise the encrypted tree mirrors the clear tree, its nodes in `flatten` (pre-)order carry exactly the first
`count_internal()` ciphertexts in order, and the rest of the stream is untouched. -/
theorem C38_new_consumes {C : Type} (t : Tree) (cts rest : List C) (e : EncTree C)
    (h : EncTree.new t cts = some (e, rest)) :
    Mirrors t e ∧ encFlatten e = cts.take t.countInternal ∧ rest = cts.drop t.countInternal := by
  have hb : EncTree.build t cts = some (e, rest) := by
    cases t <;> cases cts <;> simp_all [EncTree.new]
  obtain ⟨h1, h2, h3⟩ := (build_spec t cts).2 e rest hb
  refine ⟨h1, ?_, ?_⟩
  · conv_rhs => rw [h2]
    rw [← h3, List.take_left]
  · conv_rhs => rw [h2]
    rw [← h3, List.drop_left]

/-- C38: `max_leaf()` is the largest leaf label. -/
theorem C38_max_leaf {C : Type} (t : Tree) (e : EncTree C) (h : Mirrors t e) :
    (∀ x, HasLeaf x t → x ≤ e.maxLeaf) ∧ (e.maxLeaf = 0 ∨ HasLeaf e.maxLeaf t) := by
  induction h with
  | missing => exact ⟨fun x hx => (by cases hx), Or.inl rfl⟩
  | leaf x => exact ⟨fun y hy => (by cases hy; exact le_refl _), Or.inr .here⟩
  | internal d ct l r l' r' _ _ ihl ihr =>
    simp only [EncTree.maxLeaf]
    constructor
    · intro x hx
      cases hx with
      | left _ _ _ h => exact le_max_of_le_left (ihl.1 x h)
      | right _ _ _ h => exact le_max_of_le_right (ihr.1 x h)
    · rcases le_total l'.maxLeaf r'.maxLeaf with h | h
      · rw [max_eq_right h]
        rcases ihr.2 with h0 | h0
        · exact Or.inl h0
        · exact Or.inr (.right _ _ _ h0)
      · rw [max_eq_left h]
        rcases ihl.2 with h0 | h0
        · exact Or.inl h0
        · exact Or.inr (.left _ _ _ h0)

example : EncTree.new (.internal ⟨5, 0, 0, .leq⟩ (.internal ⟨3, 1, 0, .leq⟩ (.leaf 7) .missing) (.leaf 9)) [10, 11, 12]
    = some (.internal 10 (.internal 11 (.leaf 7) (.leaf 0)) (.leaf 9), [12]) := by decide

end Panacea
