import Verif.Model.Machine
import Verif.Model.Utils
import Verif.Lemmas.Codec
import Verif.Spec.Tree
import Mathlib.Tactic.Ring
import Mathlib.Tactic.Linarith
import Mathlib.Data.Nat.Bitwise

/-! # Lemmas on machine arithmetic -/

namespace Panacea

namespace Build

theorem add_ok (b : Build) {x y : Usize} (h : x.toNat + y.toNat < 2 ^ 64) : b.add x y = some (x + y) := by
  cases b
  · exact if_pos h
  · rfl

theorem sub_ok (b : Build) {x y : Usize} (h : y.toNat ≤ x.toNat) : b.sub x y = some (x - y) := by
  cases b
  · exact if_pos h
  · rfl

theorem mul_ok (b : Build) {x y : Usize} (h : x.toNat * y.toNat < 2 ^ 64) : b.mul x y = some (x * y) := by
  cases b
  · exact if_pos h
  · rfl

theorem shl_ok (b : Build) {x k : Usize} (h : k.toNat < 64) : b.shl x k = some (x <<< k.toNat) := by
  cases b
  · exact if_pos h
  · simp only [shl, Nat.mod_eq_of_lt h]

end Build

theorem ofNat_toNat_lt {x : Nat} (h : x < 2 ^ 64) : (BitVec.ofNat 64 x).toNat = x := by
  rw [BitVec.toNat_ofNat, Nat.mod_eq_of_lt h]

/-! ## Trees -/

namespace Tree

theorem evalNode_zero (fs : List Nat) : ∀ (t : Tree) (out o : Nat), t.evalNode fs out 0 = some o → o = out
  | missing, out, o, h => by simpa [evalNode] using h.symm
  | leaf x, out, o, h => by simpa [evalNode] using h.symm
  | internal d l r, out, o, h => by
    unfold evalNode at h
    revert h
    cases d.op with
    | gt => intro h; cases h
    | leq =>
      cases fs[d.feature]? with
      | none => intro h; cases h
      | some v =>
        simp only
        split
        · cases hl : evalNode fs l out 0 with
          | none => intro h; cases h
          | some o1 =>
            have := evalNode_zero fs l out o1 hl
            simp only
            split
            · intro h; cases h; exact this
            · intro h; rw [if_pos (by decide)] at h; rw [evalNode_zero fs r o1 o h, this]
        · split
          · intro h; cases h
          · rename_i o1 he
            intro h
            have h1 : o1 = out := by
              revert he; split
              · intro he; cases he; rfl
              · rw [if_pos (by decide)]; intro he; exact evalNode_zero fs l out o1 he
            rw [evalNode_zero fs r o1 o h, h1]

theorem evalNodeW_zero (b : Build) (fs : List Usize) : ∀ (t : Tree) (out : Usize),
    (∀ nd, Spec.HasNode nd t → nd.threshold < 2 ^ 64) →
    t.evalNodeW b fs out 0 = (t.evalNode (fs.map BitVec.toNat) out.toNat 0).map fun _ => out
  | missing, out, _ => rfl
  | leaf x, out, _ => by
    unfold evalNodeW evalNode
    rw [Build.mul_ok b (by simp)]
    simp only [Option.bind_eq_bind, Option.bind_some, Option.map_some]
    rw [mul_zero, Build.add_ok b (by simpa using out.isLt), add_zero]
  | internal d l r, out, hth => by
    have hl := fun o => evalNodeW_zero b fs l o (fun nd h => hth nd (.left _ _ _ h))
    have hr := fun o => evalNodeW_zero b fs r o (fun nd h => hth nd (.right _ _ _ h))
    have hd := hth d (.here _ _)
    unfold evalNodeW evalNode
    cases d.op with
    | gt => rfl
    | leq =>
      simp only [List.getElem?_map]
      cases fs[d.feature]? with
      | none => rfl
      | some v =>
        have hle : (v ≤ BitVec.ofNat 64 d.threshold) = (v.toNat ≤ d.threshold) := by
          rw [BitVec.le_def, ofNat_toNat_lt hd]
        have hs : b.sub 1 0 = some 1 := by rw [Build.sub_ok b (by simp)]; rfl
        have hm : b.mul 0 1 = some 0 := by rw [Build.mul_ok b (by decide)]; rfl
        simp only [Option.bind_eq_bind, Option.bind_some, Option.map_some, hle, hs, hm]
        by_cases hv : v.toNat ≤ d.threshold
        · rw [if_pos hv, if_pos hv, hl]
          cases he : evalNode (fs.map BitVec.toNat) l out.toNat 0 with
          | none => rfl
          | some o1 =>
            have h1 := evalNode_zero _ l _ o1 he
            subst h1
            simp only [Option.map_some, Option.bind_some]
            by_cases hm : r.isMissing
            · rw [if_pos hm, if_pos hm]; rfl
            · rw [if_neg hm, if_neg hm, if_pos (by decide), hr]
        · rw [if_neg hv, if_neg hv]
          by_cases hm : l.isMissing
          · rw [if_pos hm, if_pos hm]
            simp only [pure, Option.bind_some]
            rw [hr]
          · rw [if_neg hm, if_neg hm, if_pos (by decide), hl]
            cases he : evalNode (fs.map BitVec.toNat) l out.toNat (0 * (1 - 0)) with
            | none => rfl
            | some o1 =>
              have h1 := evalNode_zero _ l _ o1 he
              subst h1
              simp only [Option.map_some, Option.bind_some]
              rw [hr]

theorem evalNodeW_one (b : Build) (fs : List Usize) : ∀ (t : Tree),
    (∀ nd, Spec.HasNode nd t → nd.threshold < 2 ^ 64) → (∀ x, Spec.HasLeaf x t → x < 2 ^ 64) →
    t.evalNodeW b fs 0 1 = (t.evalNode (fs.map BitVec.toNat) 0 1).map (BitVec.ofNat 64) ∧
    ∀ y, t.evalNode (fs.map BitVec.toNat) 0 1 = some y → y < 2 ^ 64
  | missing, _, _ => ⟨rfl, by intro y h; cases h; decide⟩
  | leaf x, _, hx => by
    have hx := hx x .here
    constructor
    · unfold evalNodeW evalNode
      rw [Build.mul_ok b (by rw [ofNat_toNat_lt hx]; simpa using hx)]
      simp only [Option.bind_eq_bind, Option.bind_some, Option.map_some]
      rw [mul_one, Build.add_ok b (by rw [ofNat_toNat_lt hx]; simpa using hx), zero_add, Nat.zero_add, Nat.mul_one]
    · intro y h; unfold evalNode at h; cases h; omega
  | internal d l r, hth, hx => by
    have hl := evalNodeW_one b fs l (fun nd h => hth nd (.left _ _ _ h)) (fun x h => hx x (.left _ _ _ h))
    have hr := evalNodeW_one b fs r (fun nd h => hth nd (.right _ _ _ h)) (fun x h => hx x (.right _ _ _ h))
    have hl0 := fun o => evalNodeW_zero b fs l o (fun nd h => hth nd (.left _ _ _ h))
    have hr0 := fun o => evalNodeW_zero b fs r o (fun nd h => hth nd (.right _ _ _ h))
    have hd := hth d (.here _ _)
    unfold evalNodeW evalNode
    cases d.op with
    | gt => exact ⟨rfl, by intro y h; cases h⟩
    | leq =>
      simp only [List.getElem?_map]
      cases fs[d.feature]? with
      | none => exact ⟨rfl, by intro y h; cases h⟩
      | some v =>
        have hle : (v ≤ BitVec.ofNat 64 d.threshold) = (v.toNat ≤ d.threshold) := by
          rw [BitVec.le_def, ofNat_toNat_lt hd]
        have hs : b.sub 1 1 = some 0 := by rw [Build.sub_ok b (by simp)]; rfl
        have hm : b.mul 1 0 = some 0 := by rw [Build.mul_ok b (by decide)]; rfl
        simp only [Option.bind_eq_bind, Option.bind_some, Option.map_some, hle, hs, hm]
        by_cases hv : v.toNat ≤ d.threshold
        · simp only [if_pos hv]
          rw [hl.1]
          cases he : evalNode (fs.map BitVec.toNat) l 0 1 with
          | none => exact ⟨rfl, by intro y h; cases h⟩
          | some o1 =>
            have ho := hl.2 o1 he
            simp only [Option.map_some, Option.bind_some]
            by_cases hm : r.isMissing
            · simp only [if_pos hm]; exact ⟨rfl, by intro y h; cases h; exact ho⟩
            · simp only [if_neg hm, if_pos (show (1 : Nat) ≤ 1 from le_refl _)]
              rw [hr0, ofNat_toNat_lt ho]
              cases he2 : evalNode (fs.map BitVec.toNat) r o1 (1 * (1 - 1)) with
              | none => exact ⟨by simp only [he2, Option.map_none], by intro y h; cases h⟩
              | some o2 =>
                have := evalNode_zero _ r _ o2 he2
                subst this
                exact ⟨by simp only [he2, Option.map_some], by intro y h; cases h; exact ho⟩
        · simp only [if_neg hv]
          by_cases hm : l.isMissing
          · simp only [if_pos hm, pure, Option.bind_some]
            exact hr
          · simp only [if_neg hm, if_pos (show (1 : Nat) ≤ 1 from le_refl _)]
            rw [hl0]
            cases he : evalNode (fs.map BitVec.toNat) l 0 (1 * (1 - 1)) with
            | none => exact ⟨by simp [he], by intro y h; cases h⟩
            | some o1 =>
              have h1 := evalNode_zero _ l _ o1 he
              subst h1
              have he' : evalNode (fs.map BitVec.toNat) l (BitVec.toNat (0 : Usize)) 0 = some 0 := he
              rw [he']
              simp only [Option.map_some, Option.bind_some]
              exact hr

theorem countLeafW_eq (b : Build) : ∀ t : Tree, t.countLeaf < 2 ^ 64 → t.countLeafW b = some (BitVec.ofNat 64 t.countLeaf)
  | missing, _ => rfl
  | leaf _, _ => rfl
  | internal _ l r, h => by
    unfold countLeaf at h
    unfold countLeafW countLeaf
    rw [countLeafW_eq b l (by omega), countLeafW_eq b r (by omega)]
    simp only [Option.bind_eq_bind, Option.bind_some]
    rw [Build.add_ok b (by rw [ofNat_toNat_lt (by omega), ofNat_toNat_lt (by omega)]; exact h), BitVec.ofNat_add]

theorem countInternalW_eq (b : Build) : ∀ t : Tree, t.countInternal < 2 ^ 64 → t.countInternalW b = some (BitVec.ofNat 64 t.countInternal)
  | missing, _ => rfl
  | leaf _, _ => rfl
  | internal _ l r, h => by
    unfold countInternal at h
    unfold countInternalW countInternal
    rw [countInternalW_eq b l (by omega), countInternalW_eq b r (by omega)]
    simp only [Option.bind_eq_bind, Option.bind_some]
    rw [Build.add_ok b (by rw [ofNat_toNat_lt (by omega)]; simp; omega)]
    simp only [Option.bind_some]
    rw [show (1 : Usize) + BitVec.ofNat 64 l.countInternal = BitVec.ofNat 64 (1 + l.countInternal) by rw [BitVec.ofNat_add]; rfl,
      Build.add_ok b (by rw [ofNat_toNat_lt (by omega), ofNat_toNat_lt (by omega)]; exact h), BitVec.ofNat_add (1 + l.countInternal)]

theorem countDepthW_eq (b : Build) : ∀ t : Tree, t.countDepth < 2 ^ 64 → t.countDepthW b = some (BitVec.ofNat 64 t.countDepth)
  | missing, _ => rfl
  | leaf _, _ => rfl
  | internal _ l r, h => by
    unfold countDepth at h
    unfold countDepthW countDepth
    have h1 : l.countDepth + 1 < 2 ^ 64 ∧ r.countDepth + 1 < 2 ^ 64 := by split at h <;> omega
    rw [countDepthW_eq b l (by omega), countDepthW_eq b r (by omega)]
    simp only [Option.bind_eq_bind, Option.bind_some]
    have hc : (BitVec.ofNat 64 l.countDepth > BitVec.ofNat 64 r.countDepth) = (l.countDepth > r.countDepth) := by
      rw [gt_iff_lt, BitVec.lt_def, ofNat_toNat_lt (by omega), ofNat_toNat_lt (by omega)]
    simp only [hc]
    split
    · rw [Build.add_ok b (by rw [ofNat_toNat_lt (by omega)]; simp; omega)]
      rw [BitVec.ofNat_add]; rfl
    · rw [Build.add_ok b (by rw [ofNat_toNat_lt (by omega)]; simp; omega)]
      rw [BitVec.ofNat_add]; rfl

theorem fixIndexFrom_last : ∀ (t : Tree) (i : Nat), t.isInternal → (t.fixIndexFrom i).2 + 1 = i + t.countInternal
  | internal d l r, i, _ => by
    unfold fixIndexFrom countInternal
    have hz : ∀ t : Tree, ¬ t.isInternal → t.countInternal = 0 := by
      intro t h; cases t <;> simp_all [isInternal, countInternal]
    simp only
    by_cases hl : l.isInternal
    · have h1 := fixIndexFrom_last l (i + 1) hl
      simp only [if_pos hl]
      by_cases hr : r.isInternal
      · have h2 := fixIndexFrom_last r ((l.fixIndexFrom (i + 1)).2 + 1) hr
        simp only [if_pos hr]; omega
      · have := hz r hr
        simp only [if_neg hr]; omega
    · have := hz l hl
      simp only [if_neg hl]
      by_cases hr : r.isInternal
      · have h2 := fixIndexFrom_last r (i + 1) hr
        simp only [if_pos hr]; omega
      · have := hz r hr
        simp only [if_neg hr]; omega
  | missing, _, h => by cases h
  | leaf _, _, h => by cases h

theorem fixIndexFromW_eq (b : Build) : ∀ (t : Tree) (i : Nat), t.isInternal → i + t.countInternal ≤ 2 ^ 64 →
    t.fixIndexFromW b (BitVec.ofNat 64 i) = some ((t.fixIndexFrom i).1, BitVec.ofNat 64 (t.fixIndexFrom i).2)
  | internal d l r, i, _, h => by
    unfold countInternal at h
    unfold fixIndexFromW fixIndexFrom
    have hadd : ∀ j : Nat, j + 1 < 2 ^ 64 → b.add (BitVec.ofNat 64 j) 1 = some (BitVec.ofNat 64 (j + 1)) := by
      intro j hj
      rw [Build.add_ok b (by rw [ofNat_toNat_lt (by omega)]; simpa using hj), BitVec.ofNat_add]; rfl
    have hpos : ∀ t : Tree, t.isInternal → 1 ≤ t.countInternal := by
      intro t h; cases t <;> simp_all [isInternal, countInternal]; omega
    simp only [ofNat_toNat_lt (show i < 2 ^ 64 by omega)]
    by_cases hl : l.isInternal
    · have h1 := fixIndexFrom_last l (i + 1) hl
      have hpl := hpos l hl
      simp only [if_pos hl, Option.bind_eq_bind]
      rw [hadd i (by omega)]
      simp only [Option.bind_some]
      rw [fixIndexFromW_eq b l (i + 1) hl (by omega)]
      simp only [Option.bind_some]
      by_cases hr : r.isInternal
      · have hpr := hpos r hr
        simp only [if_pos hr]
        rw [hadd _ (by omega)]
        simp only [Option.bind_some]
        rw [fixIndexFromW_eq b r _ hr (by omega)]
        rfl
      · simp only [if_neg hr]; rfl
    · simp only [if_neg hl, Option.bind_eq_bind, pure, Option.bind_some]
      by_cases hr : r.isInternal
      · have hpr := hpos r hr
        simp only [if_pos hr]
        rw [hadd _ (by omega)]
        simp only [Option.bind_some]
        rw [fixIndexFromW_eq b r _ hr (by omega)]
        rfl
      · simp only [if_neg hr]; rfl
  | missing, _, h, _ => by cases h
  | leaf _, _, h, _ => by cases h

end Tree

/-! ## Substitution -/

theorem evalXkStepW_release {d : Nat} (hd : d ≤ 63) (p : Poly (2 ^ d)) (k : Usize) (out : Poly (2 ^ d)) {i : Nat} (hi : i < 2 ^ d) :
    evalXkStepW .release p k out i = some (evalXkStep p k.toNat out i) := by
  have h2d : 2 ^ d ≤ 2 ^ 63 := Nat.pow_le_pow_right (by decide) hd
  have hsplit : (2 : Nat) ^ 64 = 2 ^ d * 2 ^ (64 - d) := by rw [← pow_add]; congr 1; omega
  have hn0 : BitVec.ofNat 64 (2 ^ d) ≠ 0 := by
    intro h
    have := congrArg BitVec.toNat h
    rw [ofNat_toNat_lt (by omega)] at this
    have : 0 < 2 ^ d := by positivity
    simp at *
  unfold evalXkStepW evalXkStep Build.mul Build.divRem
  simp only [Option.bind_eq_bind, Option.bind_some, if_neg hn0, pure]
  have hmul : (BitVec.ofNat 64 i * k).toNat = i * k.toNat % 2 ^ 64 := by
    rw [BitVec.toNat_mul, ofNat_toNat_lt (by omega)]
  have h1 : (BitVec.ofNat 64 i * k % BitVec.ofNat 64 (2 ^ d)).toNat = i * k.toNat % 2 ^ d := by
    rw [BitVec.toNat_umod, hmul, ofNat_toNat_lt (by omega), Nat.mod_mod_of_dvd _ ⟨_, hsplit⟩]
  have h2 : ((BitVec.ofNat 64 i * k / BitVec.ofNat 64 (2 ^ d)) % 2).toNat = i * k.toNat / 2 ^ d % 2 := by
    rw [BitVec.toNat_umod, BitVec.toNat_udiv, hmul, ofNat_toNat_lt (by omega), hsplit, Nat.mod_mul_right_div_self]
    exact Nat.mod_mod_of_dvd _ (dvd_pow_self 2 (by omega))
  have h3 : ((BitVec.ofNat 64 i * k / BitVec.ofNat 64 (2 ^ d)) % 2 == 0) = (i * k.toNat / 2 ^ d % 2 == 0) := by
    rw [← h2]
    rw [Bool.eq_iff_iff, beq_iff_eq, beq_iff_eq]
    constructor
    · intro h; rw [h]; rfl
    · intro h; exact BitVec.eq_of_toNat_eq (by rw [h]; rfl)
  rw [h1, h3]

theorem foldlM_some {α β : Type} {f : β → α → Option β} {g : β → α → β} {l : List α} (h : ∀ x ∈ l, ∀ acc, f acc x = some (g acc x))
    (acc : β) : l.foldlM f acc = some (l.foldl g acc) := by
  induction l generalizing acc with
  | nil => rfl
  | cons x xs ih =>
    rw [List.foldlM_cons, h x (by simp), List.foldl_cons]
    exact ih (fun y hy => h y (by simp [hy])) _

theorem evalXkStepW_checked {n : Nat} (p : Poly n) (k : Usize) (out : Poly n) {i : Nat} (hi : i < 2 ^ 64) :
    evalXkStepW .checked p k out i = if i * k.toNat < 2 ^ 64 then evalXkStepW .release p k out i else none := by
  unfold evalXkStepW Build.mul
  rw [ofNat_toNat_lt hi]
  by_cases h : i * k.toNat < 2 ^ 64
  · simp only [if_pos h]
  · simp only [if_neg h]; rfl

theorem foldlM_none {α β : Type} {f : β → α → Option β} {l : List α} {x : α} (hx : x ∈ l) (h : ∀ acc, f acc x = none)
    (acc : β) : l.foldlM f acc = none := by
  induction l generalizing acc with
  | nil => cases hx
  | cons y ys ih =>
    rw [List.foldlM_cons]
    rcases List.mem_cons.mp hx with rfl | hx
    · rw [h]; rfl
    · cases f acc y with
      | none => rfl
      | some a => exact ih hx a

/-! ## Little endian sum -/

theorem lossyLoopW_eq (b : Build) : ∀ (xs : List Scalar) (i : Nat) (out : Scalar), i + xs.length ≤ 64 → out.toNat < 2 ^ i →
    lossyLoopW b i out xs = (lossyLoop i out.toNat xs).map (BitVec.ofNat 64)
  | [], i, out, _, _ => by simp [lossyLoopW, lossyLoop]
  | x :: xs, i, out, hi, ho => by
    rw [List.length_cons] at hi
    unfold lossyLoopW lossyLoop
    have hpow : (2 : Nat) ^ i * 2 ≤ 2 ^ 64 := by rw [← pow_succ]; exact Nat.pow_le_pow_right (by decide) (by omega)
    by_cases hx : x = 0 ∨ x = 1
    · have hxn : x.toNat ≤ 1 := by rcases hx with rfl | rfl <;> decide
      have hs : b.shl 1 (BitVec.ofNat 64 i) = some (BitVec.ofNat 64 (2 ^ i)) := by
        rw [Build.shl_ok b (by rw [ofNat_toNat_lt (by omega)]; omega), ofNat_toNat_lt (by omega)]
        congr 1
        apply BitVec.eq_of_toNat_eq
        rw [BitVec.toNat_shiftLeft, BitVec.toNat_ofNat, Nat.shiftLeft_eq]
        simp
      have hle : x.toNat * 2 ^ i ≤ 2 ^ i := by nlinarith [Nat.two_pow_pos i]
      have hm : b.mul x (BitVec.ofNat 64 (2 ^ i)) = some (BitVec.ofNat 64 (x.toNat * 2 ^ i)) := by
        rw [Build.mul_ok b (by rw [ofNat_toNat_lt (by omega)]; omega)]
        congr 1
        apply BitVec.eq_of_toNat_eq
        rw [BitVec.toNat_mul, BitVec.toNat_ofNat, BitVec.toNat_ofNat]
        simp
      have ha : b.add out (BitVec.ofNat 64 (x.toNat * 2 ^ i)) = some (BitVec.ofNat 64 (out.toNat + x.toNat * 2 ^ i)) := by
        rw [Build.add_ok b (by rw [ofNat_toNat_lt (by omega)]; omega), BitVec.ofNat_add]
        simp
      have ht : (BitVec.ofNat 64 (out.toNat + x.toNat * 2 ^ i)).toNat = out.toNat + x.toNat * 2 ^ i := ofNat_toNat_lt (by omega)
      simp only [hx, not_true, if_false, if_true, Option.bind_eq_bind, hs, hm, ha, Option.bind_some, pure,
        if_pos (show out.toNat + x.toNat * 2 ^ i < 2 ^ 64 by omega)]
      rw [lossyLoopW_eq b xs (i + 1) _ (by omega) (by rw [ht, pow_succ]; omega), ht]
    · simp only [hx, not_false_iff, if_true, if_false]; rfl

end Panacea
