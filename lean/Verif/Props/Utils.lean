import Verif.Model.Utils
import Mathlib.Data.Nat.Bitwise
import Mathlib.Tactic.Ring

/-! # C06 transpose, C08 pt_to_lossy_u64 -/

namespace Panacea

theorem nextAll_eq {α : Type} (v : List (List α)) (hs : List α) (ts : List (List α)) :
    nextAll v = some (hs, ts) ↔ v = List.zipWith List.cons hs ts ∧ hs.length = v.length ∧ ts.length = v.length := by
  induction v generalizing hs ts with
  | nil =>
    simp only [nextAll, Option.some.injEq, Prod.mk.injEq, List.length_nil, List.length_eq_zero_iff]
    constructor
    · rintro ⟨rfl, rfl⟩; simp
    · rintro ⟨_, rfl, rfl⟩; simp
  | cons r v ih =>
    cases r with
    | nil =>
      simp only [nextAll]
      constructor
      · intro h; cases h
      · rintro ⟨h1, h2, h3⟩
        cases hs <;> cases ts <;> simp_all
    | cons x xs =>
      simp only [nextAll]
      cases hn : nextAll v with
      | none =>
        simp only [reduceCtorEq, false_iff]
        rintro ⟨h1, h2, h3⟩
        cases hs with
        | nil => simp at h2
        | cons h hs =>
          cases ts with
          | nil => simp at h3
          | cons t ts =>
            have := (ih hs ts).2 (by simp_all)
            rw [hn] at this; cases this
      | some p =>
        obtain ⟨hs', ts'⟩ := p
        have := (ih hs' ts').1 hn
        simp only [Option.some.injEq, Prod.mk.injEq]
        constructor
        · rintro ⟨rfl, rfl⟩
          simp only [List.zipWith_cons_cons, List.length_cons]
          exact ⟨by rw [← this.1], by omega, by omega⟩
        · rintro ⟨h1, h2, h3⟩
          cases hs with
          | nil => simp at h2
          | cons h hs =>
            cases ts with
            | nil => simp at h3
            | cons t ts =>
              simp only [List.zipWith_cons_cons, List.cons.injEq] at h1
              obtain ⟨⟨rfl, rfl⟩, h1⟩ := h1
              have h4 := (ih hs ts).2 ⟨h1, by simpa using h2, by simpa using h3⟩
              rw [hn] at h4
              simp only [Option.some.injEq, Prod.mk.injEq] at h4
              rw [h4.1, h4.2]; exact ⟨rfl, rfl⟩

theorem nextAll_none {α : Type} (v : List (List α)) : nextAll v = none ↔ [] ∈ v := by
  induction v with
  | nil => simp [nextAll]
  | cons r v ih =>
    cases r with
    | nil => simp [nextAll]
    | cons x xs =>
      simp only [nextAll, List.mem_cons, reduceCtorEq, false_or]
      rw [← ih]
      cases nextAll v with
      | none => simp
      | some p => simp

theorem transposeLoop_none {α : Type} (k : Nat) (v : List (List α)) :
    transposeLoop k v = none ↔ ∃ r ∈ v, r.length < k := by
  induction k generalizing v with
  | zero => simp [transposeLoop]
  | succ k ih =>
    simp only [transposeLoop]
    cases hn : nextAll v with
    | none =>
      have := (nextAll_none v).1 hn
      simp only [true_iff]
      exact ⟨[], this, by simp⟩
    | some p =>
      obtain ⟨hs, ts⟩ := p
      obtain ⟨h1, h2, h3⟩ := (nextAll_eq v hs ts).1 hn
      have key : (∃ r ∈ v, r.length < k + 1) ↔ ∃ r ∈ ts, r.length < k := by
        rw [h1]
        simp only [List.mem_iff_getElem, List.length_zipWith, List.getElem_zipWith]
        constructor
        · rintro ⟨r, ⟨i, hi, rfl⟩, hr⟩
          exact ⟨ts[i], ⟨i, by omega, rfl⟩, by simpa using hr⟩
        · rintro ⟨r, ⟨i, hi, rfl⟩, hr⟩
          exact ⟨hs[i]'(by omega) :: ts[i], ⟨i, by omega, rfl⟩, by simpa using hr⟩
      rw [key, ← ih]
      simp only
      cases ht : transposeLoop k ts <;> simp

theorem transposeLoop_some {α : Type} (k : Nat) (v w : List (List α)) (h : transposeLoop k v = some w) :
    w.length = k ∧ ∀ j (hj : j < w.length), w[j].length = v.length ∧
      ∀ i : Nat, i < v.length → w[j][i]? = (v[i]?.getD [])[j]? := by
  induction k generalizing v w with
  | zero => simp only [transposeLoop, Option.some.injEq] at h; subst h; simp
  | succ k ih =>
    simp only [transposeLoop] at h
    cases hn : nextAll v with
    | none => rw [hn] at h; cases h
    | some p =>
      obtain ⟨hs, ts⟩ := p
      obtain ⟨h1, h2, h3⟩ := (nextAll_eq v hs ts).1 hn
      rw [hn] at h
      simp only at h
      cases ht : transposeLoop k ts with
      | none => rw [ht] at h; cases h
      | some rest =>
        rw [ht] at h
        simp only [Option.some.injEq] at h
        subst h
        obtain ⟨hl, hx⟩ := ih ts rest ht
        refine ⟨by simp [hl], ?_⟩
        intro j hj
        cases j with
        | zero =>
          refine ⟨by simpa using h2, ?_⟩
          intro i hi
          have e : v[i]? = some (hs[i]'(by omega) :: ts[i]'(by omega)) := by
            rw [List.getElem?_eq_getElem hi]; simp [h1]
          rw [e]; simp
        | succ j =>
          have hj' : j < rest.length := by simpa using hj
          obtain ⟨ha, hb⟩ := hx j hj'
          refine ⟨by simp [ha, h3], ?_⟩
          intro i hi
          have e : v[i]? = some (hs[i]'(by omega) :: ts[i]'(by omega)) := by
            rw [List.getElem?_eq_getElem hi]; simp [h1]
          rw [e]
          have := hb i (by omega)
          simp only [List.getElem_cons_succ, Option.getD_some, List.getElem?_cons_succ]
          rw [this, List.getElem?_eq_getElem (show i < ts.length by omega)]
          simp

/-- C06 (rejection): `transpose` panics iff the input is empty or some row is shorter than the first. -/
theorem C06_transpose_panics {α : Type} (v : List (List α)) :
    transpose v = none ↔ v = [] ∨ ∃ r ∈ v, r.length < (v.headD []).length := by
  cases v with
  | nil => simp [transpose]
  | cons r v =>
    simp only [transpose, reduceCtorEq, false_or, List.headD_cons]
    exact transposeLoop_none _ _

/-- C06 (entries): the result has as many rows as the first row has entries, each with one entry per input row, and
entry `(j, i)` is entry `(i, j)` of the input. -/
theorem C06_transpose_entries {α : Type} (v w : List (List α)) (h : transpose v = some w) :
    w.length = (v.headD []).length ∧
    ∀ j (hj : j < w.length), w[j].length = v.length ∧
      ∀ i (hi : i < v.length), w[j][i]? = v[i][j]? ∧ j < v[i].length := by
  cases v with
  | nil => simp [transpose] at h
  | cons r v =>
    have hn : ¬ ∃ r' ∈ r :: v, r'.length < r.length := by
      rw [← transposeLoop_none]
      simp only [transpose] at h
      rw [h]; simp
    obtain ⟨h1, h2⟩ := transposeLoop_some _ _ _ h
    refine ⟨h1, fun j hj => ⟨(h2 j hj).1, fun i hi => ⟨?_, ?_⟩⟩⟩
    · have := (h2 j hj).2 i hi
      rw [this, List.getElem?_eq_getElem hi]; rfl
    · by_contra hc
      exact hn ⟨_, List.getElem_mem hi, by omega⟩

/-- C06 (involution): on a rectangular matrix with at least one row and one column, transposing twice is the identity. -/
theorem C06_transpose_transpose {α : Type} (v : List (List α)) (n : Nat) (hn : 0 < n) (hv : v ≠ [])
    (hr : ∀ r ∈ v, r.length = n) : ∃ w, transpose v = some w ∧ transpose w = some v := by
  have hhead : (v.headD []).length = n := by
    cases v with
    | nil => exact absurd rfl hv
    | cons r v => exact hr r (by simp)
  cases hw : transpose v with
  | none =>
    rcases (C06_transpose_panics v).1 hw with h | ⟨r, h1, h2⟩
    · exact absurd h hv
    · rw [hhead, hr r h1] at h2; omega
  | some w =>
    obtain ⟨e1, e2⟩ := C06_transpose_entries v w hw
    have hwne : w ≠ [] := by rintro rfl; rw [hhead] at e1; simp at e1; omega
    have hwl : ∀ r ∈ w, r.length = v.length := by
      intro r hr'
      obtain ⟨j, hj, rfl⟩ := List.mem_iff_getElem.1 hr'
      exact (e2 j hj).1
    have hwhead : (w.headD []).length = v.length := by
      cases w with
      | nil => exact absurd rfl hwne
      | cons r w => exact hwl r (by simp)
    refine ⟨w, rfl, ?_⟩
    cases hu : transpose w with
    | none =>
      rcases (C06_transpose_panics w).1 hu with h | ⟨r, h1, h2⟩
      · exact absurd h hwne
      · rw [hwhead, hwl r h1] at h2; omega
    | some u =>
      obtain ⟨f1, f2⟩ := C06_transpose_entries w u hu
      congr 1
      apply List.ext_getElem
      · rw [f1, hwhead]
      · intro i hi1 hi2
        apply List.ext_getElem?
        intro j
        by_cases hj : j < n
        · have hjw : j < w.length := by rw [e1, hhead]; exact hj
          rw [((f2 i hi1).2 j hjw).1, ((e2 j hjw).2 i hi2).1]
        · rw [List.getElem?_eq_none, List.getElem?_eq_none]
          · rw [hr _ (List.getElem_mem hi2)]; omega
          · rw [(f2 i hi1).1, e1, hhead]; omega

example : transpose [[1, 2, 3], [4, 5, 6]] = some [[1, 4], [2, 5], [3, 6]] ∧
    transpose [[1, 2], [3, 4, 5]] = some [[1, 3], [2, 4]] ∧ transpose [[1, 2], [3]] = none := by decide

theorem lossyLoop_spec (xs : List Scalar) : ∀ (i out : Nat), out < 2 ^ i → i + xs.length ≤ 64 →
    ((∀ x ∈ xs, x = 0 ∨ x = 1) →
      ∃ r, lossyLoop i out xs = some r ∧ r < 2 ^ (i + xs.length) ∧
        ∀ b, r.testBit b = if b < i then out.testBit b else decide (xs[b - i]? = some 1)) ∧
    ((∃ x ∈ xs, ¬ (x = 0 ∨ x = 1)) → lossyLoop i out xs = none) := by
  induction xs with
  | nil =>
    intro i out ho _
    refine ⟨fun _ => ⟨out, rfl, by simpa using ho, fun b => ?_⟩, by simp⟩
    split
    · rfl
    · rw [Nat.testBit_lt_two_pow (lt_of_lt_of_le ho (Nat.pow_le_pow_right (by norm_num) (by omega)))]
      simp
  | cons x xs ih =>
    intro i out ho hl
    simp only [List.length_cons] at hl
    by_cases hx : x = 0 ∨ x = 1
    · have hxn : x.toNat = 0 ∨ x.toNat = 1 := by rcases hx with rfl | rfl <;> simp
      have hpow : (2:Nat) ^ (i + 1) ≤ 2 ^ 64 := Nat.pow_le_pow_right (by norm_num) (by omega)
      have ho' : out + x.toNat * 2 ^ i < 2 ^ (i + 1) := by
        rw [pow_succ]; rcases hxn with h | h <;> rw [h] <;> omega
      have ho64 : out + x.toNat * 2 ^ i < 2 ^ 64 := by omega
      obtain ⟨h1, h2⟩ := ih (i + 1) _ ho' (by omega)
      have hunf : lossyLoop i out (x :: xs) = lossyLoop (i + 1) (out + x.toNat * 2 ^ i) xs := by
        simp only [lossyLoop]; rw [if_pos hx, if_pos ho64]
      rw [hunf]
      constructor
      · intro hall
        obtain ⟨r, hr, hlt, hbits⟩ := h1 (fun y hy => hall y (by simp [hy]))
        refine ⟨r, hr, by rw [List.length_cons]; convert hlt using 2; omega, fun b => ?_⟩
        rw [hbits]
        have hb : (out + x.toNat * 2 ^ i) = 2 ^ i * x.toNat + out := by ring
        rw [hb, Nat.testBit_two_pow_mul_add _ ho]
        rcases lt_trichotomy b i with h | h | h
        · rw [if_pos (by omega), if_pos h, if_pos h]
        · subst h
          rw [if_pos (by omega), if_neg (by omega), if_neg (by omega)]
          rcases hx with rfl | rfl <;> simp
        · rw [if_neg (by omega), if_neg (by omega)]
          have : b - i = (b - (i + 1)) + 1 := by omega
          rw [this]; simp
      · rintro ⟨y, hy, hny⟩
        apply h2
        rcases List.mem_cons.1 hy with rfl | hy
        · exact absurd hx hny
        · exact ⟨y, hy, hny⟩
    · refine ⟨fun hall => absurd (hall x (by simp)) hx, fun _ => ?_⟩
      simp only [lossyLoop]; rw [if_neg hx]

/-- C08: for a plaintext whose first 64 coefficients are bits the result is the 64-bit word whose bit `b` is coefficient
`b` (later coefficients are ignored). -/
theorem C08_lossy_bits (pt : List Scalar) (hb : ∀ x ∈ pt.take 64, x = 0 ∨ x = 1) :
    ∃ r, ptToLossyU64 pt = some r ∧ r < 2 ^ 64 ∧
      ∀ b, r.testBit b = true ↔ b < 64 ∧ pt[b]? = some 1 := by
  have hlen : (pt.take 64).length ≤ 64 := by simp
  obtain ⟨r, h1, h2, h3⟩ := (lossyLoop_spec (pt.take 64) 0 0 (by norm_num) (by omega)).1 hb
  refine ⟨r, h1, lt_of_lt_of_le h2 (Nat.pow_le_pow_right (by norm_num) (by omega)), fun b => ?_⟩
  rw [h3 b, if_neg (by omega)]
  simp only [Nat.sub_zero, decide_eq_true_eq, List.getElem?_take]
  split <;> simp [*]

/-- C08 (rejection): any non-binary coefficient among the first 64 panics, and nothing else does. -/
theorem C08_lossy_panics (pt : List Scalar) :
    ptToLossyU64 pt = none ↔ ∃ x ∈ pt.take 64, ¬ (x = 0 ∨ x = 1) := by
  have hlen : (pt.take 64).length ≤ 64 := by simp
  constructor
  · intro h
    by_contra hc
    have hb : ∀ x ∈ pt.take 64, x = 0 ∨ x = 1 := by
      intro x hx; by_contra h'; exact hc ⟨x, hx, h'⟩
    obtain ⟨r, h1, _⟩ := C08_lossy_bits pt hb
    rw [h] at h1; cases h1
  · exact (lossyLoop_spec (pt.take 64) 0 0 (by norm_num) (by omega)).2

/-- C08 (round trip): every 64-bit number is recovered from its own bits, whatever follows them. -/
theorem C08_lossy_roundtrip (v : Nat) (hv : v < 2 ^ 64) (rest : List Scalar) :
    ptToLossyU64 ((List.range 64).map (fun i => if v.testBit i then (1 : Scalar) else 0) ++ rest) = some v := by
  have htake : ((List.range 64).map (fun i => if v.testBit i then (1 : Scalar) else 0) ++ rest).take 64
      = (List.range 64).map (fun i => if v.testBit i then (1 : Scalar) else 0) := by
    rw [List.take_append_of_le_length (by simp), List.take_of_length_le (by simp)]
  obtain ⟨r, h1, h2, h3⟩ := C08_lossy_bits
    ((List.range 64).map (fun i => if v.testBit i then (1 : Scalar) else 0) ++ rest) (by
      rw [htake]
      intro x hx
      simp only [List.mem_map] at hx
      obtain ⟨i, _, rfl⟩ := hx
      split <;> simp)
  rw [h1]
  congr 1
  apply Nat.eq_of_testBit_eq
  intro b
  rw [Bool.eq_iff_iff, h3]
  by_cases hb : b < 64
  · rw [List.getElem?_append_left (by simpa using hb)]
    simp only [hb, true_and, List.getElem?_map, List.getElem?_range hb, Option.map_some, Option.some.injEq]
    split <;> simp [*]
  · have : v.testBit b = false := Nat.testBit_lt_two_pow (lt_of_lt_of_le hv (Nat.pow_le_pow_right (by norm_num) (by omega)))
    simp [hb, this]

example : ptToLossyU64 [1, 0, 1, 1] = some 13 ∧ ptToLossyU64 [1, 2] = none := by decide

end Panacea
