import Verif.Spec.Shuffle
import Verif.Lemmas.NaiveHash
import Mathlib.Data.List.OfFn
import Mathlib.Data.Fintype.Perm

/-! # Fisher-Yates is a bijection between draws and permutations -/

namespace Panacea
open Spec

theorem swapAt_eq {l : List Nat} {i j : Nat} (hi : i < l.length) (hj : j < l.length) :
    swapAt l i j = (l.set i l[j]).set j l[i] := by
  unfold swapAt
  rw [List.getElem?_eq_getElem hi, List.getElem?_eq_getElem hj]

theorem swapAt_length (l : List Nat) (i j : Nat) : (swapAt l i j).length = l.length := by
  unfold swapAt
  split <;> simp

theorem swapAt_get {l : List Nat} {i j : Nat} (hi : i < l.length) (hj : j < l.length) (p : Nat) :
    (swapAt l i j)[p]? = if p = i then l[j]? else if p = j then l[i]? else l[p]? := by
  rw [swapAt_eq hi hj]
  simp only [List.getElem?_set, List.length_set]
  by_cases h1 : p = i
  · subst h1
    by_cases h2 : j = p
    · subst h2; simp [hi]
    · simp [h2, hi, List.getElem?_eq_getElem hj]
  · rw [if_neg h1]
    by_cases h2 : p = j
    · subst h2; simp [hj, List.getElem?_eq_getElem hi]
    · rw [if_neg h2, if_neg (fun h => h2 h.symm), if_neg (fun h => h1 h.symm)]

theorem swapAt_perm {l : List Nat} {i j : Nat} (hi : i < l.length) (hj : j < l.length) : (swapAt l i j).Perm l := by
  rw [List.perm_iff_count]
  intro a
  rw [swapAt_eq hi hj]
  rw [List.count_set (by simpa using hj), List.count_set hi]
  by_cases hij : i = j
  · subst hij
    have : l[i] ∈ l := List.getElem_mem hi
    have hc := List.count_pos_iff.mpr this
    by_cases h : l[i] = a
    · rw [h] at hc
      simp [h]
      omega
    · simp [h]
  · have e : (l.set i l[j])[j]'(by simpa using hj) = l[j] := by rw [List.getElem_set_ne hij]
    rw [e]
    have h1 : l[i] ∈ l := List.getElem_mem hi
    have h2 : l[j] ∈ l := List.getElem_mem hj
    have c1 := List.count_pos_iff.mpr h1
    have c2 := List.count_pos_iff.mpr h2
    by_cases ha : l[i] = a <;> by_cases hb : l[j] = a
    · simp only [ha, hb, beq_self_eq_true, if_true]
      rw [ha] at c1; omega
    · have hb' : (l[j] == a) = false := by simpa using hb
      simp only [ha, beq_self_eq_true, if_true, hb', Bool.false_eq_true, if_false]
      rw [ha] at c1; omega
    · have ha' : (l[i] == a) = false := by simpa using ha
      simp only [hb, beq_self_eq_true, if_true, ha', Bool.false_eq_true, if_false]
      omega
    · have ha' : (l[i] == a) = false := by simpa using ha
      have hb' : (l[j] == a) = false := by simpa using hb
      simp only [ha', hb', Bool.false_eq_true, if_false]
      omega

theorem shuffleLoop_perm {draw : Nat → Nat} (hd : ∀ i, draw i ≤ i) : ∀ (k : Nat) (l : List Nat), k < l.length → (shuffleLoop draw k l).Perm l
  | 0, _, _ => List.Perm.refl _
  | k + 1, l, h => by
    have h1 : draw (k + 1) < l.length := by have := hd (k + 1); omega
    exact (shuffleLoop_perm hd k _ (by rw [swapAt_length]; omega)).trans (swapAt_perm h h1)

theorem shuffleWith_perm {draw : Nat → Nat} (hd : ∀ i, draw i ≤ i) (l : List Nat) : (shuffleWith draw l).Perm l := by
  unfold shuffleWith
  cases l with
  | nil => exact List.Perm.refl _
  | cons a l => exact shuffleLoop_perm hd _ _ (by simp)

theorem shuffleLoop_high {draw : Nat → Nat} (hd : ∀ i, draw i ≤ i) : ∀ (k : Nat) (l : List Nat), k < l.length → ∀ p, k < p →
    (shuffleLoop draw k l)[p]? = l[p]?
  | 0, _, _, _, _ => rfl
  | k + 1, l, h, p, hp => by
    have h1 : draw (k + 1) < l.length := by have := hd (k + 1); omega
    rw [shuffleLoop, shuffleLoop_high hd k _ (by rw [swapAt_length]; omega) p (by omega), swapAt_get h h1, if_neg (by omega),
      if_neg (by have := hd (k + 1); omega)]

theorem shuffleLoop_congr {d1 d2 : Nat → Nat} : ∀ (k : Nat) (l : List Nat), (∀ i ≤ k, d1 i = d2 i) → shuffleLoop d1 k l = shuffleLoop d2 k l
  | 0, _, _ => rfl
  | k + 1, l, h => by
    rw [shuffleLoop, shuffleLoop, h (k + 1) (le_refl _), shuffleLoop_congr k _ (fun i hi => h i (by omega))]

theorem shuffleLoop_inj {d1 d2 : Nat → Nat} (h1 : ∀ i, d1 i ≤ i) (h2 : ∀ i, d2 i ≤ i) : ∀ (k : Nat) (l : List Nat), k < l.length → l.Nodup →
    shuffleLoop d1 k l = shuffleLoop d2 k l → ∀ i ≤ k, d1 i = d2 i
  | 0, _, _, _, _, i, hi => by
    have := h1 i; have := h2 i; omega
  | k + 1, l, hk, hnd, he, i, hi => by
    have b1 : d1 (k + 1) < l.length := by have := h1 (k + 1); omega
    have b2 : d2 (k + 1) < l.length := by have := h2 (k + 1); omega
    have e := congrArg (fun x : List Nat => x[k + 1]?) he
    simp only [shuffleLoop] at e
    rw [shuffleLoop_high h1 k _ (by rw [swapAt_length]; omega) _ (by omega), shuffleLoop_high h2 k _ (by rw [swapAt_length]; omega) _ (by omega),
      swapAt_get hk b1, swapAt_get hk b2, if_pos rfl, if_pos rfl, List.getElem?_eq_getElem b1, List.getElem?_eq_getElem b2] at e
    have ed : d1 (k + 1) = d2 (k + 1) := (hnd.getElem_inj_iff).mp (Option.some.inj e)
    rcases Nat.lt_or_ge i (k + 1) with h | h
    · simp only [shuffleLoop, ed] at he
      exact shuffleLoop_inj h1 h2 k _ (by rw [swapAt_length]; omega) ((swapAt_perm hk b2).nodup_iff.mpr hnd) he i (by omega)
    · rw [show i = k + 1 by omega]; exact ed

theorem shuffleLoop_surj : ∀ (k : Nat) (l l' : List Nat), k < l.length → l.Nodup → l'.Perm l → (∀ p, k < p → l[p]? = l'[p]?) →
    ∃ d : Nat → Nat, (∀ i, d i ≤ i) ∧ shuffleLoop d k l = l'
  | 0, l, l', hk, hnd, hp, hh => by
    refine ⟨fun _ => 0, fun _ => Nat.zero_le _, ?_⟩
    show l = l'
    cases l with
    | nil => simp at hk
    | cons a t =>
      cases l' with
      | nil => simpa using hp.length_eq
      | cons b t' =>
        have et : t = t' := by
          apply List.ext_getElem?
          intro i
          simpa using hh (i + 1) (by omega)
        subst et
        have : b ∈ a :: t := hp.mem_iff.mp (by simp)
        have hb : b ∉ t := (List.nodup_cons.mp (hp.nodup_iff.mpr hnd)).1
        simp only [List.mem_cons, hb, or_false] at this
        rw [this]
  | k + 1, l, l', hk, hnd, hp, hh => by
    have hk' : k + 1 < l'.length := by rw [hp.length_eq]; exact hk
    have hnd' := hp.nodup_iff.mpr hnd
    obtain ⟨j, hj, ej⟩ := List.mem_iff_getElem.mp (hp.mem_iff.mp (List.getElem_mem hk'))
    have hjk : j ≤ k + 1 := by
      by_contra hc
      have h1 := hh j (by omega)
      have hj' : j < l'.length := by rw [hp.length_eq]; exact hj
      rw [List.getElem?_eq_getElem hj, List.getElem?_eq_getElem hj', ej] at h1
      have := (hnd'.getElem_inj_iff).mp (Option.some.inj h1)
      omega
    have hp1 := swapAt_perm hk hj
    obtain ⟨d, hd, he⟩ := shuffleLoop_surj k (swapAt l (k + 1) j) l' (by rw [swapAt_length]; omega) (hp1.nodup_iff.mpr hnd) (hp.trans hp1.symm) (by
      intro p hpk
      rw [swapAt_get hk hj]
      by_cases h1 : p = k + 1
      · rw [if_pos h1, h1, List.getElem?_eq_getElem hj, List.getElem?_eq_getElem hk', ej]
      · rw [if_neg h1, if_neg (by omega)]
        exact hh p (by omega))
    refine ⟨fun i => if i = k + 1 then j else d i, fun i => ?_, ?_⟩
    · dsimp only
      split
      · omega
      · exact hd i
    · rw [shuffleLoop, if_pos rfl, ← he]
      exact shuffleLoop_congr k _ fun i hi => if_neg (by omega)

theorem Spec.Rolls.at_le {M : Nat} (d : Rolls M) (i : Nat) : d.at i ≤ i := by
  unfold Rolls.at
  split
  · exact Nat.le_of_lt_succ (Fin.is_lt _)
  · exact Nat.zero_le _

end Panacea
