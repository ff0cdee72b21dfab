import Verif.Lemmas.Shuffle
import Verif.Lemmas.PermCount
import Verif.Props.NaiveHash
import Mathlib.Data.Nat.Factorial.BigOperators
import Mathlib.Algebra.BigOperators.Fin
import Mathlib.Algebra.Order.BigOperators.Ring.Finset
import Mathlib.Data.Rat.Cast.Order
import Mathlib.Tactic.FieldSimp
import Mathlib.Tactic.Positivity

/-!
# C89: how likely is a batch to be served completely?
-/

namespace Panacea
open Spec NaiveHash Finset Equiv

/-- C89 (uniform): every arrangement of the elements comes from exactly one sequence of draws, so all arrangements are equally likely. -/
theorem C89_uniform {M : Nat} {l l' : List Nat} (hl : l.length = M) (hnd : l.Nodup) (hp : l'.Perm l) :
    ∃ d : Rolls M, shuffleWith d.at l = l' ∧ ∀ d' : Rolls M, shuffleWith d'.at l = l' → d' = d := by
  rcases Nat.eq_zero_or_pos M with h0 | hpos
  · subst h0
    have : l = [] := List.eq_nil_of_length_eq_zero hl
    subst this
    rw [List.perm_nil] at hp
    subst hp
    exact ⟨fun i => i.elim0, rfl, fun d' _ => funext fun i => i.elim0⟩
  · obtain ⟨f, hf, he⟩ := shuffleLoop_surj (l.length - 1) l l' (by omega) hnd hp (fun p hpp => by
      rw [List.getElem?_eq_none (by omega), List.getElem?_eq_none (by rw [hp.length_eq]; omega)])
    let d : Rolls M := fun i => ⟨f i, Nat.lt_succ_of_le (hf i)⟩
    have hd : ∀ i < M, d.at i = f i := by
      intro i hi
      unfold Rolls.at
      rw [dif_pos hi]
    have e1 : shuffleWith d.at l = l' := by
      rw [← he]
      exact shuffleLoop_congr _ _ fun i hi => hd i (by omega)
    refine ⟨d, e1, fun d' h' => funext fun i => Fin.ext ?_⟩
    have := shuffleLoop_inj (d'.at_le) (d.at_le) (l.length - 1) l (by omega) hnd (h'.trans e1.symm) i (by omega)
    unfold Rolls.at at this
    simpa using this

/-! ### From draws to permutations -/

/-- The table of a permutation. -/
def tableOf {M : Nat} (σ : Perm (Fin M)) : List Nat := List.ofFn fun i => (σ i).val

theorem tableOf_get {M : Nat} (σ : Perm (Fin M)) {i : Nat} (h : i < M) : (tableOf σ)[i]? = some (σ ⟨i, h⟩).val := by
  unfold tableOf
  rw [List.getElem?_ofFn, dif_pos h]

theorem tableOf_perm {M : Nat} (σ : Perm (Fin M)) : (tableOf σ).Perm (List.range M) := by
  refine (List.perm_ext_iff_of_nodup ?_ List.nodup_range).mpr fun a => ?_
  · unfold tableOf
    rw [List.nodup_ofFn]
    exact fun a b h => σ.injective (Fin.ext h)
  · rw [List.mem_range]
    unfold tableOf
    rw [List.mem_ofFn]
    constructor
    · rintro ⟨i, rfl⟩; exact (σ i).isLt
    · intro h; exact ⟨σ.symm ⟨a, h⟩, by simp⟩

theorem tableOf_inj {M : Nat} : Function.Injective (tableOf (M := M)) := by
  intro σ τ h
  refine Equiv.ext fun i => ?_
  have := congrArg (fun l : List Nat => l[i.val]?) h
  simp only [tableOf_get _ i.isLt, Option.some.injEq] at this
  exact Fin.ext this

theorem tableOf_surj {M : Nat} {l : List Nat} (h : l.Perm (List.range M)) : ∃ σ : Perm (Fin M), tableOf σ = l := by
  have hl : l.length = M := by rw [h.length_eq, List.length_range]
  have hlt : ∀ i : Fin M, l[i.val]'(by omega) < M := fun i => List.mem_range.mp (h.mem_iff.mp (List.getElem_mem _))
  let f : Fin M → Fin M := fun i => ⟨l[i.val]'(by omega), hlt i⟩
  have hf : Function.Injective f := by
    intro a b e
    have := congrArg Fin.val e
    exact Fin.ext ((h.nodup_iff.mpr List.nodup_range).getElem_inj_iff.mp this)
  refine ⟨Equiv.ofBijective f (Finite.injective_iff_bijective.mp hf), ?_⟩
  apply List.ext_getElem?
  intro i
  by_cases hi : i < M
  · rw [tableOf_get _ hi, List.getElem?_eq_getElem (by omega)]
    rfl
  · rw [List.getElem?_eq_none (by unfold tableOf; simp; omega), List.getElem?_eq_none (by omega)]

/-- Rolls and permutations correspond. -/
theorem draws_bij (M : Nat) : ∃ φ : Perm (Fin M) ≃ Rolls M, ∀ σ, shuffleWith (φ σ).at (List.range M) = tableOf σ := by
  have h : ∀ σ : Perm (Fin M), ∃ d : Rolls M, shuffleWith d.at (List.range M) = tableOf σ ∧
      ∀ d' : Rolls M, shuffleWith d'.at (List.range M) = tableOf σ → d' = d :=
    fun σ => C89_uniform (List.length_range) List.nodup_range (tableOf_perm σ)
  choose f hf huniq using h
  refine ⟨Equiv.ofBijective f ⟨fun σ τ e => ?_, fun d => ?_⟩, hf⟩
  · have := hf σ
    rw [e, hf τ] at this
    exact tableOf_inj this.symm
  · obtain ⟨σ, hσ⟩ := tableOf_surj (shuffleWith_perm d.at_le (List.range M))
    exact ⟨σ, (huniq σ d hσ.symm).symm⟩

/-- A chance, counted over the permutations. -/
theorem chance_perm {M : Nat} {P : Rolls M → Prop} {Q : Perm (Fin M) → Prop} [DecidablePred Q]
    (h : ∀ (d : Rolls M) σ, shuffleWith d.at (List.range M) = tableOf σ → (P d ↔ Q σ)) :
    chance P = ((univ.filter Q).card : ℚ) / (M.factorial : ℚ) := by
  obtain ⟨φ, hφ⟩ := draws_bij M
  unfold chance
  congr 2
  · refine (card_equiv φ fun σ => ?_).symm
    simp only [mem_filter, mem_univ, true_and]
    exact (h (φ σ) σ (hφ σ)).symm
  · rw [← Fintype.card_congr φ, Fintype.card_perm, Fintype.card_fin]

/-! ### Requests -/

/-- The hash function of a permutation. -/
def permHash (hc N : Nat) (σ : Perm (Fin (hc * N))) : NaiveHash := ⟨tableOf σ, hc, N⟩

theorem permHash_new {hc N : Nat} (hh : 0 < hc) (σ : Perm (Fin (hc * N))) : NaiveHash.new (fun l => if l.Perm (tableOf σ) then tableOf σ else l) hc N = some (permHash hc N σ) := by
  unfold NaiveHash.new permHash
  rw [if_pos hh]
  dsimp only
  rw [if_pos (tableOf_perm σ).symm]

theorem permHash_shuffle {hc N : Nat} (σ : Perm (Fin (hc * N))) : ∀ l : List Nat, (if l.Perm (tableOf σ) then tableOf σ else l).Perm l := by
  intro l
  split
  · rename_i h; exact h.symm
  · exact List.Perm.refl _

theorem mapOne_congr {H H' : NaiveHash} (hc : H.hCount = H'.hCount) {d i : Nat} : ∀ (hs : List Nat) (out : Mapping),
    (∀ h ∈ hs, H.hash h i = H'.hash h i) → H.mapOne d i hs out = H'.mapOne d i hs out
  | [], _, _ => rfl
  | h :: hs, out, e => by
    have e1 : H.hashToTuple h i d = H'.hashToTuple h i d := by
      unfold hashToTuple
      rw [e h (by simp)]
    simp only [mapOne, e1, hc, mapOne_congr hc hs out fun h' hh => e h' (by simp [hh])]

theorem mapAll_congr {H H' : NaiveHash} (hc : H.hCount = H'.hCount) {d : Nat} : ∀ (is : List Nat) (out : Mapping),
    (∀ i ∈ is, ∀ h < H.hCount, H.hash h i = H'.hash h i) → H.mapAll d is out = H'.mapAll d is out
  | [], _, _ => rfl
  | i :: is, out, e => by
    have e1 : H.mapOne d i (List.range H.hCount) out = H'.mapOne d i (List.range H'.hCount) out := by
      rw [← hc]
      exact mapOne_congr hc _ out fun h hh => e i (by simp) h (List.mem_range.mp hh)
    simp only [mapAll, e1]
    split
    · rfl
    · exact mapAll_congr hc is _ fun j hj => e j (by simp [hj])

section
variable {hc N rows cols : Nat}

theorem permHash_hash (σ : Perm (Fin (hc * N))) {h i : Nat} (hlt : hc * i + h < hc * N) : (permHash hc N σ).hash h i = some (σ ⟨hc * i + h, hlt⟩).val :=
  tableOf_get σ hlt

theorem slot_lt {h i : Nat} (hh : h < hc) (hi : i < N) : hc * i + h < hc * N := by
  have : hc * (i + 1) ≤ hc * N := Nat.mul_le_mul_left _ hi
  rw [Nat.mul_add] at this
  omega

/-- The positions of the copies of the items of a list. -/
def slots (hc N : Nat) (is : List Nat) : Finset (Fin (hc * N)) := univ.filter fun p => p.val / hc ∈ is

theorem slot_div {h i : Nat} (hh : h < hc) : (hc * i + h) / hc = i := by
  rw [Nat.mul_add_div (by omega), Nat.div_eq_of_lt hh, Nat.add_zero]

theorem slots_card (hh : 0 < hc) : ∀ {is : List Nat}, is.Nodup → (∀ i ∈ is, i < N) → (slots hc N is).card = hc * is.length
  | [], _, _ => by simp [slots]
  | i :: is, hnd, hlt => by
    classical
    have ih := slots_card hh (List.nodup_cons.mp hnd).2 (fun j hj => hlt j (by simp [hj]))
    have e : slots hc N (i :: is) = slots hc N [i] ∪ slots hc N is := by
      ext p; simp [slots]
    have hd : Disjoint (slots hc N [i]) (slots hc N is) := by
      rw [Finset.disjoint_left]
      intro p h1 h2
      simp only [slots, mem_filter, mem_univ, true_and, List.mem_singleton] at h1 h2
      exact (List.nodup_cons.mp hnd).1 (h1 ▸ h2)
    have h1 : (slots hc N [i]).card = hc := by
      have : (slots hc N [i]).card = (Finset.range hc).card := by
        refine (Finset.card_bij (fun h hm => (⟨hc * i + h, slot_lt (Finset.mem_range.mp hm) (hlt i (by simp))⟩ : Fin (hc * N))) ?_ ?_ ?_).symm
        · intro h hm
          simp only [slots, mem_filter, mem_univ, true_and, List.mem_singleton]
          exact slot_div (Finset.mem_range.mp hm)
        · intro a _ b _ e
          have := congrArg Fin.val e
          simp only at this
          omega
        · intro p hp
          simp only [slots, mem_filter, mem_univ, true_and, List.mem_singleton] at hp
          refine ⟨p.val % hc, Finset.mem_range.mpr (Nat.mod_lt _ hh), Fin.ext ?_⟩
          simp only
          rw [← hp]
          exact Nat.div_add_mod _ _
      rw [this, Finset.card_range]
    rw [e, Finset.card_union_of_disjoint hd, h1, ih, List.length_cons]
    ring

open Classical in
/-- The cells in the rows the prefix `pre` of a request occupies. -/
noncomputable def occupied (hc N cols : Nat) (pre : List Nat) (σ : Perm (Fin (hc * N))) : Finset (Fin (hc * N)) :=
  univ.filter fun p => ∀ m, (permHash hc N σ).hashToMapping pre cols = some m → m (p.val / cols) ≠ none

theorem occupied_swap {pre : List Nat} (hin : ∀ i ∈ pre, i < N) (σ : Perm (Fin (hc * N))) (x y : Fin (hc * N))
    (hx : x ∉ slots hc N pre) (hy : y ∉ slots hc N pre) : occupied hc N cols pre (σ * swap x y) = occupied hc N cols pre σ := by
  have e : (permHash hc N (σ * swap x y)).hashToMapping pre cols = (permHash hc N σ).hashToMapping pre cols := by
    refine mapAll_congr (H := permHash hc N (σ * swap x y)) (H' := permHash hc N σ) rfl pre _ fun i hi h hh => ?_
    have hh' : h < hc := hh
    have hlt := slot_lt hh' (hin i hi)
    rw [permHash_hash _ hlt, permHash_hash _ hlt, Perm.mul_apply, swap_apply_of_ne_of_ne]
    · rintro rfl
      apply hx
      simp only [slots, mem_filter, mem_univ, true_and, slot_div hh', hi]
    · rintro rfl
      apply hy
      simp only [slots, mem_filter, mem_univ, true_and, slot_div hh', hi]
  unfold occupied
  rw [e]

/-- The copies of an item. -/
def copies (hc N i : Nat) (hi : i < N) : List (Fin (hc * N)) := List.ofFn fun h : Fin hc => (⟨hc * i + h.val, slot_lt h.isLt hi⟩ : Fin (hc * N))

theorem copies_nodup {i : Nat} (hi : i < N) : (copies hc N i hi).Nodup := by
  unfold copies
  rw [List.nodup_ofFn]
  intro a b e
  have := congrArg Fin.val e
  simp only at this
  exact Fin.ext (by omega)

theorem copies_slots {i : Nat} (hi : i < N) {is : List Nat} (hni : i ∉ is) : ∀ y ∈ copies hc N i hi, y ∉ slots hc N is := by
  intro y hy
  unfold copies at hy
  rw [List.mem_ofFn] at hy
  obtain ⟨h, rfl⟩ := hy
  simp only [slots, mem_filter, mem_univ, true_and, slot_div h.isLt]
  exact hni

/-- Item `i` of a request `pre ++ i :: post` is dropped exactly if all its copies lie in occupied rows. -/
theorem dropped_iff (hh : 0 < hc) (hcols : 0 < cols) {pre post : List Nat} {i : Nat} (hnd : (pre ++ i :: post).Nodup) (hin : ∀ j ∈ pre ++ i :: post, j < N)
    (σ : Perm (Fin (hc * N))) {m : Mapping} (hm : (permHash hc N σ).hashToMapping (pre ++ i :: post) cols = some m) :
    (¬ ∃ r c, m r = some (c, i)) ↔ σ ∈ hitting (occupied hc N cols pre) (copies hc N i (hin i (by simp))) := by
  have hi : i < N := hin i (by simp)
  obtain ⟨m0, h0⟩ := C11_mapping_total _ (permHash_shuffle σ) hc N _ (permHash_new hh σ) pre cols hcols (fun j hj => hin j (by simp [hj]))
  have h := (C12_served_iff_free _ (permHash_shuffle σ) hc N _ (permHash_new hh σ) cols hcols pre post i hnd hin m0 m h0 hm).1
  rw [h, mem_hitting]
  push Not
  constructor
  · intro hno y hy
    unfold copies at hy
    rw [List.mem_ofFn] at hy
    obtain ⟨h, rfl⟩ := hy
    simp only [occupied, mem_filter, mem_univ, true_and]
    intro m' hm'
    rw [h0] at hm'
    cases hm'
    refine hno h.val _ (σ ⟨hc * i + h.val, slot_lt h.isLt hi⟩ % cols) h.isLt ?_
    unfold hashToTuple
    rw [permHash_hash σ (slot_lt h.isLt hi)]
    exact if_neg (by omega)
  · intro hall h r c hlt ht
    have hy := hall ⟨hc * i + h, slot_lt hlt hi⟩ (by unfold copies; rw [List.mem_ofFn]; exact ⟨⟨h, hlt⟩, rfl⟩)
    simp only [occupied, mem_filter, mem_univ, true_and] at hy
    unfold hashToTuple at ht
    rw [permHash_hash σ (slot_lt hlt hi)] at ht
    simp only [if_neg (show ¬ cols = 0 by omega), Option.some.injEq, Prod.mk.injEq] at ht
    rw [← ht.1]
    exact hy m0 h0

/-- At most `cols - 1` free cells in each of at most `|pre|` occupied rows. -/
theorem occupied_free (hh : 0 < hc) (hcols : 0 < cols) {pre : List Nat} (hnd : pre.Nodup) (hin : ∀ j ∈ pre, j < N)
    (σ : Perm (Fin (hc * N))) : (univ.filter fun y => y ∉ slots hc N pre ∧ σ y ∈ occupied hc N cols pre σ).card ≤ pre.length * (cols - 1) := by
  classical
  obtain ⟨m0, h0⟩ := C11_mapping_total _ (permHash_shuffle σ) hc N _ (permHash_new hh σ) pre cols hcols hin
  have hs := C11_mapping_sound _ (permHash_shuffle σ) hc N _ (permHash_new hh σ) pre cols hcols hin m0 h0
  -- the free point goes to the row of an item of `pre`, and to another column
  have key : ∀ y : Fin (hc * N), y ∉ slots hc N pre ∧ σ y ∈ occupied hc N cols pre σ →
      ∃ i ∈ pre, ∃ c, m0 ((σ y).val / cols) = some (c, i) ∧ c < cols ∧ (σ y).val % cols ≠ c := by
    rintro y ⟨h1, h2⟩
    simp only [occupied, mem_filter, mem_univ, true_and] at h2
    have h3 := h2 m0 h0
    cases hm : m0 ((σ y).val / cols) with
    | none => exact absurd hm h3
    | some v =>
      obtain ⟨c, i⟩ := v
      obtain ⟨hi, h, hlt, ht⟩ := hs.1 _ _ _ hm
      refine ⟨i, hi, c, rfl, ?_, ?_⟩
      · exact (tuple_eq.mp ht).2.1
      · rintro rfl
        have ht2 := (tuple_eq.mp ht).2.2
        rw [permHash_hash σ (slot_lt hlt (hin i hi)), Nat.div_add_mod] at ht2
        have e := σ.injective (Fin.ext (Option.some.inj ht2))
        apply h1
        rw [← e]
        simp only [slots, mem_filter, mem_univ, true_and, slot_div hlt, hi]
  -- map a free point to the item and its column (columns after the item's moved down by one)
  let f : Fin (hc * N) → Nat × Nat := fun y =>
    match m0 ((σ y).val / cols) with
    | some (c, i) => (i, if (σ y).val % cols < c then (σ y).val % cols else (σ y).val % cols - 1)
    | none => (0, 0)
  have hcard : (univ.filter fun y => y ∉ slots hc N pre ∧ σ y ∈ occupied hc N cols pre σ).card ≤ (pre.toFinset ×ˢ Finset.range (cols - 1)).card := by
    refine Finset.card_le_card_of_injOn f ?_ ?_
    · intro y hy
      simp only [coe_filter, mem_univ, true_and, Set.mem_ofPred_eq] at hy
      obtain ⟨i, hi, c, hm, hc1, hc2⟩ := key y hy
      have hmod := Nat.mod_lt (σ y).val hcols
      simp only [f, hm, coe_product, Set.mem_prod, mem_coe, List.mem_toFinset, Finset.mem_range]
      refine ⟨hi, ?_⟩
      split <;> omega
    · intro y hy z hz e
      simp only [coe_filter, mem_univ, true_and, Set.mem_ofPred_eq] at hy hz
      obtain ⟨i, hi, c, hm, hc1, hc2⟩ := key y hy
      obtain ⟨i', hi', c', hm', hc1', hc2'⟩ := key z hz
      simp only [f, hm, hm', Prod.mk.injEq] at e
      obtain ⟨rfl, e2⟩ := e
      have hr := hs.2 hnd _ _ _ _ _ hm hm'
      have hcc : c = c' := by rw [hr, hm'] at hm; simpa using hm.symm
      subst hcc
      have hmod : (σ y).val % cols = (σ z).val % cols := by
        split at e2 <;> split at e2 <;> omega
      apply σ.injective
      apply Fin.ext
      rw [← Nat.div_add_mod (σ y).val cols, ← Nat.div_add_mod (σ z).val cols, hr, hmod]
  rw [Finset.card_product, Finset.card_range, List.toFinset_card_of_nodup hnd] at hcard
  exact hcard


theorem drawnHash_eq (hh : 0 < hc) {d : Rolls (hc * N)} {σ : Perm (Fin (hc * N))} (h : shuffleWith d.at (List.range (hc * N)) = tableOf σ) :
    drawnHash hc N d = some (permHash hc N σ) := by
  unfold drawnHash NaiveHash.new permHash
  rw [if_pos hh, h]

theorem drops_iff (hh : 0 < hc) {is : List Nat} {d : Rolls (hc * N)} {σ : Perm (Fin (hc * N))}
    (h : shuffleWith d.at (List.range (hc * N)) = tableOf σ) : Drops hc N cols is d ↔ ¬ Complete (permHash hc N σ) cols is := by
  unfold Drops
  rw [drawnHash_eq hh h]
  simp

/-- Some item is dropped: it is the `t`-th, for some `t`. -/
theorem not_complete_iff (hh : 0 < hc) (hcols : 0 < cols) {is : List Nat} (hnd : is.Nodup) (hin : ∀ j ∈ is, j < N) (σ : Perm (Fin (hc * N))) :
    ¬ Complete (permHash hc N σ) cols is ↔ ∃ t, ∃ h : t < is.length, σ ∈ hitting (occupied hc N cols (is.take t)) (copies hc N is[t] (hin _ (List.getElem_mem h))) := by
  obtain ⟨m, hm⟩ := C11_mapping_total _ (permHash_shuffle σ) hc N _ (permHash_new hh σ) is cols hcols hin
  have split : ∀ t (h : t < is.length), is = is.take t ++ is[t] :: is.drop (t + 1) := fun t h => by simp
  have key : ∀ t (h : t < is.length), (¬ ∃ r c, m r = some (c, is[t])) ↔
      σ ∈ hitting (occupied hc N cols (is.take t)) (copies hc N is[t] (hin _ (List.getElem_mem h))) := by
    intro t h
    have e := split t h
    exact dropped_iff hh hcols (pre := is.take t) (post := is.drop (t + 1)) (i := is[t]) (by rw [← e]; exact hnd) (by rw [← e]; exact hin) σ
      (by rw [← e]; exact hm)
  unfold Complete
  rw [hm]
  simp only [Option.some.injEq, exists_eq_left']
  push Not
  constructor
  · rintro ⟨i, hi, hno⟩
    obtain ⟨t, h, rfl⟩ := List.mem_iff_getElem.mp hi
    exact ⟨t, h, (key t h).mp (by push Not; exact hno)⟩
  · rintro ⟨t, h, hσ⟩
    refine ⟨is[t], List.getElem_mem h, ?_⟩
    have := (key t h).mpr hσ
    push Not at this
    exact this

/-- C89 (a batch): the probability that a request for `k` distinct items is not served completely is at most
`sum over t < k of (t (cols - 1)) (t (cols - 1) - 1) ... / (M - hc t) (M - hc t - 1) ...`, `hc` factors each, for `M = hc N` cells. -/
theorem C89_batch (hh : 0 < hc) (hcols : 0 < cols) {is : List Nat} (hnd : is.Nodup) (hin : ∀ j ∈ is, j < N) :
    chance (Drops hc N cols is) ≤ ∑ t ∈ Finset.range is.length,
      ((t * (cols - 1)).descFactorial hc : ℚ) / ((hc * N - hc * t).descFactorial hc : ℚ) := by
  classical
  rw [chance_perm (Q := fun σ => ¬ Complete (permHash hc N σ) cols is) fun d σ h => drops_iff hh h]
  have hfac : (0 : ℚ) < ((hc * N).factorial : ℚ) := by exact_mod_cast Nat.factorial_pos _
  let A : Nat → Finset (Perm (Fin (hc * N))) := fun t =>
    if h : t < is.length then hitting (occupied hc N cols (is.take t)) (copies hc N is[t] (hin _ (List.getElem_mem h))) else ∅
  have hsub : (univ.filter fun σ => ¬ Complete (permHash hc N σ) cols is) ⊆ (Finset.range is.length).biUnion A := by
    intro σ hσ
    simp only [mem_filter, mem_univ, true_and] at hσ
    obtain ⟨t, h, ht⟩ := (not_complete_iff hh hcols hnd hin σ).mp hσ
    simp only [mem_biUnion, Finset.mem_range]
    exact ⟨t, h, by simp only [A, dif_pos h]; exact ht⟩
  have hcard : ((univ.filter fun σ => ¬ Complete (permHash hc N σ) cols is).card : ℚ) ≤ ∑ t ∈ Finset.range is.length, ((A t).card : ℚ) := by
    exact_mod_cast (card_le_card hsub).trans card_biUnion_le
  rw [div_le_iff₀ hfac, Finset.sum_mul]
  refine le_trans (b := ∑ t ∈ Finset.range is.length, ((A t).card : ℚ)) hcard (Finset.sum_le_sum fun t ht => ?_)
  rw [Finset.mem_range] at ht
  have hpre : (is.take t).Nodup := hnd.sublist (List.take_sublist _ _)
  have hpin : ∀ j ∈ is.take t, j < N := fun j hj => hin j (List.mem_of_mem_take hj)
  have hni : is[t] ∉ is.take t := by
    intro hm
    obtain ⟨i, hi, e⟩ := List.mem_iff_getElem.mp hm
    rw [List.getElem_take] at e
    have := hnd.getElem_inj_iff.mp e
    rw [List.length_take] at hi
    omega
  have hlen : (is.take t).length = t := by rw [List.length_take]; omega
  have hle := hitting_le (S := slots hc N (is.take t)) (T := occupied hc N cols (is.take t)) (occupied_swap hpin) (occupied_free hh hcols hpre hpin)
    (copies_nodup (hc := hc) (hin _ (List.getElem_mem ht))) (copies_slots (hc := hc) (hin _ (List.getElem_mem ht)) hni)
  rw [slots_card hh hpre hpin, hlen] at hle
  have hcl : (copies hc N is[t] (hin _ (List.getElem_mem ht))).length = hc := by unfold copies; simp
  rw [hcl] at hle
  have hpos : (0 : ℚ) < ((hc * N - hc * t).descFactorial hc : ℚ) := by
    have hkN : is.length ≤ N := by
      have := Finset.card_le_card (s := is.toFinset) (t := Finset.range N) (fun j hj => by
        rw [List.mem_toFinset] at hj; exact Finset.mem_range.mpr (hin j hj))
      rwa [List.toFinset_card_of_nodup hnd, Finset.card_range] at this
    have : hc * (t + 1) ≤ hc * N := Nat.mul_le_mul_left _ (by omega)
    rw [Nat.mul_add, Nat.mul_one] at this
    exact_mod_cast Nat.descFactorial_pos.mpr (by omega)
  rw [div_mul_eq_mul_div, le_div_iff₀ hpos, mul_comm]
  simp only [A, dif_pos ht]
  exact_mod_cast hle


/-- C89 (a batch, simpler): with `t` items before it and `c = t (cols - 1)` cells left in their rows, an item is dropped with probability at most
`(c / (M - hc t)) ^ hc`. -/
theorem C89_batch_pow (hh : 0 < hc) (hcols : 0 < cols) {is : List Nat} (hnd : is.Nodup) (hin : ∀ j ∈ is, j < N)
    (hroom : is.length * (cols - 1 + hc) ≤ hc * N) :
    chance (Drops hc N cols is) ≤ ∑ t ∈ Finset.range is.length, (((t * (cols - 1) : Nat) : ℚ) / ((hc * N - hc * t : Nat) : ℚ)) ^ hc := by
  refine (C89_batch hh hcols hnd hin).trans (Finset.sum_le_sum fun t ht => ?_)
  rw [Finset.mem_range] at ht
  have h1 : t * (cols - 1) + hc * t + (cols - 1) + hc ≤ hc * N := by
    have : (t + 1) * (cols - 1 + hc) ≤ is.length * (cols - 1 + hc) := Nat.mul_le_mul_right _ ht
    nlinarith
  generalize t * (cols - 1) = c at h1 ⊢
  obtain ⟨m, hm⟩ : ∃ m, m = hc * N - hc * t := ⟨_, rfl⟩
  rw [← hm]
  have hcm : c ≤ m := by omega
  have hcm' : hc ≤ m := by omega
  clear h1 hm
  have : ∀ k ≤ hc, (c.descFactorial k : ℚ) / (m.descFactorial k : ℚ) ≤ ((c : ℚ) / (m : ℚ)) ^ k := by
    intro k
    induction k with
    | zero => intro _; simp
    | succ k ih =>
      intro hk
      have hkm : k < m := by omega
      rw [Nat.descFactorial_succ, Nat.descFactorial_succ, Nat.cast_mul, Nat.cast_mul, mul_div_mul_comm, pow_succ, mul_comm]
      refine mul_le_mul (ih (by omega)) ?_ (by positivity) (by positivity)
      have p1 : (0 : ℚ) < ((m - k : Nat) : ℚ) := by exact_mod_cast Nat.sub_pos_of_lt hkm
      have p2 : (0 : ℚ) < (m : ℚ) := by exact_mod_cast (by omega : 0 < m)
      rw [div_le_div_iff₀ p1 p2]
      have : (c - k) * m ≤ c * (m - k) := by
        rcases Nat.le_total k c with h | h
        · obtain ⟨a, rfl⟩ := Nat.exists_eq_add_of_le h
          obtain ⟨b, rfl⟩ := Nat.exists_eq_add_of_le (le_of_lt hkm)
          simp only [Nat.add_sub_cancel_left]
          have : a ≤ b := by omega
          nlinarith
        · rw [Nat.sub_eq_zero_of_le h]; simp
      exact_mod_cast this
  exact this hc (le_refl _)

/-! ### Two items, exactly -/

/-- The row of the first copy of an item. -/
theorem occupied_one (hh : 0 < hc) (hcols : 0 < cols) {i : Nat} (hi : i < N) (σ : Perm (Fin (hc * N))) :
    occupied hc N cols [i] σ = univ.filter fun p => p.val / cols = (σ ⟨hc * i + 0, slot_lt hh hi⟩).val / cols := by
  have hm : (permHash hc N σ).hashToMapping [i] cols = some (Mapping.insert (fun _ => none) ((σ ⟨hc * i + 0, slot_lt hh hi⟩).val / cols)
      ((σ ⟨hc * i + 0, slot_lt hh hi⟩).val % cols, i)) := by
    unfold hashToMapping
    simp only [mapAll]
    have e : List.range (permHash hc N σ).hCount = 0 :: (List.range (hc - 1)).map Nat.succ := by
      show List.range hc = _
      rw [← List.range_succ_eq_map]
      congr 1
      omega
    have e2 : (permHash hc N σ).hashToTuple 0 i cols = some ((σ ⟨hc * i + 0, slot_lt hh hi⟩).val / cols, (σ ⟨hc * i + 0, slot_lt hh hi⟩).val % cols) := by
      unfold hashToTuple
      rw [permHash_hash σ (slot_lt hh hi)]
      exact if_neg (by omega)
    rw [e, mapOne, e2]
  unfold occupied
  rw [hm]
  ext p
  simp only [Option.some.injEq, forall_eq', mem_filter, mem_univ, true_and, Mapping.insert, ne_eq, ite_eq_right_iff, reduceCtorEq, imp_false, not_not]

theorem row_free (hh : 0 < hc) (hcols : 0 < cols) (hsize : rows * cols = hc * N) (x : Fin (hc * N)) (σ : Perm (Fin (hc * N))) :
    (univ.filter fun y => y ∉ ({x} : Finset (Fin (hc * N))) ∧ (σ y).val / cols = (σ x).val / cols).card = cols - 1 := by
  have e : (univ.filter fun y => y ∉ ({x} : Finset (Fin (hc * N))) ∧ (σ y).val / cols = (σ x).val / cols).card
      = ((Finset.range cols).erase ((σ x).val % cols)).card := by
    refine Finset.card_bij (fun y _ => (σ y).val % cols) ?_ ?_ ?_
    · intro y hy
      simp only [mem_filter, mem_univ, true_and, mem_singleton] at hy
      rw [Finset.mem_erase, Finset.mem_range]
      refine ⟨fun h => hy.1 (σ.injective (Fin.ext ?_)), Nat.mod_lt _ hcols⟩
      rw [← Nat.div_add_mod (σ y).val cols, ← Nat.div_add_mod (σ x).val cols, hy.2, h]
    · intro a ha b hb h
      simp only [mem_filter, mem_univ, true_and, mem_singleton] at ha hb
      refine σ.injective (Fin.ext ?_)
      rw [← Nat.div_add_mod (σ a).val cols, ← Nat.div_add_mod (σ b).val cols, ha.2, hb.2, h]
    · intro c hc'
      rw [Finset.mem_erase, Finset.mem_range] at hc'
      have hlt : cols * ((σ x).val / cols) + c < hc * N := by
        have h1 : (σ x).val / cols < rows := by
          rw [Nat.div_lt_iff_lt_mul hcols, hsize]; exact (σ x).isLt
        have h2 : cols * ((σ x).val / cols + 1) ≤ cols * rows := Nat.mul_le_mul_left _ h1
        rw [Nat.mul_add, Nat.mul_comm cols rows, hsize] at h2
        omega
      have hd : (cols * ((σ x).val / cols) + c) / cols = (σ x).val / cols := by
        rw [Nat.mul_add_div hcols, Nat.div_eq_of_lt hc'.2, Nat.add_zero]
      have hmo : (cols * ((σ x).val / cols) + c) % cols = c := by
        rw [Nat.mul_add_mod, Nat.mod_eq_of_lt hc'.2]
      refine ⟨σ.symm ⟨_, hlt⟩, ?_, ?_⟩
      · simp only [mem_filter, mem_univ, true_and, mem_singleton, apply_symm_apply, hd, and_true]
        intro h
        have : (⟨_, hlt⟩ : Fin (hc * N)) = σ x := (symm_apply_eq σ).mp h
        have := congrArg (fun p : Fin (hc * N) => p.val % cols) this
        simp only [hmo] at this
        exact hc'.1 this
      · simp only [apply_symm_apply, hmo]
  rw [e, Finset.card_erase_of_mem (Finset.mem_range.mpr (Nat.mod_lt _ hcols)), Finset.card_range]

/-- C89 (two items, exactly): a request for two different items is not served completely with probability exactly
`(cols - 1) (cols - 2) ... / (M - 1) (M - 2) ...`, `hc` factors each. -/
theorem C89_two (hh : 0 < hc) (hcols : 0 < cols) (hsize : rows * cols = hc * N) {i j : Nat} (hij : i ≠ j) (hi : i < N) (hj : j < N) :
    chance (Drops hc N cols [i, j]) = ((cols - 1).descFactorial hc : ℚ) / ((hc * N - 1).descFactorial hc : ℚ) := by
  classical
  rw [chance_perm (Q := fun σ => ¬ Complete (permHash hc N σ) cols [i, j]) fun d σ h => drops_iff hh h]
  have hnd : [i, j].Nodup := by simp [hij]
  have hin : ∀ k ∈ [i, j], k < N := by simp [hi, hj]
  let x0 : Fin (hc * N) := ⟨hc * i + 0, slot_lt hh hi⟩
  let T : Perm (Fin (hc * N)) → Finset (Fin (hc * N)) := fun σ => univ.filter fun p => p.val / cols = (σ x0).val / cols
  have hT : ∀ σ x y, x ∉ ({x0} : Finset (Fin (hc * N))) → y ∉ ({x0} : Finset (Fin (hc * N))) → T (σ * swap x y) = T σ := by
    intro σ x y hx hy
    simp only [mem_singleton] at hx hy
    simp only [T, Perm.mul_apply, swap_apply_of_ne_of_ne (Ne.symm hx) (Ne.symm hy)]
  have hfree : ∀ σ : Perm (Fin (hc * N)), (univ.filter fun y => y ∉ ({x0} : Finset (Fin (hc * N))) ∧ σ y ∈ T σ).card = cols - 1 := by
    intro σ
    simp only [T, mem_filter, mem_univ, true_and]
    exact row_free hh hcols hsize x0 σ
  have heq := hitting_eq hT hfree (copies_nodup (hc := hc) hj) (fun y hy => by
    have := copies_slots (hc := hc) (N := N) hj (is := [i]) (by simp [Ne.symm hij]) y hy
    simp only [mem_singleton]
    rintro rfl
    exact this (by simp only [slots, mem_filter, mem_univ, true_and, x0, slot_div hh, List.mem_singleton]))
  have hcl : (copies hc N j hj).length = hc := by unfold copies; simp
  rw [hcl, card_singleton] at heq
  have hset : (univ.filter fun σ => ¬ Complete (permHash hc N σ) cols [i, j]) = hitting T (copies hc N j hj) := by
    ext σ
    simp only [mem_filter, mem_univ, true_and]
    rw [not_complete_iff hh hcols hnd hin σ]
    have h1 : hitting (occupied hc N cols [i]) (copies hc N j hj) = hitting T (copies hc N j hj) := by
      congr 1
      exact funext fun σ => occupied_one hh hcols hi σ
    constructor
    · rintro ⟨t, ht, hσ⟩
      rcases t with _ | _ | t
      · exfalso
        simp only [List.take_zero, List.getElem_cons_zero, mem_hitting] at hσ
        have := hσ ⟨hc * i + 0, slot_lt hh hi⟩ (by unfold copies; rw [List.mem_ofFn]; exact ⟨⟨0, hh⟩, rfl⟩)
        simp only [occupied, mem_filter, mem_univ, true_and] at this
        exact this _ rfl rfl
      · rw [← h1]; exact hσ
      · simp at ht; omega
    · intro hσ
      rw [← h1] at hσ
      exact ⟨1, by simp, hσ⟩
  have hfac : ((hc * N).factorial : ℚ) ≠ 0 := by exact_mod_cast Nat.factorial_ne_zero _
  have h2 : 2 ≤ N := by omega
  have hpos : ((hc * N - 1).descFactorial hc : ℚ) ≠ 0 := by
    have : hc * 2 ≤ hc * N := Nat.mul_le_mul_left _ h2
    exact_mod_cast (Nat.descFactorial_pos.mpr (by omega)).ne'
  rw [div_eq_div_iff hfac hpos]
  have : ((hitting T (copies hc N j hj)).card : ℚ) * ((hc * N - 1).descFactorial hc : ℚ) = ((cols - 1).descFactorial hc : ℚ) * ((hc * N).factorial : ℚ) := by
    rw [mul_comm]
    exact_mod_cast heq
  rw [← this]
  rw [hset]

end
end Panacea
