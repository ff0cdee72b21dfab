import Verif.Lemmas.Database
import Verif.Props.Oram

/-! # Lemmas for `process_multi`: parallel sums of vectors of ciphertexts -/

namespace Panacea
variable {n : Nat}

/-- A parallel reduction under a homomorphism into a commutative monoid. -/
theorem parReduce_hom {α M : Type} [AddCommMonoid M] {op : α → α → α} {id : α} {P : α → Prop} {φ : α → M} (hid : P id) (hφ : φ id = 0)
    (hop : ∀ a b, P a → P b → P (op a b) ∧ φ (op a b) = φ a + φ b) {xs : List α} {a : α} (h : ParReduce op id xs a) :
    (∀ x ∈ xs, P x) → P a ∧ φ a = (xs.map φ).sum := by
  induction h with
  | fold xs =>
    intro hx
    have : ∀ (xs : List α) (acc : α), P acc → (∀ x ∈ xs, P x) → P (xs.foldl op acc) ∧ φ (xs.foldl op acc) = φ acc + (xs.map φ).sum := by
      intro xs
      induction xs with
      | nil => intro acc h _; exact ⟨h, by simp⟩
      | cons x xs ih =>
        intro acc h hx
        obtain ⟨h1, h2⟩ := hop acc x h (hx x (by simp))
        obtain ⟨h3, h4⟩ := ih (op acc x) h1 (fun y hy => hx y (by simp [hy]))
        exact ⟨h3, by rw [List.foldl_cons, h4, h2, List.map_cons, List.sum_cons, add_assoc]⟩
    obtain ⟨h1, h2⟩ := this xs id hid hx
    exact ⟨h1, by rw [h2, hφ, zero_add]⟩
  | @split xs ys a b _ _ ih1 ih2 =>
    intro hx
    obtain ⟨h1, h2⟩ := ih1 (fun x hx' => hx x (by simp [hx']))
    obtain ⟨h3, h4⟩ := ih2 (fun x hx' => hx x (by simp [hx']))
    obtain ⟨h5, h6⟩ := hop a b h1 h3
    exact ⟨h5, by rw [h6, h2, h4, List.map_append, List.sum_append]⟩

theorem sum_map_apply {α ι M : Type} [AddCommMonoid M] (f : α → ι → M) (i : ι) : ∀ xs : List α, (xs.map f).sum i = (xs.map fun x => f x i).sum
  | [] => rfl
  | x :: xs => by
    rw [List.map_cons, List.sum_cons, Pi.add_apply, sum_map_apply f i xs, List.map_cons, List.sum_cons]

/-- Sum of ciphertext vectors, column by column. -/
theorem parReduce_vec {cols : Nat} {xs : List (List (RLWE n))} {a : List (RLWE n)} (h : ParReduce addVec (List.replicate cols 0) xs a)
    (hx : ∀ x ∈ xs, x.length = cols) : a.length = cols ∧ ∀ j c, a[j]? = some c → c = (xs.map fun x => x.getD j 0).sum := by
  obtain ⟨h1, h2⟩ := parReduce_hom (P := fun a : List (RLWE n) => a.length = cols) (φ := fun a (j : Nat) => a.getD j 0)
    (by simp) (by
      funext j
      simp only [List.getD_eq_getElem?_getD, List.getElem?_replicate]
      split <;> rfl) (fun a b ha hb => by
      refine ⟨by simp [addVec, ha, hb], ?_⟩
      funext j
      simp only [List.getD_eq_getElem?_getD, addVec, List.getElem?_zipWith, Pi.add_apply]
      by_cases hj : j < cols
      · rw [List.getElem?_eq_getElem (by omega), List.getElem?_eq_getElem (by omega)]; rfl
      · rw [List.getElem?_eq_none (by omega), List.getElem?_eq_none (by omega)]; simp) h hx
  refine ⟨h1, fun j c hc => ?_⟩
  have := congrFun h2 j
  rw [sum_map_apply] at this
  simp only [List.getD_eq_getElem?_getD] at this
  rw [hc] at this
  simpa [List.getD_eq_getElem?_getD] using this

/-- The shape of a vector of column selectors. -/
def SelShape (cols bl lv : Nat) (ls : List (RGSW n)) : Prop := ls.length = cols ∧ ∀ l ∈ ls, l.baseLog = bl ∧ l.rows.length = lv

/-- Sum of vectors of RGSW ciphertexts, column by column and row by row. -/
theorem parReduce_gsw {cols bl lv : Nat} {xs : List (List (RGSW n))} {a : List (RGSW n)}
    (h : ParReduce addGswVec (List.replicate cols (RGSW.allocate n bl lv)) xs a) (hx : ∀ x ∈ xs, SelShape cols bl lv x) :
    SelShape cols bl lv a ∧ ∀ j L k r, a[j]? = some L → L.rows[k]? = some r →
      r = (xs.map fun x => (x.getD j ⟨0, []⟩).rows.getD k (0, 0)).sum := by
  obtain ⟨h1, h2⟩ := parReduce_hom (P := SelShape (n := n) cols bl lv)
    (φ := fun a (p : Nat × Nat) => (a.getD p.1 ⟨0, []⟩).rows.getD p.2 (0, 0))
    ⟨by simp, fun l hl => by rw [List.eq_of_mem_replicate hl]; simp [RGSW.allocate]⟩ (by
      funext p
      simp only [List.getD_eq_getElem?_getD, List.getElem?_replicate]
      split
      · simp only [Option.getD_some, RGSW.allocate, List.getElem?_replicate]
        split <;> rfl
      · rfl) (fun a b ha hb => by
      refine ⟨⟨by simp [addGswVec, ha.1, hb.1], fun l hl => ?_⟩, ?_⟩
      · obtain ⟨j, hj⟩ := List.mem_iff_getElem?.mp hl
        simp only [addGswVec, List.getElem?_zipWith] at hj
        split at hj
        · rename_i x y hx hy
          cases hj
          have h1 := ha.2 x (List.mem_of_getElem? hx)
          have h2 := hb.2 y (List.mem_of_getElem? hy)
          exact ⟨h1.1, by simp [RGSW.updateWithAdd, h1.2, h2.2]⟩
        · cases hj
      · funext p
        simp only [List.getD_eq_getElem?_getD, addGswVec, List.getElem?_zipWith, Pi.add_apply]
        by_cases hj : p.1 < cols
        · have e1 : p.1 < a.length := by rw [ha.1]; exact hj
          have e2 : p.1 < b.length := by rw [hb.1]; exact hj
          rw [List.getElem?_eq_getElem e1, List.getElem?_eq_getElem e2]
          simp only [Option.getD_some, RGSW.updateWithAdd, List.getElem?_zipWith]
          have h1 := (ha.2 a[p.1] (List.getElem_mem e1)).2
          have h2 := (hb.2 b[p.1] (List.getElem_mem e2)).2
          by_cases hk : p.2 < lv
          · rw [List.getElem?_eq_getElem (by omega), List.getElem?_eq_getElem (by omega)]; rfl
          · rw [List.getElem?_eq_none (by omega), List.getElem?_eq_none (by omega)]; simp
        · have e1 : a[p.1]? = none := List.getElem?_eq_none (by rw [ha.1]; omega)
          have e2 : b[p.1]? = none := List.getElem?_eq_none (by rw [hb.1]; omega)
          rw [e1, e2]; simp) h hx
  refine ⟨h1, fun j L k r hL hr => ?_⟩
  have := congrFun h2 (j, k)
  rw [sum_map_apply] at this
  simp only [List.getD_eq_getElem?_getD] at this
  rw [hL] at this
  simp only [Option.getD_some] at this
  rw [hr] at this
  simpa [List.getD_eq_getElem?_getD] using this

/-- Sum of encryptions described by specifications. -/
theorem forall₂_sum_enc {α : Type} {s : Poly n} {m : α → Poly n} {e : α → Nat} : ∀ {as : List α} {xs : List (RLWE n)},
    List.Forall₂ (fun a x => Enc s x (m a) (e a)) as xs → Enc s xs.sum (as.map m).sum (as.map e).sum
  | _, _, .nil => Enc.zero s
  | _, _, .cons h hs => by
    simp only [List.sum_cons, List.map_cons]
    exact h.add (forall₂_sum_enc hs)

theorem forall₂_map_right {α β γ : Type} {Q : α → γ → Prop} {f : β → γ} : ∀ {as : List α} {bs : List β},
    List.Forall₂ (fun a b => Q a (f b)) as bs → List.Forall₂ Q as (bs.map f)
  | _, _, .nil => .nil
  | _, _, .cons h hs => .cons h (forall₂_map_right hs)

theorem sum_map_ite {α M : Type} [AddCommMonoid M] (p : α → Bool) (f : α → M) : ∀ l : List α,
    (l.map fun a => if p a then f a else 0).sum = ((l.filter p).map f).sum
  | [] => rfl
  | a :: l => by
    rw [List.map_cons, List.sum_cons, sum_map_ite p f l, List.filter_cons]
    by_cases h : p a
    · simp [h]
    · simp [h]

theorem sum_map_const_nat {α : Type} (c : Nat) : ∀ l : List α, (l.map fun _ => c).sum = l.length * c
  | [] => by simp
  | a :: l => by simp [Nat.succ_mul, Nat.add_comm]

theorem sum_mul_left_list {α : Type} (c : Poly n) (f : α → Poly n) : ∀ l : List α, (l.map fun a => c * f a).sum = c * (l.map f).sum
  | [] => by simp
  | a :: l => by simp only [List.map_cons, List.sum_cons, sum_mul_left_list c f l]; ring

theorem l1_natCast (k : Nat) : l1 (k : Poly n) ≤ k := by
  induction k with
  | zero =>
    rw [Nat.cast_zero]
    exact le_of_eq (by unfold l1; exact Finset.sum_eq_zero (fun i _ => rfl))
  | succ k ih =>
    rw [Nat.cast_succ]
    exact le_trans (l1_add _ _) (Nat.add_le_add ih l1_one)

theorem Small.natCast_mul (k : Nat) {q : Poly n} {B : Nat} (h : Small q B) : Small ((k : Poly n) * q) (k * B) :=
  (Small.l1_mul _ h).mono (Nat.mul_le_mul_right _ (l1_natCast k))

end Panacea
