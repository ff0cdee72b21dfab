import Verif.Lemmas.Oram
import Verif.Props.NaiveHash

/-! # Lemmas: databases as grids of ciphertexts -/

namespace Panacea
variable {n : Nat}

/-- A database of `rows` rows of `cols` cells. -/
def DbShape (rows cols : Nat) (db : List (List (RLWE n))) : Prop := db.length = rows ∧ ∀ row ∈ db, row.length = cols

theorem cellAt_isSome {rows cols : Nat} {db : List (List (RLWE n))} (h : DbShape rows cols db) {p : Nat × Nat} (h1 : p.1 < rows)
    (h2 : p.2 < cols) : ∃ c, cellAt db p = some c := by
  unfold cellAt
  have hl : p.1 < db.length := by rw [h.1]; exact h1
  rw [List.getElem?_eq_getElem hl]
  simp only
  have := h.2 db[p.1] (List.getElem_mem hl)
  exact ⟨_, List.getElem?_eq_getElem (by omega)⟩

theorem setCell_shape {rows cols : Nat} {db : List (List (RLWE n))} (h : DbShape rows cols db) (p : Nat × Nat) (v : RLWE n) :
    DbShape rows cols (setCell db p v) := by
  unfold setCell
  refine ⟨by simp [h.1], fun row hrow => ?_⟩
  obtain ⟨k, hk⟩ := List.mem_iff_getElem?.mp hrow
  rw [List.getElem?_modify] at hk
  rw [Option.map_eq_map, Option.map_eq_some_iff] at hk
  obtain ⟨r, hr, rfl⟩ := hk
  have := h.2 r (List.mem_of_getElem? hr)
  split <;> simp [this]

theorem cellAt_setCell {rows cols : Nat} {db : List (List (RLWE n))} (h : DbShape rows cols db) {p : Nat × Nat} (h1 : p.1 < rows)
    (h2 : p.2 < cols) (v : RLWE n) (p' : Nat × Nat) : cellAt (setCell db p v) p' = if p' = p then some v else cellAt db p' := by
  obtain ⟨r, c⟩ := p
  obtain ⟨r', c'⟩ := p'
  unfold cellAt setCell
  simp only [List.getElem?_modify]
  by_cases hr : r = r'
  · subst hr
    have hl : r < db.length := by rw [h.1]; exact h1
    have hlen := h.2 db[r] (List.getElem_mem hl)
    rw [List.getElem?_eq_getElem hl]
    simp only [Option.map_eq_map, Option.map_some]
    rw [if_pos trivial, List.getElem?_set]
    by_cases hc : c = c'
    · subst hc
      rw [if_pos rfl, if_pos (by omega), if_pos rfl]
    · rw [if_neg hc, if_neg (by simp; omega)]
  · have hne : ¬ (r', c') = (r, c) := by simp; omega
    rw [if_neg hne]
    rcases db[r']? with _ | row
    · rfl
    · simp only [Option.map_eq_map, Option.map_some]
      rw [if_neg hr]

theorem cellAt_some_lt {rows cols : Nat} {db : List (List (RLWE n))} (h : DbShape rows cols db) {p : Nat × Nat} {c : RLWE n}
    (hc : cellAt db p = some c) : p.1 < rows ∧ p.2 < cols := by
  unfold cellAt at hc
  split at hc
  · cases hc
  · rename_i row hrow
    have h1 := (List.getElem?_eq_some_iff.mp hrow).1
    have h2 := (List.getElem?_eq_some_iff.mp hc).1
    have := h.2 row (List.mem_of_getElem? hrow)
    rw [h.1] at h1
    omega

/-- `t h i` is the cell of copy `h` of item `i`: in range, and different copies are in different cells. -/
structure Layout (H : NaiveHash) (rows cols hc N : Nat) (t : Nat → Nat → Nat × Nat) : Prop where
  count : H.hCount = hc
  cols_pos : 0 < cols
  tuple : ∀ h i, h < hc → i < N → H.hashToTuple h i cols = some (t h i)
  row_lt : ∀ h i, h < hc → i < N → (t h i).1 < rows
  col_lt : ∀ h i, h < hc → i < N → (t h i).2 < cols
  inj : ∀ h i h' i', h < hc → i < N → h' < hc → i' < N → t h i = t h' i' → h = h' ∧ i = i'
  surj : ∀ r c, r < rows → c < cols → ∃ h i, h < hc ∧ i < N ∧ t h i = (r, c)

theorem layout_of_hash (shuffle : List Nat → List Nat) (hs : ∀ l, (shuffle l).Perm l) {hc N : Nat} {H : NaiveHash}
    (hnew : NaiveHash.new shuffle hc N = some H) {rows cols : Nat} (hcols : 0 < cols) (hsize : rows * cols = hc * N) :
    ∃ t, Layout H rows cols hc N t := by
  obtain ⟨h1, h2, h3⟩ := C10_tuple_bijection shuffle hs hc N H hnew rows cols hcols hsize
  have hcount : H.hCount = hc := by obtain ⟨_, rfl, rfl⟩ := NaiveHash.new_wf hs hnew; rfl
  refine ⟨fun h i => (H.hashToTuple h i cols).getD (0, 0), hcount, hcols, ?_, ?_, ?_, ?_, ?_⟩
  · intro h i hh hi
    obtain ⟨r, c, e, _⟩ := h1 h i hh hi
    rw [e]; rfl
  · intro h i hh hi
    obtain ⟨r, c, e, hr, _⟩ := h1 h i hh hi
    simp only [e]; exact hr
  · intro h i hh hi
    obtain ⟨r, c, e, _, hc', _⟩ := h1 h i hh hi
    simp only [e]; exact hc'
  · intro h i h' i' hh hi hh' hi' heq
    obtain ⟨r, c, e, _⟩ := h1 h i hh hi
    obtain ⟨r', c', e', _⟩ := h1 h' i' hh' hi'
    simp only [e, e'] at heq
    simp only [Option.getD_some] at heq
    rw [heq] at e
    exact h2 h i h' i' _ hh hi hh' hi' e e'
  · intro r c hr hc'
    obtain ⟨h, i, hh, hi, e⟩ := h3 r c hr hc'
    exact ⟨h, i, hh, hi, by rw [e]; rfl⟩

end Panacea
