import Verif.Model.NaiveHash
import Mathlib.Data.List.Nodup
import Mathlib.Data.List.Dedup
import Mathlib.Data.Finset.Card
import Mathlib.Tactic.Ring
import Mathlib.Tactic.Linarith

namespace Panacea.NaiveHash

/-- Well-formed table: a permutation of `0 .. hCount*inputDomain - 1`. -/
structure WF (H : NaiveHash) : Prop where
  perm : H.tables.Perm (List.range (H.hCount * H.inputDomain))
  pos : 0 < H.hCount

theorem new_wf {shuffle : List Nat → List Nat} (hs : ∀ l, (shuffle l).Perm l) {h n : Nat} {H : NaiveHash}
    (hn : new shuffle h n = some H) : H.WF ∧ H.hCount = h ∧ H.inputDomain = n := by
  unfold new at hn
  split at hn
  · cases hn; exact ⟨⟨hs _, by assumption⟩, rfl, rfl⟩
  · cases hn

namespace WF
variable {H : NaiveHash} (w : H.WF)
include w

theorem length : H.tables.length = H.hCount * H.inputDomain := by
  rw [w.perm.length_eq, List.length_range]

theorem nodup : H.tables.Nodup := w.perm.nodup_iff.2 List.nodup_range

theorem idx_lt {h x : Nat} (hh : h < H.hCount) (hx : x < H.inputDomain) :
    H.hCount * x + h < H.tables.length := by
  rw [w.length]
  calc H.hCount * x + h < H.hCount * x + H.hCount := by omega
    _ = H.hCount * (x + 1) := by ring
    _ ≤ H.hCount * H.inputDomain := Nat.mul_le_mul_left _ hx

theorem hash_eq {h x : Nat} (hh : h < H.hCount) (hx : x < H.inputDomain) :
    H.hash h x = some (H.tables[H.hCount * x + h]'(w.idx_lt hh hx)) := by
  unfold hash
  rw [List.getElem?_eq_getElem]

theorem hash_lt {h x y : Nat} (hy : H.hash h x = some y) : y < H.hCount * H.inputDomain := by
  unfold hash at hy
  have : y ∈ H.tables := List.mem_of_getElem? hy
  rw [w.perm.mem_iff, List.mem_range] at this
  exact this

theorem idx_inj {h x h' x' : Nat} (hh : h < H.hCount) (hh' : h' < H.hCount)
    (he : H.hCount * x + h = H.hCount * x' + h') : h = h' ∧ x = x' := by
  have h1 : (H.hCount * x + h) / H.hCount = x := by
    rw [Nat.mul_add_div w.pos, Nat.div_eq_of_lt hh, add_zero]
  have h2 : (H.hCount * x' + h') / H.hCount = x' := by
    rw [Nat.mul_add_div w.pos, Nat.div_eq_of_lt hh', add_zero]
  have hx : x = x' := by rw [← h1, ← h2, he]
  subst hx; omega

theorem hash_inj {h x h' x' y : Nat} (hh : h < H.hCount) (hx : x < H.inputDomain)
    (hh' : h' < H.hCount) (hx' : x' < H.inputDomain)
    (h1 : H.hash h x = some y) (h2 : H.hash h' x' = some y) : h = h' ∧ x = x' := by
  rw [w.hash_eq hh hx] at h1
  rw [w.hash_eq hh' hx'] at h2
  injection h1 with h1; injection h2 with h2
  have := (w.nodup.getElem_inj_iff).1 (h1.trans h2.symm)
  exact w.idx_inj hh hh' this

theorem hash_surj {y : Nat} (hy : y < H.hCount * H.inputDomain) :
    ∃ h x, h < H.hCount ∧ x < H.inputDomain ∧ H.hash h x = some y := by
  have : y ∈ H.tables := by rw [w.perm.mem_iff, List.mem_range]; exact hy
  obtain ⟨i, hi, rfl⟩ := List.mem_iff_getElem.1 this
  rw [w.length] at hi
  refine ⟨i % H.hCount, i / H.hCount, Nat.mod_lt _ w.pos, ?_, ?_⟩
  · rw [Nat.div_lt_iff_lt_mul w.pos, mul_comm]; exact hi
  · unfold hash
    rw [Nat.div_add_mod, List.getElem?_eq_getElem]

end WF

/-- Rows probed for index `i`. -/
def candRows (H : NaiveHash) (d i : Nat) : List Nat :=
  (List.range H.hCount).filterMap (fun h => (H.hashToTuple h i d).map Prod.fst)

theorem mapOne_cases (H : NaiveHash) (d i : Nat) (hs : List Nat) (out : Mapping)
    (hok : ∀ h ∈ hs, h < H.hCount ∧ (H.hashToTuple h i d).isSome) :
    (∃ h r c, h ∈ hs ∧ H.hashToTuple h i d = some (r, c) ∧ out r = none ∧
        H.mapOne d i hs out = some (out.insert r (c, i))) ∨
    ((∀ h ∈ hs, ∀ r c, H.hashToTuple h i d = some (r, c) → (out r).isSome) ∧ H.mapOne d i hs out = some out) := by
  induction hs with
  | nil => right; simp [mapOne]
  | cons h hs ih =>
    obtain ⟨hlt, hsome⟩ := hok h (by simp)
    obtain ⟨⟨r, c⟩, hrc⟩ := Option.isSome_iff_exists.1 hsome
    simp only [mapOne, hrc]
    cases ho : out r with
    | none =>
      left; exact ⟨h, r, c, by simp, hrc, ho, rfl⟩
    | some v =>
      simp only
      rw [if_neg (by omega)]
      rcases ih (fun h' hh' => hok h' (by simp [hh'])) with ⟨h', r', c', a, b, e, f⟩ | ⟨a, b⟩
      · left; exact ⟨h', r', c', by simp [a], b, e, f⟩
      · right
        refine ⟨?_, b⟩
        intro h' hh' r' c' hrc'
        rcases List.mem_cons.1 hh' with rfl | hh'
        · rw [hrc] at hrc'; cases hrc'; rw [ho]; rfl
        · exact a h' hh' r' c' hrc'

theorem WF.tuple_some {H : NaiveHash} (w : H.WF) {h x d : Nat} (hh : h < H.hCount) (hx : x < H.inputDomain)
    (hd : 0 < d) : (H.hashToTuple h x d).isSome := by
  unfold hashToTuple
  rw [w.hash_eq hh hx]; simp; omega

theorem tuple_eq {H : NaiveHash} {h x d r c : Nat} :
    H.hashToTuple h x d = some (r, c) ↔ 0 < d ∧ c < d ∧ H.hash h x = some (d * r + c) := by
  unfold hashToTuple
  cases hh : H.hash h x with
  | none => simp
  | some y =>
    simp only
    by_cases hd : d = 0
    · simp [hd]
    · have hdp : 0 < d := by omega
      rw [if_neg hd]
      simp only [Option.some.injEq, Prod.mk.injEq]
      constructor
      · rintro ⟨rfl, rfl⟩
        exact ⟨hdp, Nat.mod_lt _ hdp, (Nat.div_add_mod y d).symm⟩
      · rintro ⟨_, hc, rfl⟩
        exact ⟨by rw [Nat.mul_add_div hdp, Nat.div_eq_of_lt hc, add_zero],
          by rw [Nat.mul_add_mod, Nat.mod_eq_of_lt hc]⟩

/-- The outer loop maintains any invariant maintained by both branches of the inner loop. -/
theorem mapAll_total {H : NaiveHash} (w : H.WF) (d : Nat) (hd : 0 < d) (is : List Nat)
    (his : ∀ i ∈ is, i < H.inputDomain) (out : Mapping) : ∃ m, H.mapAll d is out = some m := by
  induction is generalizing out with
  | nil => exact ⟨out, rfl⟩
  | cons i is ih =>
    have hok : ∀ h ∈ List.range H.hCount, h < H.hCount ∧ (H.hashToTuple h i d).isSome := by
      intro h hh
      rw [List.mem_range] at hh
      exact ⟨hh, w.tuple_some hh (his i (by simp)) hd⟩
    simp only [mapAll]
    rcases mapOne_cases H d i _ out hok with ⟨h, r, c, _, _, _, e⟩ | ⟨_, e⟩ <;> rw [e] <;>
      exact ih (fun j hj => his j (by simp [hj])) _

theorem mapAll_append (H : NaiveHash) (d : Nat) (is js : List Nat) (out : Mapping) :
    H.mapAll d (is ++ js) out = (H.mapAll d is out).bind (fun m => H.mapAll d js m) := by
  induction is generalizing out with
  | nil => rfl
  | cons i is ih =>
    simp only [List.cons_append, mapAll]
    cases H.mapOne d i (List.range H.hCount) out with
    | none => rfl
    | some o => exact ih o

end Panacea.NaiveHash
