import Verif.Lemmas.Machine
import Verif.Props.NaiveHash
import Verif.Props.Codec

/-!
# C68: machine arithmetic — the release build computes what the checked build computes

The tests of the crate run with overflow checks, the release build does not have them.  Each theorem says for which inputs the word-level
function is, *in both builds*, the function of the unbounded model, and what happens for the other inputs.
-/

namespace Panacea
open Spec

/-- C68: for every tree of words and every feature vector, `Node::eval` never overflows: in both builds it is the unbounded evaluation
(with the same panics), and the result fits a word. -/
theorem C68_tree_eval (b : Build) (t : Tree) (features : List Usize) (hth : ∀ nd, HasNode nd t → nd.threshold < 2 ^ 64)
    (hx : ∀ x, HasLeaf x t → x < 2 ^ 64) :
    t.evalW b features = (t.eval (features.map BitVec.toNat)).map (BitVec.ofNat 64) ∧
      ∀ y, t.eval (features.map BitVec.toNat) = some y → y < 2 ^ 64 :=
  Tree.evalNodeW_one b features t hth hx

/-- C68: the size functions and the numbering of nodes: as long as the exact answer fits a word, both builds give it. -/
theorem C68_tree_counts (b : Build) (t : Tree) :
    (t.countLeaf < 2 ^ 64 → t.countLeafW b = some (BitVec.ofNat 64 t.countLeaf)) ∧
    (t.countInternal < 2 ^ 64 → t.countInternalW b = some (BitVec.ofNat 64 t.countInternal)) ∧
    (t.countDepth < 2 ^ 64 → t.countDepthW b = some (BitVec.ofNat 64 t.countDepth)) ∧
    (t.isInternal → t.countInternal ≤ 2 ^ 64 →
      t.fixIndexFromW b 0 = some ((t.fixIndexFrom 0).1, BitVec.ofNat 64 (t.fixIndexFrom 0).2)) := by
  refine ⟨Tree.countLeafW_eq b t, Tree.countInternalW_eq b t, Tree.countDepthW_eq b t, fun h h2 => ?_⟩
  exact Tree.fixIndexFromW_eq b t 0 h (by omega)

/-- A tree with the largest labels and thresholds there are. -/
def maxTree : Tree := .internal ⟨2 ^ 64 - 1, 0, 0, .leq⟩ (.leaf (2 ^ 64 - 1)) (.internal ⟨2 ^ 64 - 1, 1, 0, .leq⟩ (.leaf (2 ^ 64 - 1)) .missing)

/-- The hypotheses of `C68_tree_eval` and `C68_tree_counts` are met by that tree. -/
example : (∀ nd, HasNode nd maxTree → nd.threshold < 2 ^ 64) ∧ (∀ x, HasLeaf x maxTree → x < 2 ^ 64) ∧ maxTree.isInternal ∧
    maxTree.countLeaf = 2 ∧ maxTree.evalW .release [5, 7] = some (2 ^ 64 - 1) ∧ maxTree.evalW .checked [5, 7] = some (2 ^ 64 - 1) := by
  refine ⟨?_, ?_, rfl, rfl, by decide +kernel, by decide +kernel⟩
  · intro nd h
    cases h with
    | here => decide
    | left _ _ _ h => cases h
    | right _ _ _ h => cases h with
      | here => decide
      | left _ _ _ h => cases h
      | right _ _ _ h => cases h
  · intro x h
    cases h with
    | left _ _ _ h => cases h; decide
    | right _ _ _ h => cases h with
      | left _ _ _ h => cases h; decide
      | right _ _ _ h => cases h

/-- C68: in the release build the substitution `X -> X^k` is right for *every* odd word `k`, although `i * k` may wrap around; the checked
build computes the same if `(n-1) * k` fits a word, and panics otherwise. -/
theorem C68_eval_x_k {d : Nat} (hd : d ≤ 63) (out p : Poly (2 ^ d)) (k : Usize) :
    evalXkInMemoryW .release out p k = evalXkInMemory out p k.toNat ∧
    ((2 ^ d - 1) * k.toNat < 2 ^ 64 → evalXkInMemoryW .checked out p k = evalXkInMemory out p k.toNat) ∧
    (2 ^ 64 ≤ (2 ^ d - 1) * k.toNat → evalXkInMemoryW .checked out p k = none) := by
  have h2d : 2 ^ d ≤ 2 ^ 63 := Nat.pow_le_pow_right (by decide) hd
  have hodd : (k % 2 = 1) ↔ (k.toNat % 2 = 1) := by
    constructor
    · intro h
      have := congrArg BitVec.toNat h
      rwa [BitVec.toNat_umod] at this
    · intro h
      apply BitVec.eq_of_toNat_eq
      rw [BitVec.toNat_umod]; exact h
  have hrange : ∀ i ∈ List.range' 1 (2 ^ d - 1), i < 2 ^ d := by
    intro i hi
    rw [List.mem_range'] at hi
    obtain ⟨j, hj, rfl⟩ := hi
    omega
  unfold evalXkInMemoryW evalXkInMemory
  simp only [hodd]
  refine ⟨?_, fun h => ?_, fun h => ?_⟩
  · split
    · split
      · exact foldlM_some (fun i hi acc => evalXkStepW_release hd p k acc (hrange i hi)) _
      · rfl
    · rfl
  · split
    · split
      · refine foldlM_some (fun i hi acc => ?_) _
        have hi' := hrange i hi
        rw [evalXkStepW_checked p k acc (by omega), if_pos, evalXkStepW_release hd p k acc hi']
        exact lt_of_le_of_lt (Nat.mul_le_mul_right _ (by omega)) h
      · rfl
    · rfl
  · split
    · split
      · have hpos : 0 < 2 ^ d - 1 := by
          by_contra hc
          rw [show 2 ^ d - 1 = 0 by omega, Nat.zero_mul] at h
          omega
        refine foldlM_none (x := 2 ^ d - 1) ?_ (fun acc => ?_) _
        · rw [List.mem_range']; exact ⟨2 ^ d - 2, by omega, by omega⟩
        · rw [evalXkStepW_checked p k acc (by omega), if_neg (by omega)]
      · rfl
    · rfl

/-- The substitution keys of the crate have `k ≤ n + 1`, where nothing overflows up to ring size 2^31; and a `k` for which the checked
build panics and the release build does not. -/
example : (∀ d, d ≤ 31 → ∀ k, k ≤ 2 ^ d + 1 → (2 ^ d - 1) * k < 2 ^ 64) ∧
    (2 : Nat) ^ 64 ≤ (2 ^ 11 - 1) * (0xFFFFFFFFFFFFFFFF#64).toNat := by
  refine ⟨fun d hd k hk => ?_, by decide⟩
  have : 2 ^ d ≤ 2 ^ 31 := Nat.pow_le_pow_right (by decide) hd
  calc (2 ^ d - 1) * k ≤ 2 ^ 31 * (2 ^ 31 + 1) := Nat.mul_le_mul (by omega) (by omega)
    _ < 2 ^ 64 := by norm_num

/-- C68: `utils::log2`: both builds return the floor of the logarithm of every positive word; of zero, the checked build panics and the
release build returns `usize::MAX`. -/
theorem C68_log2 (b : Build) (x : Usize) :
    (x ≠ 0 → log2W b x = some (BitVec.ofNat 64 (Nat.log2 x.toNat))) ∧
    log2W .checked 0 = none ∧ log2W .release 0 = some (BitVec.ofNat 64 (2 ^ 64 - 1)) := by
  refine ⟨fun hx => ?_, by decide +kernel, by decide +kernel⟩
  have h0 : 0 < x.toNat := by
    rcases Nat.eq_zero_or_pos x.toNat with h | h
    · exact absurd (BitVec.eq_of_toNat_eq (by simpa using h)) hx
    · exact h
  have hl := log2_eq h0 x.isLt
  unfold log2 at hl
  simp only [BitVec.ofNat_toNat, BitVec.setWidth_eq] at hl
  split at hl
  · cases hl
  · rename_i hc
    have hl' := Option.some.inj hl
    unfold log2W
    simp only [Option.bind_eq_bind]
    rw [Build.sub_ok b (by have : (64 : Usize).toNat = 64 := rfl; omega)]
    have hs : ((64 : Usize) - x.clz).toNat = 64 - x.clz.toNat := by
      rw [BitVec.toNat_sub_of_le]
      · rfl
      · rw [BitVec.le_def]; have : (64 : Usize).toNat = 64 := rfl; omega
    simp only [Option.bind_some]
    rw [Build.sub_ok b (by rw [hs]; have : (1 : Usize).toNat = 1 := rfl; omega)]
    congr 1
    apply BitVec.eq_of_toNat_eq
    rw [BitVec.toNat_sub_of_le (by rw [BitVec.le_def, hs]; have : (1 : Usize).toNat = 1 := rfl; omega), hs, ofNat_toNat_lt
      (by rw [← hl']; omega), ← hl']
    rfl

/-- C68: the codec of a plaintext modulus `2^k`, `1 ≤ k ≤ 63`, is the same in both builds, and so is `encode` of every word: it is
the unbounded model's. -/
theorem C68_codec (b : Build) {t : Scalar} {c : Codec} (hc : Codec.new t = some c) :
    codecNewW b t = some (BitVec.ofNat 64 c.baseLog, c.delta) ∧ c.baseLog < 64 ∧
    ∀ x, codecEncodeW b (BitVec.ofNat 64 c.baseLog, c.delta) x = c.encode x := by
  obtain ⟨k', hk1, hk2, ht, hb, hd'⟩ := Codec.new_eq_some hc
  obtain ⟨k, dl⟩ := c
  simp only at hb hd'
  subst hb; subst hd'
  have hk64 : (BitVec.ofNat 64 k).toNat = k := ofNat_toNat_lt (by omega)
  have ht' : t.toNat = 2 ^ k := ht
  have hlog : Nat.log2 t.toNat = k := by rw [ht', Nat.log2_two_pow]
  have h1 : codecNewW b t = some (BitVec.ofNat 64 k, (1 : Scalar) <<< (64 - k)) := by
    unfold codecNewW
    have hp : isPow2 t.toNat = true := (isPow2_iff _).2 ⟨k, ht'⟩
    have h0 : t ≠ 0 := by
      intro h; rw [h] at ht'; have : 0 < 2 ^ k := by positivity
      simp at ht'; omega
    simp only [hp, Bool.not_true, Bool.false_eq_true, if_false, Option.bind_eq_bind, (C68_log2 b t).1 h0, hlog, Option.bind_some, pure]
    rw [Build.sub_ok b (by rw [hk64]; have : (64 : Usize).toNat = 64 := rfl; omega)]
    have hs : ((64 : Usize) - BitVec.ofNat 64 k).toNat = 64 - k := by
      rw [BitVec.toNat_sub_of_le, hk64]
      · rfl
      · rw [BitVec.le_def, hk64]; have : (64 : Usize).toNat = 64 := rfl; omega
    simp only [Option.bind_some]
    rw [Build.shl_ok b (by rw [hs]; omega), hs]
    rfl
  refine ⟨h1, by simpa using by omega, fun x => ?_⟩
  unfold codecEncodeW Codec.encode Codec.ptModulus
  simp only [Option.bind_eq_bind]
  rw [Build.shl_ok b (by rw [hk64]; omega), hk64]
  simp only [Option.bind_some]
  by_cases hx : (1 : Scalar) <<< k ≤ x
  · simp only [if_pos hx]; rfl
  · simp only [if_neg hx, pure, Option.bind_some]
    have hlt : x.toNat < 2 ^ k := by
      have := hx
      rw [BitVec.le_def, BitVec.toNat_shiftLeft, Nat.shiftLeft_eq] at this
      have h2 : 2 ^ k < 2 ^ 64 := Nat.pow_lt_pow_right (by decide) (by omega)
      have h3 : (1 : Scalar).toNat = 1 := rfl
      rw [h3, Nat.one_mul, Nat.mod_eq_of_lt h2] at this
      omega
    have hd : ((1 : Scalar) <<< (64 - k)).toNat = 2 ^ (64 - k) := by
      rw [BitVec.toNat_shiftLeft, Nat.shiftLeft_eq]
      have h2 : 2 ^ (64 - k) < 2 ^ 64 := Nat.pow_lt_pow_right (by decide) (by omega)
      have h3 : (1 : Scalar).toNat = 1 := rfl
      rw [h3, Nat.one_mul, Nat.mod_eq_of_lt h2]
    have hmul : x.toNat * ((1 : Scalar) <<< (64 - k)).toNat < 2 ^ 64 := by
      rw [hd]
      calc x.toNat * 2 ^ (64 - k) < 2 ^ k * 2 ^ (64 - k) := Nat.mul_lt_mul_of_pos_right hlt (by positivity)
        _ = 2 ^ 64 := by rw [← pow_add]; congr 1; omega
    rw [Build.mul_ok b hmul, if_pos hmul]

/-- C68 (finding): the plaintext modulus 1 is refused only by the overflow check: the release build constructs a codec with `delta = 1`. -/
theorem C68_codec_one : codecNewW .checked 1 = none ∧ codecNewW .release 1 = some (0, 1) := by
  constructor <;> decide +kernel

/-- C68: `pt_to_lossy_u64` never overflows: both builds give the unbounded model's answer, for every plaintext. -/
theorem C68_lossy (b : Build) (pt : List Scalar) : ptToLossyU64W b pt = (ptToLossyU64 pt).map (BitVec.ofNat 64) :=
  lossyLoopW_eq b (pt.take 64) 0 0 (by simp) (by decide)

/-- The words of a table as numbers. -/
def NaiveHashW.toNat (H : NaiveHashW) : NaiveHash := ⟨H.tables.map BitVec.toNat, H.hCount.toNat, H.inputDomain.toNat⟩

/-- C68: if `h_count * input_domain` fits a word, both builds create the table of the unbounded model, for every shuffle; then `hash`,
`hash_to_tuple` and `output_domain` are the unbounded ones whenever the index `h_count * x + h` fits a word. -/
theorem C68_hash (b : Build) {shuffle : List Nat → List Nat} (hsh : ∀ l, (shuffle l).Perm l) {hc dom : Usize}
    (hp : hc.toNat * dom.toNat < 2 ^ 64) (h0 : 0 < hc) :
    ∃ H, NaiveHashW.new b shuffle hc dom = some H ∧ NaiveHash.new shuffle hc.toNat dom.toNat = some H.toNat ∧
      H.outputDomain b = some (BitVec.ofNat 64 H.toNat.outputDomain) ∧
      ∀ h x : Usize, hc.toNat * x.toNat + h.toNat < 2 ^ 64 →
        (H.hash b h x).map BitVec.toNat = H.toNat.hash h.toNat x.toNat ∧
        ∀ d : Usize, (H.hashToTuple b h x d).map (fun p => (p.1.toNat, p.2.toNat)) = H.toNat.hashToTuple h.toNat x.toNat d.toNat := by
  have h0' : 0 < hc.toNat := by rw [BitVec.lt_def] at h0; exact h0
  have hpm : (hc * dom).toNat = hc.toNat * dom.toNat := by rw [BitVec.toNat_mul, Nat.mod_eq_of_lt hp]
  have htab : ((shuffle (List.range (hc.toNat * dom.toNat))).map (BitVec.ofNat 64)).map BitVec.toNat =
      shuffle (List.range (hc.toNat * dom.toNat)) := by
    rw [List.map_map]
    refine (List.map_congr_left (g := id) fun x hx => ?_).trans (List.map_id _)
    have hx' := (hsh _).mem_iff.mp hx
    rw [List.mem_range] at hx'
    exact ofNat_toNat_lt (by omega)
  have hhash : ∀ h x : Usize, hc.toNat * x.toNat + h.toNat < 2 ^ 64 →
      ((⟨(shuffle (List.range (hc.toNat * dom.toNat))).map (BitVec.ofNat 64), hc, dom⟩ : NaiveHashW).hash b h x).map BitVec.toNat =
      (⟨shuffle (List.range (hc.toNat * dom.toNat)), hc.toNat, dom.toNat⟩ : NaiveHash).hash h.toNat x.toNat := by
    intro h x hx
    unfold NaiveHashW.hash NaiveHash.hash
    simp only [Option.bind_eq_bind]
    rw [Build.mul_ok b (by omega)]
    have hm : (hc * x).toNat = hc.toNat * x.toNat := by rw [BitVec.toNat_mul, Nat.mod_eq_of_lt (by omega)]
    simp only [Option.bind_some]
    rw [Build.add_ok b (by rw [hm]; exact hx)]
    simp only [Option.bind_some, BitVec.toNat_add, hm, Nat.mod_eq_of_lt hx]
    rw [← List.getElem?_map, htab]
  refine ⟨⟨(shuffle (List.range (hc.toNat * dom.toNat))).map (BitVec.ofNat 64), hc, dom⟩, ?_, ?_, ?_, ?_⟩
  · unfold NaiveHashW.new
    simp only [h0, not_true, if_false, Option.bind_eq_bind]
    rw [Build.mul_ok b hp]
    simp only [pure, Option.bind_some, hpm]
  · unfold NaiveHash.new NaiveHashW.toNat
    rw [if_pos h0', htab]
  · unfold NaiveHashW.outputDomain NaiveHash.outputDomain NaiveHashW.toNat
    rw [Build.mul_ok b (by rw [Nat.mul_comm]; exact hp), BitVec.ofNat_mul]
    simp
  · intro h x hx
    have hh := hhash h x hx
    have htn : (⟨(shuffle (List.range (hc.toNat * dom.toNat))).map (BitVec.ofNat 64), hc, dom⟩ : NaiveHashW).toNat =
        ⟨shuffle (List.range (hc.toNat * dom.toNat)), hc.toNat, dom.toNat⟩ := by
      unfold NaiveHashW.toNat; rw [htab]
    refine ⟨by rw [hh, htn], fun d => ?_⟩
    rw [htn]
    unfold NaiveHashW.hashToTuple NaiveHash.hashToTuple Build.divRem
    rw [← hh]
    cases (⟨(shuffle (List.range (hc.toNat * dom.toNat))).map (BitVec.ofNat 64), hc, dom⟩ : NaiveHashW).hash b h x with
    | none => rfl
    | some v =>
      simp only [Option.bind_eq_bind, Option.bind_some, Option.map_some]
      by_cases hd : d = 0
      · subst hd; rfl
      · rw [if_neg hd, if_neg (by intro h; exact hd (BitVec.eq_of_toNat_eq (by simpa using h)))]
        rfl

/-- The hypotheses of `C68_hash` are met: three hash functions on 4 items, reversed table. -/
example : (∀ l : List Nat, l.reverse.Perm l) ∧ (3 : Usize).toNat * (4 : Usize).toNat < 2 ^ 64 ∧ (0 : Usize) < 3 ∧
    ∀ h x : Usize, h < 3 → x < 4 → (3 : Usize).toNat * x.toNat + h.toNat < 2 ^ 64 :=
  ⟨fun l => List.reverse_perm l, by decide, by decide, fun h x h1 h2 => by
    rw [BitVec.lt_def] at h1 h2
    have h3 : (3 : Usize).toNat = 3 := rfl
    have h4 : (4 : Usize).toNat = 4 := rfl
    rw [h3] at h1 ⊢
    omega⟩

/-- C68 (finding): if `h_count * input_domain` does not fit a word the checked build panics; the release build creates a table that is
too small: some hash function applied to some input *inside the domain* panics. -/
theorem C68_hash_overflow {shuffle : List Nat → List Nat} (hsh : ∀ l, (shuffle l).Perm l) {hc dom : Usize}
    (hp : 2 ^ 64 ≤ hc.toNat * dom.toNat) :
    NaiveHashW.new .checked shuffle hc dom = none ∧
    ∃ H h x, NaiveHashW.new .release shuffle hc dom = some H ∧ h < hc ∧ x < dom ∧ H.hash .release h x = none := by
  have h0 : 0 < hc.toNat := by
    rcases Nat.eq_zero_or_pos hc.toNat with h | h
    · rw [h, Nat.zero_mul] at hp; omega
    · exact h
  have h0' : 0 < hc := by rw [BitVec.lt_def]; exact h0
  constructor
  · unfold NaiveHashW.new Build.mul
    simp only [h0', not_true, if_false, if_neg (show ¬ hc.toNat * dom.toNat < 2 ^ 64 by omega)]
    rfl
  · set L := (hc * dom).toNat with hL
    have hL2 : L < 2 ^ 64 := (hc * dom).isLt
    have hLp : L < hc.toNat * dom.toNat := by omega
    refine ⟨⟨(shuffle (List.range L)).map (BitVec.ofNat 64), hc, dom⟩, BitVec.ofNat 64 (L % hc.toNat), BitVec.ofNat 64 (L / hc.toNat),
      ?_, ?_, ?_, ?_⟩
    · unfold NaiveHashW.new Build.mul
      simp only [h0', not_true, if_false, Option.bind_eq_bind, Option.bind_some, pure, ← hL]
    · have := Nat.mod_lt L h0
      rw [BitVec.lt_def, ofNat_toNat_lt (by omega)]; exact this
    · have := Nat.div_le_self L hc.toNat
      rw [BitVec.lt_def, ofNat_toNat_lt (by omega)]
      exact Nat.div_lt_of_lt_mul hLp
    · have h1 := Nat.div_le_self L hc.toNat
      have h2 := Nat.mod_le L hc.toNat
      unfold NaiveHashW.hash Build.mul Build.add
      simp only [Option.bind_eq_bind, Option.bind_some]
      have hidx : (hc * BitVec.ofNat 64 (L / hc.toNat) + BitVec.ofNat 64 (L % hc.toNat)).toNat = L := by
        rw [BitVec.toNat_add, BitVec.toNat_mul, ofNat_toNat_lt (by omega), ofNat_toNat_lt (by omega), Nat.mod_add_mod, Nat.div_add_mod,
          Nat.mod_eq_of_lt hL2]
      rw [hidx]
      refine List.getElem?_eq_none ?_
      rw [List.length_map, (hsh _).length_eq, List.length_range]

example : (2 : Nat) ^ 64 ≤ (4 : Usize).toNat * (BitVec.ofNat 64 (2 ^ 62)).toNat := by decide

/-- C68: the number of items `rows * cols / h_count`: exact in both builds if the product fits a word; otherwise the checked build panics
and the release build divides the product modulo 2^64. -/
theorem C68_item_count (rows cols hc : Usize) (h0 : hc ≠ 0) :
    (rows.toNat * cols.toNat < 2 ^ 64 → ∀ b, itemCountW b rows cols hc = some (BitVec.ofNat 64 (rows.toNat * cols.toNat / hc.toNat))) ∧
    (2 ^ 64 ≤ rows.toNat * cols.toNat → itemCountW .checked rows cols hc = none ∧
      itemCountW .release rows cols hc = some (BitVec.ofNat 64 (rows.toNat * cols.toNat % 2 ^ 64 / hc.toNat))) := by
  have hdiv : ∀ p : Usize, p / hc = BitVec.ofNat 64 (p.toNat / hc.toNat) := by
    intro p
    apply BitVec.eq_of_toNat_eq
    rw [BitVec.toNat_udiv, ofNat_toNat_lt (lt_of_le_of_lt (Nat.div_le_self _ _) p.isLt)]
  constructor
  · intro hp b
    unfold itemCountW Build.divRem
    rw [Build.mul_ok b hp]
    simp only [Option.bind_eq_bind, Option.bind_some, if_neg h0, pure, hdiv]
    rw [BitVec.toNat_mul, Nat.mod_eq_of_lt hp]
  · intro hp
    unfold itemCountW Build.divRem Build.mul
    simp only [if_neg (show ¬ rows.toNat * cols.toNat < 2 ^ 64 by omega), Option.bind_eq_bind, Option.bind_none, Option.bind_some, if_neg h0,
      pure, hdiv, true_and]
    rw [BitVec.toNat_mul]

example : itemCountW .release 384 (BitVec.ofNat 64 (2 ^ 60)) 3 = some 0 := by decide +kernel

/-- C68: the gadget factors.  When `base_log * level (+ log n)` is between 1 and 64, both builds compute the power of two that the
theorems on encryption are about. -/
theorem C68_gadget (b : Build) (bl level logn : Usize) :
    (1 ≤ bl.toNat * level.toNat → bl.toNat * level.toNat ≤ 64 →
      gadgetFactorW b bl level = some ((1 : Scalar) <<< (64 - bl.toNat * level.toNat))) ∧
    (1 ≤ bl.toNat * level.toNat + logn.toNat → bl.toNat * level.toNat + logn.toNat ≤ 64 →
      featureFactorW b bl level logn = some ((1 : Scalar) <<< (64 - bl.toNat * level.toNat - logn.toNat))) := by
  have h64 : (64 : Usize).toNat = 64 := rfl
  have hs : ∀ p : Usize, p.toNat ≤ 64 → ((64 : Usize) - p).toNat = 64 - p.toNat := by
    intro p hp
    rw [BitVec.toNat_sub_of_le (by rw [BitVec.le_def, h64]; exact hp), h64]
  constructor
  · intro h1 h2
    have hm : (bl * level).toNat = bl.toNat * level.toNat := by rw [BitVec.toNat_mul, Nat.mod_eq_of_lt (by omega)]
    unfold gadgetFactorW
    rw [Build.mul_ok b (by omega)]
    simp only [Option.bind_eq_bind, Option.bind_some]
    rw [Build.sub_ok b (by rw [hm, h64]; exact h2)]
    simp only [Option.bind_some]
    rw [Build.shl_ok b (by rw [hs _ (by omega), hm]; omega), hs _ (by omega), hm]
  · intro h1 h2
    have hm : (bl * level).toNat = bl.toNat * level.toNat := by rw [BitVec.toNat_mul, Nat.mod_eq_of_lt (by omega)]
    unfold featureFactorW
    rw [Build.mul_ok b (by omega)]
    simp only [Option.bind_eq_bind, Option.bind_some]
    rw [Build.sub_ok b (by rw [hm, h64]; omega)]
    simp only [Option.bind_some]
    rw [Build.sub_ok b (by rw [hs _ (by omega), hm]; omega)]
    simp only [Option.bind_some]
    have h3 : ((64 : Usize) - bl * level - logn).toNat = 64 - bl.toNat * level.toNat - logn.toNat := by
      rw [BitVec.toNat_sub_of_le (by rw [BitVec.le_def, hs _ (by omega), hm]; omega), hs _ (by omega), hm]
    rw [Build.shl_ok b (by rw [h3]; omega), h3]

/-- C68 (finding): for parameters beyond the word (`base_log * level + log n > 64`) `encrypt_feature_vector` has no assertion: the checked
build panics by the overflow check alone, and the release build goes on with the factor `2^(-(base_log * level + log n) mod 64)`, which is
not even small, instead of `2^64 / (B^level * n) < 1`. -/
theorem C68_feature_factor_overflow {bl level logn : Usize} (h1 : bl.toNat * level.toNat < 2 ^ 63) (h2 : logn.toNat < 64)
    (h : 64 < bl.toNat * level.toNat + logn.toNat) :
    featureFactorW .checked bl level logn = none ∧
    featureFactorW .release bl level logn =
      some ((1 : Scalar) <<< ((64 - (bl.toNat * level.toNat + logn.toNat) % 64) % 64)) := by
  have h64 : (64 : Usize).toNat = 64 := rfl
  have hm : (bl * level).toNat = bl.toNat * level.toNat := by rw [BitVec.toNat_mul, Nat.mod_eq_of_lt (by omega)]
  constructor
  · unfold featureFactorW Build.mul Build.sub
    simp only [if_pos (show bl.toNat * level.toNat < 2 ^ 64 by omega), Option.bind_eq_bind, Option.bind_some, hm, h64]
    by_cases hle : bl.toNat * level.toNat ≤ 64
    · simp only [if_pos hle, Option.bind_some]
      rw [if_neg]
      · rfl
      · rw [BitVec.toNat_sub_of_le (by rw [BitVec.le_def, hm, h64]; exact hle), hm, h64]; omega
    · simp only [if_neg hle]; rfl
  · unfold featureFactorW Build.mul Build.sub Build.shl
    simp only [Option.bind_eq_bind, Option.bind_some]
    congr 2
    rw [BitVec.toNat_sub, BitVec.toNat_sub, hm, h64]
    omega

example : featureFactorW .checked 7 8 11 = none ∧ featureFactorW .release 7 8 11 = some (1 <<< 61) := by
  constructor <;> decide +kernel

end Panacea
