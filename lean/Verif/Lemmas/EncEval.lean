import Verif.Spec.MeasuredTree
import Verif.Lemmas.Demux
import Verif.Lemmas.RlweOps
import Verif.Props.Tree

namespace Panacea
open Tree Spec
variable {n : Nat}

/-- The encrypted tree whose ciphertexts are the comparison bits of the clear tree. -/
inductive EncFor (s : Poly n) (features : List Nat) (bl lv E : Nat) : Tree → EncTree (RGSW n) → Prop
  | missing : EncFor s features bl lv E .missing (.leaf 0)
  | leaf (x) : EncFor s features bl lv E (.leaf x) (.leaf x)
  | internal {d l r ct l' r'} : EncBit s ct (cmpBit features d) bl lv E → EncFor s features bl lv E l l' →
      EncFor s features bl lv E r r' → EncFor s features bl lv E (.internal d l r) (.internal ct l' r')

theorem forall₂_append_left {α β : Type} {Q : α → β → Prop} : ∀ {l1 l2 : List α} {m : List β},
    List.Forall₂ Q (l1 ++ l2) m → ∃ m1 m2, m = m1 ++ m2 ∧ List.Forall₂ Q l1 m1 ∧ List.Forall₂ Q l2 m2
  | [], l2, m, h => ⟨[], m, rfl, .nil, h⟩
  | a :: l1, l2, _, .cons h hs => by
    obtain ⟨m1, m2, rfl, h1, h2⟩ := forall₂_append_left hs
    exact ⟨_ :: m1, m2, rfl, .cons h h1, h2⟩

theorem build_encFor {s : Poly n} {features : List Nat} {bl lv E : Nat} : ∀ (t : Tree) (cts rest : List (RGSW n)),
    EncChoices s features t cts bl lv E →
    ∃ e, EncTree.build t (cts ++ rest) = some (e, rest) ∧ EncFor s features bl lv E t e
  | .missing, _, rest, h => by
    cases h; exact ⟨.leaf 0, rfl, .missing⟩
  | .leaf x, _, rest, h => by
    cases h; exact ⟨.leaf x, rfl, .leaf x⟩
  | .internal d l r, _, rest, h => by
    unfold EncChoices at h
    rw [flatten] at h
    cases h with
    | cons hC hrest =>
      obtain ⟨m1, m2, rfl, h1, h2⟩ := forall₂_append_left hrest
      obtain ⟨l', hl, hl'⟩ := build_encFor l m1 (m2 ++ rest) h1
      obtain ⟨r', hr, hr'⟩ := build_encFor r m2 rest h2
      refine ⟨.internal _ l' r', ?_, .internal hC hl' hr'⟩
      rw [List.cons_append, EncTree.build, List.append_assoc, hl]
      simp only [hr]

theorem encFor_maxLeaf {s : Poly n} {features : List Nat} {bl lv E : Nat} {t : Tree} {e : EncTree (RGSW n)}
    (h : EncFor s features bl lv E t e) {y : Nat} (hp : Path features t y) : y ≤ e.maxLeaf := by
  induction h generalizing y with
  | missing => cases hp; exact le_refl _
  | leaf x => cases hp; exact le_refl _
  | internal _ _ _ ihl ihr =>
    simp only [EncTree.maxLeaf]
    cases hp with
    | goLeft _ _ _ v _ _ _ hp => exact le_trans (ihl hp) (le_max_left _ _)
    | goRight _ _ _ v _ _ _ hp => exact le_trans (ihr hp) (le_max_right _ _)

theorem addLabel_length (x : Nat) (b : RLWE n) (out : List (RLWE n)) : (addLabel x b out).length = out.length := by
  simp [addLabel]

theorem evalEncNode_length (fft : Fft n) : ∀ (e : EncTree (RGSW n)) (out : List (RLWE n)) (b : RLWE n),
    (evalEncNode fft e out b).length = out.length
  | .leaf x, out, b => addLabel_length x b out
  | .internal ct l r, out, b => by
    rw [evalEncNode]
    rw [evalEncNode_length fft r, evalEncNode_length fft l]

theorem evalEncNode_of {fft : Fft n} {s : Poly n} {features : List Nat}
    {bl lv E δ : Nat} : ∀ (t : Tree) (et : EncTree (RGSW n)), EncFor s features bl lv E t et → Evaluable features t →
    ∀ (y : Nat), Path features t y → ∀ (b : RLWE n) (m : Poly n) (e : Nat), Enc s b m e →
    (∀ x ∈ treeCalls fft et b, GateOk fft s bl lv E δ x.1 x.2) → ∀ (out : List (RLWE n)) (i : Nat) (c : RLWE n),
      (evalEncNode fft et out b)[i]? = some c → ∃ c0, out[i]? = some c0 ∧
        Enc s c (decryptRlwe s c0 + if y.testBit i then m else 0) (t.countLeaf * (e + t.countDepth * δ))
  | .missing, _, .missing, _, y, hp, b, m, e, hb, hg, out, i, c, hc => by
    cases hp
    simp only [evalEncNode, addLabel, List.getElem?_mapIdx, Nat.zero_testBit, Bool.false_eq_true, if_false] at hc ⊢
    rcases ho : out[i]? with _ | c0
    · rw [ho] at hc; cases hc
    · rw [ho] at hc; cases hc
      refine ⟨c0, rfl, ?_⟩
      unfold Enc
      rw [show decryptRlwe s c0 - (decryptRlwe s c0 + 0) = 0 by ring]
      exact Small.zero _
  | .leaf x, _, .leaf _, _, y, hp, b, m, e, hb, hg, out, i, c, hc => by
    cases hp
    simp only [evalEncNode, addLabel, List.getElem?_mapIdx] at hc
    rcases ho : out[i]? with _ | c0
    · rw [ho] at hc; cases hc
    · rw [ho] at hc
      simp only [Option.map_some, Option.some.injEq] at hc
      refine ⟨c0, rfl, ?_⟩
      rw [show (Tree.leaf x).countLeaf = 1 from rfl, show (Tree.leaf x).countDepth = 0 from rfl, one_mul, zero_mul, add_zero]
      unfold Enc at *
      by_cases hx : x.testBit i
      · rw [if_pos hx] at hc ⊢
        rw [← hc, decrypt_add, show decryptRlwe s c0 + decryptRlwe s b - (decryptRlwe s c0 + m) = decryptRlwe s b - m by ring]
        exact hb
      · rw [if_neg hx] at hc ⊢
        rw [← hc, show decryptRlwe s c0 - (decryptRlwe s c0 + 0) = 0 by ring]
        exact Small.zero _
  | .internal d l r, _, .internal (ct := ct) (l' := l') (r' := r') hC hl hr, hev, y, hp, b, m, e, hb, hg, out, i, c, hc => by
    obtain ⟨⟨hop, hfe⟩, hevl, hevr⟩ := evaluable_internal.mp hev
    obtain ⟨yl, hpl, _⟩ := evalNode_path hevl 0
    obtain ⟨yr, hpr, _⟩ := evalNode_path hevr 0
    obtain ⟨h1, h2⟩ := gate_msg (hg _ (List.mem_cons_self ..)) hC hb
    rw [evalEncNode] at hc
    obtain ⟨c1, hc1, he1⟩ := evalEncNode_of r r' hr hevr yr hpr _ _ _ h2
      (fun x hx => hg x (List.mem_cons_of_mem _ (List.mem_append_right _ hx))) _ i c hc
    obtain ⟨c0, hc0, he0⟩ := evalEncNode_of l l' hl hevl yl hpl _ _ _ h1
      (fun x hx => hg x (List.mem_cons_of_mem _ (List.mem_append_left _ hx))) _ i c1 hc1
    refine ⟨c0, hc0, ?_⟩
    have hmsg : (if yl.testBit i then (if cmpBit features d then m else 0) else 0)
        + (if yr.testBit i then (if cmpBit features d then 0 else m) else 0) = (if y.testBit i then m else 0 : Poly n) := by
      cases hp with
      | goLeft _ _ _ v _ hv hle hp' =>
        have : cmpBit features d = true := by unfold cmpBit; rw [hv]; simpa using hle
        rw [path_unique hpl hp', this]; simp
      | goRight _ _ _ v _ hv hgt hp' =>
        have : cmpBit features d = false := by unfold cmpBit; rw [hv]; simpa using hgt
        rw [path_unique hpr hp', this]; simp
    have hb1 : (if cmpBit features d then e else 0) ≤ e := by split <;> omega
    have hb2 : (if cmpBit features d then 0 else e) ≤ e := by split <;> omega
    have hd1 : l.countDepth + 1 ≤ (Tree.internal d l r).countDepth := by
      rw [countDepth]; split <;> omega
    have hd2 : r.countDepth + 1 ≤ (Tree.internal d l r).countDepth := by
      rw [countDepth]; split <;> omega
    rw [show (Tree.internal d l r).countLeaf = l.countLeaf + r.countLeaf from rfl, add_mul]
    set D := (Tree.internal d l r).countDepth
    have hk1 : l.countLeaf * ((if cmpBit features d then e else 0) + δ + l.countDepth * δ) ≤ l.countLeaf * (e + D * δ) := by
      refine Nat.mul_le_mul_left _ ?_
      have := Nat.mul_le_mul_right δ hd1
      rw [add_mul, one_mul] at this
      omega
    have hk2 : r.countLeaf * ((if cmpBit features d then 0 else e) + δ + r.countDepth * δ) ≤ r.countLeaf * (e + D * δ) := by
      refine Nat.mul_le_mul_left _ ?_
      have := Nat.mul_le_mul_right δ hd2
      rw [add_mul, one_mul] at this
      omega
    have hA := Small.mono he0 hk1
    have hB := Small.mono he1 hk2
    unfold Enc
    rw [← hmsg]
    generalize (if yl.testBit i then (if cmpBit features d then m else 0) else 0 : Poly n) = u at hA ⊢
    generalize (if yr.testBit i then (if cmpBit features d then 0 else m) else 0 : Poly n) = w at hB ⊢
    rw [show decryptRlwe s c - (decryptRlwe s c0 + (u + w))
      = (decryptRlwe s c1 - (decryptRlwe s c0 + u)) + (decryptRlwe s c - (decryptRlwe s c1 + w)) by ring]
    exact hA.add hB

theorem evalEncNode_spec {fft : Fft n} {phi : Nat} (hf : fft.Bounded phi) {s : Poly n} (hs : Small s 1) {features : List Nat}
    {bl lv E : Nat} (t : Tree) (et : EncTree (RGSW n)) (h : EncFor s features bl lv E t et) (hev : Evaluable features t)
    (y : Nat) (hp : Path features t y) (b : RLWE n) (m : Poly n) (e : Nat) (hb : Enc s b m e) (out : List (RLWE n)) (i : Nat) (c : RLWE n)
    (hc : (evalEncNode fft et out b)[i]? = some c) : ∃ c0, out[i]? = some c0 ∧
        Enc s c (decryptRlwe s c0 + if y.testBit i then m else 0) (t.countLeaf * (e + t.countDepth * extNoise n bl lv E phi 1)) :=
  evalEncNode_of t et h hev y hp b m e hb (fun _ _ => gateOk_worst hf hs _ _ _ _ _) out i c hc

/-! ## Decoding -/

theorem encode_zero {t : Scalar} {c : Codec} (hc : Codec.new t = some c) : c.encode 0 = some 0 := by
  rcases h : c.encode 0 with _ | w
  · have := (C02_encode hc 0).1.mp h
    have h0 : t.toNat = 0 := by simpa using this
    obtain ⟨k, _, _, hk⟩ := (C02_new_isSome_iff t).mp (by rw [hc]; rfl)
    have : 0 < 2 ^ k := by positivity
    omega
  · have := (C02_encode hc 0).2 w h
    congr 1
    refine BitVec.eq_of_toNat_eq ?_
    rw [this]; simp

theorem encode_one {t : Scalar} {c : Codec} (hc : Codec.new t = some c) : ∃ v, c.encode 1 = some v := by
  rcases h : c.encode 1 with _ | w
  · have := (C02_encode hc 1).1.mp h
    obtain ⟨k, hk1, _, hk⟩ := (C02_new_isSome_iff t).mp (by rw [hc]; rfl)
    have h2 : 2 ≤ 2 ^ k := by
      calc 2 = 2 ^ 1 := rfl
        _ ≤ 2 ^ k := Nat.pow_le_pow_right (by decide) hk1
    have : t.toNat ≤ 1 := by simpa using this
    omega
  · exact ⟨w, rfl⟩

theorem trivialOne_enc {t : Scalar} {ctx : Ctx} (hc : Codec.new t = some ctx.codec) (s : Poly n) :
    ∃ c v, trivialOne (n := n) ctx = some c ∧ ctx.codec.encode 1 = some v ∧ decryptRlwe s c = Poly.const n v := by
  obtain ⟨v, hv⟩ := encode_one hc
  refine ⟨_, v, by unfold trivialOne; rw [hv], hv, ?_⟩
  unfold decryptRlwe
  simp only
  rw [set_zero_eq_const]; ring

theorem decode_bit {t : Scalar} {ctx : Ctx} (hc : Codec.new t = some ctx.codec) {v : Scalar} (hv : ctx.codec.encode 1 = some v)
    (hn : 0 < n) {s : Poly n} {c : RLWE n} {b : Bool} {e : Nat} (h : Enc s c (if b then Poly.const n v else 0) e)
    (he : 2 * e < 2 ^ 64 / t.toNat) : (decryptDecodeRlwe ctx s c).get 0 = if b then 1 else 0 := by
  have hg := Poly.get_lt (decryptDecodeRlwe ctx s c) ⟨0, hn⟩
  simp only at hg
  rw [hg]
  refine decode_of_small hc (m := if b then 1 else 0) (w := if b then v else 0) ?_ ?_ he
  · cases b
    · simpa using encode_zero hc
    · simpa using hv
  · have := h ⟨0, hn⟩
    rw [Poly.sub_apply] at this
    cases b
    · simp only [Bool.false_eq_true, if_false] at this ⊢
      rw [Poly.zero_apply] at this
      exact this
    · simp only [if_true] at this ⊢
      rw [Poly.const_apply, if_pos rfl] at this
      exact this

theorem decryptBits_spec {ctx : Ctx} {s : Poly n} (y : Nat) : ∀ (cts : List (RLWE n)) (k : Nat),
    (∀ i c, cts[i]? = some c → (decryptDecodeRlwe ctx s c).get 0 = if y.testBit (k + i) then 1 else 0) →
    ∃ bs, decryptBits ctx s cts = some bs ∧ bs.length = cts.length ∧ bitsValue bs = y / 2 ^ k % 2 ^ cts.length
  | [], k, _ => ⟨[], rfl, rfl, by simp [bitsValue, Nat.mod_one]⟩
  | ct :: cts, k, h => by
    obtain ⟨bs, h1, h2, h3⟩ := decryptBits_spec (ctx := ctx) (s := s) y cts (k + 1) (fun i c hc => by
      rw [h (i + 1) c (by simpa using hc), show k + (i + 1) = k + 1 + i by omega])
    have h0 := h 0 ct rfl
    rw [add_zero] at h0
    refine ⟨y.testBit k :: bs, ?_, by simp [h2], ?_⟩
    · rw [decryptBits]
      simp only [h0, h1]
      cases y.testBit k
      · simp
      · simp
    · rw [bitsValue, h3, List.length_cons, pow_succ' 2 cts.length, Nat.mod_mul, pow_succ 2 k, ← Nat.div_div_eq_div_mul,
        Nat.testBit_eq_decide_div_mod_eq]
      rcases Nat.mod_two_eq_zero_or_one (y / 2 ^ k) with h0 | h0 <;> rw [h0] <;> simp

end Panacea
