import Verif.Lemmas.ExtProd

namespace Panacea
open Finset
variable {n : Nat}

/-! ## Threading the generator -/

theorem mapGen_spec {α β : Type} {f : α → Gen n → β × Gen n} {P : Gen n → Prop} {Q : α → β → Prop}
    (h : ∀ a g, P g → Q a (f a g).1 ∧ P (f a g).2) : ∀ (l : List α) (g : Gen n), P g →
    List.Forall₂ Q l (mapGen f l g).1 ∧ P (mapGen f l g).2
  | [], _, hg => ⟨List.Forall₂.nil, hg⟩
  | a :: as, g, hg => by
    have h1 := h a g hg
    have h2 := mapGen_spec h as (f a g).2 h1.2
    exact ⟨List.Forall₂.cons h1.1 h2.1, h2.2⟩

theorem mapGen_length {α β : Type} (f : α → Gen n → β × Gen n) : ∀ (l : List α) (g : Gen n),
    (mapGen f l g).1.length = l.length
  | [], _ => rfl
  | a :: as, g => by simp [mapGen, mapGen_length f as]

theorem mapGenM_spec {α β : Type} {f : α → Gen n → Option (β × Gen n)} {P : Gen n → Prop} {Q : α → β → Prop} :
    ∀ (l : List α), (∀ a ∈ l, ∀ g, P g → ∃ r, f a g = some r ∧ Q a r.1 ∧ P r.2) → ∀ (g : Gen n), P g →
    ∃ r, mapGenM f l g = some r ∧ List.Forall₂ Q l r.1 ∧ P r.2
  | [], _, g, hg => ⟨([], g), rfl, List.Forall₂.nil, hg⟩
  | a :: as, h, g, hg => by
    obtain ⟨r, hr, hq, hp⟩ := h a (by simp) g hg
    obtain ⟨rs, hrs, hqs, hps⟩ := mapGenM_spec as (fun a ha => h a (by simp [ha])) r.2 hp
    refine ⟨(r.1 :: rs.1, rs.2), ?_, List.Forall₂.cons hq hqs, hps⟩
    simp only [mapGenM, hr, hrs]

theorem forall₂_range'_getElem {β : Type} {Q : Nat → β → Prop} : ∀ {a len : Nat} {l : List β},
    List.Forall₂ Q (List.range' a len) l → ∀ {i : Nat} {b : β}, l[i]? = some b → Q (a + i) b
  | a, 0, l, h, i, b, hb => by
    simp only [List.range'_zero, List.forall₂_nil_left_iff] at h
    subst h; simp at hb
  | a, len + 1, l, h, i, b, hb => by
    rw [List.range'_succ] at h
    cases h with
    | cons h1 h2 =>
      cases i with
      | zero => simp only [List.getElem?_cons_zero, Option.some.injEq] at hb; subst hb; exact h1
      | succ i =>
        rw [List.getElem?_cons_succ] at hb
        have := forall₂_range'_getElem h2 hb
        rwa [show a + (i + 1) = a + 1 + i by omega]

theorem Gen.Bounded.next {g : Gen n} {B : Nat} (h : g.Bounded B) : g.next.Bounded B := h

/-! ## RLWE encryption -/

theorem decrypt_encrypt (s m : Poly n) (g : Gen n) :
    decryptRlwe s (encryptRlwe s m g).1 = m + g.noises g.pos := by
  unfold decryptRlwe encryptRlwe; simp only; ring

theorem encryptRlwe_enc {s m : Poly n} {g : Gen n} {B : Nat} (h : g.Bounded B) :
    Enc s (encryptRlwe s m g).1 m B := by
  unfold Enc; rw [decrypt_encrypt, add_sub_cancel_left]; exact h _

theorem encryptRlwe_gen {s m : Poly n} {g : Gen n} {B : Nat} (h : g.Bounded B) : (encryptRlwe s m g).2.Bounded B := h

theorem set_zero_eq_const (c : Scalar) : Poly.set (0 : Poly n) 0 c = Poly.const n c := by
  refine Poly.ext (funext fun k => ?_)
  rw [Poly.set_apply, Poly.const_apply, Poly.zero_apply]

/-! ## RGSW encryption -/

theorem ggswLevel_spec {s : Poly n} {bl : Nat} {mu : Scalar} {B : Nat} (l : Nat) (g : Gen n) (hg : g.Bounded B) :
    (Enc s (ggswLevel s bl mu l g).1.1 (Poly.const n (gadget bl l) * -(s * Poly.const n mu)) B ∧
     Enc s (ggswLevel s bl mu l g).1.2 (Poly.const n (gadget bl l) * Poly.const n mu) B) ∧
    (ggswLevel s bl mu l g).2.Bounded B := by
  refine ⟨⟨?_, ?_⟩, hg⟩
  · have h := encryptRlwe_enc (s := s) (m := 0) hg
    unfold Enc at *
    have e : decryptRlwe s (ggswLevel s bl mu l g).1.1 - Poly.const n (gadget bl l) * -(s * Poly.const n mu)
        = decryptRlwe s (encryptRlwe s 0 g).1 - 0 := by
      unfold ggswLevel decryptRlwe; simp only [Poly.const_mul]; ring
    rw [e]; exact h
  · have h := encryptRlwe_enc (s := s) (m := 0) (g := (encryptRlwe s 0 g).2) hg
    unfold Enc at *
    have e : decryptRlwe s (ggswLevel s bl mu l g).1.2 - Poly.const n (gadget bl l) * Poly.const n mu
        = decryptRlwe s (encryptRlwe s 0 (encryptRlwe s 0 g).2).1 - 0 := by
      unfold ggswLevel decryptRlwe; simp only [Poly.const_mul]; ring
    rw [e]; exact h

theorem encryptConstantRgsw_enc {s : Poly n} (bl lv : Nat) (mu : Scalar) {g : Gen n} {B : Nat} (hg : g.Bounded B) :
    EncG s (encryptConstantRgsw s bl lv mu g).1 (Poly.const n mu) B ∧ (encryptConstantRgsw s bl lv mu g).2.Bounded B := by
  have h := mapGen_spec (P := fun g : Gen n => g.Bounded B)
    (Q := fun l (r : RLWE n × RLWE n) => Enc s r.1 (Poly.const n (gadget bl l) * -(s * Poly.const n mu)) B ∧
     Enc s r.2 (Poly.const n (gadget bl l) * Poly.const n mu) B)
    (f := ggswLevel s bl mu) (fun l g hg => ggswLevel_spec l g hg) (List.range' 1 lv) g hg
  refine ⟨?_, h.2⟩
  intro i r hr
  have := forall₂_range'_getElem h.1 hr
  rw [Nat.add_comm 1 i] at this
  exact this

theorem encryptConstantRgsw_baseLog (s : Poly n) (bl lv : Nat) (mu : Scalar) (g : Gen n) :
    (encryptConstantRgsw s bl lv mu g).1.baseLog = bl := rfl

theorem encryptConstantRgsw_levelCount (s : Poly n) (bl lv : Nat) (mu : Scalar) (g : Gen n) :
    (encryptConstantRgsw s bl lv mu g).1.levelCount = lv := by
  unfold encryptConstantRgsw RGSW.levelCount
  simp only [mapGen_length, List.length_range']

theorem encryptConstantRgsw_wf (s : Poly n) {bl lv : Nat} (mu : Scalar) (g : Gen n) (h1 : 1 ≤ bl) (h2 : 1 ≤ lv)
    (h3 : bl * lv < 64) : (encryptConstantRgsw s bl lv mu g).1.WF := by
  refine ⟨h1, ?_, ?_⟩
  · rw [encryptConstantRgsw_levelCount]; exact h2
  · rw [encryptConstantRgsw_levelCount]; exact h3

/-- The rows of `encrypt_rgsw` carry the gadget of the *context*. -/
theorem encryptRgsw_rows {ctx : Ctx} {s m : Poly n} (bl lv : Nat) {g : Gen n} {B : Nat} (hg : g.Bounded B) (i : Nat)
    (r : RLWE n × RLWE n) (hr : (encryptRgsw ctx s bl lv m g).1.rows[i]? = some r) :
    Enc s r.1 (Poly.const n (gadget ctx.baseLog (i + 1)) * -(s * m)) B ∧
    Enc s r.2 (Poly.const n (gadget ctx.baseLog (i + 1)) * m) B := by
  have h := (encryptConstantRgsw_enc (s := s) bl lv 0 hg).1
  unfold encryptRgsw at hr
  simp only [List.getElem?_zipWith] at hr
  rcases hq : (encryptConstantRgsw s bl lv 0 g).1.rows[i]? with _ | q
  · rw [hq] at hr; simp at hr
  · rcases hl : (List.range' 1 lv)[i]? with _ | l
    · rw [hq, hl] at hr; simp at hr
    · rw [hq, hl] at hr
      simp only [Option.some.injEq] at hr
      have hl' : l = 1 + i := by
        obtain ⟨_, e⟩ := List.getElem?_eq_some_iff.mp hl
        rw [List.getElem_range'] at e
        omega
      subst hl'
      rw [Nat.add_comm 1 i] at hr
      have hi := h i q hq
      rw [Poly.const_zero, mul_zero, neg_zero, mul_zero] at hi
      subst hr
      unfold encryptRgswLevel
      simp only [Poly.mulConst_eq]
      unfold Enc decryptRlwe at *
      constructor
      · convert hi.1 using 1; ring
      · convert hi.2 using 1; ring

theorem encryptRgsw_enc {ctx : Ctx} {s m : Poly n} (lv : Nat) {g : Gen n} {B : Nat} (hg : g.Bounded B) :
    EncG s (encryptRgsw ctx s ctx.baseLog lv m g).1 m B := fun i r hr => encryptRgsw_rows ctx.baseLog lv hg i r hr

theorem encryptRgsw_gen {ctx : Ctx} {s m : Poly n} (bl lv : Nat) {g : Gen n} {B : Nat} (hg : g.Bounded B) :
    (encryptRgsw ctx s bl lv m g).2.Bounded B := (encryptConstantRgsw_enc (s := s) bl lv 0 hg).2

theorem encryptRgsw_levelCount (ctx : Ctx) (s m : Poly n) (bl lv : Nat) (g : Gen n) :
    (encryptRgsw ctx s bl lv m g).1.levelCount = lv := by
  have := encryptConstantRgsw_levelCount s bl lv 0 g
  unfold encryptRgsw RGSW.levelCount at *
  simp only [List.length_zipWith, this, List.length_range', Nat.min_self]

theorem scalarMAX_eq : scalarMAX = -1 := by decide

theorem negGsw_eq {ctx : Ctx} {s : Poly n} (hs : Binary s) (g : Gen n) :
    negGsw ctx s g = some (encryptRgsw ctx s ctx.negsBaseLog ctx.negsLevelCount (-s) g) := by
  unfold negGsw
  have hs' : ∀ k, s k = 0 ∨ s k = 1 := hs
  rw [if_pos hs']
  have : (⟨fun k => s k * scalarMAX⟩ : Poly n) = -s := by
    refine Poly.ext (funext fun k => ?_)
    simp only [scalarMAX_eq]
    rw [Poly.neg_apply]; ring
  rw [this]

end Panacea
