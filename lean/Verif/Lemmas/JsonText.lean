import Verif.Spec.JsonText
import Mathlib.Tactic.IntervalCases
import Mathlib.Tactic.Ring

/-! # Lemmas for C87: the text of JSON documents -/

namespace Panacea
namespace JsonText
open Spec
variable {F : Type}

/-! ## Characters -/

theorem isWs_iff (c : Char) : isWs c = true ↔ c ∈ [' ', '\n', '\t', '\r'] := by
  simp [isWs, Bool.or_eq_true, or_assoc]

theorem isDig_iff (c : Char) : isDig c = true ↔ c ∈ decDigits := by
  constructor
  · intro h
    simp only [isDig, Bool.and_eq_true, decide_eq_true_eq] at h
    have hc : c = Char.ofNat c.toNat := (Char.ofNat_toNat c).symm
    obtain ⟨h1, h2⟩ := h
    rw [hc]
    generalize c.toNat = k at h1 h2
    interval_cases k <;> decide
  · intro h
    simp only [decDigits, List.mem_cons, List.not_mem_nil, or_false] at h
    rcases h with rfl | rfl | rfl | rfl | rfl | rfl | rfl | rfl | rfl | rfl <;> decide

theorem idxOf_dig {c : Char} (h : isDig c = true) : decDigits.idxOf c = c.toNat - 48 := by
  rw [isDig_iff] at h
  simp only [decDigits, List.mem_cons, List.not_mem_nil, or_false] at h
  rcases h with rfl | rfl | rfl | rfl | rfl | rfl | rfl | rfl | rfl | rfl <;> decide

theorem isDig_not_ws {c : Char} (h : isDig c = true) : isWs c = false := by
  rw [isDig_iff] at h
  simp only [decDigits, List.mem_cons, List.not_mem_nil, or_false] at h
  rcases h with rfl | rfl | rfl | rfl | rfl | rfl | rfl | rfl | rfl | rfl <;> decide

theorem skipWs_append {w t : List Char} (h : Ws w) : skipWs (w ++ t) = skipWs t := by
  induction w with
  | nil => rfl
  | cons c w ih =>
    rw [List.cons_append, skipWs, if_pos ((isWs_iff c).2 (h c (by simp)))]
    exact ih (fun x hx => h x (by simp [hx]))

theorem skipWs_ws {w : List Char} (h : Ws w) : skipWs w = [] := by
  have := skipWs_append (t := []) h
  rwa [List.append_nil] at this

theorem skipWs_cons {c : Char} {t : List Char} (h : isWs c = false) : skipWs (c :: t) = c :: t := by
  rw [skipWs, if_neg (by simp [h])]

theorem skipWs_spec (cs : List Char) : ∃ w, Ws w ∧ cs = w ++ skipWs cs := by
  induction cs with
  | nil => exact ⟨[], by simp [Ws], rfl⟩
  | cons c cs ih =>
    rw [skipWs]
    by_cases h : isWs c = true
    · rw [if_pos h]
      obtain ⟨w, h1, h2⟩ := ih
      refine ⟨c :: w, ?_, by rw [List.cons_append, ← h2]⟩
      intro x hx
      rcases List.mem_cons.1 hx with rfl | hx
      · exact (isWs_iff x).1 h
      · exact h1 x hx
    · rw [if_neg h]
      exact ⟨[], by simp [Ws], rfl⟩

theorem Ws.nil : Ws [] := by simp [Ws]

/-! ## Numbers -/

/-- The text does not begin with a digit. -/
def NoDigit (r : List Char) : Prop := ∀ c t, r = c :: t → isDig c = false

theorem spanDigits_spec (cs : List Char) : cs = (spanDigits cs).1 ++ (spanDigits cs).2 ∧ (∀ c ∈ (spanDigits cs).1, isDig c = true) ∧
    NoDigit (spanDigits cs).2 := by
  induction cs with
  | nil => refine ⟨rfl, by simp [spanDigits], ?_⟩; intro c t h; simp [spanDigits] at h
  | cons c cs ih =>
    rw [spanDigits]
    by_cases h : isDig c = true
    · rw [if_pos h]
      refine ⟨by rw [List.cons_append, ← ih.1], ?_, ih.2.2⟩
      intro x hx
      rcases List.mem_cons.1 hx with rfl | hx
      · exact h
      · exact ih.2.1 x hx
    · rw [if_neg h]
      refine ⟨rfl, by simp, ?_⟩
      intro x t hx
      cases hx
      simpa using h

theorem spanDigits_append {ds r : List Char} (h1 : ∀ c ∈ ds, isDig c = true) (h2 : NoDigit r) : spanDigits (ds ++ r) = (ds, r) := by
  induction ds with
  | nil =>
    cases r with
    | nil => rfl
    | cons c t => rw [List.nil_append, spanDigits, if_neg (by simp [h2 c t rfl])]
  | cons c ds ih =>
    rw [List.cons_append, spanDigits, if_pos (h1 c (by simp)), ih (fun x hx => h1 x (by simp [hx]))]

theorem digitsValue_eq {ds : List Char} (h : ∀ c ∈ ds, isDig c = true) : digitsValue ds = decValue ds := by
  have : ∀ (ds : List Char) (a : Nat), (∀ c ∈ ds, isDig c = true) →
      ds.foldl (fun a c => 10 * a + (c.toNat - 48)) a = a * 10 ^ ds.length + decValue ds := by
    intro ds
    induction ds with
    | nil => intro a _; simp [decValue]
    | cons c ds ih =>
      intro a h
      rw [List.foldl_cons, ih _ (fun x hx => h x (by simp [hx])), decValue, idxOf_dig (h c (by simp)), List.length_cons, Nat.pow_succ]
      ring
  have := this ds 0 h
  rw [digitsValue, this]; omega

theorem digits_iff {ds : List Char} : Digits ds ↔ ds ≠ [] ∧ ∀ c ∈ ds, isDig c = true := by
  unfold Digits
  simp only [isDig_iff]

theorem readSign_spec (cs : List Char) : cs = (readSign cs).1 ++ (readSign cs).2 ∧ ((readSign cs).1 = [] ∨ (readSign cs).1 = ['-']) := by
  cases cs with
  | nil => simp [readSign]
  | cons c t =>
    rw [readSign]
    by_cases h : c = '-'
    · subst h; simp
    · rw [if_neg h]; simp

theorem readInt_sound {cs ds r : List Char} (h : readInt cs = some (ds, r)) :
    cs = ds ++ r ∧ Digits ds ∧ (ds.head? = some '0' → ds = ['0']) ∧ NoDigit r := by
  unfold readInt at h
  cases cs with
  | nil => cases h
  | cons c t =>
    simp only at h
    by_cases h0 : c = '0'
    · rw [if_pos h0] at h
      subst h0
      have hs := spanDigits_spec t
      cases hsp : (spanDigits t).1 with
      | nil =>
        rw [hsp] at h
        cases h
        refine ⟨rfl, digits_iff.2 ⟨by simp, by simp; decide⟩, fun _ => rfl, ?_⟩
        rw [hsp, List.nil_append] at hs
        rw [hs.1]; exact hs.2.2
      | cons x xs => rw [hsp] at h; cases h
    · rw [if_neg h0] at h
      by_cases hd : isDig c = true
      · rw [if_pos hd] at h
        have h := Option.some.inj h
        have hs := spanDigits_spec (c :: t)
        rw [h] at hs
        refine ⟨hs.1, digits_iff.2 ⟨?_, hs.2.1⟩, ?_, hs.2.2⟩
        · rintro rfl
          have := hs.2.2 c t (by have := hs.1; simpa using this.symm)
          rw [hd] at this; cases this
        · intro hh
          cases ds with
          | nil => cases hh
          | cons x xs =>
            simp only [List.head?_cons, Option.some.injEq] at hh
            have := hs.1
            rw [List.cons_append] at this
            injection this with e1 e2
            exact absurd (e1.trans hh) h0
      · rw [if_neg hd] at h; cases h

theorem readInt_complete {ds r : List Char} (h1 : Digits ds) (h2 : ds.head? = some '0' → ds = ['0']) (h3 : NoDigit r) :
    readInt (ds ++ r) = some (ds, r) := by
  obtain ⟨hne, hd⟩ := digits_iff.1 h1
  cases ds with
  | nil => exact absurd rfl hne
  | cons c t =>
    unfold readInt
    simp only [List.cons_append]
    by_cases h0 : c = '0'
    · have := h2 (by simp [h0])
      injection this with e1 e2
      subst e1 e2
      have hs : spanDigits r = ([], r) := spanDigits_append (ds := []) (by simp) h3
      rw [if_pos rfl, List.nil_append, hs]
    · rw [if_neg h0, if_pos (hd c (by simp)), ← List.cons_append, spanDigits_append hd h3]

theorem readFrac_sound {cs fr r : List Char} (h : readFrac cs = some (fr, r)) (hn : NoDigit cs) :
    cs = fr ++ r ∧ (fr = [] ∨ ∃ ds, Digits ds ∧ fr = '.' :: ds) ∧ NoDigit r := by
  unfold readFrac at h
  cases cs with
  | nil => cases h; exact ⟨rfl, Or.inl rfl, hn⟩
  | cons c t =>
    simp only at h
    by_cases h0 : c = '.'
    · rw [if_pos h0] at h
      have hs := spanDigits_spec t
      cases hsp : (spanDigits t).1 with
      | nil => rw [hsp] at h; cases h
      | cons x xs =>
        rw [hsp] at h hs
        cases h
        refine ⟨?_, Or.inr ⟨x :: xs, digits_iff.2 ⟨by simp, hs.2.1⟩, rfl⟩, hs.2.2⟩
        rw [h0, List.cons_append, ← hs.1]
    · rw [if_neg h0] at h
      cases h
      exact ⟨rfl, Or.inl rfl, hn⟩

/-- The text does not continue a number. -/
def NoCont (r : List Char) : Prop := ∀ c t, r = c :: t → isDig c = false ∧ c ≠ '.' ∧ c ≠ 'e' ∧ c ≠ 'E'

theorem readFrac_complete {fr r : List Char} (h1 : fr = [] ∨ ∃ ds, Digits ds ∧ fr = '.' :: ds) (h2 : NoDigit r)
    (h3 : ∀ c t, r = c :: t → c ≠ '.') : readFrac (fr ++ r) = some (fr, r) := by
  rcases h1 with rfl | ⟨ds, hd, rfl⟩
  · cases r with
    | nil => rfl
    | cons c t =>
      unfold readFrac
      simp only [List.nil_append]
      rw [if_neg (h3 c t rfl)]
  · obtain ⟨hne, hd⟩ := digits_iff.1 hd
    unfold readFrac
    simp only [List.cons_append, if_true]
    rw [spanDigits_append hd h2]
    cases ds with
    | nil => exact absurd rfl hne
    | cons x xs => rfl

theorem readExpSign_spec (cs : List Char) : cs = (readExpSign cs).1 ++ (readExpSign cs).2 ∧
    ((readExpSign cs).1 = [] ∨ (readExpSign cs).1 = ['+'] ∨ (readExpSign cs).1 = ['-']) := by
  cases cs with
  | nil => simp [readExpSign]
  | cons c t =>
    rw [readExpSign]
    by_cases h : c = '-' ∨ c = '+'
    · rw [if_pos h]
      rcases h with rfl | rfl <;> simp
    · rw [if_neg h]; simp

theorem readExp_sound {cs ex r : List Char} (h : readExp cs = some (ex, r)) (hn : NoDigit cs) :
    cs = ex ++ r ∧ (ex = [] ∨ ∃ e s ds, (e = 'e' ∨ e = 'E') ∧ (s = [] ∨ s = ['+'] ∨ s = ['-']) ∧ Digits ds ∧ ex = e :: s ++ ds) := by
  unfold readExp at h
  cases cs with
  | nil => cases h; exact ⟨rfl, Or.inl rfl⟩
  | cons c t =>
    simp only at h
    by_cases h0 : c = 'e' ∨ c = 'E'
    · rw [if_pos h0] at h
      have he := readExpSign_spec t
      have hs := spanDigits_spec (readExpSign t).2
      cases hsp : (spanDigits (readExpSign t).2).1 with
      | nil => rw [hsp] at h; cases h
      | cons x xs =>
        rw [hsp] at h hs
        cases h
        refine ⟨?_, Or.inr ⟨c, (readExpSign t).1, x :: xs, h0, he.2, digits_iff.2 ⟨by simp, hs.2.1⟩, rfl⟩⟩
        rw [List.cons_append, List.cons_append, List.append_assoc, ← hs.1, ← he.1]
    · rw [if_neg h0] at h
      cases h
      exact ⟨rfl, Or.inl rfl⟩

theorem readExp_complete {ex r : List Char}
    (h1 : ex = [] ∨ ∃ e s ds, (e = 'e' ∨ e = 'E') ∧ (s = [] ∨ s = ['+'] ∨ s = ['-']) ∧ Digits ds ∧ ex = e :: s ++ ds) (h2 : NoCont r) :
    readExp (ex ++ r) = some (ex, r) := by
  rcases h1 with rfl | ⟨e, s, ds, he, hs, hd, rfl⟩
  · cases r with
    | nil => rfl
    | cons c t =>
      unfold readExp
      simp only [List.nil_append]
      have := h2 c t rfl
      rw [if_neg (by tauto)]
  · obtain ⟨hne, hd⟩ := digits_iff.1 hd
    unfold readExp
    simp only [List.cons_append]
    rw [if_pos he]
    have hsig : readExpSign (s ++ (ds ++ r)) = (s, ds ++ r) := by
      rcases hs with rfl | rfl | rfl
      · cases ds with
        | nil => exact absurd rfl hne
        | cons x xs =>
          have hx := hd x (by simp)
          rw [List.nil_append, List.cons_append, readExpSign, if_neg]
          rintro (rfl | rfl) <;> revert hx <;> decide
      · rfl
      · rfl
    rw [List.append_assoc, hsig, spanDigits_append hd (fun c t h => (h2 c t h).1)]
    cases ds with
    | nil => exact absurd rfl hne
    | cons x xs => rfl

theorem numValue_iff {mk : List Char → Option F} {sign int frac exp : List Char} (hs : sign = [] ∨ sign = ['-'])
    (hd : ∀ c ∈ int, isDig c = true) (j : Json F) :
    numValue mk sign int (frac ++ exp) = some j ↔ NumberMeans mk sign int frac exp j := by
  have hfe : frac ++ exp = [] ↔ frac = [] ∧ exp = [] := List.append_eq_nil_iff
  unfold numValue
  rw [digitsValue_eq hd]
  constructor
  · intro h
    split at h
    · rename_i hc
      cases h
      exact .pos hc.2.1 (hfe.1 hc.1).1 (hfe.1 hc.1).2 hc.2.2
    · rename_i hc
      split at h
      · rename_i hc2
        cases h
        exact .neg (hs.resolve_left hc2.2.1) (hfe.1 hc2.1).1 (hfe.1 hc2.1).2 hc2.2.2.1 hc2.2.2.2
      · rename_i hc2
        cases hm : mk (sign ++ int ++ (frac ++ exp)) with
        | none => rw [hm] at h; cases h
        | some x =>
          rw [hm] at h
          cases h
          refine .float ?_ ?_ (by rw [← hm]; simp only [List.append_assoc])
          · intro h1 h2 h3
            by_contra hlt
            exact hc ⟨hfe.2 ⟨h1, h2⟩, h3, by omega⟩
          · intro h1 h2 h3
            by_contra hlt
            exact hc2 ⟨hfe.2 ⟨h1, h2⟩, by simp [h3], by omega, by omega⟩
  · intro h
    cases h with
    | pos h1 h2 h3 h4 => rw [if_pos ⟨hfe.2 ⟨h2, h3⟩, h1, h4⟩]
    | neg h1 h2 h3 h4 h5 =>
      rw [if_neg (by rintro ⟨_, h, _⟩; rw [h1] at h; cases h), if_pos ⟨hfe.2 ⟨h2, h3⟩, by simp [h1], h4, h5⟩]
    | float h1 h2 h3 =>
      rw [if_neg, if_neg]
      · rw [← List.append_assoc, h3]; rfl
      · rintro ⟨e1, e2, e3, e4⟩
        have := h2 (hfe.1 e1).1 (hfe.1 e1).2 (hs.resolve_left e2)
        omega
      · rintro ⟨e1, e2, e3⟩
        have := h1 (hfe.1 e1).1 (hfe.1 e1).2 e2
        omega

theorem readNumber_sound {mk : List Char → Option F} {cs r : List Char} {j : Json F} (h : readNumber mk cs = some (j, r)) :
    ∃ sign int frac exp, cs = sign ++ int ++ frac ++ exp ++ r ∧ NumberText sign int frac exp ∧ NumberMeans mk sign int frac exp j := by
  have hsg := readSign_spec cs
  unfold readNumber at h
  cases h1 : readInt (readSign cs).2 with
  | none => rw [h1] at h; cases h
  | some x1 =>
    obtain ⟨ds, r1⟩ := x1
    rw [h1] at h
    simp only at h
    cases h2 : readFrac r1 with
    | none => rw [h2] at h; cases h
    | some x2 =>
      obtain ⟨fr, r2⟩ := x2
      rw [h2] at h
      simp only at h
      cases h3 : readExp r2 with
      | none => rw [h3] at h; cases h
      | some x3 =>
        obtain ⟨ex, r3⟩ := x3
        rw [h3] at h
        simp only at h
        cases h4 : numValue mk (readSign cs).1 ds (fr ++ ex) with
        | none => rw [h4] at h; cases h
        | some j' =>
          rw [h4] at h
          cases h
          obtain ⟨a1, a2, a3, a4⟩ := readInt_sound h1
          obtain ⟨b1, b2, b3⟩ := readFrac_sound h2 a4
          obtain ⟨c1, c2⟩ := readExp_sound h3 b3
          refine ⟨(readSign cs).1, ds, fr, ex, ?_, ⟨hsg.2, ⟨a2, a3⟩, b2, c2⟩, (numValue_iff hsg.2 (digits_iff.1 a2).2 j).1 h4⟩
          conv_lhs => rw [hsg.1, a1, b1, c1]
          simp only [List.append_assoc]

theorem number_head {sign int frac exp : List Char} (h : NumberText sign int frac exp) :
    ∃ c t, sign ++ int ++ frac ++ exp = c :: t ∧ (c = '-' ∨ isDig c = true) := by
  rcases h.sign with rfl | rfl
  · obtain ⟨hne, hd⟩ := digits_iff.1 h.int.1
    cases int with
    | nil => exact absurd rfl hne
    | cons x xs => exact ⟨x, xs ++ frac ++ exp, by simp, Or.inr (hd x (by simp))⟩
  · exact ⟨'-', int ++ frac ++ exp, by simp, Or.inl rfl⟩

theorem readNumber_complete {mk : List Char → Option F} {sign int frac exp r : List Char} {j : Json F} (h : NumberText sign int frac exp)
    (hj : NumberMeans mk sign int frac exp j) (hr : NoCont r) : readNumber mk (sign ++ int ++ frac ++ exp ++ r) = some (j, r) := by
  obtain ⟨hne, hd⟩ := digits_iff.1 h.int.1
  have hexp : ∀ c t, exp ++ r = c :: t → isDig c = false ∧ c ≠ '.' := by
    intro c t e
    rcases h.exp with rfl | ⟨x, s, ds, hx, _, _, rfl⟩
    · have := hr c t e
      exact ⟨this.1, this.2.1⟩
    · rw [List.cons_append, List.cons_append] at e
      injection e with e1 _
      subst e1
      rcases hx with rfl | rfl <;> decide
  have hfr : NoDigit (frac ++ (exp ++ r)) := by
    intro c t e
    rcases h.frac with rfl | ⟨ds, _, rfl⟩
    · exact (hexp c t e).1
    · rw [List.cons_append] at e
      injection e with e1 _
      subst e1; decide
  have hsig : readSign (sign ++ (int ++ (frac ++ (exp ++ r)))) = (sign, int ++ (frac ++ (exp ++ r))) := by
    rcases h.sign with rfl | rfl
    · cases int with
      | nil => exact absurd rfl hne
      | cons x xs =>
        have hx := hd x (by simp)
        rw [List.nil_append, List.cons_append, readSign, if_neg]
        rintro rfl
        revert hx; decide
    · rfl
  unfold readNumber
  rw [show sign ++ int ++ frac ++ exp ++ r = sign ++ (int ++ (frac ++ (exp ++ r))) by simp, hsig]
  simp only
  rw [readInt_complete h.int.1 h.int.2 hfr]
  simp only
  rw [readFrac_complete h.frac (fun c t e => (hexp c t e).1) (fun c t e => (hexp c t e).2)]
  simp only
  rw [readExp_complete h.exp hr]
  simp only
  rw [(numValue_iff h.sign hd j).2 hj]

/-! ## Strings -/

theorem hexVal_iff (c : Char) (v : Nat) : hexVal c = some v ↔ Hex c v := by
  constructor
  · intro h
    unfold hexVal at h
    have hc : c = Char.ofNat c.toNat := (Char.ofNat_toNat c).symm
    split at h
    · rename_i hr
      obtain ⟨h1, h2⟩ := hr
      have h := Option.some.inj h
      unfold Hex
      rw [hc]
      generalize c.toNat = k at *
      interval_cases k <;> subst h <;> decide
    · split at h
      · rename_i hr
        obtain ⟨h1, h2⟩ := hr
        have h := Option.some.inj h
        unfold Hex
        rw [hc]
        generalize c.toNat = k at *
        interval_cases k <;> subst h <;> decide
      · split at h
        · rename_i hr
          obtain ⟨h1, h2⟩ := hr
          have h := Option.some.inj h
          unfold Hex
          rw [hc]
          generalize c.toNat = k at *
          interval_cases k <;> subst h <;> decide
        · cases h
  · intro h
    have hv : v < 16 := by
      rcases h with h | h
      · exact (List.getElem?_eq_some_iff.1 h).1
      · exact (List.getElem?_eq_some_iff.1 h).1
    unfold Hex at h
    interval_cases v <;> simp at h <;> rcases h with rfl | rfl <;> decide

theorem hex4_sound {cs r : List Char} {v : Nat} (h : hex4 cs = some (v, r)) : ∃ t, Hex4 t v ∧ cs = t ++ r := by
  unfold hex4 at h
  split at h
  · rename_i a b c d r' 
    split at h
    · rename_i va vb vc vd ha hb hc hd
      cases h
      exact ⟨[a, b, c, d], ⟨a, b, c, d, va, vb, vc, vd, rfl, (hexVal_iff _ _).1 ha, (hexVal_iff _ _).1 hb, (hexVal_iff _ _).1 hc,
        (hexVal_iff _ _).1 hd, by ring⟩, rfl⟩
    · cases h
  · cases h

theorem hex4_complete {t r : List Char} {v : Nat} (h : Hex4 t v) : hex4 (t ++ r) = some (v, r) := by
  obtain ⟨a, b, c, d, va, vb, vc, vd, rfl, ha, hb, hc, hd, rfl⟩ := h
  unfold hex4
  simp only [List.cons_append, List.nil_append, (hexVal_iff _ _).2 ha, (hexVal_iff _ _).2 hb, (hexVal_iff _ _).2 hc, (hexVal_iff _ _).2 hd]
  congr 2; ring

theorem simpleEscape_iff (e c : Char) : simpleEscape e = some c ↔ (e, c) ∈ escapes := by
  constructor
  · intro h
    unfold simpleEscape at h
    repeat' split at h
    all_goals first | (cases h; subst_vars; decide) | cases h
  · intro h
    simp only [escapes, List.mem_cons, Prod.mk.injEq, List.not_mem_nil, or_false] at h
    rcases h with ⟨rfl, rfl⟩ | ⟨rfl, rfl⟩ | ⟨rfl, rfl⟩ | ⟨rfl, rfl⟩ | ⟨rfl, rfl⟩ | ⟨rfl, rfl⟩ | ⟨rfl, rfl⟩ | ⟨rfl, rfl⟩ <;> decide

theorem readEscape_sound {cs r : List Char} {x : Char} (h : readEscape cs = some (x, r)) : ∃ e, CharText ('\\' :: e) x ∧ cs = e ++ r := by
  unfold readEscape at h
  cases cs with
  | nil => cases h
  | cons c t =>
    simp only at h
    by_cases hu : c = 'u'
    · rw [if_pos hu] at h
      cases h4 : hex4 t with
      | none => rw [h4] at h; cases h
      | some y =>
        obtain ⟨v, r1⟩ := y
        rw [h4] at h
        simp only at h
        obtain ⟨t1, ht1, rfl⟩ := hex4_sound h4
        by_cases hs : 0xD800 ≤ v ∧ v ≤ 0xDBFF
        · rw [if_pos hs] at h
          unfold lowSurrogate at h
          split at h
          · rename_i c1 c2 r2
            split at h
            · rename_i hcu
              obtain ⟨rfl, rfl⟩ := hcu
              cases h5 : hex4 r2 with
              | none => rw [h5] at h; cases h
              | some z =>
                obtain ⟨w, r3⟩ := z
                rw [h5] at h
                simp only at h
                obtain ⟨t2, ht2, rfl⟩ := hex4_sound h5
                split at h
                · rename_i hw
                  obtain ⟨rfl, rfl⟩ := Prod.mk.inj (Option.some.inj h)
                  refine ⟨'u' :: t1 ++ '\\' :: 'u' :: t2, CharText.pair ht1 ht2 hs.1 hs.2 hw.1 hw.2, ?_⟩
                  rw [hu]; simp
                · cases h
            · cases h
          · cases h
        · rw [if_neg hs] at h
          by_cases hs2 : 0xDC00 ≤ v ∧ v ≤ 0xDFFF
          · rw [if_pos hs2] at h; cases h
          · rw [if_neg hs2] at h
            cases h
            exact ⟨'u' :: t1, CharText.unicode ht1 (by omega), by rw [hu]; rfl⟩
    · rw [if_neg hu] at h
      cases h4 : simpleEscape c with
      | none => rw [h4] at h; cases h
      | some y =>
        rw [h4] at h
        cases h
        exact ⟨[c], CharText.escape ((simpleEscape_iff c x).1 h4), rfl⟩

theorem readEscape_complete {e r : List Char} {x : Char} (h : CharText ('\\' :: e) x) : readEscape (e ++ r) = some (x, r) := by
  generalize hl : '\\' :: e = l at h
  cases h with
  | plain h1 h2 h3 => injection hl with e1 e2; exact absurd e1.symm h3
  | @escape e' c hm =>
    injection hl with _ e2
    subst e2
    unfold readEscape
    simp only [List.cons_append, List.nil_append]
    rw [if_neg, (simpleEscape_iff e' x).2 hm]
    rintro rfl
    revert hm
    simp [escapes]
  | @unicode t v h4 hv =>
    injection hl with _ e2
    subst e2
    unfold readEscape
    simp only [List.cons_append, if_true]
    rw [hex4_complete h4]
    simp only
    rw [if_neg (by omega), if_neg (by omega)]
  | @pair t t' v w h4 h5 a1 a2 a3 a4 =>
    rw [List.cons_append] at hl
    injection hl with _ e2
    subst e2
    unfold readEscape
    simp only [List.cons_append, if_true, List.append_assoc]
    rw [hex4_complete h4]
    simp only
    rw [if_pos ⟨a1, a2⟩]
    unfold lowSurrogate
    simp only [true_and, if_true]
    rw [hex4_complete h5]
    simp only
    rw [if_pos ⟨a3, a4⟩]

theorem readStr_sound : ∀ (k : Nat) {cs s r : List Char}, readStr k cs = some (s, r) → ∃ body, CharsText body s ∧ cs = body ++ '"' :: r := by
  intro k
  induction k with
  | zero => intro cs s r h; cases h
  | succ k ih =>
    intro cs s r h
    cases cs with
    | nil => cases h
    | cons c t =>
      rw [readStr] at h
      split at h
      · rename_i hq
        cases h
        exact ⟨[], .nil, by rw [hq]; rfl⟩
      · rename_i hq
        split at h
        · rename_i hb
          cases he : readEscape t with
          | none => rw [he] at h; cases h
          | some y =>
            obtain ⟨x, r1⟩ := y
            rw [he] at h
            simp only at h
            cases hs : readStr k r1 with
            | none => rw [hs] at h; cases h
            | some z =>
              obtain ⟨s', r2⟩ := z
              rw [hs] at h
              cases h
              obtain ⟨e, h1, rfl⟩ := readEscape_sound he
              obtain ⟨body, h2, rfl⟩ := ih hs
              exact ⟨'\\' :: e ++ body, .cons h1 h2, by rw [hb]; simp⟩
        · rename_i hb
          split at h
          · cases h
          · rename_i hctl
            cases hs : readStr k t with
            | none => rw [hs] at h; cases h
            | some z =>
              obtain ⟨s', r2⟩ := z
              rw [hs] at h
              cases h
              obtain ⟨body, h2, rfl⟩ := ih hs
              exact ⟨[c] ++ body, .cons (.plain (by omega) hq hb) h2, by simp⟩

theorem charText_length {e : List Char} {c : Char} (h : CharText e c) : 0 < e.length := by cases h <;> simp

theorem readStr_complete {body s r : List Char} (h : CharsText body s) : ∀ k, body.length < k → readStr k (body ++ '"' :: r) = some (s, r) := by
  induction h with
  | nil =>
    intro k hk
    cases k with
    | zero => omega
    | succ k => rw [List.nil_append, readStr, if_pos rfl]
  | @cons e t s c hc hs ih =>
    intro k hk
    cases k with
    | zero => omega
    | succ k =>
      have hl := charText_length hc
      rw [List.length_append] at hk
      have ih := ih k (by omega)
      rw [List.append_assoc]
      by_cases hb : ∃ e', e = '\\' :: e'
      · obtain ⟨e', rfl⟩ := hb
        rw [List.cons_append, readStr, if_neg (by decide), if_pos rfl, readEscape_complete hc]
        simp only [ih]
      · cases hc with
        | plain h1 h2 h3 =>
          rw [List.cons_append, List.nil_append, readStr, if_neg h2, if_neg h3, if_neg (by omega), ih]
        | escape => exact absurd ⟨_, rfl⟩ hb
        | unicode => exact absurd ⟨_, rfl⟩ hb
        | pair => exact absurd ⟨_, rfl⟩ hb

theorem eat_iff (es cs r : List Char) : eat es cs = some r ↔ cs = es ++ r := by
  induction es generalizing cs with
  | nil => simp [eat]
  | cons e es ih =>
    cases cs with
    | nil => simp [eat]
    | cons c cs =>
      rw [eat]
      by_cases h : c = e
      · rw [if_pos h, ih, h]; simp
      · rw [if_neg h]; simp [h]

/-! ## Values: what is read is a JSON text -/

/-- The reader of values returns only JSON texts. -/
def Sound (mk : List Char → Option F) (pv : List Char → Option (Json F × List Char)) : Prop :=
  ∀ cs j r, pv cs = some (j, r) → ∃ w v, Ws w ∧ cs = w ++ v ++ r ∧ ValueText mk j v

theorem readElems_sound {mk : List Char → Option F} {pv : List Char → Option (Json F × List Char)} (hp : Sound mk pv) :
    ∀ (k : Nat) (cs : List Char) (l : List (Json F)) (r : List Char), readElems pv k cs = some (l, r) →
      l ≠ [] ∧ ∃ body, ElemsText mk l body ∧ cs = body ++ ']' :: r := by
  intro k
  induction k with
  | zero => intro cs l r h; cases h
  | succ k ih =>
    intro cs l r h
    rw [readElems] at h
    cases h1 : pv cs with
    | none => rw [h1] at h; cases h
    | some y =>
      obtain ⟨j, r0⟩ := y
      rw [h1] at h
      simp only at h
      obtain ⟨w, v, hw, rfl, hv⟩ := hp _ _ _ h1
      obtain ⟨w2, hw2, hr0⟩ := skipWs_spec r0
      cases h2 : skipWs r0 with
      | nil => rw [h2] at h; cases h
      | cons c r1 =>
        rw [h2] at h hr0
        simp only at h
        split at h
        · rename_i hc
          cases h
          refine ⟨by simp, w ++ v ++ w2, ?_, by rw [hr0, hc]; simp⟩
          rw [ElemsText]
          exact ⟨w, v, w2, [], by simp, hw, hv, hw2, Or.inl ⟨rfl, rfl⟩⟩
        · split at h
          · rename_i hc
            cases h3 : readElems pv k r1 with
            | none => rw [h3] at h; cases h
            | some z =>
              obtain ⟨l', r2⟩ := z
              rw [h3] at h
              cases h
              obtain ⟨hne, body, hb, rfl⟩ := ih _ _ _ h3
              refine ⟨by simp, w ++ v ++ w2 ++ ',' :: body, ?_, by rw [hr0, hc]; simp⟩
              rw [ElemsText]
              exact ⟨w, v, w2, ',' :: body, rfl, hw, hv, hw2, Or.inr ⟨hne, body, rfl, hb⟩⟩
          · cases h

theorem readKey_sound {cs s r : List Char} (h : readKey cs = some (s, r)) :
    ∃ w1 kt w2, Ws w1 ∧ StrText kt (String.ofList s) ∧ Ws w2 ∧ cs = w1 ++ kt ++ w2 ++ [':'] ++ r := by
  unfold readKey at h
  obtain ⟨w1, hw1, hcs⟩ := skipWs_spec cs
  cases h1 : skipWs cs with
  | nil => rw [h1] at h; cases h
  | cons c t =>
    rw [h1] at h hcs
    simp only at h
    split at h
    · rename_i hc
      cases h2 : readStr (t.length + 1) t with
      | none => rw [h2] at h; cases h
      | some y =>
        obtain ⟨s', r1⟩ := y
        rw [h2] at h
        simp only at h
        obtain ⟨body, hb, rfl⟩ := readStr_sound _ h2
        obtain ⟨w2, hw2, hr1⟩ := skipWs_spec r1
        cases h3 : skipWs r1 with
        | nil => rw [h3] at h; cases h
        | cons c1 r2 =>
          rw [h3] at h hr1
          simp only at h
          split at h
          · rename_i hc1
            cases h
            refine ⟨w1, '"' :: body ++ ['"'], w2, hw1, ⟨body, rfl, by rw [String.toList_ofList]; exact hb⟩, hw2, ?_⟩
            rw [hcs, hc, hr1, hc1]; simp
          · cases h
    · cases h

theorem readMembers_sound {mk : List Char → Option F} {pv : List Char → Option (Json F × List Char)} (hp : Sound mk pv) :
    ∀ (k : Nat) (cs : List Char) (l : List (String × Json F)) (r : List Char), readMembers pv k cs = some (l, r) →
      l ≠ [] ∧ ∃ body, MembersText mk l body ∧ cs = body ++ '}' :: r := by
  intro k
  induction k with
  | zero => intro cs l r h; cases h
  | succ k ih =>
    intro cs l r h
    rw [readMembers] at h
    cases h0 : readKey cs with
    | none => rw [h0] at h; cases h
    | some x =>
      obtain ⟨s, cs'⟩ := x
      rw [h0] at h
      simp only at h
      obtain ⟨k1, kt, k2, hk1, hkt, hk2, rfl⟩ := readKey_sound h0
      cases h1 : pv cs' with
      | none => rw [h1] at h; cases h
      | some y =>
        obtain ⟨j, r0⟩ := y
        rw [h1] at h
        simp only at h
        obtain ⟨w, v, hw, rfl, hv⟩ := hp _ _ _ h1
        obtain ⟨w2, hw2, hr0⟩ := skipWs_spec r0
        cases h2 : skipWs r0 with
        | nil => rw [h2] at h; cases h
        | cons c r1 =>
          rw [h2] at h hr0
          simp only at h
          split at h
          · rename_i hc
            cases h
            refine ⟨by simp, k1 ++ kt ++ k2 ++ [':'] ++ w ++ v ++ w2, ?_, by rw [hr0, hc]; simp⟩
            rw [MembersText]
            exact ⟨k1, kt, k2, w, v, w2, [], by simp, hk1, hkt, hk2, hw, hv, hw2, Or.inl ⟨rfl, rfl⟩⟩
          · split at h
            · rename_i hc
              cases h3 : readMembers pv k r1 with
              | none => rw [h3] at h; cases h
              | some z =>
                obtain ⟨l', r2⟩ := z
                rw [h3] at h
                cases h
                obtain ⟨hne, body, hb, rfl⟩ := ih _ _ _ h3
                refine ⟨by simp, k1 ++ kt ++ k2 ++ [':'] ++ w ++ v ++ w2 ++ ',' :: body, ?_, by rw [hr0, hc]; simp⟩
                rw [MembersText]
                exact ⟨k1, kt, k2, w, v, w2, ',' :: body, rfl, hk1, hkt, hk2, hw, hv, hw2, Or.inr ⟨hne, body, rfl, hb⟩⟩
            · cases h

theorem readArr_sound {mk : List Char → Option F} {pv : List Char → Option (Json F × List Char)} (hp : Sound mk pv) {cs r : List Char}
    {l : List (Json F)} (h : readArr pv cs = some (l, r)) : ∃ v, ValueText mk (.arr l) v ∧ '[' :: cs = v ++ r := by
  unfold readArr at h
  obtain ⟨w, hw, hcs⟩ := skipWs_spec cs
  cases h1 : skipWs cs with
  | nil => rw [h1] at h; cases h
  | cons c t =>
    rw [h1] at h hcs
    simp only at h
    split at h
    · rename_i hc
      cases h
      refine ⟨'[' :: w ++ [']'], ?_, by rw [hcs, hc]; simp⟩
      rw [ValueText]
      exact ⟨w, rfl, Or.inl ⟨rfl, hw⟩⟩
    · obtain ⟨hne, body, hb, he⟩ := readElems_sound hp _ _ _ _ h
      refine ⟨'[' :: body ++ [']'], ?_, by rw [he]; simp⟩
      rw [ValueText]
      exact ⟨body, rfl, Or.inr ⟨hne, hb⟩⟩

theorem readObj_sound {mk : List Char → Option F} {pv : List Char → Option (Json F × List Char)} (hp : Sound mk pv) {cs r : List Char}
    {l : List (String × Json F)} (h : readObj pv cs = some (l, r)) : ∃ v, ValueText mk (.obj l) v ∧ '{' :: cs = v ++ r := by
  unfold readObj at h
  obtain ⟨w, hw, hcs⟩ := skipWs_spec cs
  cases h1 : skipWs cs with
  | nil => rw [h1] at h; cases h
  | cons c t =>
    rw [h1] at h hcs
    simp only at h
    split at h
    · rename_i hc
      cases h
      refine ⟨'{' :: w ++ ['}'], ?_, by rw [hcs, hc]; simp⟩
      rw [ValueText]
      exact ⟨w, rfl, Or.inl ⟨rfl, hw⟩⟩
    · obtain ⟨hne, body, hb, he⟩ := readMembers_sound hp _ _ _ _ h
      refine ⟨'{' :: body ++ ['}'], ?_, by rw [he]; simp⟩
      rw [ValueText]
      exact ⟨body, rfl, Or.inr ⟨hne, hb⟩⟩

theorem valueText_number {mk : List Char → Option F} {sign int frac exp : List Char} {j : Json F} (h : NumberText sign int frac exp)
    (hj : NumberMeans mk sign int frac exp j) : ValueText mk j (sign ++ int ++ frac ++ exp) := by
  cases j with
  | int z => rw [ValueText]; exact ⟨sign, int, frac, exp, rfl, h, hj⟩
  | float x => rw [ValueText]; exact ⟨sign, int, frac, exp, rfl, h, hj⟩
  | null => cases hj
  | bool b => cases hj
  | str s => cases hj
  | arr l => cases hj
  | obj l => cases hj

theorem readValue_sound (mk : List Char → Option F) : ∀ k, Sound mk (readValue mk k) := by
  intro k
  induction k with
  | zero => intro cs j r h; cases h
  | succ k ih =>
    intro cs j r h
    rw [readValue] at h
    obtain ⟨w, hw, hcs⟩ := skipWs_spec cs
    cases h1 : skipWs cs with
    | nil => rw [h1] at h; cases h
    | cons c t =>
      rw [h1] at h hcs
      simp only at h
      suffices hs : ∃ v, c :: t = v ++ r ∧ ValueText mk j v by
        obtain ⟨v, hv, hj⟩ := hs
        exact ⟨w, v, hw, by rw [hcs, hv, List.append_assoc], hj⟩
      split at h
      · rename_i hc
        obtain ⟨r', he, hj⟩ := Option.map_eq_some_iff.1 h
        cases hj
        rw [eat_iff] at he
        exact ⟨['n', 'u', 'l', 'l'], by rw [hc, he]; rfl, by rw [ValueText]⟩
      split at h
      · rename_i hc
        obtain ⟨r', he, hj⟩ := Option.map_eq_some_iff.1 h
        cases hj
        rw [eat_iff] at he
        exact ⟨['t', 'r', 'u', 'e'], by rw [hc, he]; rfl, by rw [ValueText]; rfl⟩
      split at h
      · rename_i hc
        obtain ⟨r', he, hj⟩ := Option.map_eq_some_iff.1 h
        cases hj
        rw [eat_iff] at he
        exact ⟨['f', 'a', 'l', 's', 'e'], by rw [hc, he]; rfl, by rw [ValueText]; rfl⟩
      split at h
      · rename_i hc
        obtain ⟨⟨s, r'⟩, he, hj⟩ := Option.map_eq_some_iff.1 h
        cases hj
        obtain ⟨body, hb, rfl⟩ := readStr_sound _ he
        refine ⟨'"' :: body ++ ['"'], by rw [hc]; simp, ?_⟩
        rw [ValueText]
        exact ⟨body, rfl, by rw [String.toList_ofList]; exact hb⟩
      split at h
      · rename_i hc
        obtain ⟨⟨l, r'⟩, he, hj⟩ := Option.map_eq_some_iff.1 h
        cases hj
        obtain ⟨v, hv, he⟩ := readArr_sound ih he
        exact ⟨v, by rw [hc]; exact he, hv⟩
      split at h
      · rename_i hc
        obtain ⟨⟨l, r'⟩, he, hj⟩ := Option.map_eq_some_iff.1 h
        cases hj
        obtain ⟨v, hv, he⟩ := readObj_sound ih he
        exact ⟨v, by rw [hc]; exact he, hv⟩
      · obtain ⟨sign, int, frac, exp, he, hn, hj⟩ := readNumber_sound h
        exact ⟨sign ++ int ++ frac ++ exp, he, valueText_number hn hj⟩

/-! ## Values: every JSON text is read -/

/-- What may follow a value: nothing, white space, a comma or a closing bracket. -/
def Delim (r : List Char) : Prop := ∀ c t, r = c :: t → isWs c = true ∨ c = ',' ∨ c = ']' ∨ c = '}'

theorem Delim.noCont {r : List Char} (h : Delim r) : NoCont r := by
  intro c t e
  rcases h c t e with hw | rfl | rfl | rfl
  · rw [isWs_iff] at hw
    simp only [List.mem_cons, List.not_mem_nil, or_false] at hw
    rcases hw with rfl | rfl | rfl | rfl <;> decide
  all_goals decide

theorem Delim.ws {w r : List Char} (hw : Ws w) (h : Delim r) : Delim (w ++ r) := by
  cases w with
  | nil => exact h
  | cons a w =>
    intro c t e
    injection e with e1 _
    subst e1
    exact Or.inl ((isWs_iff _).2 (hw _ (by simp)))

/-- First characters of values. -/
def Starts (c : Char) : Prop := isWs c = false ∧ c ≠ ']' ∧ c ≠ '}' ∧ c ≠ ','

theorem isDig_starts {c : Char} (h : isDig c = true) : Starts c ∧ c ≠ 'n' ∧ c ≠ 't' ∧ c ≠ 'f' ∧ c ≠ '"' ∧ c ≠ '[' ∧ c ≠ '{' := by
  rw [isDig_iff] at h
  simp only [decDigits, List.mem_cons, List.not_mem_nil, or_false] at h
  rcases h with rfl | rfl | rfl | rfl | rfl | rfl | rfl | rfl | rfl | rfl <;> (unfold Starts; decide)

theorem value_head {mk : List Char → Option F} {j : Json F} {v : List Char} (h : ValueText mk j v) : ∃ c t, v = c :: t ∧ Starts c := by
  have hnum : ∀ {sign int frac exp : List Char}, NumberText sign int frac exp → ∃ c t, sign ++ int ++ frac ++ exp = c :: t ∧ Starts c := by
    intro sign int frac exp hn
    obtain ⟨c, t, e, hc⟩ := number_head hn
    refine ⟨c, t, e, ?_⟩
    rcases hc with rfl | hc
    · unfold Starts; decide
    · exact (isDig_starts hc).1
  cases j with
  | null => rw [ValueText] at h; exact ⟨_, _, h, by unfold Starts; decide⟩
  | bool b =>
    rw [ValueText] at h
    cases b
    · exact ⟨'f', _, h, by unfold Starts; decide⟩
    · exact ⟨'t', _, h, by unfold Starts; decide⟩
  | int z =>
    rw [ValueText] at h
    obtain ⟨sign, int, frac, exp, rfl, hn, _⟩ := h
    exact hnum hn
  | float z =>
    rw [ValueText] at h
    obtain ⟨sign, int, frac, exp, rfl, hn, _⟩ := h
    exact hnum hn
  | str s =>
    rw [ValueText] at h
    obtain ⟨body, rfl, _⟩ := h
    exact ⟨'"', _, rfl, by unfold Starts; decide⟩
  | arr l =>
    rw [ValueText] at h
    obtain ⟨body, rfl, _⟩ := h
    exact ⟨'[', _, rfl, by unfold Starts; decide⟩
  | obj l =>
    rw [ValueText] at h
    obtain ⟨body, rfl, _⟩ := h
    exact ⟨'{', _, rfl, by unfold Starts; decide⟩

theorem readValue_number {mk : List Char → Option F} {sign int frac exp w r : List Char} {j : Json F} (hn : NumberText sign int frac exp)
    (hj : NumberMeans mk sign int frac exp j) (hw : Ws w) (hr : Delim r) (k : Nat) :
    readValue mk (k + 1) (w ++ (sign ++ int ++ frac ++ exp) ++ r) = some (j, r) := by
  have hnum := readNumber_complete hn hj hr.noCont
  obtain ⟨c, t, e, hc⟩ := number_head hn
  have hc' : Starts c ∧ c ≠ 'n' ∧ c ≠ 't' ∧ c ≠ 'f' ∧ c ≠ '"' ∧ c ≠ '[' ∧ c ≠ '{' := by
    rcases hc with rfl | hc
    · unfold Starts; decide
    · exact isDig_starts hc
  obtain ⟨hs, h1, h2, h3, h4, h5, h6⟩ := hc'
  rw [readValue, List.append_assoc, skipWs_append hw]
  rw [e, List.cons_append] at hnum ⊢
  rw [skipWs_cons hs.1]
  simp only
  rw [if_neg h1, if_neg h2, if_neg h3, if_neg h4, if_neg h5, if_neg h6, hnum]

theorem readKey_complete {w1 kt w2 r : List Char} {s : String} (h1 : Ws w1) (hk : StrText kt s) (h2 : Ws w2) :
    readKey (w1 ++ kt ++ w2 ++ [':'] ++ r) = some (s.toList, r) := by
  obtain ⟨body, rfl, hb⟩ := hk
  unfold readKey
  rw [show w1 ++ ('"' :: body ++ ['"']) ++ w2 ++ [':'] ++ r = w1 ++ '"' :: (body ++ '"' :: (w2 ++ ':' :: r)) by simp,
    skipWs_append h1, skipWs_cons (by decide)]
  simp only [if_true]
  rw [readStr_complete hb _ (by simp; omega)]
  simp only
  rw [skipWs_append h2, skipWs_cons (by decide)]
  simp only [if_true]

theorem skip_first {w v r : List Char} {c : Char} {t : List Char} (hw : Ws w) (hv : v = c :: t) (hc : Starts c) :
    skipWs (w ++ v ++ r) = c :: (t ++ r) := by
  rw [List.append_assoc, skipWs_append hw, hv, List.cons_append, skipWs_cons hc.1]

mutual
theorem readValue_complete (mk : List Char → Option F) : ∀ (j : Json F) (w v r : List Char) (k : Nat), ValueText mk j v → Ws w → (∃ l, j = .arr l) ∨ Delim r →
    v.length ≤ k → readValue mk k (w ++ v ++ r) = some (j, r)
  | .null, w, v, r, k, hv, hw, hr, hk => by
    rw [ValueText] at hv
    subst hv
    obtain ⟨k, rfl⟩ : ∃ k', k = k' + 1 := ⟨k - 1, by simp at hk; omega⟩
    rw [readValue, skip_first hw rfl (by unfold Starts; decide)]
    rfl
  | .bool b, w, v, r, k, hv, hw, hr, hk => by
    rw [ValueText] at hv
    cases b
    · change v = ['f', 'a', 'l', 's', 'e'] at hv
      subst hv
      obtain ⟨k, rfl⟩ : ∃ k', k = k' + 1 := ⟨k - 1, by simp at hk; omega⟩
      rw [readValue, skip_first (v := _) (c := 'f') hw rfl (by unfold Starts; decide)]
      rfl
    · change v = ['t', 'r', 'u', 'e'] at hv
      subst hv
      obtain ⟨k, rfl⟩ : ∃ k', k = k' + 1 := ⟨k - 1, by simp at hk; omega⟩
      rw [readValue, skip_first (v := _) (c := 't') hw rfl (by unfold Starts; decide)]
      rfl
  | .int z, w, v, r, k, hv, hw, hr, hk => by
    obtain ⟨c, t, e, _⟩ := value_head hv
    obtain ⟨k, rfl⟩ : ∃ k', k = k' + 1 := ⟨k - 1, by rw [e] at hk; simp at hk; omega⟩
    rw [ValueText] at hv
    obtain ⟨sign, int, frac, exp, rfl, hn, hj⟩ := hv
    exact readValue_number hn hj hw (hr.resolve_left (by rintro ⟨_, h⟩; cases h)) k
  | .float z, w, v, r, k, hv, hw, hr, hk => by
    obtain ⟨c, t, e, _⟩ := value_head hv
    obtain ⟨k, rfl⟩ : ∃ k', k = k' + 1 := ⟨k - 1, by rw [e] at hk; simp at hk; omega⟩
    rw [ValueText] at hv
    obtain ⟨sign, int, frac, exp, rfl, hn, hj⟩ := hv
    exact readValue_number hn hj hw (hr.resolve_left (by rintro ⟨_, h⟩; cases h)) k
  | .str s, w, v, r, k, hv, hw, hr, hk => by
    rw [ValueText] at hv
    obtain ⟨body, rfl, hb⟩ := hv
    obtain ⟨k, rfl⟩ : ∃ k', k = k' + 1 := ⟨k - 1, by simp at hk; omega⟩
    rw [readValue, skip_first (v := '"' :: body ++ ['"']) (c := '"') (t := body ++ ['"']) hw rfl (by unfold Starts; decide)]
    simp only
    rw [if_neg (by decide), if_neg (by decide), if_neg (by decide), if_pos trivial, List.append_assoc, List.cons_append, List.nil_append,
      readStr_complete hb _ (by simp; omega)]
    simp only [Option.map_some, String.ofList_toList]
  | .arr l, w, v, r, k, hv, hw, hr, hk => by
    rw [ValueText] at hv
    obtain ⟨body, rfl, hb⟩ := hv
    obtain ⟨k, rfl⟩ : ∃ k', k = k' + 1 := ⟨k - 1, by simp at hk; omega⟩
    rw [readValue, skip_first (v := '[' :: body ++ [']']) (c := '[') (t := body ++ [']']) hw rfl (by unfold Starts; decide)]
    simp only
    rw [if_neg (by decide), if_neg (by decide), if_neg (by decide), if_neg (by decide), if_pos trivial]
    have hk' : body.length + 1 ≤ k := by simp at hk; omega
    have harr : readArr (readValue mk k) (body ++ [']'] ++ r) = some (l, r) := by
      unfold readArr
      rcases hb with ⟨rfl, hb⟩ | ⟨hne, hb⟩
      · rw [List.append_assoc, skipWs_append hb, List.cons_append, skipWs_cons (by decide)]
        simp only [if_true, List.nil_append]
      · have he := readElems_complete mk l body r k _ hb hne (by omega)
          (show body.length < (body ++ [']'] ++ r).length + 1 by simp; omega)
        rw [show body ++ ']' :: r = body ++ [']'] ++ r by simp] at he
        cases l with
        | nil => exact absurd rfl hne
        | cons j l =>
          rw [ElemsText] at hb
          obtain ⟨w1, v1, w2, r1, rfl, hw1, hv1, _⟩ := hb
          obtain ⟨c, t, e, hc⟩ := value_head hv1
          have hsk : skipWs (w1 ++ v1 ++ w2 ++ r1 ++ [']'] ++ r) = c :: (t ++ (w2 ++ r1 ++ [']'] ++ r)) := by
            rw [← skip_first (r := w2 ++ r1 ++ [']'] ++ r) hw1 e hc]
            simp only [List.append_assoc]
          rw [hsk]
          simp only
          rw [if_neg hc.2.1, he]
    rw [harr]
    rfl
  | .obj l, w, v, r, k, hv, hw, hr, hk => by
    rw [ValueText] at hv
    obtain ⟨body, rfl, hb⟩ := hv
    obtain ⟨k, rfl⟩ : ∃ k', k = k' + 1 := ⟨k - 1, by simp at hk; omega⟩
    rw [readValue, skip_first (v := '{' :: body ++ ['}']) (c := '{') (t := body ++ ['}']) hw rfl (by unfold Starts; decide)]
    simp only
    rw [if_neg (by decide), if_neg (by decide), if_neg (by decide), if_neg (by decide), if_neg (by decide), if_pos trivial]
    have hk' : body.length + 1 ≤ k := by simp at hk; omega
    have hobj : readObj (readValue mk k) (body ++ ['}'] ++ r) = some (l, r) := by
      unfold readObj
      rcases hb with ⟨rfl, hb⟩ | ⟨hne, hb⟩
      · rw [List.append_assoc, skipWs_append hb, List.cons_append, skipWs_cons (by decide)]
        simp only [if_true, List.nil_append]
      · have he := readMembers_complete mk l body r k _ hb hne (by omega)
          (show body.length < (body ++ ['}'] ++ r).length + 1 by simp; omega)
        rw [show body ++ '}' :: r = body ++ ['}'] ++ r by simp] at he
        cases l with
        | nil => exact absurd rfl hne
        | cons kj l =>
          obtain ⟨s, j⟩ := kj
          rw [MembersText] at hb
          obtain ⟨w1, kt, w2, w3, v1, w4, r1, rfl, hw1, hkt, _⟩ := hb
          obtain ⟨b, rfl, _⟩ := hkt
          have hsk : skipWs (w1 ++ ('"' :: b ++ ['"']) ++ w2 ++ [':'] ++ w3 ++ v1 ++ w4 ++ r1 ++ ['}'] ++ r) =
              '"' :: (b ++ ['"'] ++ (w2 ++ [':'] ++ w3 ++ v1 ++ w4 ++ r1 ++ ['}'] ++ r)) := by
            rw [← skip_first (c := '"') (r := w2 ++ [':'] ++ w3 ++ v1 ++ w4 ++ r1 ++ ['}'] ++ r) hw1 rfl (by unfold Starts; decide)]
            simp only [List.append_assoc, List.cons_append]
          rw [hsk]
          simp only
          rw [if_neg (by decide), he]
    rw [hobj]
    rfl
theorem readElems_complete (mk : List Char → Option F) : ∀ (l : List (Json F)) (body r : List Char) (k n : Nat), ElemsText mk l body → l ≠ [] →
    body.length ≤ k → body.length < n → readElems (readValue mk k) n (body ++ ']' :: r) = some (l, r)
  | [], _, _, _, _, _, hne, _, _ => absurd rfl hne
  | j :: l, body, r, k, n, hb, _, hk, hn => by
    rw [ElemsText] at hb
    obtain ⟨w1, v, w2, rest, rfl, hw1, hv, hw2, hrest⟩ := hb
    obtain ⟨n, rfl⟩ : ∃ n', n = n' + 1 := ⟨n - 1, by omega⟩
    simp only [List.length_append] at hk hn
    rw [readElems]
    have hd : Delim (w2 ++ (rest ++ ']' :: r)) := by
      refine Delim.ws hw2 ?_
      rcases hrest with ⟨_, rfl⟩ | ⟨_, r', rfl, _⟩
      · intro c t e; injection e with e1 _; subst e1; simp
      · intro c t e; injection e with e1 _; subst e1; simp
    have hval := readValue_complete mk j w1 v (w2 ++ (rest ++ ']' :: r)) k hv hw1 (Or.inr hd) (by omega)
    rw [show w1 ++ v ++ w2 ++ rest ++ ']' :: r = w1 ++ v ++ (w2 ++ (rest ++ ']' :: r)) by simp, hval]
    simp only
    rw [skipWs_append hw2]
    rcases hrest with ⟨rfl, rfl⟩ | ⟨hne, r', rfl, hr'⟩
    · rw [List.nil_append, skipWs_cons (by decide)]
      simp only [if_true]
    · rw [List.cons_append, skipWs_cons (by decide)]
      simp only
      simp only [List.length_cons] at hk hn
      rw [if_neg (by decide), if_pos trivial, readElems_complete mk l r' r k n hr' hne (by omega) (by omega)]
theorem readMembers_complete (mk : List Char → Option F) : ∀ (l : List (String × Json F)) (body r : List Char) (k n : Nat),
    MembersText mk l body → l ≠ [] → body.length ≤ k → body.length < n →
    readMembers (readValue mk k) n (body ++ '}' :: r) = some (l, r)
  | [], _, _, _, _, _, hne, _, _ => absurd rfl hne
  | (s, j) :: l, body, r, k, n, hb, _, hk, hn => by
    rw [MembersText] at hb
    obtain ⟨w1, kt, k2, w3, v, w2, rest, rfl, hw1, hkt, hk2, hw3, hv, hw2, hrest⟩ := hb
    obtain ⟨n, rfl⟩ : ∃ n', n = n' + 1 := ⟨n - 1, by omega⟩
    simp only [List.length_append] at hk hn
    rw [readMembers]
    have hd : Delim (w2 ++ (rest ++ '}' :: r)) := by
      refine Delim.ws hw2 ?_
      rcases hrest with ⟨_, rfl⟩ | ⟨_, r', rfl, _⟩
      · intro c t e; injection e with e1 _; subst e1; simp
      · intro c t e; injection e with e1 _; subst e1; simp
    have hval := readValue_complete mk j w3 v (w2 ++ (rest ++ '}' :: r)) k hv hw3 (Or.inr hd) (by omega)
    have hkey := readKey_complete (r := w3 ++ v ++ (w2 ++ (rest ++ '}' :: r))) hw1 hkt hk2
    rw [show w1 ++ kt ++ k2 ++ [':'] ++ w3 ++ v ++ w2 ++ rest ++ '}' :: r =
      w1 ++ kt ++ k2 ++ [':'] ++ (w3 ++ v ++ (w2 ++ (rest ++ '}' :: r))) by simp, hkey]
    simp only
    rw [hval]
    simp only [String.ofList_toList]
    rw [skipWs_append hw2]
    rcases hrest with ⟨rfl, rfl⟩ | ⟨hne, r', rfl, hr'⟩
    · rw [List.nil_append, skipWs_cons (by decide)]
      simp only [if_true]
    · rw [List.cons_append, skipWs_cons (by decide)]
      simp only
      simp only [List.length_cons] at hk hn
      rw [if_neg (by decide), if_pos trivial, readMembers_complete mk l r' r k n hr' hne (by omega) (by omega)]
end

/-! ## Writing -/

theorem toDigits_spec (n : Nat) : (Nat.toDigits 10 n ≠ []) ∧ (∀ c ∈ Nat.toDigits 10 n, isDig c = true) ∧ digitsValue (Nat.toDigits 10 n) = n ∧
    ((Nat.toDigits 10 n).head? = some '0' → n = 0) := by
  have hdig : ∀ d, d < 10 → isDig (Nat.digitChar d) = true ∧ (Nat.digitChar d).toNat - 48 = d ∧ (Nat.digitChar d = '0' → d = 0) := by
    intro d hd
    interval_cases d <;> decide
  induction n using Nat.strong_induction_on with
  | _ n ih =>
    by_cases h : n < 10
    · rw [Nat.toDigits_of_lt_base h]
      obtain ⟨h1, h2, h3⟩ := hdig n h
      refine ⟨by simp, by simpa using h1, by simp [digitsValue, h2], by simpa using h3⟩
    · rw [Nat.toDigits_of_base_le (by omega) (by omega)]
      obtain ⟨i1, i2, i3, i4⟩ := ih (n / 10) (by omega)
      obtain ⟨h1, h2, h3⟩ := hdig (n % 10) (by omega)
      refine ⟨by simp, ?_, ?_, ?_⟩
      · intro c hc
        rcases List.mem_append.1 hc with hc | hc
        · exact i2 c hc
        · rw [List.mem_singleton.1 hc]; exact h1
      · have hv : digitsValue (Nat.toDigits 10 (n / 10) ++ [(n % 10).digitChar]) = 10 * digitsValue (Nat.toDigits 10 (n / 10)) + n % 10 := by
          simp [digitsValue, List.foldl_append, h2]
        rw [hv, i3]; omega
      · intro hh
        have hh' : (Nat.toDigits 10 (n / 10)).head? = some '0' := by
          generalize Nat.toDigits 10 (n / 10) = l at hh i1
          cases l with
          | nil => exact absurd rfl i1
          | cons x xs => exact hh
        have := i4 hh'
        omega

theorem writeNat_spec (n : Nat) : Digits (writeNat n) ∧ decValue (writeNat n) = n ∧ ((writeNat n).head? = some '0' → writeNat n = ['0']) := by
  obtain ⟨h1, h2, h3, h4⟩ := toDigits_spec n
  refine ⟨digits_iff.2 ⟨h1, h2⟩, (digitsValue_eq h2).symm.trans h3, ?_⟩
  intro h
  have := h4 h
  subst this
  decide

theorem writeInt_value (mk : List Char → Option F) {z : Int} (h1 : -2 ^ 63 ≤ z) (h2 : z < 2 ^ 64) : ValueText mk (.int z) (writeInt z) := by
  obtain ⟨hd, hv, hz⟩ := writeNat_spec z.natAbs
  rw [ValueText]
  unfold writeInt
  split
  · rename_i hneg
    refine ⟨['-'], writeNat z.natAbs, [], [], by simp, ⟨Or.inr rfl, ⟨hd, hz⟩, Or.inl rfl, Or.inl rfl⟩, ?_⟩
    have := NumberMeans.neg (mk := mk) (sign := ['-']) (int := writeNat z.natAbs) (frac := []) (exp := []) rfl rfl rfl
      (by rw [hv]; omega) (by rw [hv]; omega)
    rw [hv] at this
    rwa [show -((z.natAbs : Nat) : Int) = z by omega] at this
  · rename_i hneg
    refine ⟨[], writeNat z.natAbs, [], [], by simp, ⟨Or.inl rfl, ⟨hd, hz⟩, Or.inl rfl, Or.inl rfl⟩, ?_⟩
    have := NumberMeans.pos (mk := mk) (sign := []) (int := writeNat z.natAbs) (frac := []) (exp := []) rfl rfl rfl (by rw [hv]; omega)
    rw [hv] at this
    rwa [show ((z.natAbs : Nat) : Int) = z by omega] at this

theorem hexChar_spec {v : Nat} (h : v < 16) : Hex (hexChar v) v := by
  rw [← hexVal_iff]
  interval_cases v <;> decide

theorem writeChar_text (c : Char) : CharText (writeChar c) c := by
  unfold writeChar
  split
  · rename_i h; subst h; exact .escape (by decide)
  split
  · rename_i h; subst h; exact .escape (by decide)
  split
  · rename_i h; subst h; exact .escape (by decide)
  split
  · rename_i h; subst h; exact .escape (by decide)
  split
  · rename_i h; subst h; exact .escape (by decide)
  split
  · rename_i h; subst h; exact .escape (by decide)
  split
  · rename_i h; subst h; exact .escape (by decide)
  split
  · rename_i h
    have h4 : Hex4 ['0', '0', hexChar (c.toNat / 16), hexChar (c.toNat % 16)] c.toNat :=
      ⟨_, _, _, _, 0, 0, c.toNat / 16, c.toNat % 16, rfl, Or.inl rfl, Or.inl rfl, hexChar_spec (by omega), hexChar_spec (by omega), by omega⟩
    have := CharText.unicode h4 (Or.inl (by omega))
    rwa [Char.ofNat_toNat] at this
  · exact .plain (by omega) (by assumption) (by assumption)

theorem writeStr_text (s : String) : StrText (writeStr s) s := by
  refine ⟨s.toList.flatMap writeChar, rfl, ?_⟩
  induction s.toList with
  | nil => exact .nil
  | cons c t ih => rw [List.flatMap_cons]; exact .cons (writeChar_text c) ih

mutual
theorem write_text (mk : List Char → Option F) (showF : F → List Char) : ∀ j : Json F, Writable mk showF j → ValueText mk j (write showF j)
  | .null, _ => by rw [write, ValueText]
  | .bool true, _ => by rw [write, ValueText]; rfl
  | .bool false, _ => by rw [write, ValueText]; rfl
  | .int z, h => by rw [Writable] at h; rw [write]; exact writeInt_value mk h.1 h.2
  | .float x, h => by
    rw [Writable] at h
    obtain ⟨sign, int, frac, exp, he, hn, hfe, hm⟩ := h
    rw [write, ValueText]
    refine ⟨sign, int, frac, exp, he, hn, .float ?_ ?_ (by rw [← he]; exact hm)⟩
    · intro h1 h2; exact absurd h2 (hfe.resolve_left (fun h => h h1))
    · intro h1 h2; exact absurd h2 (hfe.resolve_left (fun h => h h1))
  | .str s, _ => by rw [write, ValueText]; exact writeStr_text s
  | .arr l, h => by
    rw [Writable] at h
    rw [write, ValueText]
    refine ⟨writeElems showF true l, rfl, ?_⟩
    cases l with
    | nil => rw [writeElems]; exact Or.inl ⟨rfl, Ws.nil⟩
    | cons j l =>
      obtain ⟨t, ht, he⟩ := writeElems_text mk showF (j :: l) h (by simp) true
      rw [ht]
      exact Or.inr ⟨by simp, he⟩
  | .obj l, h => by
    rw [Writable] at h
    rw [write, ValueText]
    refine ⟨writeMembers showF true l, rfl, ?_⟩
    cases l with
    | nil => rw [writeMembers]; exact Or.inl ⟨rfl, Ws.nil⟩
    | cons j l =>
      obtain ⟨t, ht, he⟩ := writeMembers_text mk showF (j :: l) h (by simp) true
      rw [ht]
      exact Or.inr ⟨by simp, he⟩
theorem writeElems_text (mk : List Char → Option F) (showF : F → List Char) : ∀ l : List (Json F), WritableAll mk showF l → l ≠ [] →
    ∀ first, ∃ t, writeElems showF first l = sep first ++ t ∧ ElemsText mk l t
  | [], _, h, _ => absurd rfl h
  | [j], h, _, first => by
    rw [WritableAll] at h
    refine ⟨write showF j, by rw [writeElems, writeElems]; simp, ?_⟩
    rw [ElemsText]
    exact ⟨[], write showF j, [], [], by simp, Ws.nil, write_text mk showF j h.1, Ws.nil, Or.inl ⟨rfl, rfl⟩⟩
  | j :: j' :: l, h, _, first => by
    rw [WritableAll] at h
    obtain ⟨t, ht, he⟩ := writeElems_text mk showF (j' :: l) h.2 (by simp) false
    refine ⟨write showF j ++ ',' :: t, by rw [writeElems, ht]; simp [sep], ?_⟩
    rw [ElemsText]
    exact ⟨[], write showF j, [], ',' :: t, by simp, Ws.nil, write_text mk showF j h.1, Ws.nil, Or.inr ⟨by simp, t, rfl, he⟩⟩
theorem writeMembers_text (mk : List Char → Option F) (showF : F → List Char) : ∀ l : List (String × Json F), WritableMembers mk showF l → l ≠ [] →
    ∀ first, ∃ t, writeMembers showF first l = sep first ++ t ∧ MembersText mk l t
  | [], _, h, _ => absurd rfl h
  | [(k, j)], h, _, first => by
    rw [WritableMembers] at h
    refine ⟨writeStr k ++ [':'] ++ write showF j, by rw [writeMembers, writeMembers]; simp, ?_⟩
    rw [MembersText]
    exact ⟨[], writeStr k, [], [], write showF j, [], [], by simp, Ws.nil, writeStr_text k, Ws.nil, Ws.nil, write_text mk showF j h.1, Ws.nil,
      Or.inl ⟨rfl, rfl⟩⟩
  | (k, j) :: kj :: l, h, _, first => by
    rw [WritableMembers] at h
    obtain ⟨t, ht, he⟩ := writeMembers_text mk showF (kj :: l) h.2 (by simp) false
    refine ⟨writeStr k ++ [':'] ++ write showF j ++ ',' :: t, by rw [writeMembers, ht]; simp [sep], ?_⟩
    rw [MembersText]
    exact ⟨[], writeStr k, [], [], write showF j, [], ',' :: t, by simp, Ws.nil, writeStr_text k, Ws.nil, Ws.nil, write_text mk showF j h.1,
      Ws.nil, Or.inr ⟨by simp, t, rfl, he⟩⟩
end

end JsonText
end Panacea
