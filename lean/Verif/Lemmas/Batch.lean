import Verif.Lemmas.Multi
import Verif.Props.OramShape
import Verif.Props.Multi
import Mathlib.Tactic.Abel

/-! # Lemmas for `process_batch` -/

namespace Panacea
variable {n : Nat}

theorem writes_effect (specs : List (QuerySpec n)) {r c : Nat} {sp : QuerySpec n} (h : specs[r]? = some sp) (U : Nat × Nat → Poly n) :
    sp.effect (fun c => U (r, c)) c = (Spec.writes specs (r, c)).getD (U (r, c)) := by
  unfold Spec.writes QuerySpec.effect
  simp only [h]
  cases hw : sp.w
  · simp
  · by_cases hc : sp.i = c
    · subst hc; simp
    · have hc' : c ≠ sp.i := fun h => hc h.symm
      simp [hc, hc']

theorem cellAt_row {db : List (List (RLWE n))} {r : Nat} {row : List (RLWE n)} (h : db[r]? = some row) (c : Nat) :
    cellAt db (r, c) = row[c]? := by
  unfold cellAt; simp only [h]

/-- What one access to one row achieves: selectors with row noise `E`, a response with noise `er`, updated cells with noise `eu`. -/
def RowOk (fft : Fft n) (s : Poly n) (ctx : Ctx) (negS : RGSW n) (D : Nat) (q : ClientQuery n) (sp : QuerySpec n) (row : List (RLWE n))
    (v : Nat → Poly n) (E er eu : Nat) : Prop :=
  ∃ y ls, processOneSt fft ctx q row negS = some (y, ls) ∧ ls.length = 2 ^ D ∧
    (∀ j l, ls[j]? = some l → EncBit s l (decide (j = sp.i)) ctx.baseLog ctx.levelCount E) ∧
    Enc s y (v sp.i) er ∧ (updateDb fft q row ls).length = 2 ^ D ∧ EncRow s (updateDb fft q row ls) (sp.effect v) eu

/-- First phase of a batch: responses, selectors, and the updated rows. -/
theorem batch_phase1_of {fft : Fft n} {s : Poly n} {S : Server n} {D : Nat} {specs : List (QuerySpec n)} {qs : List (ClientQuery n)}
    (hql0 : specs.length = qs.length) {rows : Nat} (hrows : specs.length = rows) (hsh : DbShape rows (2 ^ D) S.data)
    {U : Nat × Nat → Poly n} {e E er eu : Nat} (hU : EncDb s S.data U e)
    (hok : ∀ (r : Nat) sp q row, specs[r]? = some sp → qs[r]? = some q → S.data[r]? = some row → ∀ v, EncRow s row v e →
      RowOk fft s S.ctx S.negS D q sp row v E er eu) :
    ∃ rs, mapOption (batchRow fft S) (qs.zip S.data) = some rs ∧ rs.length = rows ∧
      (∀ (r : Nat) (sp : QuerySpec n), specs[r]? = some sp → ∃ y ls, rs[r]? = some (y, ls) ∧
        Enc s y (U (r, sp.i)) er ∧ ls.length = 2 ^ D ∧
        ∀ j l, ls[j]? = some l → EncBit s l (decide (j = sp.i)) S.ctx.baseLog S.ctx.levelCount E) ∧
      DbShape rows (2 ^ D) (phase1Db fft qs S.data (rs.map Prod.snd)) ∧
      EncDb s (phase1Db fft qs S.data (rs.map Prod.snd)) (fun p => (Spec.writes specs p).getD (U p)) eu := by
  have hql : qs.length = rows := by rw [← hql0]; exact hrows
  obtain ⟨rs, h1, h2, h3⟩ := mapOption_getElem_spec (f := batchRow fft S) (l := qs.zip S.data)
    (Q := fun r x res => ∃ sp, specs[r]? = some sp ∧
      Enc s res.1 (U (r, sp.i)) er ∧ res.2.length = 2 ^ D ∧
      (∀ j l, res.2[j]? = some l → EncBit s l (decide (j = sp.i)) S.ctx.baseLog S.ctx.levelCount E) ∧
      (updateDb fft x.1 x.2 res.2).length = 2 ^ D ∧
      EncRow s (updateDb fft x.1 x.2 res.2) (sp.effect fun c => U (r, c)) eu) (fun r x hx => by
      rw [zip_getElem] at hx
      have hr : r < specs.length := by
        have := (List.getElem?_eq_some_iff.mp hx.1).1
        omega
      have hsp : specs[r]? = some specs[r] := List.getElem?_eq_getElem hr
      have hrow : EncRow s x.2 (fun c => U (r, c)) e := fun c ct hc => hU (r, c) ct (by rw [cellAt_row hx.2]; exact hc)
      obtain ⟨y, ls, p1, p2, p3, p4, p5, p6⟩ := hok r specs[r] x.1 x.2 hsp hx.1 hx.2 _ hrow
      exact ⟨(y, ls), p1, specs[r], hsp, p4, p2, p3, p5, p6⟩)
  have hrl : rs.length = rows := by rw [h2, List.length_zip, hql, hsh.1, min_self]
  have hall : ∀ r, r < rows → ∃ sp q row y ls, specs[r]? = some sp ∧ qs[r]? = some q ∧ S.data[r]? = some row ∧ rs[r]? = some (y, ls) ∧
      Enc s y (U (r, sp.i)) er ∧ ls.length = 2 ^ D ∧
      (∀ j l, ls[j]? = some l → EncBit s l (decide (j = sp.i)) S.ctx.baseLog S.ctx.levelCount E) ∧
      (updateDb fft q row ls).length = 2 ^ D ∧
      EncRow s (updateDb fft q row ls) (sp.effect fun c => U (r, c)) eu := by
    intro r hr
    obtain ⟨x, hx, _, sp, a1, a2, a3, a4, a5, a6⟩ := h3 r rs[r] (List.getElem?_eq_getElem (by omega))
    rw [zip_getElem] at hx
    exact ⟨sp, x.1, x.2, rs[r].1, rs[r].2, a1, hx.1, hx.2, List.getElem?_eq_getElem (by omega), a2, a3, a4, a5, a6⟩
  have hget : ∀ (r : Nat) (sp : QuerySpec n) (q : ClientQuery n) (row : List (RLWE n)) (y : RLWE n) (ls : List (RGSW n)), specs[r]? = some sp → qs[r]? = some q → S.data[r]? = some row → rs[r]? = some (y, ls) →
      (phase1Db fft qs S.data (rs.map Prod.snd))[r]?
        = some (updateDb fft q row ls) := by
    intro r sp q row y ls _ b2 b3 b4
    unfold phase1Db
    rw [List.getElem?_zipWith, (zip_getElem (p := (q, row))).mpr ⟨b2, b3⟩, List.getElem?_map, b4]
    rfl
  refine ⟨rs, h1, hrl, ?_, ⟨by simp [phase1Db, hql, hsh.1, hrl], ?_⟩, ?_⟩
  · intro r sp hsp
    have hr : r < rows := by rw [← hrows]; exact (List.getElem?_eq_some_iff.mp hsp).1
    obtain ⟨sp', q, row, y, ls, b1, _, _, b4, b5, b6, b7, _⟩ := hall r hr
    rw [hsp] at b1; cases b1
    exact ⟨y, ls, b4, b5, b6, b7⟩
  · intro row' hrow'
    obtain ⟨r, hr⟩ := List.mem_iff_getElem?.mp hrow'
    have hr' : r < rows := by
      have := (List.getElem?_eq_some_iff.mp hr).1
      simpa [phase1Db, hql, hsh.1, hrl] using this
    obtain ⟨sp', q, row, y, ls, b1, b2, b3, b4, _, _, _, b8, _⟩ := hall r hr'
    rw [hget r sp' q row y ls b1 b2 b3 b4] at hr
    cases hr; exact b8
  · rintro ⟨r, c⟩ ct hct
    have hr' : r < rows := by
      unfold cellAt at hct
      split at hct
      · cases hct
      · rename_i row hrow
        have := (List.getElem?_eq_some_iff.mp hrow).1
        simpa [phase1Db, hql, hsh.1, hrl] using this
    obtain ⟨sp', q, row, y, ls, b1, b2, b3, b4, _, _, _, _, b9⟩ := hall r hr'
    rw [cellAt_row (hget r sp' q row y ls b1 b2 b3 b4)] at hct
    have := b9 c ct hct
    rw [writes_effect specs b1 U] at this
    exact this

/-- The two selections of the consistency phase at cell `p`: a function applied to a ciphertext, encrypting it if `p` was written, zero
otherwise; for the ciphertexts satisfying `P p`. -/
def FlagSel (fft : Fft n) (s : Poly n) (ls : List (List (RGSW n))) (flags : List (RGSW n)) (specs : List (QuerySpec n)) (rows cols δ : Nat)
    (P : Nat × Nat → RLWE n → Prop) : Prop :=
  ∀ p : Nat × Nat, p.1 < rows → p.2 < cols → ∃ F : RLWE n → RLWE n, (∀ v, flagProduct fft ls flags p v = some (F v)) ∧
    ∀ v, P p v → Enc s (F v) (if (Spec.writes specs p).isSome then decryptRlwe s v else 0) δ

theorem flagSel_of_gates {fft : Fft n} {s : Poly n} {ctx : Ctx} {D B : Nat}
    {specs : List (QuerySpec n)} {qs : List (ClientQuery n)} (hq : IsQueries ctx s D B specs qs) {rows : Nat} (hrows : specs.length = rows)
    {lss : List (List (RGSW n))} {E : Nat} (hls : ∀ (r : Nat) (sp : QuerySpec n), specs[r]? = some sp → ∃ ls, lss[r]? = some ls ∧ ls.length = 2 ^ D ∧
        ∀ j l, ls[j]? = some l → EncBit s l (decide (j = sp.i)) ctx.baseLog ctx.levelCount E) {P : Nat × Nat → RLWE n → Prop} {δo δs : Nat}
    (hP : ∀ p v q ls l, P p v → qs[p.1]? = some q → lss[p.1]? = some ls → ls[p.2]? = some l →
      (∀ b, EncBit s q.op b ctx.baseLog ctx.levelCount B → Enc s (externalProduct fft q.op 0 v) (if b then decryptRlwe s v else 0) δo) ∧
      (∀ b, EncBit s l b ctx.baseLog ctx.levelCount E → Enc s (externalProduct fft l 0 (externalProduct fft q.op 0 v))
        (if b then decryptRlwe s (externalProduct fft q.op 0 v) else 0) δs)) :
    FlagSel fft s lss (qs.map ClientQuery.op) specs rows (2 ^ D) (δo + δs) P := by
  rintro ⟨r, c⟩ hr hc
  simp only at hr hc
  obtain ⟨sp, hsp⟩ : ∃ sp, specs[r]? = some sp := ⟨specs[r], List.getElem?_eq_getElem (by omega)⟩
  obtain ⟨q, hqr, hqq⟩ := forall₂_getElem_left hq hsp
  obtain ⟨ls, l1, l2, l3⟩ := hls r sp hsp
  have hlc : ls[c]? = some ls[c] := List.getElem?_eq_getElem (by omega)
  have hbit := l3 c ls[c] hlc
  refine ⟨fun v => externalProduct fft ls[c] 0 (externalProduct fft q.op 0 v), fun v => ?_, fun v hv => ?_⟩
  · unfold flagProduct flagProduct.cellSel
    simp only [List.getElem?_map, hqr, Option.map_some, l1, hlc]
  · obtain ⟨g1, g2⟩ := hP (r, c) v q ls ls[c] hv hqr l1 hlc
    have h1 := g1 _ hqq.op
    have h2 := g2 _ hbit
    have hw : (if decide (c = sp.i) then (if sp.w then decryptRlwe s v else 0) else 0)
        = if (Spec.writes specs (r, c)).isSome then decryptRlwe s v else 0 := by
      unfold Spec.writes
      simp only [hsp]
      by_cases hci : c = sp.i
      · cases sp.w <;> simp [hci]
      · have : ¬ sp.i = c := fun h => hci h.symm
        simp [hci, this]
    rw [← hw]
    cases hci : decide (c = sp.i)
    · rw [hci] at h2
      simp only [Bool.false_eq_true, if_false] at h2 ⊢
      exact h2.mono (by omega)
    · rw [hci] at h2
      simp only [if_true] at h2 ⊢
      unfold Enc at *
      rw [show ∀ a b c : Poly n, a - b = (c - b) + (a - c) by intros; ring]
      exact h1.add h2

theorem foldl_sub_eq (x : RLWE n) : ∀ l : List (RLWE n), l.foldl (fun acc v => acc - v) x = x - l.sum
  | [] => by simp
  | a :: l => by rw [List.foldl_cons, foldl_sub_eq (x - a) l, List.sum_cons]; abel

theorem foldl_add_eq (x : RLWE n) : ∀ l : List (RLWE n), l.foldl (fun acc v => acc + v) x = x + l.sum
  | [] => by simp
  | a :: l => by rw [List.foldl_cons, foldl_add_eq (x + a) l, List.sum_cons]; abel

theorem mapOption_eq_map {α β : Type} {f : α → Option β} {g : α → β} : ∀ {l : List α}, (∀ a ∈ l, f a = some (g a)) →
    mapOption f l = some (l.map g)
  | [], _ => rfl
  | a :: l, h => by
    rw [mapOption, h a (by simp), mapOption_eq_map (fun b hb => h b (by simp [hb]))]
    rfl

theorem sum_map_sub_list {α : Type} (f g : α → RLWE n) : ∀ l : List α, (l.map f).sum - (l.map g).sum = (l.map fun a => f a - g a).sum
  | [] => by simp
  | a :: l => by
    simp only [List.map_cons, List.sum_cons]
    rw [← sum_map_sub_list f g l]; abel

/-- The corrected value of one item: the content of the first copy, plus the difference to every *written* later copy. -/
theorem correctConsistency_dec {fft : Fft n} {s : Poly n} {ls : List (List (RGSW n))} {flags : List (RGSW n)} {specs : List (QuerySpec n)}
    {rows cols δ : Nat} {P : Nat × Nat → RLWE n → Prop} (hF : FlagSel fft s ls flags specs rows cols δ P) {db : List (List (RLWE n))} {k : Nat} {p : Nat → Nat × Nat}
    {c : Nat → RLWE n} (hp : ∀ h, h < k + 1 → (p h).1 < rows ∧ (p h).2 < cols) (hc : ∀ h, h < k + 1 → cellAt db (p h) = some (c h))
    (hP : ∀ h, h < k + 1 → P (p h) (c h) ∧ P (p h) (c 0)) :
    ∃ V, correctConsistency fft db ls flags ((List.range (k + 1)).map p) = some V ∧
      Enc s V (decryptRlwe s (c 0) + ((List.range k).map fun h =>
        if (Spec.writes specs (p (h + 1))).isSome then decryptRlwe s (c (h + 1)) - decryptRlwe s (c 0) else 0).sum) (k * (2 * δ)) := by
  have hF' : ∀ h, ∃ F : RLWE n → RLWE n, h < k + 1 → (∀ v, flagProduct fft ls flags (p h) v = some (F v)) ∧
      ∀ v, P (p h) v → Enc s (F v) (if (Spec.writes specs (p h)).isSome then decryptRlwe s v else 0) δ := by
    intro h
    by_cases hh : h < k + 1
    · obtain ⟨F, f1, f2⟩ := hF (p h) (hp h hh).1 (hp h hh).2
      exact ⟨F, fun _ => ⟨f1, f2⟩⟩
    · exact ⟨id, fun h' => absurd h' hh⟩
  choose F hF using hF'
  have hcells : mapOption (cellAt db) ((List.range (k + 1)).map p) = some ((List.range (k + 1)).map c) := by
    have : ∀ l : List Nat, (∀ h ∈ l, h < k + 1) → mapOption (cellAt db) (l.map p) = some (l.map c) := by
      intro l
      induction l with
      | nil => intro _; rfl
      | cons h l ih =>
        intro hl
        rw [List.map_cons, mapOption, hc h (hl h (by simp)), ih (fun h' hh' => hl h' (by simp [hh']))]
        rfl
    exact this _ (fun h hh => List.mem_range.mp hh)
  have hprods : ∀ v, mapOption (fun q => flagProduct fft ls flags q v) ((List.range (k + 1)).map p)
      = some ((List.range (k + 1)).map fun h => F h v) := by
    intro v
    have : ∀ l : List Nat, (∀ h ∈ l, h < k + 1) → mapOption (fun q => flagProduct fft ls flags q v) (l.map p) = some (l.map fun h => F h v) := by
      intro l
      induction l with
      | nil => intro _; rfl
      | cons h l ih =>
        intro hl
        rw [List.map_cons, mapOption, (hF h (hl h (by simp))).1 v, ih (fun h' hh' => hl h' (by simp [hh']))]
        rfl
    exact this _ (fun h hh => List.mem_range.mp hh)
  have hterms : mapOption (fun (x : (Nat × Nat) × RLWE n) => flagProduct fft ls flags x.1 x.2)
      (((List.range k).map fun h => p (h + 1)).zip ((List.range k).map fun h => c (h + 1)))
      = some ((List.range k).map fun h => F (h + 1) (c (h + 1))) := by
    have : ∀ l : List Nat, (∀ h ∈ l, h < k) → mapOption (fun (x : (Nat × Nat) × RLWE n) => flagProduct fft ls flags x.1 x.2)
        ((l.map fun h => p (h + 1)).zip (l.map fun h => c (h + 1))) = some (l.map fun h => F (h + 1) (c (h + 1))) := by
      intro l
      induction l with
      | nil => intro _; rfl
      | cons h l ih =>
        intro hl
        rw [List.map_cons, List.map_cons, List.zip_cons_cons, mapOption,
          (hF (h + 1) (by have := hl h (by simp); omega)).1 _, ih (fun h' hh' => hl h' (by simp [hh']))]
        rfl
    exact this _ (fun h hh => List.mem_range.mp hh)
  have hrange : ∀ {α : Type} (f : Nat → α), (List.range (k + 1)).map f = f 0 :: (List.range k).map fun h => f (h + 1) := by
    intro α f
    rw [List.range_succ_eq_map, List.map_cons, List.map_map]; rfl
  refine ⟨c 0 + ((List.range k).map fun h => F (h + 1) (c (h + 1)) - F (h + 1) (c 0)).sum, ?_, ?_⟩
  · unfold correctConsistency
    rw [hcells, hrange c]
    simp only
    unfold correctValue
    rw [hprods, hrange (fun h => F h (c 0)), hrange p]
    simp only [List.drop_succ_cons, List.drop_zero]
    rw [hterms]
    simp only [Option.some.injEq]
    rw [foldl_add_eq, foldl_sub_eq, List.sum_cons, ← sum_map_sub_list]
    abel
  · have h1 := forall₂_sum_enc (s := s) (e := fun _ => 2 * δ)
      (m := fun h => if (Spec.writes specs (p (h + 1))).isSome then decryptRlwe s (c (h + 1)) - decryptRlwe s (c 0) else 0)
      (as := List.range k) (xs := (List.range k).map fun h => F (h + 1) (c (h + 1)) - F (h + 1) (c 0)) (by
        rw [List.forall₂_map_right_iff, List.forall₂_same]
        intro h hh
        rw [List.mem_range] at hh
        have hd := ((hF (h + 1) (by omega)).2 (c (h + 1)) (hP (h + 1) (by omega)).1).sub ((hF (h + 1) (by omega)).2 (c 0) (hP (h + 1) (by omega)).2)
        rw [two_mul]
        split
        · rename_i hw; simp only [hw, if_true] at hd; exact hd
        · rename_i hw; simp only [hw, Bool.false_eq_true, if_false, sub_zero] at hd; exact hd)
    rw [sum_map_const_nat, List.length_range] at h1
    unfold Enc at *
    rw [decrypt_add]
    rw [show ∀ a b d : Poly n, a + b - (a + d) = b - d by intros; ring]
    exact h1

/-- One item of the consistency phase. -/
theorem correctItem_spec {fft : Fft n} {s : Poly n} {ls : List (List (RGSW n))} {flags : List (RGSW n)} {specs : List (QuerySpec n)}
    {H : NaiveHash} {rows cols k N δ : Nat} {P : Nat × Nat → RLWE n → Prop} (hF : FlagSel fft s ls flags specs rows cols δ P) {T : Nat → Nat → Nat × Nat}
    (L : Layout H rows cols (k + 1) N T) {db : List (List (RLWE n))} (hsh : DbShape rows cols db) {i : Nat} (hi : i < N)
    {c : Nat → RLWE n} (hc : ∀ h, h < k + 1 → cellAt db (T h i) = some (c h)) (hP : ∀ h, h < k + 1 → P (T h i) (c h) ∧ P (T h i) (c 0)) :
    ∃ db' V, correctItem fft H cols ls flags db i = some db' ∧ DbShape rows cols db' ∧
      (∀ h, h < k + 1 → cellAt db' (T h i) = some V) ∧ (∀ p, (∀ h, h < k + 1 → T h i ≠ p) → cellAt db' p = cellAt db p) ∧
      Enc s V (decryptRlwe s (c 0) + ((List.range k).map fun h =>
        if (Spec.writes specs (T (h + 1) i)).isSome then decryptRlwe s (c (h + 1)) - decryptRlwe s (c 0) else 0).sum) (k * (2 * δ)) := by
  obtain ⟨V, v1, v2⟩ := correctConsistency_dec hF (p := fun h => T h i) (fun h hh => ⟨L.row_lt h i hh hi, L.col_lt h i hh hi⟩) hc hP
  have hset : ∀ (l : List Nat) (db : List (List (RLWE n))), (∀ h ∈ l, h < k + 1) → DbShape rows cols db →
      ∀ p, cellAt ((l.map fun h => T h i).foldl (fun d p => setCell d p V) db) p
        = if ∃ h ∈ l, T h i = p then some V else cellAt db p := by
    intro l
    induction l with
    | nil => intro db _ _ p; simp
    | cons h l ih =>
      intro db hl hsh p
      have hh := hl h (by simp)
      rw [List.map_cons, List.foldl_cons, ih _ (fun h' hh' => hl h' (by simp [hh'])) (setCell_shape hsh _ _),
        cellAt_setCell hsh (L.row_lt h i hh hi) (L.col_lt h i hh hi)]
      by_cases h1 : ∃ h' ∈ l, T h' i = p
      · rw [if_pos h1, if_pos (by obtain ⟨h', a, b⟩ := h1; exact ⟨h', by simp [a], b⟩)]
      · rw [if_neg h1]
        by_cases h2 : p = T h i
        · rw [if_pos h2, if_pos ⟨h, by simp, h2.symm⟩]
        · rw [if_neg h2, if_neg]
          rintro ⟨h', a, b⟩
          rcases List.mem_cons.mp a with rfl | a
          · exact h2 b.symm
          · exact h1 ⟨h', a, b⟩
  refine ⟨((List.range (k + 1)).map fun h => T h i).foldl (fun d p => setCell d p V) db, V, ?_, foldl_setCell_shape _ _ _ hsh, ?_, ?_, v2⟩
  · unfold correctItem
    rw [itemPositions_some L hi]
    simp only [v1]
  · intro h hh
    rw [hset _ _ (fun h hh => List.mem_range.mp hh) hsh, if_pos ⟨h, List.mem_range.mpr hh, rfl⟩]
  · intro p hp
    rw [hset _ _ (fun h hh => List.mem_range.mp hh) hsh, if_neg]
    rintro ⟨h, a, b⟩
    exact hp h (List.mem_range.mp a) b

/-- All items of the consistency phase: every item is corrected from the cells before the phase. -/
theorem correctAll_spec {fft : Fft n} {s : Poly n} {ls : List (List (RGSW n))} {flags : List (RGSW n)} {specs : List (QuerySpec n)}
    {H : NaiveHash} {rows cols k N δ : Nat} {P : Nat × Nat → RLWE n → Prop} (hF : FlagSel fft s ls flags specs rows cols δ P) {T : Nat → Nat → Nat × Nat}
    (L : Layout H rows cols (k + 1) N T) {c : Nat → Nat → RLWE n} : ∀ (is : List Nat) (db : List (List (RLWE n))), is.Nodup →
    (∀ i ∈ is, i < N) → DbShape rows cols db → (∀ i ∈ is, ∀ h, h < k + 1 → cellAt db (T h i) = some (c h i)) →
    (∀ i ∈ is, ∀ h, h < k + 1 → P (T h i) (c h i) ∧ P (T h i) (c 0 i)) →
    ∃ db', correctAll fft H cols ls flags is db = some db' ∧ DbShape rows cols db' ∧
      (∀ i ∈ is, ∃ V, (∀ h, h < k + 1 → cellAt db' (T h i) = some V) ∧
        Enc s V (decryptRlwe s (c 0 i) + ((List.range k).map fun h =>
          if (Spec.writes specs (T (h + 1) i)).isSome then decryptRlwe s (c (h + 1) i) - decryptRlwe s (c 0 i) else 0).sum) (k * (2 * δ))) ∧
      ∀ i h, i ∉ is → i < N → h < k + 1 → cellAt db' (T h i) = cellAt db (T h i)
  | [], db, _, _, hsh, _, _ => ⟨db, rfl, hsh, by simp, fun _ _ _ _ _ => rfl⟩
  | i :: is, db, hnd, hlt, hsh, hc, hP => by
    obtain ⟨hni, hnd'⟩ := List.nodup_cons.mp hnd
    have hi := hlt i (by simp)
    obtain ⟨db1, V, e1, e2, e3, e4, e5⟩ := correctItem_spec hF L hsh hi (c := fun h => c h i) (hc i (by simp)) (hP i (by simp))
    have hother : ∀ j h, j ≠ i → j < N → h < k + 1 → cellAt db1 (T h j) = cellAt db (T h j) := fun j h hj hjN hh =>
      e4 _ (fun h' hh' heq => hj (L.inj h' i h j hh' hi hh hjN heq).2.symm)
    obtain ⟨db', f1, f2, f3, f4⟩ := correctAll_spec hF L (c := c) is db1 hnd' (fun j hj => hlt j (by simp [hj])) e2 (fun j hj h hh => by
      rw [hother j h (fun h' => hni (h' ▸ hj)) (hlt j (by simp [hj])) hh]
      exact hc j (by simp [hj]) h hh) (fun j hj => hP j (by simp [hj]))
    refine ⟨db', by rw [correctAll, e1]; exact f1, f2, ?_, ?_⟩
    · intro j hj
      rcases List.mem_cons.mp hj with rfl | hj'
      · exact ⟨V, fun h hh => by rw [f4 j h hni hi hh]; exact e3 h hh, e5⟩
      · exact f3 j hj'
    · intro j h hj hjN hh
      have hj1 : j ≠ i := fun h' => hj (by simp [h'])
      have hj2 : j ∉ is := fun h' => hj (by simp [h'])
      rw [f4 j h hj2 hjN hh, hother j h hj1 hjN hh]

theorem sum_ite_unique {α M : Type} [AddCommMonoid M] (p : α → Bool) (f : α → M) : ∀ (l : List α) (a : α), a ∈ l → l.Nodup → p a →
    (∀ b ∈ l, p b → b = a) → (l.map fun x => if p x then f x else 0).sum = f a
  | [], a, h, _, _, _ => by simp at h
  | x :: l, a, h, hnd, hp, hu => by
    obtain ⟨hnx, hnd'⟩ := List.nodup_cons.mp hnd
    rw [List.map_cons, List.sum_cons]
    by_cases hxa : x = a
    · subst hxa
      rw [if_pos hp]
      have : (l.map fun y => if p y then f y else 0) = l.map fun _ => (0 : M) := List.map_congr_left fun y hy => by
        have : ¬ p y := fun hpy => hnx (hu y (by simp [hy]) hpy ▸ hy)
        rw [if_neg this]
      rw [this]
      simp
    · have hax : a ∈ l := by
        rcases List.mem_cons.mp h with rfl | h'
        · exact absurd rfl hxa
        · exact h'
      have hpx : ¬ p x := fun hpx => hxa (hu x (by simp) hpx)
      rw [if_neg hpx, zero_add]
      exact sum_ite_unique p f l a hax hnd' hp (fun b hb => hu b (by simp [hb]))

end Panacea
