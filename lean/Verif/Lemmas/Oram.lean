import Verif.Spec.Oram
import Verif.Props.EncEval
import Verif.Props.Utils

/-! # Lemmas: selectors, responses and updates -/

namespace Panacea
variable {n : Nat}

theorem externalProduct_out (fft : Fft n) (C : RGSW n) (out d : RLWE n) :
    externalProduct fft C out d = out + externalProduct fft C 0 d := by
  unfold externalProduct
  refine RLWE.ext ?_ ?_
  · simp only [RLWE.add_mask, RLWE.zero_mask, zero_add]
  · simp only [RLWE.add_body, RLWE.zero_body, zero_add]

theorem parReduce_sum {α : Type} [AddCommMonoid α] {xs : List α} {a : α} (h : ParReduce (· + ·) 0 xs a) : a = xs.sum := by
  induction h with
  | fold xs => exact List.sum_eq_foldl.symm
  | split _ _ ih1 ih2 => rw [List.sum_append, ← ih1, ← ih2]

theorem sum_enc {s : Poly n} {e : Nat} : ∀ (xs : List (RLWE n)) (m : Nat → Poly n), (∀ j c, xs[j]? = some c → Enc s c (m j) e) →
    Enc s xs.sum (∑ j ∈ Finset.range xs.length, m j) (xs.length * e)
  | [], m, _ => by
    simp only [List.sum_nil, List.length_nil, Finset.range_zero, Finset.sum_empty, zero_mul]
    exact Enc.zero s
  | x :: xs, m, h => by
    have ih := sum_enc xs (fun j => m (j + 1)) (fun j c hc => h (j + 1) c (by simpa using hc))
    have h0 := h 0 x rfl
    rw [List.sum_cons, List.length_cons, Finset.sum_range_succ', add_comm (∑ _ ∈ _, _) (m 0), Nat.succ_mul, Nat.add_comm _ e]
    exact h0.add ih

/-- The trivial ciphertext of one level. -/
theorem decrypt_trivial (s : Poly n) (v : Scalar) : decryptRlwe s ⟨0, Poly.set 0 0 v⟩ = Poly.const n v := by
  unfold decryptRlwe
  simp only
  rw [set_zero_eq_const]; ring

/-- Demultiplexing with measured errors. -/
theorem demux_of {fft : Fft n} {s : Poly n} {bits : List (RGSW n)} {D i bl lv E δ : Nat} (hD : 1 ≤ D) (h : EncIndex s bits D i bl lv E)
    (b : RLWE n) (hg : ∀ x ∈ demuxCalls fft bits b, GateOk fft s bl lv E δ x.1 x.2) :
    ∃ out, demuxWith fft b bits = some out ∧ out.length = 2 ^ D ∧
      ∀ j c, out[j]? = some c → Enc s c (if j = i then decryptRlwe s b else 0) (D * δ) := by
  obtain ⟨ds, h1, h2, h3⟩ := h.digits
  have hne : bits ≠ [] := by
    rintro rfl
    cases h3; simp at h1; omega
  obtain ⟨out, ho, hl, hc⟩ := demuxRec_of ds bits h3 hne b (decryptRlwe s b) 0 hg (by
    unfold Enc; rw [sub_self]; exact Small.zero 0)
  refine ⟨out, ho, by rw [hl, h1], fun j c hj => ?_⟩
  have := hc j c hj
  rw [h1, h2] at this
  simpa using this

theorem decomposedSelectors_of {fft : Fft n} {s : Poly n} {ctx : Ctx}
    (hbl : 1 ≤ ctx.baseLog) (hlv : 1 ≤ ctx.levelCount) (hlt : ctx.baseLog * ctx.levelCount < 64) {q : ClientQuery n} {D i B δ : Nat} (hD : 1 ≤ D)
    (hq : EncIndex s q.a D i ctx.baseLog ctx.levelCount B)
    (hg : ∀ level, 1 ≤ level → level ≤ ctx.levelCount → ∀ x ∈ demuxCalls fft q.a ⟨0, Poly.set 0 0 (gadget ctx.baseLog level)⟩,
      GateOk fft s ctx.baseLog ctx.levelCount B δ x.1 x.2) :
    ∃ L, decomposedSelectors fft ctx q (2 ^ D) = some L ∧ L.length = 2 ^ D ∧
      ∀ j cs, L[j]? = some cs → cs.length = ctx.levelCount ∧
        ∀ k c, cs[k]? = some c → Enc s c (Poly.const n (gadget ctx.baseLog (k + 1)) * (if j = i then 1 else 0)) (D * δ) := by
  have hlen : q.a.length = D := by
    obtain ⟨ds, h1, _, h3⟩ := hq.digits
    rw [← h3.length_eq, h1]
  obtain ⟨R, e1, e2⟩ := mapOption_spec (f := demuxLevel fft ctx q.a)
    (Q := fun l (tmp : List (RLWE n)) => tmp.length = 2 ^ D ∧
      ∀ j c, tmp[j]? = some c → Enc s c (if j = i then Poly.const n (gadget ctx.baseLog l) else 0) (D * δ))
    (List.range' 1 ctx.levelCount) (fun l hl => by
      rw [List.mem_range'_1] at hl
      have hle : ctx.baseLog * l ≤ ctx.baseLog * ctx.levelCount := Nat.mul_le_mul_left _ (by omega)
      have hpos : 1 ≤ ctx.baseLog * l := Nat.mul_pos hbl hl.1
      obtain ⟨out, o1, o2, o3⟩ := demux_of hD hq ⟨0, Poly.set 0 0 (gadget ctx.baseLog l)⟩ (hg l hl.1 (by omega))
      refine ⟨out, ?_, o2, fun j c hc => ?_⟩
      · unfold demuxLevel
        rw [if_neg (by omega), o1]
        simp only
        rw [if_pos (by rw [o2, hlen])]
      · have := o3 j c hc
        rw [decrypt_trivial] at this
        exact this)
  have hRlen : R.length = ctx.levelCount := by rw [← e2.length_eq, List.length_range']
  have hrow : ∀ k r, R[k]? = some r → r.length = 2 ^ D ∧
      ∀ j c, r[j]? = some c → Enc s c (if j = i then Poly.const n (gadget ctx.baseLog (k + 1)) else 0) (D * δ) := by
    intro k r hr
    have := forall₂_range'_getElem e2 hr
    rwa [Nat.add_comm 1 k] at this
  have hall : ∀ r ∈ R, r.length = 2 ^ D := fun r hr => by
    obtain ⟨k, hk⟩ := List.mem_iff_getElem?.mp hr
    exact (hrow k r hk).1
  have hne : R ≠ [] := by rintro rfl; simp at hRlen; omega
  have hhead : (R.headD []).length = 2 ^ D := by
    cases R with
    | nil => exact absurd rfl hne
    | cons r R => exact hall r (by simp)
  rcases hT : transpose R with _ | L
  · rcases (C06_transpose_panics R).1 hT with h | ⟨r, h1, h2⟩
    · exact absurd h hne
    · rw [hhead, hall r h1] at h2; omega
  · obtain ⟨t1, t2⟩ := C06_transpose_entries R L hT
    rw [hhead] at t1
    refine ⟨L, ?_, t1, fun j cs hj => ?_⟩
    · unfold decomposedSelectors
      rw [e1]
      simp only [hT]
      rw [if_pos t1]
    · obtain ⟨hjl, rfl⟩ := List.getElem?_eq_some_iff.mp hj
      obtain ⟨u1, u2⟩ := t2 j hjl
      refine ⟨by rw [u1, hRlen], fun k c hk => ?_⟩
      have hkl : k < R.length := by
        have := (List.getElem?_eq_some_iff.mp hk).1
        omega
      obtain ⟨u3, _⟩ := u2 k hkl
      rw [u3] at hk
      have := (hrow k R[k] (List.getElem?_eq_getElem hkl)).2 j c hk
      have e : Poly.const n (gadget ctx.baseLog (k + 1)) * (if j = i then 1 else 0 : Poly n)
          = if j = i then Poly.const n (gadget ctx.baseLog (k + 1)) else 0 := by
        split <;> ring
      rw [e]; exact this

theorem decomposedSelectors_spec {fft : Fft n} {phi : Nat} (hf : fft.Bounded phi) {s : Poly n} (hs : Binary s) {ctx : Ctx}
    (hbl : 1 ≤ ctx.baseLog) (hlv : 1 ≤ ctx.levelCount) (hlt : ctx.baseLog * ctx.levelCount < 64) {q : ClientQuery n} {D i B : Nat} (hD : 1 ≤ D)
    (hq : EncIndex s q.a D i ctx.baseLog ctx.levelCount B) :
    ∃ L, decomposedSelectors fft ctx q (2 ^ D) = some L ∧ L.length = 2 ^ D ∧
      ∀ j cs, L[j]? = some cs → cs.length = ctx.levelCount ∧
        ∀ k c, cs[k]? = some c → Enc s c (Poly.const n (gadget ctx.baseLog (k + 1)) * (if j = i then 1 else 0)) (D * deltaOp ctx n B phi) :=
  decomposedSelectors_of hbl hlv hlt hD hq (fun _ _ _ x _ => gateOk_worst hf hs.small _ _ _ x.1 x.2)

theorem responseLoop_eq (fft : Fft n) (ctx : Ctx) (negS : RGSW n) : ∀ (xs : List (List (RLWE n) × RLWE n)) (y : RLWE n) (ls : List (RGSW n)),
    responseLoop fft ctx negS xs y ls = (mapOption (partialResponse fft ctx negS) xs).map
      (fun rs => (y + (rs.map Prod.fst).sum, ls ++ rs.map Prod.snd))
  | [], y, ls => by simp [responseLoop, mapOption]
  | x :: xs, y, ls => by
    rw [responseLoop, mapOption]
    rcases h : decomposedRlweToRgsw fft ctx x.1 negS with _ | l
    · have : partialResponse fft ctx negS x = none := by unfold partialResponse; rw [h]
      rw [this]; rfl
    · have : partialResponse fft ctx negS x = some (externalProduct fft l 0 x.2, l) := by unfold partialResponse; rw [h]
      rw [this]
      simp only
      rw [responseLoop_eq]
      rcases mapOption (partialResponse fft ctx negS) xs with _ | rs
      · rfl
      · simp only [Option.map_some, List.map_cons, List.sum_cons, List.append_assoc, List.singleton_append]
        rw [externalProduct_out, add_assoc]

/-- The multi-threaded and the single-threaded query procedures agree, whatever the reduction does. -/
theorem processOneMt_eq_st {reduce : List (RLWE n) → RLWE n} (hr : IsReduction (· + ·) 0 reduce) (fft : Fft n) (ctx : Ctx)
    (q : ClientQuery n) (row : List (RLWE n)) (negS : RGSW n) :
    processOneMt reduce fft ctx q row negS = processOneSt fft ctx q row negS := by
  unfold processOneMt processOneSt
  rcases decomposedSelectors fft ctx q row.length with _ | L
  · rfl
  · simp only
    rw [responseLoop_eq]
    rcases mapOption (partialResponse fft ctx negS) (L.zip row) with _ | rs
    · rfl
    · simp only [Option.map_some, List.nil_append, zero_add]
      rw [parReduce_sum (hr _)]

theorem zip_getElem {α β : Type} {l : List α} {m : List β} {j : Nat} {p : α × β} :
    (l.zip m)[j]? = some p ↔ l[j]? = some p.1 ∧ m[j]? = some p.2 := List.getElem?_zip_eq_some

theorem mapOption_getElem_spec {α β : Type} {f : α → Option β} : ∀ {l : List α} {Q : Nat → α → β → Prop},
    (∀ j a, l[j]? = some a → ∃ b, f a = some b ∧ Q j a b) →
    ∃ bs, mapOption f l = some bs ∧ bs.length = l.length ∧ ∀ j b, bs[j]? = some b → ∃ a, l[j]? = some a ∧ f a = some b ∧ Q j a b
  | [], Q, _ => ⟨[], rfl, rfl, by simp⟩
  | a :: l, Q, h => by
    obtain ⟨b, hb, hq⟩ := h 0 a rfl
    obtain ⟨bs, h1, h2, h3⟩ := mapOption_getElem_spec (f := f) (l := l) (Q := fun j => Q (j + 1))
      (fun j a ha => h (j + 1) a (by simpa using ha))
    refine ⟨b :: bs, by rw [mapOption, hb, h1], by simp [h2], fun j b' hj => ?_⟩
    cases j with
    | zero => simp at hj; subst hj; exact ⟨a, rfl, hb, hq⟩
    | succ j =>
      simp only [List.getElem?_cons_succ] at hj ⊢
      exact h3 j b' hj

/-- The selectors and the response of one query, relative to the exact decryption of the addressed cell; measured noise. -/
theorem processOneSt_of {fft : Fft n} {s : Poly n} {ctx : Ctx} (hbl : 1 ≤ ctx.baseLog) (hlv : 1 ≤ ctx.levelCount)
    (hlt : ctx.baseLog * ctx.levelCount < 64) {negS : RGSW n} {B : Nat} (hneg : EncG s negS (-s) B) {q : ClientQuery n} {D i : Nat} (hD : 1 ≤ D)
    (hq : EncIndex s q.a D i ctx.baseLog ctx.levelCount B) {row : List (RLWE n)} (hrow : row.length = 2 ^ D) {m : Measure}
    (hm : MeasuredRow fft s ctx negS q row D B m) :
    ∃ y ls, processOneSt fft ctx q row negS = some (y, ls) ∧ ls.length = 2 ^ D ∧
      (∀ j l, ls[j]? = some l → EncBit s l (decide (j = i)) ctx.baseLog ctx.levelCount (m.rows D)) ∧
      ∀ c, row[i]? = some c → Enc s y (decryptRlwe s c) (2 ^ D * m.sel) := by
  obtain ⟨L, e1, e2, e3⟩ := decomposedSelectors_of hbl hlv hlt hD hq hm.bit
  obtain ⟨rs, f1, f2, f3⟩ := mapOption_getElem_spec (f := partialResponse fft ctx negS) (l := L.zip row)
    (Q := fun j x r => EncBit s r.2 (decide (j = i)) ctx.baseLog ctx.levelCount (m.rows D) ∧
      r.1 = externalProduct fft r.2 0 x.2) (fun j x hx => by
      rw [zip_getElem] at hx
      obtain ⟨h1, h2⟩ := e3 j x.1 hx.1
      have hmem : x.1 ∈ L := List.mem_of_getElem? hx.1
      refine ⟨(externalProduct fft ⟨ctx.baseLog, (x.1.take ctx.levelCount).map fun c => (externalProduct fft negS 0 c, c)⟩ 0 x.2,
        ⟨ctx.baseLog, (x.1.take ctx.levelCount).map fun c => (externalProduct fft negS 0 c, c)⟩), ?_, ?_, rfl⟩
      · unfold partialResponse decomposedRlweToRgsw
        rw [if_pos (by omega)]
      · have hlc : (⟨ctx.baseLog, (x.1.take ctx.levelCount).map fun c => (externalProduct fft negS 0 c, c)⟩ : RGSW n).levelCount
            = ctx.levelCount := by
          unfold RGSW.levelCount; simp [h1]
        refine ⟨⟨hbl, by rw [hlc]; exact hlv, by rw [hlc]; exact hlt⟩, rfl, hlc, ?_⟩
        intro k r hr
        simp only [List.getElem?_map, Option.map_eq_some_iff, List.getElem?_take] at hr
        obtain ⟨c, hc, rfl⟩ := hr
        split at hc
        · rename_i hk
          have hE := h2 k c hc
          refine ⟨?_, ?_⟩
          · have := hm.neg hneg L (by rw [hrow]; exact e1) x.1 hmem k c hc (decide (j = i)) (by
              simpa using hE)
            exact Enc.mono this (le_max_right _ _)
          · have hE' : Enc s c (Poly.const n (gadget ctx.baseLog (k + 1)) * (if decide (j = i) = true then 1 else 0)) (D * m.bit) := by
              simpa using hE
            exact Enc.mono hE' (le_max_left _ _)
        · cases hc)
  have hlen : rs.length = 2 ^ D := by rw [f2, List.length_zip, e2, hrow, min_self]
  have hproc : processOneSt fft ctx q row negS = some ((rs.map Prod.fst).sum, rs.map Prod.snd) := by
    unfold processOneSt
    rw [hrow, e1]
    simp only
    rw [responseLoop_eq, f1]
    simp
  refine ⟨(rs.map Prod.fst).sum, rs.map Prod.snd, hproc, by simp [hlen], ?_, ?_⟩
  · intro j l hl
    rw [List.getElem?_map, Option.map_eq_some_iff] at hl
    obtain ⟨r, hr, rfl⟩ := hl
    obtain ⟨_, _, _, h, _⟩ := f3 j r hr
    exact h
  · intro c hc
    have := sum_enc (s := s) (e := m.sel) (rs.map Prod.fst) (fun j => if j = i then decryptRlwe s c else 0)
      (fun j c' hc' => by
        rw [List.getElem?_map, Option.map_eq_some_iff] at hc'
        obtain ⟨r, hr, rfl⟩ := hc'
        obtain ⟨x, hx, _, h, hr1⟩ := f3 j r hr
        rw [zip_getElem] at hx
        have hgate := (hm.sel _ _ hproc j r.2 x.2 (by rw [List.getElem?_map, hr]; rfl) hx.2).1 _ h
        rw [← hr1] at hgate
        by_cases hji : j = i
        · subst hji
          rw [hc] at hx
          have : c = x.2 := by simpa using hx.2
          rw [this]; simpa using hgate
        · simp only [if_neg hji]
          simpa [hji] using hgate)
    rw [Finset.sum_ite_eq', List.length_map, hlen, if_pos (by
      rw [Finset.mem_range]; exact hq.lt)] at this
    exact this

/-- The worst case is a measure. -/
theorem measuredRow_worst (hn : 0 < n) {fft : Fft n} {phi : Nat} (hf : fft.Bounded phi) {s : Poly n} (hs : Binary s) {ctx : Ctx}
    {negS : RGSW n} {B : Nat} (hk : ServerKeys ctx s negS B) (q : ClientQuery n) (row : List (RLWE n)) (D : Nat) :
    MeasuredRow fft s ctx negS q row D B ⟨deltaOp ctx n B phi, selNoise ctx n B phi D, deltaOp ctx n B phi, deltaSel ctx n B phi D⟩ ∧
    Measure.rows ⟨deltaOp ctx n B phi, selNoise ctx n B phi D, deltaOp ctx n B phi, deltaSel ctx n B phi D⟩ D = selNoise ctx n B phi D := by
  have hrows : Measure.rows ⟨deltaOp ctx n B phi, selNoise ctx n B phi D, deltaOp ctx n B phi, deltaSel ctx n B phi D⟩ D
      = selNoise ctx n B phi D := by
    unfold Measure.rows selNoise
    exact max_eq_right (expandNoise_ge hn)
  refine ⟨⟨fun _ _ _ x _ => gateOk_worst hf hs.small _ _ _ x.1 x.2, ?_, ?_, fun c _ => gateOk_worst hf hs.small _ _ _ _ _⟩, hrows⟩
  · intro _ L _ cs _ k c _ b hc
    have := expand_row hf hs.small hk.negWF hk.neg hc
    rw [hk.negBl, hk.negLv] at this
    exact this
  · intro y ls _ j l c _ _
    rw [hrows]
    exact ⟨gateOk_worst hf hs.small _ _ _ _ _, gateOk_worst hf hs.small _ _ _ _ _⟩

/-- A `cmux` whose external product has an error of at most `V`. -/
theorem cmux_of {fft : Fft n} {s : Poly n} {bl lv E V : Nat} {C : RGSW n} {b : Bool} (hC : EncBit s C b bl lv E) {ct0 ct1 : RLWE n}
    (hg : GateOk fft s bl lv E V C (ct1 - ct0)) {m0 m1 : Poly n} {e0 e1 : Nat} (h0 : Enc s ct0 m0 e0) (h1 : Enc s ct1 m1 e1) (out : RLWE n) :
    Enc s (cmux fft C out ct0 ct1) (if b then m1 else m0) ((if b then e1 else e0) + V) := by
  have h := hg b hC
  have hx : cmux fft C out ct0 ct1 = ct0 + externalProduct fft C 0 (ct1 - ct0) := by
    unfold cmux; exact externalProduct_out _ _ _ _
  rw [hx]
  unfold Enc at *
  rw [decrypt_add]
  cases b
  · simp only [Bool.false_eq_true, if_false, sub_zero] at h ⊢
    rw [show ∀ a b c : Poly n, a + b - c = (a - c) + b by intros; ring]
    exact Small.add h0 h
  · simp only [if_true] at h ⊢
    rw [decrypt_sub] at h
    rw [show ∀ a b c d : Poly n, a + b - c = (d - c) + (b - (d - a)) by intros; ring]
    exact Small.add h1 h

/-- The update of one cell: a WRITE at the addressed column stores the data, everything else keeps the content. -/
theorem updateCell_of {fft : Fft n} {s : Poly n} {q : ClientQuery n} {l : RGSW n}
    {w sel : Bool} {bl lv B EL Vo Vs : Nat} (hop : EncBit s q.op w bl lv B) (hl : EncBit s l sel bl lv EL) {m v : Poly n} {eq e : Nat}
    (hd : Enc s q.data m eq) {cell : RLWE n} (hc : Enc s cell v e) (hgo : GateOk fft s bl lv B Vo q.op (q.data - cell))
    (hgs : GateOk fft s bl lv EL Vs l (rw fft q.op q.data cell - cell)) :
    Enc s (updateCell fft q l cell cell) (if sel && w then m else v)
      ((if sel && w then eq else e) + (if sel then Vo else 0) + Vs) := by
  have h1 := cmux_of hop hgo hc hd 0
  have h2 := cmux_of hl hgs hc h1 0
  unfold updateCell
  simp only
  cases sel <;> cases w <;> simpa using h2

end Panacea
