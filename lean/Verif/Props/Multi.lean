import Verif.Lemmas.Multi

/-!
# C44, C45: `process_multi`
-/

namespace Panacea
variable {n : Nat}

/-- The queries `qs` are well-formed queries for `specs`. -/
def IsQueries (ctx : Ctx) (s : Poly n) (D B : Nat) (specs : List (QuerySpec n)) (qs : List (ClientQuery n)) : Prop :=
  List.Forall₂ (fun sp q => IsQuery ctx s q D sp.i sp.w sp.m B) specs qs

theorem multi_phase1 (hn : 0 < n) {fft : Fft n} {phi : Nat} (hf : fft.Bounded phi) {s : Poly n} (hs : Binary s) {ctx : Ctx}
    {negS : RGSW n} {B : Nat} (hk : ServerKeys ctx s negS B) {D : Nat} (hD : 1 ≤ D) {row : List (RLWE n)} (hlen : row.length = 2 ^ D)
    {v : Nat → Poly n} {e : Nat} (hrow : EncRow s row v e) : ∀ {specs : List (QuerySpec n)} {qs : List (ClientQuery n)},
    IsQueries ctx s D B specs qs →
    ∃ rs, mapOption (fun q => processOneSt fft ctx q row negS) qs = some rs ∧
      List.Forall₂ (fun (sp : QuerySpec n) r => Enc s r.1 (v sp.i) (e + 2 ^ D * deltaSel ctx n B phi D) ∧ r.2.length = 2 ^ D ∧
        ∀ j l, r.2[j]? = some l → EncBit s l (decide (sp.i = j)) ctx.baseLog ctx.levelCount (selNoise ctx n B phi D)) specs rs ∧
      List.Forall₂ (fun (sp : QuerySpec n) tmps => tmps.length = 2 ^ D ∧ ∀ j c, tmps[j]? = some c →
        Enc s c (if decide (sp.i = j) then (if sp.w then sp.m else v j) else 0)
          ((if decide (sp.i = j) then max e B + deltaOp ctx n B phi else 0) + deltaSel ctx n B phi D))
        specs (List.zipWith (multiTmps fft row) qs (rs.map Prod.snd))
  | _, _, .nil => ⟨[], rfl, .nil, .nil⟩
  | _, _, .cons (a := sp) (b := q) hq hqs => by
    obtain ⟨rs, h1, h2, h3⟩ := multi_phase1 hn hf hs hk hD hlen hrow hqs
    obtain ⟨y, ls, p1, p2, p3, p4, _⟩ := process_row hn hf hs hk hD hq hlen hrow
    have hsel : ∀ j l, ls[j]? = some l → EncBit s l (decide (sp.i = j)) ctx.baseLog ctx.levelCount (selNoise ctx n B phi D) := by
      intro j l hl
      have := p3 j l hl
      rwa [show decide (j = sp.i) = decide (sp.i = j) from decide_eq_decide.mpr eq_comm] at this
    refine ⟨(y, ls) :: rs, by rw [mapOption]; simp only [p1, h1], .cons ⟨p4, p2, hsel⟩ h2, .cons ⟨by simp [multiTmps, p2, hlen], ?_⟩ h3⟩
    intro j c hc
    simp only [multiTmps, List.getElem?_zipWith] at hc
    split at hc
    · rename_i l cell hl hcell
      cases hc
      have hrw := C20_messages hf hs hq.op.wf hq.op.enc 0 (hrow j cell hcell) hq.data
      rw [hq.op.baseLog, hq.op.levelCount] at hrw
      refine ((extBit_msg hf hs.small (hsel j l hl) hrw).1).mono ?_
      unfold deltaOp deltaSel
      have : (if sp.w then B else e) ≤ max e B := by split <;> omega
      split <;> omega
    · cases hc

theorem forall₂_getD_sum {s : Poly n} {cols j : Nat} (hj : j < cols) {m : QuerySpec n → Poly n} {e : QuerySpec n → Nat} {specs : List (QuerySpec n)}
    {xs : List (List (RLWE n))} (h : List.Forall₂ (fun sp x => x.length = cols ∧ ∀ c, x[j]? = some c → Enc s c (m sp) (e sp)) specs xs) :
    Enc s (xs.map fun x => x.getD j 0).sum (specs.map m).sum (specs.map e).sum := by
  refine forall₂_sum_enc (forall₂_map_right (h.imp fun sp x hx => ?_))
  rw [List.getD_eq_getElem?_getD, List.getElem?_eq_getElem (by omega)]
  exact hx.2 _ (List.getElem?_eq_getElem (by omega))

theorem hits_sum (specs : List (QuerySpec n)) (j : Nat) :
    (specs.map fun sp => if decide (sp.i = j) then (1 : Poly n) else 0).sum = (Spec.hits specs j : Poly n) := by
  unfold Spec.hits
  induction specs with
  | nil => simp
  | cons sp specs ih =>
    rw [List.map_cons, List.sum_cons, ih, List.countP_cons]
    split
    · rw [Nat.cast_add, Nat.cast_one]; ring
    · simp

theorem hits_sum_nat (specs : List (QuerySpec n)) (j c : Nat) :
    (specs.map fun sp => if decide (sp.i = j) then c else 0).sum = Spec.hits specs j * c := by
  unfold Spec.hits
  induction specs with
  | nil => simp
  | cons sp specs ih =>
    rw [List.map_cons, List.sum_cons, ih, List.countP_cons]
    split
    · ring
    · simp

/-- The sums of the selectors of one column encrypt the number of queries for it. -/
theorem multi_selectors {s : Poly n} {D bl lv E : Nat} {specs : List (QuerySpec n)} {lss : List (List (RGSW n))}
    (h : List.Forall₂ (fun (sp : QuerySpec n) ls => ls.length = 2 ^ D ∧
      ∀ j l, ls[j]? = some l → EncBit s l (decide (sp.i = j)) bl lv E) specs lss)
    (hwf : 1 ≤ bl ∧ 1 ≤ lv ∧ bl * lv < 64)
    {a : List (RGSW n)} (ha : ParReduce addGswVec (List.replicate (2 ^ D) (RGSW.allocate n bl lv)) lss a) :
    a.length = 2 ^ D ∧ ∀ j L, a[j]? = some L → L.WF ∧ L.baseLog = bl ∧ L.levelCount = lv ∧
      EncG s L (Spec.hits specs j : Poly n) (specs.length * E) := by
  have hshape : ∀ x ∈ lss, SelShape (2 ^ D) bl lv x := by
    intro x hx
    obtain ⟨i, hi⟩ := List.mem_iff_getElem?.mp hx
    obtain ⟨sp, _, h1, h2⟩ := forall₂_getElem h hi
    refine ⟨h1, fun l hl => ?_⟩
    obtain ⟨j, hj⟩ := List.mem_iff_getElem?.mp hl
    exact ⟨(h2 j l hj).baseLog, (h2 j l hj).levelCount⟩
  obtain ⟨⟨h1, h2⟩, h3⟩ := parReduce_gsw ha hshape
  refine ⟨h1, fun j L hL => ?_⟩
  obtain ⟨b1, b2⟩ := h2 L (List.mem_of_getElem? hL)
  have b2' : L.levelCount = lv := b2
  refine ⟨⟨by rw [b1]; exact hwf.1, by rw [b2']; exact hwf.2.1, by rw [b1, b2']; exact hwf.2.2⟩, b1, b2', ?_⟩
  intro k r hr
  have hjl : j < 2 ^ D := by rw [← h1]; exact (List.getElem?_eq_some_iff.mp hL).1
  have hkl : k < lv := by rw [← b2]; exact (List.getElem?_eq_some_iff.mp hr).1
  have e := h3 j L k r hL hr
  have hterm : List.Forall₂ (fun (sp : QuerySpec n) (r : RLWE n × RLWE n) =>
      Enc s r.1 (Poly.const n (gadget bl (k + 1)) * -s * (if decide (sp.i = j) then 1 else 0)) E ∧
      Enc s r.2 (Poly.const n (gadget bl (k + 1)) * (if decide (sp.i = j) then 1 else 0)) E) specs
      (lss.map fun x => (x.getD j ⟨0, []⟩).rows.getD k (0, 0)) := by
    refine forall₂_map_right (h.imp fun sp ls hls => ?_)
    have hjl' : j < ls.length := by rw [hls.1]; exact hjl
    have hb := hls.2 j ls[j] (List.getElem?_eq_getElem hjl')
    have hkl' : k < ls[j].rows.length := by
      have := hb.levelCount
      unfold RGSW.levelCount at this
      omega
    have := hb.enc k ls[j].rows[k] (List.getElem?_eq_getElem hkl')
    rw [List.getD_eq_getElem?_getD, List.getD_eq_getElem?_getD, List.getElem?_eq_getElem hjl', Option.getD_some,
      List.getElem?_eq_getElem hkl', Option.getD_some]
    rw [hb.baseLog] at this
    refine ⟨?_, this.2⟩
    rw [show Poly.const n (gadget bl (k + 1)) * -s * (if decide (sp.i = j) then 1 else 0)
      = Poly.const n (gadget bl (k + 1)) * -(s * (if decide (sp.i = j) then 1 else 0)) by ring]
    exact this.1
  have hfst : ∀ l : List (RLWE n × RLWE n), l.sum.1 = (l.map Prod.fst).sum := by
    intro l; induction l with
    | nil => rfl
    | cons a l ih => rw [List.sum_cons, Prod.fst_add, ih, List.map_cons, List.sum_cons]
  have hsnd : ∀ l : List (RLWE n × RLWE n), l.sum.2 = (l.map Prod.snd).sum := by
    intro l; induction l with
    | nil => rfl
    | cons a l ih => rw [List.sum_cons, Prod.snd_add, ih, List.map_cons, List.sum_cons]
  have s1 := forall₂_sum_enc (e := fun _ => E) (forall₂_map_right (f := Prod.fst) (hterm.imp fun sp r hr => hr.1))
  have s2 := forall₂_sum_enc (e := fun _ => E) (forall₂_map_right (f := Prod.snd) (hterm.imp fun sp r hr => hr.2))
  rw [← hfst, ← e, sum_mul_left_list, hits_sum, sum_map_const_nat] at s1
  rw [← hsnd, ← e, sum_mul_left_list, hits_sum, sum_map_const_nat] at s2
  rw [b1]
  refine ⟨?_, s2⟩
  rw [show Poly.const n (gadget bl (k + 1)) * -(s * (Spec.hits specs j : Poly n))
    = Poly.const n (gadget bl (k + 1)) * -s * (Spec.hits specs j : Poly n) by ring]
  exact s1

/-- The update of one cell by the two sums. -/
theorem multi_cell {fft : Fft n} {phi : Nat} (hf : fft.Bounded phi) {s : Poly n} (hs : Binary s) {L : RGSW n} (hL : L.WF) {k E : Nat}
    (hG : EncG s L (k : Poly n) E) {cell T : RLWE n} {v t : Poly n} {e eT : Nat} (hc : Enc s cell v e) (hT : Enc s T t eT) :
    Enc s (cmux fft L 0 cell T) (v + (k : Poly n) * (t - v))
      ((if k = 0 then e else (k - 1) * e + k * eT) + extNoise n L.baseLog L.levelCount E phi k) := by
  have h := externalProduct_enc hf hs.small hL hG cell (T - cell)
  unfold cmux
  simp only
  unfold Enc at *
  rw [decrypt_sub] at h
  set X := decryptRlwe s (externalProduct fft L cell (T - cell))
  have h' := h.mono (extNoise_mono (l1_natCast k))
  rcases Nat.eq_zero_or_pos k with h0 | h0
  · subst h0
    rw [if_pos rfl]
    rw [show X - (v + ((0 : Nat) : Poly n) * (t - v)) = (decryptRlwe s cell - v)
      + (X - (decryptRlwe s cell + ((0 : Nat) : Poly n) * (decryptRlwe s T - decryptRlwe s cell))) by
        simp only [Nat.cast_zero]; ring]
    exact hc.add h'
  · obtain ⟨k, rfl⟩ := Nat.exists_eq_succ_of_ne_zero (Nat.pos_iff_ne_zero.mp h0)
    rw [if_neg (by omega)]
    have e1 : X - (v + ((k + 1 : Nat) : Poly n) * (t - v))
        = (-((k : Poly n) * (decryptRlwe s cell - v)) + ((k + 1 : Nat) : Poly n) * (decryptRlwe s T - t))
          + (X - (decryptRlwe s cell + ((k + 1 : Nat) : Poly n) * (decryptRlwe s T - decryptRlwe s cell))) := by
      rw [Nat.cast_succ]; ring
    rw [Nat.succ_eq_add_one, e1]
    exact ((Small.natCast_mul k hc).neg.add (Small.natCast_mul (k + 1) hT)).add h'

/-- C44/C45 (general): `process_multi` on *any* list of well-formed queries never panics, answers every query with the old content of its
column, and turns the content `v j` of every column into `v j + k * (t - v j)` where `k` counts the queries for column `j` and `t` is the
*sum* of the values they want to store -- whatever the parallel reductions do. -/
theorem C45_general (hn : 0 < n) {fft : Fft n} {phi : Nat} (hf : fft.Bounded phi) {s : Poly n} (hs : Binary s) {S : Server n}
    {B : Nat} (hk : ServerKeys S.ctx s S.negS B) {D : Nat} (hD : 1 ≤ D) {specs : List (QuerySpec n)} {qs : List (ClientQuery n)}
    (hq : IsQueries S.ctx s D B specs qs) {row : List (RLWE n)} {rest : List (List (RLWE n))} (hS : S.data = row :: rest)
    (hlen : row.length = 2 ^ D) {v : Nat → Poly n} {e : Nat} (hrow : EncRow s row v e)
    {reduceV : List (List (RLWE n)) → List (RLWE n)} (hV : IsReduction addVec (List.replicate (2 ^ D) 0) reduceV)
    {reduceG : List (List (RGSW n)) → List (RGSW n)}
    (hG : IsReduction addGswVec (List.replicate (2 ^ D) (RGSW.allocate n S.ctx.baseLog S.ctx.levelCount)) reduceG) :
    ∃ ys S' row', S.processMulti reduceV reduceG fft qs = some (ys, S') ∧ S'.data = row' :: rest ∧ S'.negS = S.negS ∧ S'.ctx = S.ctx ∧
      row'.length = 2 ^ D ∧
      List.Forall₂ (fun (sp : QuerySpec n) y => Enc s y (v sp.i) (e + 2 ^ D * deltaSel S.ctx n B phi D)) specs ys ∧
      ∀ j c, row'[j]? = some c →
        Enc s c (v j + (Spec.hits specs j : Poly n) * (Spec.targets specs v j - v j))
          (multiNoise S.ctx n B phi D specs.length e (Spec.hits specs j)) := by
  obtain ⟨rs, h1, h2, h3⟩ := multi_phase1 hn hf hs hk hD hlen hrow hq
  have hls := forall₂_map_right (f := Prod.snd) (Q := fun (sp : QuerySpec n) (ls : List (RGSW n)) => ls.length = 2 ^ D ∧
    ∀ j l, ls[j]? = some l → EncBit s l (decide (sp.i = j)) S.ctx.baseLog S.ctx.levelCount (selNoise S.ctx n B phi D))
    (h2.imp fun sp r hr => hr.2)
  obtain ⟨g1, g2⟩ := multi_selectors hls ⟨hk.bl, hk.lv, hk.lt⟩ (hG (rs.map Prod.snd))
  obtain ⟨v1, v2⟩ := parReduce_vec (hV (List.zipWith (multiTmps fft row) qs (rs.map Prod.snd))) (fun x hx => by
    obtain ⟨i, hi⟩ := List.mem_iff_getElem?.mp hx
    obtain ⟨sp, _, h1, _⟩ := forall₂_getElem h3 hi
    exact h1)
  refine ⟨rs.map Prod.fst, { S with data := (List.zipWith (fun cell (x : RGSW n × RLWE n) => cmux fft x.1 0 cell x.2) row
      ((reduceG (rs.map Prod.snd)).zip (reduceV (List.zipWith (multiTmps fft row) qs (rs.map Prod.snd))))) :: rest }, _, ?_, rfl, rfl, rfl,
      by simp [hlen, g1, v1], forall₂_map_right (f := Prod.fst) (h2.imp fun sp r hr => hr.1), ?_⟩
  · unfold Server.processMulti
    simp only [hS, h1]
  · intro j c hc
    rw [List.getElem?_zipWith] at hc
    split at hc
    · rename_i cell x hcell hx
      cases hc
      rw [zip_getElem] at hx
      obtain ⟨w1, w2, w3, w4⟩ := g2 j x.1 hx.1
      have hj : j < 2 ^ D := by rw [← hlen]; exact (List.getElem?_eq_some_iff.mp hcell).1
      have hT := forall₂_getD_sum (s := s) (cols := 2 ^ D) hj
        (m := fun sp => if decide (sp.i = j) then (if sp.w then sp.m else v j) else 0)
        (e := fun sp => (if decide (sp.i = j) then max e B + deltaOp S.ctx n B phi else 0) + deltaSel S.ctx n B phi D)
        (h3.imp fun sp x hx => ⟨hx.1, fun c hc => hx.2 j c hc⟩)
      rw [← v2 j x.2 hx.2, sum_map_ite (fun sp : QuerySpec n => decide (sp.i = j)), List.sum_map_add, hits_sum_nat, sum_map_const_nat] at hT
      have := multi_cell hf hs w1 w4 (hrow j cell hcell) hT
      rw [w2, w3] at this
      exact this
    · cases hc

/-! ### Distinct columns -/

theorem hits_of_nodup {specs : List (QuerySpec n)} (hd : (specs.map QuerySpec.i).Nodup) (j : Nat) (v : Nat → Poly n) :
    (Spec.hits specs j = 0 ∧ specs.foldl QuerySpec.effect v j = v j) ∨
    (Spec.hits specs j = 1 ∧ specs.foldl QuerySpec.effect v j = Spec.targets specs v j) := by
  have key : ∀ (specs : List (QuerySpec n)) (v : Nat → Poly n), j ∉ specs.map QuerySpec.i → Spec.hits specs j = 0 ∧
      specs.filter (fun sp => sp.i = j) = [] ∧ specs.foldl QuerySpec.effect v j = v j := by
    intro specs
    induction specs with
    | nil => intro v _; exact ⟨rfl, rfl, rfl⟩
    | cons sp specs ih =>
      intro v h
      simp only [List.map_cons, List.mem_cons, not_or] at h
      obtain ⟨h1, h2, h3⟩ := ih (sp.effect v) h.2
      have hne : ¬ sp.i = j := fun h' => h.1 h'.symm
      refine ⟨?_, ?_, ?_⟩
      · unfold Spec.hits at *; rw [List.countP_cons, h1]; simp [hne]
      · rw [List.filter_cons]; simp only [hne, decide_false, Bool.false_eq_true, if_false]; exact h2
      · rw [List.foldl_cons, h3]
        unfold QuerySpec.effect
        split
        · rw [Function.update_of_ne h.1]
        · rfl
  induction specs generalizing v with
  | nil => left; exact ⟨rfl, rfl⟩
  | cons sp specs ih =>
    rw [List.map_cons, List.nodup_cons] at hd
    by_cases hj : sp.i = j
    · subst hj
      obtain ⟨h1, h2, h3⟩ := key specs (sp.effect v) hd.1
      right
      refine ⟨?_, ?_⟩
      · unfold Spec.hits at *; rw [List.countP_cons, h1]; simp
      · unfold Spec.targets
        rw [List.foldl_cons, h3, List.filter_cons]
        simp only [decide_true, if_true]
        rw [h2]
        simp only [List.map_cons, List.map_nil, List.sum_cons, List.sum_nil, add_zero]
        unfold QuerySpec.effect
        split
        · rw [Function.update_self]
        · rfl
    · have hev : (sp.effect v) j = v j := by
        unfold QuerySpec.effect
        split
        · rw [Function.update_of_ne (fun h => hj h.symm)]
        · rfl
      have ht : Spec.targets (sp :: specs) v j = Spec.targets specs (sp.effect v) j := by
        unfold Spec.targets
        rw [List.filter_cons, hev]
        simp only [hj, decide_false, Bool.false_eq_true, if_false]
      have hh : Spec.hits (sp :: specs) j = Spec.hits specs j := by
        unfold Spec.hits; rw [List.countP_cons]; simp [hj]
      rw [ht, hh, List.foldl_cons, ← hev]
      exact ih hd.2 _

/-- C44: `process_multi` with queries for pairwise distinct columns: every response encrypts the *old* content of its column, and the new
contents are those of executing the queries one after the other on a plain array (each written column holds its data, all others are
unchanged), with additive noise. -/
theorem C44_distinct (hn : 0 < n) {fft : Fft n} {phi : Nat} (hf : fft.Bounded phi) {s : Poly n} (hs : Binary s) {S : Server n}
    {B : Nat} (hk : ServerKeys S.ctx s S.negS B) {D : Nat} (hD : 1 ≤ D) {specs : List (QuerySpec n)} {qs : List (ClientQuery n)}
    (hq : IsQueries S.ctx s D B specs qs) (hd : (specs.map QuerySpec.i).Nodup)
    {row : List (RLWE n)} {rest : List (List (RLWE n))} (hS : S.data = row :: rest)
    (hlen : row.length = 2 ^ D) {v : Nat → Poly n} {e : Nat} (hrow : EncRow s row v e)
    {reduceV : List (List (RLWE n)) → List (RLWE n)} (hV : IsReduction addVec (List.replicate (2 ^ D) 0) reduceV)
    {reduceG : List (List (RGSW n)) → List (RGSW n)}
    (hG : IsReduction addGswVec (List.replicate (2 ^ D) (RGSW.allocate n S.ctx.baseLog S.ctx.levelCount)) reduceG) :
    ∃ ys S' row', S.processMulti reduceV reduceG fft qs = some (ys, S') ∧ S'.data = row' :: rest ∧ S'.negS = S.negS ∧ S'.ctx = S.ctx ∧
      row'.length = 2 ^ D ∧
      List.Forall₂ (fun (sp : QuerySpec n) y => Enc s y (v sp.i) (e + 2 ^ D * deltaSel S.ctx n B phi D)) specs ys ∧
      EncRow s row' (specs.foldl QuerySpec.effect v) (max e B + deltaOp S.ctx n B phi + specs.length * deltaSel S.ctx n B phi D
        + extNoise n S.ctx.baseLog S.ctx.levelCount (specs.length * selNoise S.ctx n B phi D) phi 1) := by
  obtain ⟨ys, S', row', h1, h2, h3, h4, h5, h6, h7⟩ := C45_general hn hf hs hk hD hq hS hlen hrow hV hG
  refine ⟨ys, S', row', h1, h2, h3, h4, h5, h6, fun j c hc => ?_⟩
  have h := h7 j c hc
  unfold multiNoise at h
  rcases hits_of_nodup hd j v with ⟨k0, hv⟩ | ⟨k1, hv⟩
  · rw [k0, if_pos rfl, Nat.cast_zero, zero_mul, add_zero, ← hv] at h
    refine h.mono ?_
    have := extNoise_mono (n := n) (bl := S.ctx.baseLog) (lv := S.ctx.levelCount) (E := specs.length * selNoise S.ctx n B phi D) (phi := phi)
      (show 0 ≤ 1 by omega)
    omega
  · rw [k1, if_neg (by decide), Nat.cast_one, one_mul, ← hv] at h
    rw [show v j + (specs.foldl QuerySpec.effect v j - v j) = specs.foldl QuerySpec.effect v j by ring] at h
    refine h.mono ?_
    simp only [Nat.sub_self, zero_mul, one_mul, zero_add]
    omega

/-- C44 (decoded responses): within the budget every response decrypts and decodes to the old plaintext of its column. -/
theorem C44_decoded {t : Scalar} (hn : 0 < n) {fft : Fft n} {phi : Nat} (hf : fft.Bounded phi) {s : Poly n} (hs : Binary s) {S : Server n}
    (hcd : Codec.new t = some S.ctx.codec) {B : Nat} (hk : ServerKeys S.ctx s S.negS B) {D : Nat} (hD : 1 ≤ D)
    {specs : List (QuerySpec n)} {qs : List (ClientQuery n)}
    (hq : IsQueries S.ctx s D B specs qs) {row : List (RLWE n)} {rest : List (List (RLWE n))} (hS : S.data = row :: rest)
    (hlen : row.length = 2 ^ D) {v : Nat → Poly n} {e : Nat} (hrow : EncRow s row v e) {pt : Nat → Poly n}
    (hpt : ∀ j, j < 2 ^ D → S.ctx.codec.polyEncode (pt j) = some (v j))
    {reduceV : List (List (RLWE n)) → List (RLWE n)} (hV : IsReduction addVec (List.replicate (2 ^ D) 0) reduceV)
    {reduceG : List (List (RGSW n)) → List (RGSW n)}
    (hG : IsReduction addGswVec (List.replicate (2 ^ D) (RGSW.allocate n S.ctx.baseLog S.ctx.levelCount)) reduceG)
    (hb : 2 * (e + 2 ^ D * deltaSel S.ctx n B phi D) < 2 ^ 64 / t.toNat) :
    ∃ ys S', S.processMulti reduceV reduceG fft qs = some (ys, S') ∧
      ys.map (decryptDecodeRlwe S.ctx s) = specs.map fun sp => pt sp.i := by
  obtain ⟨ys, S', _, h1, _, _, _, _, h6, _⟩ := C45_general hn hf hs hk hD hq hS hlen hrow hV hG
  refine ⟨ys, S', h1, ?_⟩
  have hlt : ∀ sp ∈ specs, sp.i < 2 ^ D := by
    intro sp hsp
    obtain ⟨i, hi⟩ := List.mem_iff_getElem?.mp hsp
    obtain ⟨q, _, hq'⟩ := forall₂_getElem_left hq hi
    exact hq'.addr.lt
  apply List.ext_getElem?
  intro k
  rw [List.getElem?_map, List.getElem?_map]
  rcases hk' : specs[k]? with _ | sp
  · have : ys[k]? = none := List.getElem?_eq_none (by rw [← h6.length_eq]; exact List.getElem?_eq_none_iff.mp hk')
    rw [this]; rfl
  · obtain ⟨y, hy, h⟩ := forall₂_getElem_left h6 hk'
    rw [hy, Option.map_some, Option.map_some, decryptDecode_of_enc hcd (hpt sp.i (hlt sp (List.mem_of_getElem? hk'))) h hb]

/-! ### Repeated columns -/

/-- C45 (formula): if `k` READ queries and nothing else address column `j`, its content `v` becomes `v + k*(k*v - v)`. -/
theorem C45_reads_formula {specs : List (QuerySpec n)} {j : Nat} (hr : ∀ sp ∈ specs, sp.i = j → sp.w = false) (v : Nat → Poly n) :
    v j + (Spec.hits specs j : Poly n) * (Spec.targets specs v j - v j)
      = v j + (Spec.hits specs j : Poly n) * ((Spec.hits specs j : Poly n) * v j - v j) := by
  have : Spec.targets specs v j = (Spec.hits specs j : Poly n) * v j := by
    unfold Spec.targets Spec.hits
    induction specs with
    | nil => simp
    | cons sp specs ih =>
      have ih := ih (fun sp' h => hr sp' (by simp [h]))
      rw [List.filter_cons, List.countP_cons]
      by_cases hj : sp.i = j
      · simp only [hj, decide_true, if_true, List.map_cons, List.sum_cons, ih, hr sp (by simp) hj, Bool.false_eq_true, if_false]
        rw [Nat.cast_succ]; ring
      · simp only [hj, decide_false, Bool.false_eq_true, if_false, ih, Nat.add_zero]
  rw [this]

/-- C45 (FINDING): two READ queries for the same column in one `process_multi` call replace its content `v` by `3 v`: whatever the noise of
the ciphertexts, the new cell is an encryption of `3 * v j`, with an explicit noise bound. -/
theorem C45_two_reads_triple (hn : 0 < n) {fft : Fft n} {phi : Nat} (hf : fft.Bounded phi) {s : Poly n} (hs : Binary s) {S : Server n}
    {B : Nat} (hk : ServerKeys S.ctx s S.negS B) {D : Nat} (hD : 1 ≤ D) {j : Nat} {d1 d2 : Poly n} {q1 q2 : ClientQuery n}
    (h1 : IsQuery S.ctx s q1 D j false d1 B) (h2 : IsQuery S.ctx s q2 D j false d2 B)
    {row : List (RLWE n)} {rest : List (List (RLWE n))} (hS : S.data = row :: rest)
    (hlen : row.length = 2 ^ D) {v : Nat → Poly n} {e : Nat} (hrow : EncRow s row v e)
    {reduceV : List (List (RLWE n)) → List (RLWE n)} (hV : IsReduction addVec (List.replicate (2 ^ D) 0) reduceV)
    {reduceG : List (List (RGSW n)) → List (RGSW n)}
    (hG : IsReduction addGswVec (List.replicate (2 ^ D) (RGSW.allocate n S.ctx.baseLog S.ctx.levelCount)) reduceG) :
    ∃ ys S' row' c, S.processMulti reduceV reduceG fft [q1, q2] = some (ys, S') ∧ S'.data = row' :: rest ∧ row'[j]? = some c ∧
      Enc s c (3 * v j) (multiNoise S.ctx n B phi D 2 e 2) := by
  obtain ⟨ys, S', row', e1, e2, _, _, e5, _, e7⟩ := C45_general hn hf hs hk hD (specs := [⟨j, false, d1⟩, ⟨j, false, d2⟩]) (qs := [q1, q2])
    (.cons h1 (.cons h2 .nil)) hS hlen hrow hV hG
  have hj : j < row'.length := by rw [e5]; exact h1.addr.lt
  refine ⟨ys, S', row', row'[j], e1, e2, List.getElem?_eq_getElem hj, ?_⟩
  have h := e7 j row'[j] (List.getElem?_eq_getElem hj)
  rw [C45_reads_formula (by
    intro sp hsp _
    simp only [List.mem_cons, List.not_mem_nil, or_false] at hsp
    rcases hsp with rfl | rfl <;> rfl)] at h
  have hh : Spec.hits ([⟨j, false, d1⟩, ⟨j, false, d2⟩] : List (QuerySpec n)) j = 2 := by
    unfold Spec.hits
    simp
  rw [hh] at h
  rw [show (3 : Poly n) * v j = v j + ((2 : Nat) : Poly n) * (((2 : Nat) : Poly n) * v j - v j) by push_cast; ring]
  exact h

/-! ### The hypotheses are met -/

theorem foldV_isReduction (cols : Nat) : IsReduction addVec (List.replicate cols (0 : RLWE n))
    (fun xs => xs.foldl addVec (List.replicate cols 0)) := fun xs => ParReduce.fold xs

theorem foldG_isReduction (cols bl lv : Nat) : IsReduction addGswVec (List.replicate cols (RGSW.allocate n bl lv))
    (fun xs => xs.foldl addGswVec (List.replicate cols (RGSW.allocate n bl lv))) := fun xs => ParReduce.fold xs

/-- C44: a WRITE of 7 to column 2 and a READ of column 1 made by the client, on the example server. -/
example : ∃ r q1 g1 q2 g2 ys S' row' enc e, negGsw exTreeCtx exKey exGen = some r ∧
    makeWriteQuery exTreeCtx exKey 4 2 ⟨fun _ => 7⟩ exGen = some (q1, g1) ∧ makeReadQuery exTreeCtx exKey 4 1 g1 = some (q2, g2) ∧
    (Server.new [exRow] r.1 exTreeCtx).processMulti (fun xs => xs.foldl addVec (List.replicate 4 0))
      (fun xs => xs.foldl addGswVec (List.replicate 4 (RGSW.allocate 4 3 20))) exFft [q1, q2] = some (ys, S') ∧
    S'.data = [row'] ∧ EncRow exKey row' (Function.update (fun j => ⟨fun _ => BitVec.ofNat 64 (j * 2 ^ 60)⟩) 2 enc) e ∧
    ys.map (decryptDecodeRlwe exTreeCtx exKey) = [⟨fun _ => 2⟩, ⟨fun _ => 1⟩] := by
  obtain ⟨r, h1, h2⟩ := exServerKeys
  have hw : Spec.Encodable (16 : Scalar) (⟨fun _ => 7⟩ : Poly 4) := fun k => by show (7 : Scalar).toNat < _; decide
  obtain ⟨q1, g1, enc, a1, a2, _, a3⟩ := C42_write_query (t := 16) (ctx := exTreeCtx) (by decide) (by decide) (by decide) (by decide)
    exKey (i := 2) (D := 2) (by decide) (by decide) hw exGen_bounded
  obtain ⟨q2, g2, m, b1, _, b3⟩ := C42_read_query (t := 16) (ctx := exTreeCtx) (by decide) (by decide) (by decide) (by decide)
    exKey (i := 1) (D := 2) (by decide) (by decide) a2
  have hqs : IsQueries exTreeCtx exKey 2 3 [⟨2, true, enc⟩, ⟨1, false, m⟩] [q1, q2] := .cons a3 (.cons b3 .nil)
  obtain ⟨ys, S', row', e1, e2, _, _, _, _, e7⟩ := C44_distinct (by decide) exFft_bounded exKey_binary (S := Server.new [exRow] r.1 exTreeCtx)
    h2 (by decide) hqs (by simp) rfl (by decide) exRow_enc (foldV_isReduction 4) (foldG_isReduction 4 3 20)
  obtain ⟨ys', S'', f1, f2⟩ := C44_decoded (t := 16) (by decide) exFft_bounded exKey_binary (S := Server.new [exRow] r.1 exTreeCtx)
    (by change Codec.new 16 = some exTreeCtx.codec; decide) h2 (by decide) hqs rfl (by decide) exRow_enc
    (pt := fun j => ⟨fun _ => BitVec.ofNat 64 (j % 4)⟩) (by
      change ∀ j, j < 4 → exTreeCtx.codec.polyEncode (⟨fun _ => BitVec.ofNat 64 (j % 4)⟩ : Poly 4) = some ⟨fun _ => BitVec.ofNat 64 (j * 2 ^ 60)⟩
      decide +kernel) (foldV_isReduction 4) (foldG_isReduction 4 3 20)
    (by change 2 * (0 + 2 ^ 2 * deltaSel exTreeCtx 4 3 5 2) < _; decide)
  rw [e1] at f1; cases f1
  exact ⟨r, q1, g1, q2, g2, ys, S', row', enc, _, h1, a1, b1, e1, e2, e7, f2⟩

/-- C45 (concrete witness, all API calls): the client generates two READ queries for column 2, which holds the plaintext 2; after
`process_multi` column 2 decrypts and decodes to 6. -/
theorem C45_witness : ∃ r q1 g1 q2 g2 ys S' row' c, negGsw exTreeCtx exKey exGen = some r ∧
    makeReadQuery exTreeCtx exKey 4 2 exGen = some (q1, g1) ∧ makeReadQuery exTreeCtx exKey 4 2 g1 = some (q2, g2) ∧
    (exRow[2]?.map (decryptDecodeRlwe exTreeCtx exKey) = some ⟨fun _ => 2⟩) ∧
    (Server.new [exRow] r.1 exTreeCtx).processMulti (fun xs => xs.foldl addVec (List.replicate 4 0))
      (fun xs => xs.foldl addGswVec (List.replicate 4 (RGSW.allocate 4 3 20))) exFft [q1, q2] = some (ys, S') ∧
    S'.data = [row'] ∧ row'[2]? = some c ∧ decryptDecodeRlwe exTreeCtx exKey c = ⟨fun _ => 6⟩ := by
  obtain ⟨r, h1, h2⟩ := exServerKeys
  obtain ⟨q1, g1, m1, a1, a2, a3⟩ := C42_read_query (t := 16) (ctx := exTreeCtx) (by decide) (by decide) (by decide) (by decide)
    exKey (i := 2) (D := 2) (by decide) (by decide) exGen_bounded
  obtain ⟨q2, g2, m2, b1, _, b3⟩ := C42_read_query (t := 16) (ctx := exTreeCtx) (by decide) (by decide) (by decide) (by decide)
    exKey (i := 2) (D := 2) (by decide) (by decide) a2
  obtain ⟨ys, S', row', c, e1, e2, e3, e4⟩ := C45_two_reads_triple (by decide) exFft_bounded exKey_binary
    (S := Server.new [exRow] r.1 exTreeCtx) h2 (by decide) a3 b3 rfl (by decide) exRow_enc (foldV_isReduction 4) (foldG_isReduction 4 3 20)
  refine ⟨r, q1, g1, q2, g2, ys, S', row', c, h1, a1, b1, by decide +kernel, e1, e2, e3, ?_⟩
  refine decryptDecode_of_enc (t := 16) (ctx := exTreeCtx) (by decide) ?_ e4 ?_
  · decide +kernel
  · change 2 * multiNoise exTreeCtx 4 3 5 2 2 0 2 < _; decide

end Panacea
