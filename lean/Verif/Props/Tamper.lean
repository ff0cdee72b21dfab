import Verif.Spec.Tamper
import Verif.Props.Prog
import Verif.Props.OramSetup

/-!
# C97: a deviating server is not noticed
-/

namespace Panacea
variable {n : Nat}

theorem addMod_encode {t : Scalar} {c : Codec} (hc : Codec.new t = some c) {a b ea eb : Poly n} (ha : c.polyEncode a = some ea) (hb : c.polyEncode b = some eb) :
    c.polyEncode (Spec.addMod t a b) = some (ea + eb) := by
  obtain ⟨wf, ht⟩ := Codec.new_wf hc
  have ht0 : 0 < t.toNat := by rw [ht]; positivity
  have hval : ∀ k, (Spec.addMod t a b k).toNat = ((a k).toNat + (b k).toNat) % t.toNat := by
    intro k
    show (BitVec.ofNat 64 _).toNat = _
    rw [BitVec.toNat_ofNat]
    exact Nat.mod_eq_of_lt (lt_of_lt_of_le (Nat.mod_lt _ ht0) (le_of_lt t.isLt))
  have hlt : Spec.Encodable t (Spec.addMod t a b) := fun k => by rw [hval k]; exact Nat.mod_lt _ ht0
  obtain ⟨enc, he⟩ := polyEncode_total hc hlt
  rw [he]
  refine congrArg some (Poly.ext (funext fun k => ?_))
  have h1 := polyEncode_some ha k
  have h2 := polyEncode_some hb k
  have h3 := polyEncode_some he k
  have henc : ∀ x y : Scalar, c.encode x = some y → y = x * c.delta := by
    intro x y h
    rw [wf.encode_eq] at h
    split at h
    · exact (Option.some.inj h).symm
    · cases h
  show enc k = ea k + eb k
  rw [henc _ _ h1, henc _ _ h2, henc _ _ h3]
  have hpow : (2 : Nat) ^ 64 = 2 ^ c.baseLog * 2 ^ (64 - c.baseLog) := by
    have := wf.le
    rw [← pow_add]; congr 1; omega
  apply BitVec.eq_of_toNat_eq
  rw [BitVec.toNat_add, BitVec.toNat_mul, BitVec.toNat_mul, BitVec.toNat_mul, hval k, ht, wf.delta_toNat, ← Nat.add_mod, ← Nat.add_mul, hpow,
    Nat.mul_mod_mul_right, Nat.mul_mod_mul_right, Nat.mod_mod]

/-- C97 (answers): whoever handles an answer can add any public plaintext to it: the client decodes the sum, and nothing tells it so. -/
theorem C97_answer {t : Scalar} {ctx : Ctx} (hcd : Codec.new t = some ctx.codec) {s : Poly n} {y : RLWE n} {m p em ep : Poly n} {e : Nat}
    (hm : ctx.codec.polyEncode m = some em) (hp : ctx.codec.polyEncode p = some ep) (hy : Enc s y em e) (he : 2 * e < 2 ^ 64 / t.toNat) :
    decryptDecodeRlwe ctx s y = m ∧ decryptDecodeRlwe ctx s (addPublic y ep) = Spec.addMod t m p :=
  ⟨decryptDecode_of_enc hcd hm hy he, decryptDecode_of_enc hcd (addMod_encode hcd hm hp) (enc_addPlain hy ep) he⟩

/-- Storing an encryption of `w` in the column of item `i` is writing `w` to item `i`. -/
theorem storeCell_inv {ctx : Ctx} {s : Poly n} (shuffle : List Nat → List Nat) (hsh : ∀ l, (shuffle l).Perm l) {hc N : Nat}
    {H : NaiveHash} (hnew : NaiveHash.new shuffle hc N = some H) {D : Nat} (hsize : 2 ^ D = hc * N) {B : Nat} {v : Nat → Poly n} {e : Nat} {S : Server n}
    (hinv : OneInv ctx s H D N B v e S) {i c : Nat} (hi : i < N) (ht : H.hashToTuple 0 i (2 ^ D) = some (0, c)) {w ew : Poly n}
    (hw : ctx.codec.polyEncode w = some ew) {x : RLWE n} (hx : Enc s x ew e) : OneInv ctx s H D N B (Function.update v i w) e (storeCell S c x) := by
  obtain ⟨b1, b2, _⟩ := C10_tuple_bijection shuffle hsh hc N H hnew 1 (2 ^ D) (by positivity) (by omega)
  have hcpos : 0 < hc := by
    rcases Nat.eq_zero_or_pos hc with h0 | h0
    · have : 0 < 2 ^ D := by positivity
      rw [hsize, h0] at this; omega
    · exact h0
  obtain ⟨row, hS, hlen, vc, hrow, hitems⟩ := hinv.shape
  refine ⟨hinv.ctx_eq, hinv.keys, row.set c x, by simp only [storeCell, hS], by rw [List.length_set, hlen], Function.update vc c ew, ?_, ?_⟩
  · intro j y hy
    rw [List.getElem?_set] at hy
    split at hy
    · rename_i hj
      subst hj
      split at hy
      · cases hy; rw [Function.update_self]; exact hx
      · cases hy
    · rename_i hj
      rw [Function.update_of_ne (Ne.symm hj)]
      exact hrow j y hy
  · intro j cj hj htj
    by_cases hij : j = i
    · subst hij
      rw [ht] at htj
      cases htj
      rw [Function.update_self, Function.update_self]
      exact hw
    · rw [Function.update_of_ne hij, Function.update_of_ne]
      · exact hitems j cj hj htj
      · rintro rfl
        exact hij (b2 0 j 0 i (0, cj) hcpos hj hcpos hi htj ht).2

/-- C97 (stored items): the server adds a public plaintext `p` to the cell of item `i`: from then on every history behaves as if the client itself had
written `v i + p` to the item.  No access can tell. -/
theorem C97_item {t : Scalar} {ctx : Ctx} (hcd : Codec.new t = some ctx.codec) (hn : 0 < n) {fft : Fft n} {phi : Nat}
    (hf : fft.Bounded phi) {s : Poly n} (hs : Binary s) (shuffle : List Nat → List Nat) (hsh : ∀ l, (shuffle l).Perm l) {hc N : Nat}
    {H : NaiveHash} (hnew : NaiveHash.new shuffle hc N = some H) {D : Nat} (hD1 : 1 ≤ D) (hD : D < 64) (hsize : 2 ^ D = hc * N) {B : Nat}
    {v : Nat → Poly n} {e : Nat} {S : Server n} (he : B ≤ e) (hinv : OneInv ctx s H D N B v e S)
    {i : Nat} (hi : i < N) {p ep : Poly n} (hp : ctx.codec.polyEncode p = some ep)
    (cmds : List ((List (RLWE n) → RLWE n) × Cmd n)) {g : Gen n} (hg : g.Bounded B)
    (hval : ∀ c ∈ cmds, IsReduction (· + ·) 0 c.1 ∧ c.2.Valid N t)
    (hb : 2 * (e + cmds.length * (deltaOp ctx n B phi + deltaSel ctx n B phi D) + 2 ^ D * deltaSel ctx n B phi D) < 2 ^ 64 / t.toNat) :
    ∃ c x S' g', H.hashToTuple 0 i (2 ^ D) = some (0, c) ∧ cellAt S.data (0, c) = some x ∧
      runHistory fft ctx s 1 (2 ^ D) H cmds (storeCell S c (addPublic x ep)) g
        = some (Spec.run (Function.update v i (Spec.addMod t (v i) p)) (cmds.map Prod.snd), S', g') := by
  obtain ⟨b1, b2, _⟩ := C10_tuple_bijection shuffle hsh hc N H hnew 1 (2 ^ D) (by positivity) (by omega)
  have hcpos : 0 < hc := by
    rcases Nat.eq_zero_or_pos hc with h0 | h0
    · have : 0 < 2 ^ D := by positivity
      rw [hsize, h0] at this; omega
    · exact h0
  obtain ⟨r, c, ht, hr, hcl, _⟩ := b1 0 i hcpos hi
  have hr0 : r = 0 := by omega
  subst hr0
  obtain ⟨row, hS, hlen, vc, hrow, hitems⟩ := hinv.shape
  obtain ⟨x, hx⟩ : ∃ x, row[c]? = some x := ⟨row[c]'(by omega), List.getElem?_eq_getElem _⟩
  have hm := hitems i c hi ht
  have hinv' := storeCell_inv shuffle hsh hnew hsize hinv hi ht (addMod_encode hcd hm hp) (x := addPublic x ep) (enc_addPlain (hrow c x hx) ep)
  obtain ⟨S', g', r1, _⟩ := C43_history hcd hn hf hs shuffle hsh hnew hD1 hD hsize cmds _ e _ g he hg hinv' hval hb
  exact ⟨c, x, S', g', ht, by simp only [cellAt, hS]; exact hx, r1⟩

/-- C97 (exchanged items): the server exchanges the cells of two items: from then on every history behaves as if the items had been exchanged. -/
theorem C97_exchange {t : Scalar} {ctx : Ctx} (hcd : Codec.new t = some ctx.codec) (hn : 0 < n) {fft : Fft n} {phi : Nat}
    (hf : fft.Bounded phi) {s : Poly n} (hs : Binary s) (shuffle : List Nat → List Nat) (hsh : ∀ l, (shuffle l).Perm l) {hc N : Nat}
    {H : NaiveHash} (hnew : NaiveHash.new shuffle hc N = some H) {D : Nat} (hD1 : 1 ≤ D) (hD : D < 64) (hsize : 2 ^ D = hc * N) {B : Nat}
    {v : Nat → Poly n} {e : Nat} {S : Server n} (he : B ≤ e) (hinv : OneInv ctx s H D N B v e S)
    {i j : Nat} (hi : i < N) (hj : j < N)
    (cmds : List ((List (RLWE n) → RLWE n) × Cmd n)) {g : Gen n} (hg : g.Bounded B)
    (hval : ∀ c ∈ cmds, IsReduction (· + ·) 0 c.1 ∧ c.2.Valid N t)
    (hb : 2 * (e + cmds.length * (deltaOp ctx n B phi + deltaSel ctx n B phi D) + 2 ^ D * deltaSel ctx n B phi D) < 2 ^ 64 / t.toNat) :
    ∃ c c' x x' S' g', H.hashToTuple 0 i (2 ^ D) = some (0, c) ∧ H.hashToTuple 0 j (2 ^ D) = some (0, c') ∧
      cellAt S.data (0, c) = some x ∧ cellAt S.data (0, c') = some x' ∧
      runHistory fft ctx s 1 (2 ^ D) H cmds (storeCell (storeCell S c x') c' x) g
        = some (Spec.run (fun k => v (Equiv.swap i j k)) (cmds.map Prod.snd), S', g') := by
  obtain ⟨b1, b2, _⟩ := C10_tuple_bijection shuffle hsh hc N H hnew 1 (2 ^ D) (by positivity) (by omega)
  have hcpos : 0 < hc := by
    rcases Nat.eq_zero_or_pos hc with h0 | h0
    · have : 0 < 2 ^ D := by positivity
      rw [hsize, h0] at this; omega
    · exact h0
  obtain ⟨r, c, ht, hr, hcl, _⟩ := b1 0 i hcpos hi
  obtain ⟨r', c', ht', hr', hcl', _⟩ := b1 0 j hcpos hj
  have hr0 : r = 0 := by omega
  have hr0' : r' = 0 := by omega
  subst hr0 hr0'
  obtain ⟨row, hS, hlen, vc, hrow, hitems⟩ := hinv.shape
  obtain ⟨x, hx⟩ : ∃ x, row[c]? = some x := ⟨row[c]'(by omega), List.getElem?_eq_getElem _⟩
  obtain ⟨x', hx'⟩ : ∃ x, row[c']? = some x := ⟨row[c']'(by omega), List.getElem?_eq_getElem _⟩
  have hinv' := storeCell_inv shuffle hsh hnew hsize (storeCell_inv shuffle hsh hnew hsize hinv hi ht (hitems j c' hj ht') (hrow c' x' hx')) hj ht'
    (hitems i c hi ht) (hrow c x hx)
  have hv : Function.update (Function.update v i (v j)) j (v i) = fun k => v (Equiv.swap i j k) := by
    funext k
    by_cases hkj : k = j
    · subst hkj; rw [Function.update_self, Equiv.swap_apply_right]
    · rw [Function.update_of_ne hkj]
      by_cases hki : k = i
      · subst hki; rw [Function.update_self, Equiv.swap_apply_left]
      · rw [Function.update_of_ne hki, Equiv.swap_apply_of_ne_of_ne hki hkj]
  rw [hv] at hinv'
  obtain ⟨S', g', r1, _⟩ := C43_history hcd hn hf hs shuffle hsh hnew hD1 hD hsize cmds _ e _ g he hg hinv' hval hb
  exact ⟨c, c', x, x', S', g', ht, ht', by simp only [cellAt, hS]; exact hx, by simp only [cellAt, hS]; exact hx', r1⟩

/-- The hypotheses are met: the server adds 5 to every coefficient of item 2 after the setup; the client then reads the items 2 and 1. -/
theorem C97_witness : ∃ S pts g1 c x ep S' g', setupRandomOram exTreeCtx exKey 1 4 ⟨(List.range 4).reverse, 1, 4⟩ exGen = some (S, pts, g1) ∧
    exTreeCtx.codec.polyEncode (⟨fun _ => 5⟩ : Poly 4) = some ep ∧ cellAt S.data (0, c) = some x ∧
    runHistory exFft exTreeCtx exKey 1 4 ⟨(List.range 4).reverse, 1, 4⟩
      [(fun xs => xs.foldl (· + ·) 0, .read 2), (fun xs => xs.foldl (· + ·) 0, .read 1)] (storeCell S c (addPublic x ep)) g1
      = some ([Spec.addMod 16 (pts.getD 2 0) ⟨fun _ => 5⟩, pts.getD 1 0], S', g') := by
  obtain ⟨S, pts, g1, hset, _, hg1, hinv⟩ := setup_oneInv (t := 16) (ctx := exTreeCtx) (by decide) exKey_binary List.reverse (fun l => List.reverse_perm l)
    (hc := 1) (N := 4) (H := ⟨(List.range 4).reverse, 1, 4⟩) rfl (D := 2) (by decide) (by decide) (by decide) (by decide) rfl (by decide) (by decide)
    exGen_bounded
  have h5 : Spec.Encodable (16 : Scalar) (⟨fun _ => 5⟩ : Poly 4) := fun k => by show (5 : Scalar).toNat < _; decide
  obtain ⟨ep, hep⟩ := polyEncode_total (t := 16) (c := exTreeCtx.codec) (by decide) h5
  obtain ⟨c, x, S', g', _, h2, h3⟩ := C97_item (t := 16) (ctx := exTreeCtx) (by decide) (by decide) exFft_bounded exKey_binary List.reverse
    (fun l => List.reverse_perm l) (hc := 1) (N := 4) (H := ⟨(List.range 4).reverse, 1, 4⟩) rfl (D := 2) (by decide) (by decide) (by decide) (le_refl _) hinv
    (i := 2) (by decide) hep [(fun xs => xs.foldl (· + ·) 0, .read 2), (fun xs => xs.foldl (· + ·) 0, .read 1)] hg1 (by
      intro c hc
      simp only [List.mem_cons, List.not_mem_nil, or_false] at hc
      rcases hc with rfl | rfl <;> exact ⟨fold_isReduction, by show _ < _; decide⟩) (by decide)
  refine ⟨S, pts, g1, c, x, ep, S', g', hset, hep, h2, ?_⟩
  refine h3.trans ?_
  simp [Spec.run, Cmd.index, Spec.apply]

end Panacea
