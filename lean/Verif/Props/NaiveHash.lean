import Verif.Lemmas.NaiveHash

/-!
# C09-C12: the hash table and the greedy batch mapping

All theorems quantify over every shuffle the RNG may perform: `shuffle` is any function that permutes its argument.
-/

namespace Panacea
open NaiveHash

/-- C09 (construction): `new` panics iff `h_count = 0`. -/
theorem C09_new_panics (shuffle : List Nat → List Nat) (h n : Nat) : NaiveHash.new shuffle h n = none ↔ h = 0 := by
  unfold NaiveHash.new; split <;> simp <;> omega

/-- C09: on `[0,h_count) x [0,input_domain)` the hash never panics, stays below `output_domain`, is injective and hits
every slot. -/
theorem C09_hash_bijection (shuffle : List Nat → List Nat) (hs : ∀ l, (shuffle l).Perm l) (hc n : Nat) (H : NaiveHash)
    (hnew : NaiveHash.new shuffle hc n = some H) :
    H.outputDomain = hc * n ∧
    (∀ h x, h < hc → x < n → ∃ y, H.hash h x = some y ∧ y < hc * n) ∧
    (∀ h x h' x' y, h < hc → x < n → h' < hc → x' < n → H.hash h x = some y → H.hash h' x' = some y →
      h = h' ∧ x = x') ∧
    (∀ y, y < hc * n → ∃ h x, h < hc ∧ x < n ∧ H.hash h x = some y) := by
  obtain ⟨w, rfl, rfl⟩ := new_wf hs hnew
  refine ⟨Nat.mul_comm _ _, ?_, ?_, ?_⟩
  · intro h x hh hx
    exact ⟨_, w.hash_eq hh hx, w.hash_lt (w.hash_eq hh hx)⟩
  · intro h x h' x' y a b c d e f
    exact w.hash_inj a b c d e f
  · intro y hy; exact w.hash_surj hy

/-- C09: `checked_hash` never panics, returns `None` exactly outside the domain and agrees with `hash` inside. -/
theorem C09_checked_hash (shuffle : List Nat → List Nat) (hs : ∀ l, (shuffle l).Perm l) (hc n : Nat) (H : NaiveHash)
    (hnew : NaiveHash.new shuffle hc n = some H) (h x : Nat) :
    ∃ r, H.checkedHash h x = some r ∧ (r = none ↔ ¬ (h < hc ∧ x < n)) ∧ (∀ y, r = some y → H.hash h x = some y) := by
  obtain ⟨w, rfl, rfl⟩ := new_wf hs hnew
  unfold checkedHash
  by_cases hin : h < H.hCount ∧ x < H.inputDomain
  · rw [if_neg (by omega), w.hash_eq hin.1 hin.2]
    refine ⟨_, rfl, by simp; exact hin, by simp⟩
  · rw [if_pos (by omega)]
    exact ⟨none, rfl, by simp [hin], by simp⟩

/-- C09 (finding): outside the domain the unchecked `hash` silently returns the entry of *another* pair:
`hash(h_count, x) = hash(0, x+1)`. -/
theorem C09_hash_aliases (H : NaiveHash) (x : Nat) : H.hash H.hCount x = H.hash 0 (x + 1) := by
  unfold NaiveHash.hash; congr 1

/-- C09 (named hash functions): with three hash functions, every slot belongs to exactly one item of exactly one of `hash0`, `hash1`, `hash2`. -/
theorem C09_named (shuffle : List Nat → List Nat) (hs : ∀ l, (shuffle l).Perm l) (n : Nat) (H : NaiveHash) (hnew : NaiveHash.new shuffle 3 n = some H)
    (y : Nat) : y < H.outputDomain ↔ ∃! p : Fin 3 × Fin n, (match p.1 with | 0 => H.hash0 p.2 | 1 => H.hash1 p.2 | 2 => H.hash2 p.2) = some y := by
  obtain ⟨h1, h2, h3, h4⟩ := C09_hash_bijection shuffle hs 3 n H hnew
  have hm : ∀ p : Fin 3 × Fin n, (match p.1 with | 0 => H.hash0 p.2 | 1 => H.hash1 p.2 | 2 => H.hash2 p.2) = H.hash p.1.val p.2.val := by
    rintro ⟨k, x⟩
    match k with
    | 0 => rfl
    | 1 => rfl
    | 2 => rfl
  rw [h1]
  constructor
  · intro hy
    obtain ⟨h, x, hh, hx, e⟩ := h4 y hy
    refine ⟨(⟨h, hh⟩, ⟨x, hx⟩), (hm _).trans e, ?_⟩
    rintro ⟨k, z⟩ hk
    have hk' := (hm (k, z)).symm.trans hk
    obtain ⟨e1, e2⟩ := h3 k z h x y k.isLt z.isLt hh hx hk' e
    exact Prod.ext (Fin.ext e1) (Fin.ext e2)
  · rintro ⟨p, hp, _⟩
    have hp' := (hm p).symm.trans hp
    obtain ⟨z, hz, hlt⟩ := h2 p.1 p.2 p.1.isLt p.2.isLt
    rw [hp'] at hz
    cases hz
    exact hlt

example : ∃ H, NaiveHash.new List.reverse 3 4 = some H ∧ (∀ l : List Nat, l.reverse.Perm l) ∧ H.hash 1 2 = some 4 :=
  ⟨⟨(List.range 12).reverse, 3, 4⟩, rfl, List.reverse_perm, by decide⟩

/-- C10: if the grid has as many cells as there are (function, index) pairs, every copy of every item gets its own cell,
every cell is used, and the cell is the row-major position of the digest. -/
theorem C10_tuple_bijection (shuffle : List Nat → List Nat) (hs : ∀ l, (shuffle l).Perm l) (hc n : Nat) (H : NaiveHash)
    (hnew : NaiveHash.new shuffle hc n = some H) (rows cols : Nat) (hcols : 0 < cols) (hsize : rows * cols = hc * n) :
    (∀ h x, h < hc → x < n → ∃ r c, H.hashToTuple h x cols = some (r, c) ∧ r < rows ∧ c < cols ∧
      H.hash h x = some (cols * r + c)) ∧
    (∀ h x h' x' p, h < hc → x < n → h' < hc → x' < n → H.hashToTuple h x cols = some p →
      H.hashToTuple h' x' cols = some p → h = h' ∧ x = x') ∧
    (∀ r c, r < rows → c < cols → ∃ h x, h < hc ∧ x < n ∧ H.hashToTuple h x cols = some (r, c)) := by
  obtain ⟨w, rfl, rfl⟩ := new_wf hs hnew
  refine ⟨?_, ?_, ?_⟩
  · intro h x hh hx
    obtain ⟨⟨r, c⟩, hrc⟩ := Option.isSome_iff_exists.1 (w.tuple_some hh hx hcols)
    have := tuple_eq.1 hrc
    refine ⟨r, c, hrc, ?_, this.2.1, this.2.2⟩
    have hlt := w.hash_lt this.2.2
    rw [← hsize] at hlt
    by_contra hr
    have : rows * cols ≤ cols * r := by rw [mul_comm]; exact Nat.mul_le_mul_left _ (by omega)
    omega
  · rintro h x h' x' ⟨r, c⟩ a b c' d e f
    exact w.hash_inj a b c' d (tuple_eq.1 e).2.2 (tuple_eq.1 f).2.2
  · intro r c hr hc'
    have hlt : cols * r + c < H.hCount * H.inputDomain := by
      rw [← hsize]
      calc cols * r + c < cols * r + cols := by omega
        _ = (r + 1) * cols := by ring
        _ ≤ rows * cols := Nat.mul_le_mul_right _ hr
    obtain ⟨h, x, hh, hx, hy⟩ := w.hash_surj hlt
    exact ⟨h, x, hh, hx, tuple_eq.2 ⟨hcols, hc', hy⟩⟩

example : ∃ H, NaiveHash.new List.reverse 3 4 = some H ∧ 6 * 2 = 3 * 4 ∧ H.hashToTuple 1 2 2 = some (2, 0) :=
  ⟨⟨(List.range 12).reverse, 3, 4⟩, rfl, rfl, by decide⟩

/-- C11 (totality): with indices in range and `d > 0` the mapping is always produced, never a panic (so the
"all slots are taken" panic of the code is unreachable - see C12). -/
theorem C11_mapping_total (shuffle : List Nat → List Nat) (hs : ∀ l, (shuffle l).Perm l) (hc n : Nat) (H : NaiveHash)
    (hnew : NaiveHash.new shuffle hc n = some H) (is : List Nat) (d : Nat) (hd : 0 < d) (his : ∀ i ∈ is, i < n) :
    ∃ m, H.hashToMapping is d = some m := by
  obtain ⟨w, rfl, rfl⟩ := new_wf hs hnew
  exact mapAll_total w d hd is his _

/-- C11 (soundness): every entry `r -> (c, i)` is a real slot of a requested index; and if the request has no repeated
index then no index is mapped to two rows. -/
theorem C11_mapping_sound (shuffle : List Nat → List Nat) (hs : ∀ l, (shuffle l).Perm l) (hc n : Nat) (H : NaiveHash)
    (hnew : NaiveHash.new shuffle hc n = some H) (is : List Nat) (d : Nat) (hd : 0 < d) (his : ∀ i ∈ is, i < n)
    (m : Mapping) (hm : H.hashToMapping is d = some m) :
    (∀ r c i, m r = some (c, i) → i ∈ is ∧ ∃ h, h < hc ∧ H.hashToTuple h i d = some (r, c)) ∧
    (is.Nodup → ∀ r r' c c' i, m r = some (c, i) → m r' = some (c', i) → r = r') := by
  obtain ⟨w, rfl, rfl⟩ := new_wf hs hnew
  clear hnew
  -- generalised over the accumulator: entries come from `out` or from the remaining request
  have main : ∀ (is : List Nat) (out m : Mapping), (∀ i ∈ is, i < H.inputDomain) → H.mapAll d is out = some m →
      (∀ r c i, m r = some (c, i) → out r = some (c, i) ∨
        (i ∈ is ∧ out r = none ∧ ∃ h, h < H.hCount ∧ H.hashToTuple h i d = some (r, c))) ∧
      (is.Nodup → ∀ r r' c c' i, out r = none → out r' = none → m r = some (c, i) → m r' = some (c', i) → r = r') := by
    intro is
    induction is with
    | nil =>
      intro out m _ h
      simp only [mapAll, Option.some.injEq] at h; subst h
      exact ⟨fun r c i h => Or.inl h, fun _ r r' c c' i h1 h2 h3 h4 => by rw [h1] at h3; cases h3⟩
    | cons i is ih =>
      intro out m his h
      have hok : ∀ h ∈ List.range H.hCount, h < H.hCount ∧ (H.hashToTuple h i d).isSome := by
        intro h hh
        rw [List.mem_range] at hh
        exact ⟨hh, w.tuple_some hh (his i (by simp)) hd⟩
      have his' : ∀ j ∈ is, j < H.inputDomain := fun j hj => his j (by simp [hj])
      simp only [mapAll] at h
      rcases mapOne_cases H d i _ out hok with ⟨h0, r0, c0, hmem, htup, hfree, e⟩ | ⟨_, e⟩
      · rw [e] at h
        simp only at h
        obtain ⟨ih1, ih2⟩ := ih _ m his' h
        rw [List.mem_range] at hmem
        have hent : ∀ r c j, m r = some (c, j) → out r = some (c, j) ∨
            (r = r0 ∧ c = c0 ∧ j = i) ∨
            (j ∈ is ∧ out r = none ∧ r ≠ r0 ∧ ∃ h, h < H.hCount ∧ H.hashToTuple h j d = some (r, c)) := by
          intro r c j hr
          rcases ih1 r c j hr with h1 | ⟨h1, h2, h3⟩
          · unfold Mapping.insert at h1
            split at h1
            · right; left; rename_i hr0; cases h1; exact ⟨hr0, rfl, rfl⟩
            · left; exact h1
          · unfold Mapping.insert at h2
            split at h2
            · cases h2
            · rename_i hne; right; right; exact ⟨h1, h2, hne, h3⟩
        constructor
        · intro r c j hr
          rcases hent r c j hr with h1 | ⟨rfl, rfl, rfl⟩ | ⟨h1, h2, _, h3⟩
          · left; exact h1
          · right; exact ⟨by simp, hfree, h0, hmem, htup⟩
          · right; exact ⟨by simp [h1], h2, h3⟩
        · intro hnd r r' c c' j hr hr' hm hm'
          rw [List.nodup_cons] at hnd
          rcases hent r c j hm with h1 | ⟨rfl, rfl, rfl⟩ | ⟨h1, h2, hne, h3⟩
          · rw [hr] at h1; cases h1
          · rcases hent r' c' j hm' with h1 | ⟨rfl, _, _⟩ | ⟨h1, _⟩
            · rw [hr'] at h1; cases h1
            · rfl
            · exact absurd h1 hnd.1
          · rcases hent r' c' j hm' with h1' | ⟨rfl, rfl, rfl⟩ | ⟨h1', h2', hne', h3'⟩
            · rw [hr'] at h1'; cases h1'
            · exact absurd h1 hnd.1
            · exact ih2 hnd.2 r r' c c' j (by unfold Mapping.insert; rw [if_neg hne]; exact hr)
                (by unfold Mapping.insert; rw [if_neg hne']; exact hr') hm hm'
      · rw [e] at h
        simp only at h
        obtain ⟨ih1, ih2⟩ := ih _ m his' h
        constructor
        · intro r c j hr
          rcases ih1 r c j hr with h1 | ⟨h1, h2⟩
          · left; exact h1
          · right; exact ⟨by simp [h1], h2⟩
        · intro hnd
          exact ih2 (List.nodup_cons.1 hnd).2
  obtain ⟨m1, m2⟩ := main is _ m his hm
  constructor
  · intro r c i hr
    rcases m1 r c i hr with h | ⟨h1, _, h2⟩
    · cases h
    · exact ⟨h1, h2⟩
  · intro hnd r r' c c' i h1 h2
    exact m2 hnd r r' c c' i rfl rfl h1 h2

/-- C12 (the panic is dead code): a request of indices in range never panics, however many of its rows are taken, in particular when it
asks for more indices than there are rows. -/
theorem C12_panic_dead_code (shuffle : List Nat → List Nat) (hs : ∀ l, (shuffle l).Perm l) (hc n : Nat) (H : NaiveHash)
    (hnew : NaiveHash.new shuffle hc n = some H) (is : List Nat) (d : Nat) (hd : 0 < d) (his : ∀ i ∈ is, i < n) :
    H.hashToMapping is d ≠ none := by
  obtain ⟨m, hm⟩ := C11_mapping_total shuffle hs hc n H hnew is d hd his
  rw [hm]; simp

/-- C12 (finding, negation of the intended property): a table and a request of distinct, in-range indices for which
`hash_to_mapping` neither panics nor serves index 2.  (Two hash functions, three items, three columns: item 2's rows are
both taken by items 0 and 1.) -/
theorem C12_index_silently_dropped :
    ∃ (shuffle : List Nat → List Nat) (H : NaiveHash) (m : Mapping),
      (∀ l, (shuffle l).Perm l) ∧ NaiveHash.new shuffle 2 3 = some H ∧ [0, 1, 2].Nodup ∧
      H.hashToMapping [0, 1, 2] 3 = some m ∧ ∀ r c, m r ≠ some (c, 2) := by
  refine ⟨id, ⟨[0, 1, 2, 3, 4, 5], 2, 3⟩,
    Mapping.insert (Mapping.insert (fun _ => none) 0 (0, 0)) 1 (0, 1), fun l => List.Perm.refl l, rfl, by decide, ?_, ?_⟩
  · rfl
  · intro r c h
    unfold Mapping.insert at h
    split at h
    · simp at h
    · split at h
      · simp at h
      · cases h

/-- C12 (finding, requests that could be served): for the same table the request of the items 1 and 0 loses item 0, although there are two rows
that could serve both, and asking for 0 and 1 instead serves both. -/
theorem C12_order_matters :
    ∃ (shuffle : List Nat → List Nat) (H : NaiveHash) (m m' : Mapping),
      (∀ l, (shuffle l).Perm l) ∧ NaiveHash.new shuffle 2 3 = some H ∧
      H.hashToMapping [1, 0] 3 = some m ∧ (∀ r c, m r ≠ some (c, 0)) ∧
      H.hashToMapping [0, 1] 3 = some m' ∧ (∃ r c, m' r = some (c, 0)) ∧ ∃ r c, m' r = some (c, 1) := by
  refine ⟨id, ⟨[0, 1, 2, 3, 4, 5], 2, 3⟩, Mapping.insert (fun _ => none) 0 (2, 1),
    Mapping.insert (Mapping.insert (fun _ => none) 0 (0, 0)) 1 (0, 1), fun l => List.Perm.refl l, rfl, rfl, ?_, rfl, ⟨0, 0, rfl⟩, ⟨1, 0, rfl⟩⟩
  intro r c h
  unfold Mapping.insert at h
  split at h
  · simp at h
  · cases h

/-- C12 (exact condition): after the prefix `pre` has been processed with result `m0`, the next index `i` gets an entry
iff one of its candidate rows is still free; and an existing entry is never removed or changed by later requests. -/
theorem C12_served_iff_free (shuffle : List Nat → List Nat) (hs : ∀ l, (shuffle l).Perm l) (hc n : Nat) (H : NaiveHash)
    (hnew : NaiveHash.new shuffle hc n = some H) (d : Nat) (hd : 0 < d)
    (pre post : List Nat) (i : Nat) (hnd : (pre ++ i :: post).Nodup) (hin : ∀ j ∈ pre ++ i :: post, j < n)
    (m0 m : Mapping) (h0 : H.hashToMapping pre d = some m0) (h1 : H.hashToMapping (pre ++ i :: post) d = some m) :
    ((∃ r c, m r = some (c, i)) ↔ ∃ h r c, h < hc ∧ H.hashToTuple h i d = some (r, c) ∧ m0 r = none) ∧
    (∀ r v, m0 r = some v → m r = some v) := by
  obtain ⟨w, rfl, rfl⟩ := new_wf hs hnew
  have mono : ∀ (is : List Nat) (out m : Mapping), (∀ i ∈ is, i < H.inputDomain) → H.mapAll d is out = some m →
      ∀ r v, out r = some v → m r = some v := by
    intro is
    induction is with
    | nil => intro out m _ h r v hv; simp only [mapAll, Option.some.injEq] at h; subst h; exact hv
    | cons i is ih =>
      intro out m his h r v hv
      have hok : ∀ h ∈ List.range H.hCount, h < H.hCount ∧ (H.hashToTuple h i d).isSome := by
        intro h hh
        rw [List.mem_range] at hh
        exact ⟨hh, w.tuple_some hh (his i (by simp)) hd⟩
      have his' : ∀ j ∈ is, j < H.inputDomain := fun j hj => his j (by simp [hj])
      simp only [mapAll] at h
      rcases mapOne_cases H d i _ out hok with ⟨h0, r0, c0, hmem, htup, hfree, e⟩ | ⟨_, e⟩
      · rw [e] at h
        refine ih _ m his' h r v ?_
        unfold Mapping.insert
        rw [if_neg]
        · exact hv
        · rintro rfl; rw [hfree] at hv; cases hv
      · rw [e] at h
        exact ih _ m his' h r v hv
  have hin_pre : ∀ j ∈ pre, j < H.inputDomain := fun j hj => hin j (by simp [hj])
  have hin_i : i < H.inputDomain := hin i (by simp)
  have hin_post : ∀ j ∈ post, j < H.inputDomain := fun j hj => hin j (by simp [hj])
  have h1' := h1
  unfold hashToMapping at h0 h1
  rw [mapAll_append, h0] at h1
  simp only [Option.bind_some] at h1
  have hmono := mono (i :: post) m0 m (fun j hj => hin j (by simp only [List.mem_append]; right; exact hj)) h1
  refine ⟨?_, hmono⟩
  have hok : ∀ h ∈ List.range H.hCount, h < H.hCount ∧ (H.hashToTuple h i d).isSome := by
    intro h hh
    rw [List.mem_range] at hh
    exact ⟨hh, w.tuple_some hh hin_i hd⟩
  rw [List.nodup_append] at hnd
  have hnp : i ∉ pre := fun h => hnd.2.2 i h i (by simp) rfl
  have hnq : i ∉ post := (List.nodup_cons.1 hnd.2.1).1
  have ha : ∀ r c, m0 r ≠ some (c, i) := by
    intro r c hr
    have := ((C11_mapping_sound shuffle hs _ _ H hnew pre d hd hin_pre m0 h0).1 r c i hr).1
    exact hnp this
  simp only [mapAll] at h1
  rcases mapOne_cases H d i _ m0 hok with ⟨h', r0, c0, hmem, htup, hfree, e⟩ | ⟨hfull, e⟩
  · rw [e] at h1
    constructor
    · intro _; exact ⟨h', r0, c0, List.mem_range.1 hmem, htup, hfree⟩
    · intro _
      refine ⟨r0, c0, mono post _ m hin_post h1 r0 (c0, i) ?_⟩
      unfold Mapping.insert; simp
  · rw [e] at h1
    constructor
    · rintro ⟨r, c, hr⟩
      exfalso
      -- an entry for `i` in `m` would have to come from `post`
      have gen : ∀ (is : List Nat) (out m : Mapping), (∀ i ∈ is, i < H.inputDomain) → H.mapAll d is out = some m →
          i ∉ is → (∀ r c, out r ≠ some (c, i)) → ∀ r c, m r ≠ some (c, i) := by
        intro is
        induction is with
        | nil => intro out m _ h _ ho; simp only [mapAll, Option.some.injEq] at h; subst h; exact ho
        | cons j is ih =>
          intro out m his h hni ho
          have hok : ∀ h ∈ List.range H.hCount, h < H.hCount ∧ (H.hashToTuple h j d).isSome := by
            intro h hh
            rw [List.mem_range] at hh
            exact ⟨hh, w.tuple_some hh (his j (by simp)) hd⟩
          have his' : ∀ k ∈ is, k < H.inputDomain := fun k hk => his k (by simp [hk])
          simp only [mapAll] at h
          simp only [List.mem_cons, not_or] at hni
          rcases mapOne_cases H d j _ out hok with ⟨h0, r0, c0, hmem, htup, hfree, e⟩ | ⟨_, e⟩
          · rw [e] at h
            refine ih _ m his' h hni.2 ?_
            intro r c hr
            unfold Mapping.insert at hr
            split at hr
            · cases hr; exact hni.1 rfl
            · exact ho r c hr
          · rw [e] at h
            exact ih _ m his' h hni.2 ho
      exact gen post m0 m hin_post h1 hnq ha r c hr
    · rintro ⟨h', r, c, hlt, htup, hfree⟩
      have := hfull h' (List.mem_range.2 hlt) r c htup
      rw [hfree] at this; cases this

/-- C12 (sufficient condition): a request of distinct indices, each of which has at least as many *distinct* candidate rows
as the request has indices, is always served in full. -/
theorem C12_served_of_many_rows (shuffle : List Nat → List Nat) (hs : ∀ l, (shuffle l).Perm l) (hc n : Nat)
    (H : NaiveHash) (hnew : NaiveHash.new shuffle hc n = some H) (d : Nat) (hd : 0 < d) (is : List Nat)
    (hnd : is.Nodup) (hin : ∀ i ∈ is, i < n)
    (hrows : ∀ i ∈ is, ∃ S : Finset Nat, is.length ≤ S.card ∧
      ∀ r ∈ S, ∃ h c, h < hc ∧ H.hashToTuple h i d = some (r, c))
    (m : Mapping) (hm : H.hashToMapping is d = some m) : ∀ i ∈ is, ∃ r c, m r = some (c, i) := by
  intro i hi
  obtain ⟨pre, post, rfl⟩ := List.append_of_mem hi
  have hin_pre : ∀ j ∈ pre, j < n := fun j hj => hin j (by simp [hj])
  obtain ⟨m0, h0⟩ := C11_mapping_total shuffle hs hc n H hnew pre d hd hin_pre
  refine ((C12_served_iff_free shuffle hs hc n H hnew d hd pre post i hnd hin m0 m h0 hm).1).2 ?_
  obtain ⟨S, hS, hSr⟩ := hrows i hi
  by_contra hcon
  -- all rows of S are occupied by distinct members of `pre`
  have hocc : ∀ r ∈ S, ∃ j ∈ pre, ∃ c, m0 r = some (c, j) := by
    intro r hr
    obtain ⟨h, c, hlt, htup⟩ := hSr r hr
    cases hmr : m0 r with
    | none => exact absurd ⟨h, r, c, hlt, htup, hmr⟩ hcon
    | some v =>
      obtain ⟨c', j⟩ := v
      exact ⟨j, ((C11_mapping_sound shuffle hs hc n H hnew pre d hd hin_pre m0 h0).1 r c' j hmr).1, c', rfl⟩
  have hnd_pre : pre.Nodup := (List.nodup_append.1 hnd).1
  have hinj := (C11_mapping_sound shuffle hs hc n H hnew pre d hd hin_pre m0 h0).2 hnd_pre
  have hcard : S.card ≤ pre.toFinset.card := by
    refine Finset.card_le_card_of_injOn (fun r => ((m0 r).getD (0, 0)).2) ?_ ?_
    · intro r hr
      obtain ⟨j, hj, c, hjc⟩ := hocc r hr
      simp [hjc, hj]
    · intro r hr r' hr' he
      obtain ⟨j, hj, c, hjc⟩ := hocc r hr
      obtain ⟨j', hj', c', hjc'⟩ := hocc r' hr'
      simp only [hjc, hjc', Option.getD_some] at he
      subst he
      exact hinj r r' c c' j hjc hjc'
  have := List.toFinset_card_le pre
  simp only [List.length_append, List.length_cons] at hS
  omega

-- Non-vacuity of the sufficient condition: two indices, two distinct rows each.
example : ∃ H, NaiveHash.new id 2 2 = some H ∧ H.hashToTuple 0 0 1 = some (0, 0) ∧ H.hashToTuple 1 0 1 = some (1, 0) ∧
    H.hashToTuple 0 1 1 = some (2, 0) ∧ H.hashToTuple 1 1 1 = some (3, 0) :=
  ⟨⟨[0, 1, 2, 3], 2, 2⟩, by decide, by decide, by decide, by decide, by decide⟩

end Panacea
