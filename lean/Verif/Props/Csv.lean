import Verif.Model.Csv
import Verif.Spec.Csv
import Verif.Lemmas.Database

/-!
# C74: `parse_csv`
-/

namespace Panacea

theorem isEol_iff (c : Char) : isEol c = true ↔ c = '\n' ∨ c = '\r' := by unfold isEol; simp

/-- What the reader does after a field. -/
def csvAfter (f : List Char) (r : List (List Char)) : List Char → List (List (List Char))
  | [] => [r ++ [f]]
  | c :: cs => if c = ',' then csvGo .startField [] (r ++ [f]) cs else (r ++ [f]) :: csvGo .startRecord [] [] cs

/-- The input after a field: nothing, a comma or a line break. -/
def FieldEnd (rest : List Char) : Prop := rest = [] ∨ ∃ c cs, rest = c :: cs ∧ (c = ',' ∨ isEol c = true)

theorem go_plain {rest : List Char} (h : FieldEnd rest) : ∀ (t f : List Char) (r : List (List Char)),
    (∀ c ∈ t, c ≠ ',' ∧ c ≠ '\n' ∧ c ≠ '\r') → csvGo .inField f r (t ++ rest) = csvAfter (f ++ t) r rest
  | [], f, r, _ => by
    rcases h with rfl | ⟨c, cs, rfl, hc⟩
    · simp [csvGo, csvAfter]
    · simp only [List.nil_append, List.append_nil, csvGo, csvAfter]
      by_cases h1 : c = ','
      · rw [if_pos h1, if_pos h1]
      · rw [if_neg h1, if_neg h1, if_pos (hc.resolve_left h1)]
  | c :: t, f, r, ht => by
    obtain ⟨h1, h2, h3⟩ := ht c (by simp)
    have he : ¬ isEol c = true := fun he => by rcases (isEol_iff c).mp he with h | h <;> contradiction
    rw [List.cons_append, csvGo, if_neg h1, if_neg he, go_plain h t _ r fun c hc => ht c (by simp [hc])]
    simp

theorem go_quoted {rest : List Char} (h : FieldEnd rest) : ∀ (t f : List Char) (r : List (List Char)),
    csvGo .inQuoted f r (t.flatMap (fun c => if c = '"' then ['"', '"'] else [c]) ++ ['"'] ++ rest) = csvAfter (f ++ t) r rest
  | [], f, r => by
    simp only [List.flatMap_nil, List.nil_append, List.cons_append, csvGo, if_true, List.append_nil]
    rcases h with rfl | ⟨c, cs, rfl, hc⟩
    · simp [csvGo, csvAfter]
    · simp only [csvGo, csvAfter]
      have hq : c ≠ '"' := by rintro rfl; revert hc; decide
      rw [if_neg hq]
      by_cases h1 : c = ','
      · rw [if_pos h1, if_pos h1]
      · rw [if_neg h1, if_neg h1, if_pos (hc.resolve_left h1)]
  | c :: t, f, r => by
    have ih := go_quoted h t (f ++ [c]) r
    rw [List.append_assoc, List.singleton_append, List.append_assoc f [c] t, List.singleton_append] at ih
    rw [List.flatMap_cons]
    by_cases hc : c = '"'
    · subst hc
      simp only [if_true, List.cons_append, List.nil_append, List.append_assoc, csvGo]
      exact ih
    · simp only [if_neg hc, List.cons_append, List.nil_append, List.append_assoc, csvGo]
      exact ih

theorem go_field {rest : List Char} (h : FieldEnd rest) {f t : List Char} (hf : Spec.FieldText f t) (r : List (List Char)) :
    csvGo .startField [] r (t ++ rest) = csvAfter f r rest := by
  rcases hf with rfl | ⟨rfl, hp, hq⟩
  · rw [Spec.quoted, List.cons_append, List.cons_append, csvGo, if_pos rfl]
    exact go_quoted h f [] r
  · cases t with
    | nil =>
      rw [List.nil_append]
      rcases h with rfl | ⟨c, cs, rfl, hc⟩
      · rfl
      · have hq : c ≠ '"' := by rintro rfl; revert hc; decide
        simp only [csvGo, csvAfter]
        rw [if_neg hq]
        by_cases h1 : c = ','
        · rw [if_pos h1, if_pos h1]
        · rw [if_neg h1, if_neg h1, if_pos (hc.resolve_left h1)]
    | cons c t =>
      obtain ⟨h1, h2, h3⟩ := hp c (by simp)
      have he : ¬ isEol c = true := fun he => by rcases (isEol_iff c).mp he with h | h <;> contradiction
      have hq : c ≠ '"' := by rintro rfl; exact hq rfl
      rw [List.cons_append, csvGo, if_neg hq, if_neg h1, if_neg he]
      exact go_plain h t [c] r fun c hc => hp c (by simp [hc])

/-- The reader on a record, from the start of a field. -/
theorem go_record {rest : List Char} (h : rest = [] ∨ ∃ c cs, rest = c :: cs ∧ isEol c = true) : ∀ {fs ts : List (List Char)},
    List.Forall₂ Spec.FieldText fs ts → fs ≠ [] → ∀ r : List (List Char),
    csvGo .startField [] r ([','].intercalate ts ++ rest) = (r ++ fs) :: csvGo .startRecord [] [] rest.tail
  | _, _, .nil, hne, _ => absurd rfl hne
  | _, _, .cons (a := f) (b := t) hf .nil, _, r => by
    have hend : FieldEnd rest := by
      rcases h with h | ⟨c, cs, h, hc⟩
      · exact Or.inl h
      · exact Or.inr ⟨c, cs, h, Or.inr hc⟩
    simp only [List.intercalate, List.intersperse, List.flatten_cons, List.flatten_nil, List.append_nil]
    rw [go_field hend hf]
    rcases h with rfl | ⟨c, cs, rfl, hc⟩
    · rfl
    · have h1 : c ≠ ',' := by rintro rfl; revert hc; decide
      rw [csvAfter, if_neg h1, List.tail_cons]
  | _, _, .cons (a := f) (b := t) hf (.cons (a := f') (b := t') (l₁ := fs) (l₂ := ts) hf' hfs), _, r => by
    have ih := go_record h (.cons hf' hfs) (by simp) (r ++ [f])
    have e : [','].intercalate (t :: t' :: ts) ++ rest = t ++ (',' :: ([','].intercalate (t' :: ts) ++ rest)) := by
      simp [List.intercalate, List.intersperse]
    rw [e, go_field (Or.inr ⟨',', _, rfl, Or.inl rfl⟩) hf, csvAfter, if_pos rfl, ih]
    simp

theorem startRecord_eq {c : Char} {cs : List Char} (h : ¬ isEol c = true) :
    csvGo .startRecord [] [] (c :: cs) = csvGo .startField [] [] (c :: cs) := by
  rw [csvGo, csvGo, if_neg h]
  by_cases h1 : c = '"'
  · rw [if_pos h1, if_pos h1]
  · rw [if_neg h1, if_neg h1]
    by_cases h2 : c = ','
    · rw [if_pos h2, if_pos h2]; rfl
    · rw [if_neg h2, if_neg h2, if_neg h]; rfl

theorem fieldText_head {f t : List Char} (h : Spec.FieldText f t) {c : Char} (hc : t.head? = some c) : ¬ isEol c = true := by
  rcases h with rfl | ⟨rfl, hp, _⟩
  · simp only [Spec.quoted, List.cons_append, List.head?_cons, Option.some.injEq] at hc
    subst hc; decide
  · obtain ⟨_, h2, h3⟩ := hp c (List.mem_of_mem_head? hc)
    intro he
    rcases (isEol_iff c).mp he with h | h <;> contradiction

theorem go_start_record {rest : List Char} (h : rest = [] ∨ ∃ c cs, rest = c :: cs ∧ isEol c = true) {r : List (List Char)} {u : List Char}
    (hr : Spec.RecordText r u) : csvGo .startRecord [] [] (u ++ rest) = r :: csvGo .startRecord [] [] rest.tail := by
  obtain ⟨hne, hu, ts, hts, rfl⟩ := hr
  have key := go_record h hts hne []
  rw [List.nil_append] at key
  rw [← key]
  cases hts with
  | nil => exact absurd rfl hne
  | @cons f t fs ts hf hfs =>
    have hhead : ∀ c, ([','].intercalate (t :: ts)).head? = some c → ¬ isEol c = true := by
      intro c hc
      cases ts with
      | nil =>
        simp only [List.intercalate, List.intersperse, List.flatten_cons, List.flatten_nil, List.append_nil] at hc
        exact fieldText_head hf hc
      | cons t' ts =>
        cases t with
        | nil =>
          simp only [List.intercalate, List.intersperse, List.flatten_cons, List.nil_append, List.singleton_append, List.head?_cons,
            Option.some.injEq] at hc
          subst hc; decide
        | cons a t =>
          simp only [List.intercalate, List.intersperse, List.flatten_cons, List.cons_append, List.head?_cons] at hc
          exact fieldText_head hf hc
    generalize [','].intercalate (t :: ts) = u at hu hhead
    cases u with
    | nil => exact absurd rfl hu
    | cons c u => exact startRecord_eq (hhead c rfl)

theorem go_text {rs : List (List (List Char))} {t : List Char} (h : Spec.CsvText rs t) : csvGo .startRecord [] [] t = rs := by
  induction h with
  | nil => rfl
  | blank hc _ ih => rw [csvGo, if_pos ((isEol_iff _).mpr hc)]; exact ih
  | last hr =>
    have := go_start_record (Or.inl rfl) hr
    rw [List.append_nil] at this
    rw [this]; rfl
  | cons hr hc _ ih =>
    rw [go_start_record (Or.inr ⟨_, _, rfl, (isEol_iff _).mpr hc⟩) hr, List.tail_cons, ih]

theorem csvRecords_text {rs : List (List (List Char))} {t : List Char} (h : Spec.CsvText rs t) (hb : t.head? ≠ some '\uFEFF') :
    csvRecords t = rs := by
  unfold csvRecords
  split
  · exact absurd rfl hb
  · exact go_text h

theorem parseDigits_iff : ∀ (ds : List Char) (acc v : Nat), acc < 2 ^ 64 → (parseDigits acc ds = some v ↔
    (∀ c ∈ ds, c.isDigit = true) ∧ ds.foldl (fun a c => a * 10 + (c.toNat - '0'.toNat)) acc = v ∧ v < 2 ^ 64)
  | [], acc, v, h => by
    simp only [parseDigits, Option.some.injEq, List.foldl_nil, List.not_mem_nil, false_implies, implies_true, true_and]
    exact ⟨fun e => ⟨e, e ▸ h⟩, fun e => e.1⟩
  | c :: ds, acc, v, h => by
    have mono : ∀ (ds : List Char) (a : Nat), a ≤ ds.foldl (fun a c => a * 10 + (c.toNat - '0'.toNat)) a := by
      intro ds
      induction ds with
      | nil => intro a; exact le_refl _
      | cons c ds ih => intro a; rw [List.foldl_cons]; exact le_trans (by omega) (ih _)
    rw [parseDigits, List.foldl_cons]
    by_cases hc : c.isDigit = true
    · rw [if_pos hc]
      by_cases hb : acc * 10 < 2 ^ 64 ∧ acc * 10 + (c.toNat - '0'.toNat) < 2 ^ 64
      · rw [if_pos hb, parseDigits_iff ds _ v hb.2]
        simp [hc]
      · rw [if_neg hb]
        refine ⟨fun e => (by cases e), fun ⟨_, e, hv⟩ => ?_⟩
        have := mono ds (acc * 10 + (c.toNat - '0'.toNat))
        exfalso; apply hb
        omega
    · rw [if_neg hc]
      refine ⟨fun e => (by cases e), fun ⟨e, _⟩ => absurd (e c (by simp)) hc⟩

/-- C74 (numbers): a field is accepted exactly if it is a numeral below `2^64`: digits, perhaps after a plus sign, no spaces. -/
theorem C74_numeral (f : List Char) (v : Nat) : parseUsize f = some v ↔ Spec.Numeral f v := by
  have key : ∀ ds : List Char, parseDigits 0 ds = some v ↔ (∀ c ∈ ds, c.isDigit = true) ∧ Spec.decimal ds = v ∧ v < 2 ^ 64 :=
    fun ds => parseDigits_iff ds 0 v (by decide)
  have hplus : ¬ ('+').isDigit = true := by decide
  constructor
  · intro h
    unfold parseUsize at h
    split at h
    · cases h
    · cases h
    · cases h
    · obtain ⟨h1, h2, h3⟩ := (key _).mp h
      exact ⟨_, Or.inr rfl, by simp, h1, h2, h3⟩
    · obtain ⟨h1, h2, h3⟩ := (key _).mp h
      exact ⟨_, Or.inl rfl, by simp, h1, h2, h3⟩
  · rintro ⟨ds, hf, hne, h1, h2, h3⟩
    obtain ⟨c, cs, rfl⟩ := List.exists_cons_of_ne_nil hne
    have hc := h1 c (by simp)
    rcases hf with rfl | rfl
    · unfold parseUsize
      split
      · contradiction
      · rename_i heq; injection heq with e1 e2; subst e1; exact absurd hc hplus
      · rename_i heq; injection heq with e1 e2; subst e1; exact absurd hc (by decide)
      · rename_i heq; injection heq with e1 e2; subst e1; exact absurd hc hplus
      · rename_i heq; rw [← heq]; exact (key _).mpr ⟨h1, h2, h3⟩
    · exact (key _).mpr ⟨h1, h2, h3⟩

theorem mapOption_iff {α β : Type} {f : α → Option β} {R : α → β → Prop} (h : ∀ a b, f a = some b ↔ R a b) : ∀ (as : List α) (bs : List β),
    mapOption f as = some bs ↔ List.Forall₂ R as bs
  | [], bs => by
    rw [mapOption]
    constructor
    · intro e; cases e; exact .nil
    · intro e; cases e; rfl
  | a :: as, bs => by
    rw [mapOption]
    constructor
    · intro e
      split at e
      · rename_i b bs' hb hbs
        cases e
        exact .cons ((h a b).mp hb) ((mapOption_iff h as bs').mp hbs)
      · cases e
    · intro e
      cases e with
      | cons hab hrest =>
        have e1 := (h _ _).mpr hab
        have e2 := (mapOption_iff h _ _).mpr hrest
        simp only [e1, e2]

/-- C74: on any text that writes a header and data records (quoted or not, any line ends, empty lines, last line break optional), `parse_csv`
returns exactly the numbers of the data records: it returns `rows` if and only if every data record has as many fields as the header and
its fields are numerals for the entries of its row.  In all other cases it panics. -/
theorem C74_parse_iff {header : List (List Char)} {records : List (List (List Char))} {text : List Char}
    (h : Spec.CsvText (header :: records) text) (hb : text.head? ≠ some '\uFEFF') (rows : List (List Nat)) :
    parseCsv (some text) = some rows ↔
      List.Forall₂ (fun r row => r.length = header.length ∧ List.Forall₂ Spec.Numeral r row) records rows := by
  unfold parseCsv
  simp only [csvRecords_text h hb]
  refine mapOption_iff (fun r row => ?_) records rows
  unfold parseRecord
  split
  · rename_i hl
    rw [mapOption_iff C74_numeral]
    exact ⟨fun h => ⟨hl, h⟩, fun h => h.2⟩
  · rename_i hl
    exact ⟨fun e => (by cases e), fun h => absurd h.1 hl⟩

/-- C74: a leading byte order mark is not part of the table: `parse_csv` returns the same numbers for the file with the mark as `C74_parse_iff` says
for the file without. -/
theorem C74_byte_order_mark {header : List (List Char)} {records : List (List (List Char))} {text : List Char}
    (h : Spec.CsvText (header :: records) text) (rows : List (List Nat)) :
    parseCsv (some ('\uFEFF' :: text)) = some rows ↔
      List.Forall₂ (fun r row => r.length = header.length ∧ List.Forall₂ Spec.Numeral r row) records rows := by
  have e : csvRecords ('\uFEFF' :: text) = header :: records := go_text h
  unfold parseCsv
  simp only [e]
  refine mapOption_iff (fun r row => ?_) records rows
  unfold parseRecord
  split
  · rename_i hl
    rw [mapOption_iff C74_numeral]
    exact ⟨fun h => ⟨hl, h⟩, fun h => h.2⟩
  · rename_i hl
    exact ⟨fun e => (by cases e), fun h => absurd h.1 hl⟩

/-- The mark matters when the header begins with a quoted field: dropped, the field is one field with a line break. -/
example : parseCsv (some "\uFEFF\"a\nb\",c\n1,2\n".toList) = some [[1, 2]] := by decide +kernel

/-- C74: a file without records (empty, or empty lines only) gives an empty table. -/
theorem C74_empty {text : List Char} (h : Spec.CsvText [] text) (hb : text.head? ≠ some '\uFEFF') : parseCsv (some text) = some [] := by
  unfold parseCsv
  simp only [csvRecords_text h hb]

/-- C74 (FINDING): the first line is taken for a header: a file that holds a table of numbers and no header gives the table without its
first row, without any error. -/
theorem C74_headerless {first : List (List Char)} {records : List (List (List Char))} {text : List Char}
    (h : Spec.CsvText (first :: records) text) (hb : text.head? ≠ some '\uFEFF') {row : List Nat} {rows : List (List Nat)}
    (htab : List.Forall₂ (List.Forall₂ Spec.Numeral) (first :: records) (row :: rows)) (hrect : ∀ r ∈ records, r.length = first.length) :
    parseCsv (some text) = some rows := by
  cases htab with
  | cons _ hrest =>
    refine (C74_parse_iff h hb rows).mpr ?_
    clear h hb
    induction hrest with
    | nil => exact .nil
    | cons h1 _ ih => exact .cons ⟨hrect _ (by simp), h1⟩ (ih fun r hr => hrect r (by simp [hr]))

/-- The numerals printed for natural numbers below `2^64` are numerals in the sense of the specification. -/
theorem numeral_repr {v : Nat} (h : v < 2 ^ 64) : Spec.Numeral (Nat.toDigits 10 v) v := by
  refine ⟨_, Or.inl rfl, Nat.toDigits_ne_nil, fun c hc => Nat.isDigit_of_mem_toDigits (by decide) (by decide) hc, ?_, h⟩
  have := Nat.ofDigitChars_ten_toDigits (n := v)
  unfold Nat.ofDigitChars at this
  unfold Spec.decimal
  simpa only [Nat.mul_comm] using this

/-- A table of numbers as text: a header line, then one line per row, every line ended by LF. -/
def csvOf (header : List (List Char)) (rows : List (List Nat)) : List Char :=
  (header :: rows.map fun row => row.map (Nat.toDigits 10)).flatMap fun r => [','].intercalate r ++ ['\n']

theorem csvText_lines : ∀ {recs : List (List (List Char))}, (∀ r ∈ recs, r ≠ [] ∧ ∀ f ∈ r, f ≠ [] ∧ (∀ c ∈ f, c ≠ ',' ∧ c ≠ '\n' ∧ c ≠ '\r') ∧
    f.head? ≠ some '"') → Spec.CsvText recs (recs.flatMap fun r => [','].intercalate r ++ ['\n'])
  | [], _ => .nil
  | r :: recs, h => by
    obtain ⟨hne, hf⟩ := h r (by simp)
    rw [List.flatMap_cons, List.append_assoc, List.singleton_append]
    refine .cons ⟨hne, ?_, r, List.forall₂_same.mpr fun f hfr => Or.inr ⟨rfl, (hf f hfr).2⟩, rfl⟩ (Or.inl rfl)
      (csvText_lines fun r hr => h r (by simp [hr]))
    obtain ⟨f, fs, rfl⟩ := List.exists_cons_of_ne_nil hne
    have := (hf f (by simp)).1
    cases fs with
    | nil => simpa [List.intercalate, List.intersperse] using this
    | cons f' fs => simp [List.intercalate, List.intersperse]

/-- C74 (round trip): every table of numbers below `2^64`, written with a header line of the same width, is read back exactly. -/
theorem C74_roundtrip {header : List (List Char)} {rows : List (List Nat)} (hne : header ≠ [])
    (hh : ∀ f ∈ header, f ≠ [] ∧ (∀ c ∈ f, c ≠ ',' ∧ c ≠ '\n' ∧ c ≠ '\r' ∧ c ≠ '"' ∧ c ≠ '\uFEFF'))
    (hrect : ∀ row ∈ rows, row.length = header.length) (hlt : ∀ row ∈ rows, ∀ v ∈ row, v < 2 ^ 64) :
    parseCsv (some (csvOf header rows)) = some rows := by
  have hd : ∀ c : Char, c.isDigit = true → c ≠ ',' ∧ c ≠ '\n' ∧ c ≠ '\r' ∧ c ≠ '"' := by
    intro c hc
    refine ⟨?_, ?_, ?_, ?_⟩ <;> (rintro rfl; exact absurd hc (by decide))
  have htext : Spec.CsvText (header :: rows.map fun row => row.map (Nat.toDigits 10)) (csvOf header rows) := by
    refine csvText_lines fun r hr => ?_
    rcases List.mem_cons.mp hr with rfl | hr
    · refine ⟨hne, fun f hf => ⟨(hh f hf).1, fun c hc => ⟨((hh f hf).2 c hc).1, ((hh f hf).2 c hc).2.1, ((hh f hf).2 c hc).2.2.1⟩, fun e => ?_⟩⟩
      exact ((hh f hf).2 '"' (List.mem_of_mem_head? e)).2.2.2.1 rfl
    · obtain ⟨row, hrow, rfl⟩ := List.mem_map.mp hr
      refine ⟨fun e => ?_, fun f hf => ?_⟩
      · have := hrect row hrow
        rw [List.map_eq_nil_iff.mp e] at this
        exact hne (List.eq_nil_of_length_eq_zero this.symm)
      · obtain ⟨v, hv, rfl⟩ := List.mem_map.mp hf
        have hdig : ∀ c ∈ Nat.toDigits 10 v, c.isDigit = true := fun c hc => Nat.isDigit_of_mem_toDigits (by decide) (by decide) hc
        refine ⟨Nat.toDigits_ne_nil, fun c hc => ⟨(hd c (hdig c hc)).1, (hd c (hdig c hc)).2.1, (hd c (hdig c hc)).2.2.1⟩, fun e => ?_⟩
        exact (hd _ (hdig '"' (List.mem_of_mem_head? e))).2.2.2 rfl
  refine (C74_parse_iff htext ?_ rows).mpr ?_
  · obtain ⟨f, fs, rfl⟩ := List.exists_cons_of_ne_nil hne
    obtain ⟨hf1, hf2⟩ := hh f (by simp)
    obtain ⟨c, f', rfl⟩ := List.exists_cons_of_ne_nil hf1
    have e : (csvOf ((c :: f') :: fs) rows).head? = some c := by
      cases fs <;> simp [csvOf, List.intercalate, List.intersperse]
    rw [e]
    exact fun e => (hf2 c (by simp)).2.2.2.2 (by injection e)
  · clear htext
    induction rows with
    | nil => exact .nil
    | cons row rows ih =>
      refine .cons ⟨by rw [List.length_map]; exact hrect row (by simp), ?_⟩ (ih (fun r hr => hrect r (by simp [hr])) (fun r hr => hlt r (by simp [hr])))
      have hrow := hlt row (by simp)
      clear ih hrect hlt
      induction row with
      | nil => exact .nil
      | cons v row ih => exact .cons (numeral_repr (hrow v (by simp))) (ih fun v hv => hrow v (by simp [hv]))

/-! ### Concrete files -/

/-- A file with quoted and plain fields, CRLF line ends and an empty line: the result is the table. -/
example : parseCsv (some "f0,\"f,1\"\r\n1,+22\r\n\r\n\"3\",18446744073709551615".toList) = some [[1, 22], [3, 18446744073709551615]] := by
  decide +kernel

/-- Without a header the first row is lost; an overflowing number, a space, a short row and a missing number panic. -/
theorem C74_witness : parseCsv (some "1,2\n3,4\n".toList) = some [[3, 4]] ∧
    parseCsv (some "a\n18446744073709551616\n".toList) = none ∧ parseCsv (some "a,b\n1, 2\n".toList) = none ∧
    parseCsv (some "a,b\n1\n".toList) = none ∧ parseCsv (some "a,b\n1,\n".toList) = none ∧
    Spec.CsvText [["a".toList, "b".toList], ["1".toList, "2".toList]] "a,b\n\"1\",2".toList := by
  refine ⟨by decide +kernel, by decide +kernel, by decide +kernel, by decide +kernel, by decide +kernel, ?_⟩
  refine .cons (u := "a,b".toList) (c := '\n') (t := "\"1\",2".toList) ⟨by simp, by decide, ["a".toList, "b".toList], ?_, by decide⟩ (Or.inl rfl)
    (.last ⟨by simp, by decide, ["\"1\"".toList, "2".toList], ?_, by decide⟩)
  · exact .cons (Or.inr ⟨rfl, by decide, by decide⟩) (.cons (Or.inr ⟨rfl, by decide, by decide⟩) .nil)
  · exact .cons (Or.inl (by decide)) (.cons (Or.inr ⟨rfl, by decide, by decide⟩) .nil)

end Panacea
