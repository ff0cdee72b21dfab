import Verif.Lemmas.JsonText
import Verif.Props.Json

/-!
# C87: the text of parameter files and serialised trees

The reader accepts exactly the texts of the JSON grammar; what is written is read back; the parameter file can be formatted in any way; a
truncated parameter file never gives a part of the parameters.
-/

namespace Panacea
open Spec JsonText
variable {F : Type}

/-- The reader accepts exactly the JSON documents, with exactly the value the grammar gives them. -/
theorem C87_grammar (mk : List Char → Option F) (t : List Char) (j : Json F) : parse mk t = some j ↔ DocText mk j t := by
  constructor
  · intro h
    unfold parse at h
    cases h1 : readValue mk (t.length + 1) t with
    | none => rw [h1] at h; cases h
    | some y =>
      obtain ⟨j', r⟩ := y
      rw [h1] at h
      simp only at h
      split at h
      · rename_i hr
        cases h
        obtain ⟨w, v, hw, he, hv⟩ := readValue_sound mk _ _ _ _ h1
        obtain ⟨w2, hw2, hr2⟩ := skipWs_spec r
        rw [hr, List.append_nil] at hr2
        exact ⟨w, v, r, he, hw, hv, hr2 ▸ hw2⟩
      · cases h
  · rintro ⟨w1, v, w2, rfl, h1, hv, h2⟩
    unfold parse
    have hd : Delim w2 := by
      have := Delim.ws (r := []) h2 (by intro c t e; cases e)
      rwa [List.append_nil] at this
    rw [readValue_complete mk j w1 v w2 _ hv h1 (Or.inr hd) (by simp; omega)]
    simp only
    rw [if_pos (skipWs_ws h2)]

/-- A text has at most one value. -/
theorem C87_unambiguous (mk : List Char → Option F) {t : List Char} {j j' : Json F} (h : DocText mk j t) (h' : DocText mk j' t) : j = j' :=
  Option.some.inj (((C87_grammar mk t j).2 h).symm.trans ((C87_grammar mk t j').2 h'))

/-- What is written is read back: for every value whose integers fit 64 bits and whose floats are written as literals that are read back. -/
theorem C87_print (mk : List Char → Option F) (showF : F → List Char) {j : Json F} (h : Writable mk showF j) :
    parse mk (write showF j) = some j :=
  (C87_grammar mk _ j).2 ⟨[], write showF j, [], by simp, Ws.nil, write_text mk showF j h, Ws.nil⟩

/-- A parameter file gives its parameters however it is formatted (white space, escapes in member names, notation of the numbers). -/
theorem C87_params_text (mk : List Char → Option F) (ofInt : Int → F) (m55 : F) (cli : Cli F) {l : InputParamsList F} {t : List Char}
    (hl : ∀ p ∈ l, (∀ o ∈ p.1, OramFits o) ∧ ∀ t ∈ p.2, TfheFits t) (ht : DocText mk (Json.serParams l) t) :
    textParams mk ofInt m55 cli (some t) = l.flatMap fun p => p.1.flatMap fun o => p.2.map fun t => ⟨o, t⟩ := by
  unfold textParams
  rw [Option.map_some, (C87_grammar mk t _).2 ht, C69_selection, Option.bind_some, C69_params_roundtrip ofInt hl]

/-- A file that is not a JSON document (or cannot be opened) is not partly used: the program does what the command line or the fallback says. -/
theorem C87_not_json (mk : List Char → Option F) (ofInt : Int → F) (m55 : F) (cli : Cli F) {t : List Char} (ht : ∀ j, ¬ DocText mk j t) :
    textParams mk ofInt m55 cli (some t) = [fallback m55] := by
  have hn : parse mk t = none := by
    cases h : parse mk t with
    | none => rfl
    | some j => exact absurd ((C87_grammar mk t j).1 h) (ht j)
  unfold textParams
  rw [Option.map_some, hn, C69_selection]
  rfl

/-- A document whose value is an array, cut off anywhere: either nothing but white space is missing and the value is the same, or the rest
is not a document. -/
theorem C87_cut (mk : List Char → Option F) {l : List (Json F)} {t s : List Char} (h : DocText mk (.arr l) (t ++ s)) :
    (Ws s ∧ parse mk t = some (.arr l)) ∨ parse mk t = none := by
  cases hp : parse mk t with
  | none => exact Or.inr rfl
  | some j =>
    left
    obtain ⟨w1, v, w2, e1, h1, hv, h2⟩ := h
    obtain ⟨u1, v', u2, e2, k1, hv', k2⟩ := (C87_grammar mk t j).1 hp
    -- the first character of both values is `[`
    have hj : ∃ l', j = .arr l' := by
      obtain ⟨c, x, ec, hc⟩ := value_head hv'
      have hv2 := hv
      rw [ValueText] at hv2
      obtain ⟨body, rfl, _⟩ := hv2
      have s1 : skipWs (t ++ s) = c :: (x ++ (u2 ++ s)) := by
        rw [e2, ← skip_first (r := u2 ++ s) k1 ec hc]; simp
      have s2 : skipWs (t ++ s) = '[' :: (body ++ [']'] ++ w2) := by
        rw [e1, ← skip_first (v := '[' :: body ++ [']']) (c := '[') (t := body ++ [']']) (r := w2) h1 rfl (by unfold Starts; decide)]
      rw [s1] at s2
      injection s2 with e _
      subst e
      subst ec
      have hnum : ∀ {sign int frac exp : List Char}, NumberText sign int frac exp → '[' :: x = sign ++ int ++ frac ++ exp → False := by
        intro sign int frac exp hn e
        obtain ⟨c, t, e', hc⟩ := number_head hn
        rw [e'] at e
        injection e with e _
        subst e
        rcases hc with hc | hc <;> revert hc <;> decide
      cases j with
      | arr l' => exact ⟨l', rfl⟩
      | null => rw [ValueText] at hv'; cases hv'
      | bool b => rw [ValueText] at hv'; cases b <;> cases hv'
      | int z => rw [ValueText] at hv'; obtain ⟨_, _, _, _, e, hn, _⟩ := hv'; exact (hnum hn e).elim
      | float z => rw [ValueText] at hv'; obtain ⟨_, _, _, _, e, hn, _⟩ := hv'; exact (hnum hn e).elim
      | str z => rw [ValueText] at hv'; obtain ⟨_, e, _⟩ := hv'; cases e
      | obj z => rw [ValueText] at hv'; obtain ⟨_, e, _⟩ := hv'; cases e
    have r1 := readValue_complete mk (.arr l) w1 v w2 (t ++ s).length hv h1 (Or.inl ⟨l, rfl⟩) (by rw [e1]; simp; omega)
    have r2 := readValue_complete mk j u1 v' (u2 ++ s) (t ++ s).length hv' k1 (Or.inl hj) (by rw [e2]; simp; omega)
    rw [← e1] at r1
    rw [← List.append_assoc, ← e2, r1] at r2
    obtain ⟨ej, es⟩ := Prod.mk.inj (Option.some.inj r2)
    refine ⟨?_, by rw [ej]⟩
    intro c hc
    exact h2 c (by rw [es]; simp [hc])

/-- A truncated parameter file (for instance after an interrupted copy) gives all of its parameters or the fallback, never a part of them. -/
theorem C87_truncated (mk : List Char → Option F) (ofInt : Int → F) (m55 : F) (cli : Cli F) {l : InputParamsList F} {t s : List Char}
    (ht : DocText mk (Json.serParams l) (t ++ s)) :
    textParams mk ofInt m55 cli (some t) = textParams mk ofInt m55 cli (some (t ++ s)) ∨ textParams mk ofInt m55 cli (some t) = [fallback m55] := by
  unfold textParams
  rw [Option.map_some, Option.map_some, (C87_grammar mk (t ++ s) _).2 ht]
  rcases C87_cut mk (l := _) ht with ⟨_, h⟩ | h
  · rw [h]; exact Or.inl rfl
  · rw [h, C69_selection, C69_selection]; exact Or.inr rfl

theorem serNode_writable (mk : List Char → Option F) (showF : F → List Char) : ∀ t : Tree, TreeFits t → Writable mk showF (Json.serNode t)
  | .missing, _ => by simp [Json.serNode, Writable]
  | .leaf x, h => by
    have := h.2 x .here
    simp only [Json.serNode, Writable, WritableMembers, and_true]
    omega
  | .internal d l r, h => by
    obtain ⟨h1, h2, h3⟩ := h.1 d (.here l r)
    have hl := serNode_writable mk showF l ⟨fun d hd => h.1 d (.left _ _ _ hd), fun x hx => h.2 x (.left _ _ _ hx)⟩
    have hr := serNode_writable mk showF r ⟨fun d hd => h.1 d (.right _ _ _ hd), fun x hx => h.2 x (.right _ _ _ hx)⟩
    have hop : Writable mk showF (Json.serOp d.op : Json F) := by cases d.op <;> simp [Json.serOp, Writable]
    simp only [Json.serNode, Writable, WritableMembers, and_true]
    refine ⟨by omega, by omega, by omega, hop, hl, hr⟩

/-- The text of a tree is a JSON document of the tree, and reading it gives the tree back unless it is deeper than 63. -/
theorem C87_tree_text (mk : List Char → Option F) (showF : F → List Char) {t : Tree} (h : TreeFits t) (hm : t ≠ .missing) :
    DocText mk (Json.serNode t) (treeText showF t) ∧
    (t.countDepth ≤ 63 → (parse mk (treeText showF t)).bind (Json.deNode Json.limit) = some t) ∧
    (63 < t.countDepth → (parse mk (treeText showF t)).bind (Json.deNode Json.limit) = none) := by
  have hp : parse mk (treeText showF t) = some (Json.serNode t) := C87_print mk showF (serNode_writable mk showF t h)
  refine ⟨(C87_grammar mk _ _).1 hp, ?_⟩
  rw [hp, Option.bind_some]
  exact C69_tree_roundtrip h hm

set_option maxRecDepth 100000 in
/-- `test_json`, /repo/src/decision_tree.rs:727-750: the text of this tree is exactly the expected one. -/
theorem C87_test_json (showF : F → List Char) :
    treeText showF (.internal ⟨1, 2, 4, .leq⟩ (.internal ⟨11, 22, 44, .gt⟩ (.leaf 1) (.leaf 2)) (.leaf 3)) =
      "{\"internal\":{\"threshold\":1,\"feature\":2,\"index\":4,\"op\":\"leq\",\"left\":{\"internal\":{\"threshold\":11,\"feature\":22,\"index\":44,\"op\":\"gt\",\"left\":{\"leaf\":1},\"right\":{\"leaf\":2}}},\"right\":{\"leaf\":3}}}".toList := by
  rfl

/-- The file /repo/params.json, character by character. -/
def repoParamsText : List Char := "[
  [
    [
      {
        \"SingleQuery\": {
          \"item_count\": 4096,
          \"iterations\": 1
        }
      },
      {
        \"MultiQuery\": {
          \"item_count\": 4096,
          \"query_count\": 36,
          \"iterations\": 1
        }
      },
      {
        \"Batched\": {
          \"rows\": 384,
          \"cols\": 32,
          \"iterations\": 1
        }
      },
      {
        \"Batched\": {
          \"rows\": 384,
          \"cols\": 128,
          \"iterations\": 1
        }
      },
      {
        \"Batched\": {
          \"rows\": 384,
          \"cols\": 512,
          \"iterations\": 1
        }
      },
      {
        \"Batched\": {
          \"rows\": 384,
          \"cols\": 2048,
          \"iterations\": 1
        }
      },
      {
        \"Batched\": {
          \"rows\": 384,
          \"cols\": 4096,
          \"iterations\": 1
        }
      }
    ],
    [
      {
        \"standard_deviation\": -55.0,
        \"polynomial_size\": 2048,
        \"base_log\": 5,
        \"level_count\": 9,
        \"key_switch_base_log\": 5,
        \"key_switch_level_count\": 11,
        \"negs_base_log\": 5,
        \"negs_level_count\": 11,
        \"plaintext_modulus\": 256,
        \"secure_seed\": true
      }
    ]
  ]
]
".toList

mutual
/-- Replaces the floats. -/
def mapJ {G : Type} (f : F → G) : Json F → Json G
  | .null => .null
  | .bool b => .bool b
  | .int z => .int z
  | .float x => .float (f x)
  | .str s => .str s
  | .arr l => .arr (mapJs f l)
  | .obj l => .obj (mapJm f l)
/-- Replaces the floats in a list. -/
def mapJs {G : Type} (f : F → G) : List (Json F) → List (Json G)
  | [] => []
  | j :: l => mapJ f j :: mapJs f l
/-- Replaces the floats in members. -/
def mapJm {G : Type} (f : F → G) : List (String × Json F) → List (String × Json G)
  | [] => []
  | (k, j) :: l => (k, mapJ f j) :: mapJm f l
end

mutual
/-- Equality test. -/
def jEq [DecidableEq F] : Json F → Json F → Bool
  | .null, .null => true
  | .bool b, .bool c => b = c
  | .int b, .int c => b = c
  | .float b, .float c => b = c
  | .str b, .str c => b = c
  | .arr b, .arr c => jEqs b c
  | .obj b, .obj c => jEqm b c
  | _, _ => false
/-- Equality test for lists. -/
def jEqs [DecidableEq F] : List (Json F) → List (Json F) → Bool
  | [], [] => true
  | a :: l, b :: m => jEq a b && jEqs l m
  | _, _ => false
/-- Equality test for members. -/
def jEqm [DecidableEq F] : List (String × Json F) → List (String × Json F) → Bool
  | [], [] => true
  | (k, a) :: l, (k', b) :: m => decide (k = k') && jEq a b && jEqm l m
  | _, _ => false
end

mutual
theorem jEq_sound [DecidableEq F] : ∀ a b : Json F, jEq a b = true → a = b
  | .null, b, h => by cases b <;> first | rfl | simp [jEq] at h
  | .bool x, b, h => by cases b <;> simp [jEq] at h <;> simp [h]
  | .int x, b, h => by cases b <;> simp [jEq] at h <;> simp [h]
  | .float x, b, h => by cases b <;> simp [jEq] at h <;> simp [h]
  | .str x, b, h => by cases b <;> simp [jEq] at h <;> simp [h]
  | .arr x, b, h => by
    cases b with
    | arr y => rw [jEq] at h; rw [jEqs_sound x y h]
    | _ => simp [jEq] at h
  | .obj x, b, h => by
    cases b with
    | obj y => rw [jEq] at h; rw [jEqm_sound x y h]
    | _ => simp [jEq] at h
theorem jEqs_sound [DecidableEq F] : ∀ a b : List (Json F), jEqs a b = true → a = b
  | [], b, h => by cases b <;> first | rfl | simp [jEqs] at h
  | a :: l, b, h => by
    cases b with
    | nil => simp [jEqs] at h
    | cons b m =>
      rw [jEqs, Bool.and_eq_true] at h
      rw [jEq_sound a b h.1, jEqs_sound l m h.2]
theorem jEqm_sound [DecidableEq F] : ∀ a b : List (String × Json F), jEqm a b = true → a = b
  | [], b, h => by cases b <;> first | rfl | simp [jEqm] at h
  | (k, a) :: l, b, h => by
    cases b with
    | nil => simp [jEqm] at h
    | cons b m =>
      obtain ⟨k', b⟩ := b
      rw [jEqm, Bool.and_eq_true, Bool.and_eq_true] at h
      rw [of_decide_eq_true h.1.1, jEq_sound a b h.1.2, jEqm_sound l m h.2]
end

theorem mapJs_nil {G : Type} (f : F → G) (l : List (Json F)) : mapJs f l = [] ↔ l = [] := by cases l <;> simp [mapJs]

theorem mapJm_nil {G : Type} (f : F → G) (l : List (String × Json F)) : mapJm f l = [] ↔ l = [] := by
  cases l with
  | nil => simp [mapJm]
  | cons x l => obtain ⟨k, j⟩ := x; simp [mapJm]

mutual
theorem valueText_map {G : Type} {mk : List Char → Option F} {mk' : List Char → Option G} {f : F → G}
    (hf : ∀ t x, mk t = some x → mk' t = some (f x)) : ∀ (j : Json F) (t : List Char), ValueText mk j t → ValueText mk' (mapJ f j) t
  | .null, t, h => by rw [ValueText] at h; rw [mapJ, ValueText]; exact h
  | .bool b, t, h => by rw [ValueText] at h; rw [mapJ, ValueText]; exact h
  | .int z, t, h => by
    rw [ValueText] at h; rw [mapJ, ValueText]
    obtain ⟨s, i, fr, e, rfl, hn, hm⟩ := h
    refine ⟨s, i, fr, e, rfl, hn, ?_⟩
    cases hm with
    | pos h1 h2 h3 h4 => exact .pos h1 h2 h3 h4
    | neg h1 h2 h3 h4 h5 => exact .neg h1 h2 h3 h4 h5
  | .float z, t, h => by
    rw [ValueText] at h; rw [mapJ, ValueText]
    obtain ⟨s, i, fr, e, rfl, hn, hm⟩ := h
    refine ⟨s, i, fr, e, rfl, hn, ?_⟩
    cases hm with
    | float h1 h2 h3 => exact .float h1 h2 (hf _ _ h3)
  | .str s, t, h => by rw [ValueText] at h; rw [mapJ, ValueText]; exact h
  | .arr l, t, h => by
    rw [ValueText] at h; rw [mapJ, ValueText]
    obtain ⟨b, rfl, h⟩ := h
    refine ⟨b, rfl, ?_⟩
    rcases h with ⟨h1, h2⟩ | ⟨h1, h2⟩
    · exact Or.inl ⟨(mapJs_nil f l).2 h1, h2⟩
    · exact Or.inr ⟨fun h => h1 ((mapJs_nil f l).1 h), elemsText_map hf l b h2⟩
  | .obj l, t, h => by
    rw [ValueText] at h; rw [mapJ, ValueText]
    obtain ⟨b, rfl, h⟩ := h
    refine ⟨b, rfl, ?_⟩
    rcases h with ⟨h1, h2⟩ | ⟨h1, h2⟩
    · exact Or.inl ⟨(mapJm_nil f l).2 h1, h2⟩
    · exact Or.inr ⟨fun h => h1 ((mapJm_nil f l).1 h), membersText_map hf l b h2⟩
theorem elemsText_map {G : Type} {mk : List Char → Option F} {mk' : List Char → Option G} {f : F → G}
    (hf : ∀ t x, mk t = some x → mk' t = some (f x)) : ∀ (l : List (Json F)) (t : List Char), ElemsText mk l t → ElemsText mk' (mapJs f l) t
  | [], t, h => by rw [ElemsText] at h; rw [mapJs, ElemsText]; exact h
  | j :: l, t, h => by
    rw [ElemsText] at h; rw [mapJs, ElemsText]
    obtain ⟨w1, v, w2, r, h0, h1, h2, h3, h4⟩ := h
    refine ⟨w1, v, w2, r, h0, h1, valueText_map hf j v h2, h3, ?_⟩
    rcases h4 with ⟨h4, h5⟩ | ⟨h4, r', h5, h6⟩
    · exact Or.inl ⟨(mapJs_nil f l).2 h4, h5⟩
    · exact Or.inr ⟨fun h => h4 ((mapJs_nil f l).1 h), r', h5, elemsText_map hf l r' h6⟩
theorem membersText_map {G : Type} {mk : List Char → Option F} {mk' : List Char → Option G} {f : F → G}
    (hf : ∀ t x, mk t = some x → mk' t = some (f x)) : ∀ (l : List (String × Json F)) (t : List Char), MembersText mk l t → MembersText mk' (mapJm f l) t
  | [], t, h => by rw [MembersText] at h; rw [mapJm, MembersText]; exact h
  | (k, j) :: l, t, h => by
    rw [MembersText] at h; rw [mapJm, MembersText]
    obtain ⟨w1, kt, w2, w3, v, w4, r, h0, h1, h2, h3, h4, h5, h6, h7⟩ := h
    refine ⟨w1, kt, w2, w3, v, w4, r, h0, h1, h2, h3, h4, valueText_map hf j v h5, h6, ?_⟩
    rcases h7 with ⟨h7, h8⟩ | ⟨h7, r', h8, h9⟩
    · exact Or.inl ⟨(mapJm_nil f l).2 h7, h8⟩
    · exact Or.inr ⟨fun h => h7 ((mapJm_nil f l).1 h), r', h8, membersText_map hf l r' h9⟩
end

/-- The only float literal of the file. -/
def mkRepo (s : List Char) : Option Unit := if s = ['-', '5', '5', '.', '0'] then some () else none

theorem doc_of_test {t : List Char} {j : Json Unit} (h : (parse mkRepo t).map (jEq j) = some true) : DocText mkRepo j t := by
  obtain ⟨j', h1, h2⟩ := Option.map_eq_some_iff.1 h
  rw [jEq_sound _ _ h2]
  exact (C87_grammar _ _ _).1 h1

/-- The characters of the file. -/
def repoChars : List Char := [
  '[', '\n', ' ', ' ', '[', '\n', ' ', ' ', ' ', ' ', '[', '\n', ' ', ' ', ' ', ' ', ' ', ' ', '{', '\n', ' ', ' ', ' ', ' ',
  ' ', ' ', ' ', ' ', '"', 'S', 'i', 'n', 'g', 'l', 'e', 'Q', 'u', 'e', 'r', 'y', '"', ':', ' ', '{', '\n', ' ', ' ', ' ',
  ' ', ' ', ' ', ' ', ' ', ' ', ' ', '"', 'i', 't', 'e', 'm', '_', 'c', 'o', 'u', 'n', 't', '"', ':', ' ', '4', '0', '9',
  '6', ',', '\n', ' ', ' ', ' ', ' ', ' ', ' ', ' ', ' ', ' ', ' ', '"', 'i', 't', 'e', 'r', 'a', 't', 'i', 'o', 'n', 's',
  '"', ':', ' ', '1', '\n', ' ', ' ', ' ', ' ', ' ', ' ', ' ', ' ', '}', '\n', ' ', ' ', ' ', ' ', ' ', ' ', '}', ',', '\n',
  ' ', ' ', ' ', ' ', ' ', ' ', '{', '\n', ' ', ' ', ' ', ' ', ' ', ' ', ' ', ' ', '"', 'M', 'u', 'l', 't', 'i', 'Q', 'u',
  'e', 'r', 'y', '"', ':', ' ', '{', '\n', ' ', ' ', ' ', ' ', ' ', ' ', ' ', ' ', ' ', ' ', '"', 'i', 't', 'e', 'm', '_',
  'c', 'o', 'u', 'n', 't', '"', ':', ' ', '4', '0', '9', '6', ',', '\n', ' ', ' ', ' ', ' ', ' ', ' ', ' ', ' ', ' ', ' ',
  '"', 'q', 'u', 'e', 'r', 'y', '_', 'c', 'o', 'u', 'n', 't', '"', ':', ' ', '3', '6', ',', '\n', ' ', ' ', ' ', ' ', ' ',
  ' ', ' ', ' ', ' ', ' ', '"', 'i', 't', 'e', 'r', 'a', 't', 'i', 'o', 'n', 's', '"', ':', ' ', '1', '\n', ' ', ' ', ' ',
  ' ', ' ', ' ', ' ', ' ', '}', '\n', ' ', ' ', ' ', ' ', ' ', ' ', '}', ',', '\n', ' ', ' ', ' ', ' ', ' ', ' ', '{', '\n',
  ' ', ' ', ' ', ' ', ' ', ' ', ' ', ' ', '"', 'B', 'a', 't', 'c', 'h', 'e', 'd', '"', ':', ' ', '{', '\n', ' ', ' ', ' ',
  ' ', ' ', ' ', ' ', ' ', ' ', ' ', '"', 'r', 'o', 'w', 's', '"', ':', ' ', '3', '8', '4', ',', '\n', ' ', ' ', ' ', ' ',
  ' ', ' ', ' ', ' ', ' ', ' ', '"', 'c', 'o', 'l', 's', '"', ':', ' ', '3', '2', ',', '\n', ' ', ' ', ' ', ' ', ' ', ' ',
  ' ', ' ', ' ', ' ', '"', 'i', 't', 'e', 'r', 'a', 't', 'i', 'o', 'n', 's', '"', ':', ' ', '1', '\n', ' ', ' ', ' ', ' ',
  ' ', ' ', ' ', ' ', '}', '\n', ' ', ' ', ' ', ' ', ' ', ' ', '}', ',', '\n', ' ', ' ', ' ', ' ', ' ', ' ', '{', '\n', ' ',
  ' ', ' ', ' ', ' ', ' ', ' ', ' ', '"', 'B', 'a', 't', 'c', 'h', 'e', 'd', '"', ':', ' ', '{', '\n', ' ', ' ', ' ', ' ',
  ' ', ' ', ' ', ' ', ' ', ' ', '"', 'r', 'o', 'w', 's', '"', ':', ' ', '3', '8', '4', ',', '\n', ' ', ' ', ' ', ' ', ' ',
  ' ', ' ', ' ', ' ', ' ', '"', 'c', 'o', 'l', 's', '"', ':', ' ', '1', '2', '8', ',', '\n', ' ', ' ', ' ', ' ', ' ', ' ',
  ' ', ' ', ' ', ' ', '"', 'i', 't', 'e', 'r', 'a', 't', 'i', 'o', 'n', 's', '"', ':', ' ', '1', '\n', ' ', ' ', ' ', ' ',
  ' ', ' ', ' ', ' ', '}', '\n', ' ', ' ', ' ', ' ', ' ', ' ', '}', ',', '\n', ' ', ' ', ' ', ' ', ' ', ' ', '{', '\n', ' ',
  ' ', ' ', ' ', ' ', ' ', ' ', ' ', '"', 'B', 'a', 't', 'c', 'h', 'e', 'd', '"', ':', ' ', '{', '\n', ' ', ' ', ' ', ' ',
  ' ', ' ', ' ', ' ', ' ', ' ', '"', 'r', 'o', 'w', 's', '"', ':', ' ', '3', '8', '4', ',', '\n', ' ', ' ', ' ', ' ', ' ',
  ' ', ' ', ' ', ' ', ' ', '"', 'c', 'o', 'l', 's', '"', ':', ' ', '5', '1', '2', ',', '\n', ' ', ' ', ' ', ' ', ' ', ' ',
  ' ', ' ', ' ', ' ', '"', 'i', 't', 'e', 'r', 'a', 't', 'i', 'o', 'n', 's', '"', ':', ' ', '1', '\n', ' ', ' ', ' ', ' ',
  ' ', ' ', ' ', ' ', '}', '\n', ' ', ' ', ' ', ' ', ' ', ' ', '}', ',', '\n', ' ', ' ', ' ', ' ', ' ', ' ', '{', '\n', ' ',
  ' ', ' ', ' ', ' ', ' ', ' ', ' ', '"', 'B', 'a', 't', 'c', 'h', 'e', 'd', '"', ':', ' ', '{', '\n', ' ', ' ', ' ', ' ',
  ' ', ' ', ' ', ' ', ' ', ' ', '"', 'r', 'o', 'w', 's', '"', ':', ' ', '3', '8', '4', ',', '\n', ' ', ' ', ' ', ' ', ' ',
  ' ', ' ', ' ', ' ', ' ', '"', 'c', 'o', 'l', 's', '"', ':', ' ', '2', '0', '4', '8', ',', '\n', ' ', ' ', ' ', ' ', ' ',
  ' ', ' ', ' ', ' ', ' ', '"', 'i', 't', 'e', 'r', 'a', 't', 'i', 'o', 'n', 's', '"', ':', ' ', '1', '\n', ' ', ' ', ' ',
  ' ', ' ', ' ', ' ', ' ', '}', '\n', ' ', ' ', ' ', ' ', ' ', ' ', '}', ',', '\n', ' ', ' ', ' ', ' ', ' ', ' ', '{', '\n',
  ' ', ' ', ' ', ' ', ' ', ' ', ' ', ' ', '"', 'B', 'a', 't', 'c', 'h', 'e', 'd', '"', ':', ' ', '{', '\n', ' ', ' ', ' ',
  ' ', ' ', ' ', ' ', ' ', ' ', ' ', '"', 'r', 'o', 'w', 's', '"', ':', ' ', '3', '8', '4', ',', '\n', ' ', ' ', ' ', ' ',
  ' ', ' ', ' ', ' ', ' ', ' ', '"', 'c', 'o', 'l', 's', '"', ':', ' ', '4', '0', '9', '6', ',', '\n', ' ', ' ', ' ', ' ',
  ' ', ' ', ' ', ' ', ' ', ' ', '"', 'i', 't', 'e', 'r', 'a', 't', 'i', 'o', 'n', 's', '"', ':', ' ', '1', '\n', ' ', ' ',
  ' ', ' ', ' ', ' ', ' ', ' ', '}', '\n', ' ', ' ', ' ', ' ', ' ', ' ', '}', '\n', ' ', ' ', ' ', ' ', ']', ',', '\n', ' ',
  ' ', ' ', ' ', '[', '\n', ' ', ' ', ' ', ' ', ' ', ' ', '{', '\n', ' ', ' ', ' ', ' ', ' ', ' ', ' ', ' ', '"', 's', 't',
  'a', 'n', 'd', 'a', 'r', 'd', '_', 'd', 'e', 'v', 'i', 'a', 't', 'i', 'o', 'n', '"', ':', ' ', '-', '5', '5', '.', '0',
  ',', '\n', ' ', ' ', ' ', ' ', ' ', ' ', ' ', ' ', '"', 'p', 'o', 'l', 'y', 'n', 'o', 'm', 'i', 'a', 'l', '_', 's', 'i',
  'z', 'e', '"', ':', ' ', '2', '0', '4', '8', ',', '\n', ' ', ' ', ' ', ' ', ' ', ' ', ' ', ' ', '"', 'b', 'a', 's', 'e',
  '_', 'l', 'o', 'g', '"', ':', ' ', '5', ',', '\n', ' ', ' ', ' ', ' ', ' ', ' ', ' ', ' ', '"', 'l', 'e', 'v', 'e', 'l',
  '_', 'c', 'o', 'u', 'n', 't', '"', ':', ' ', '9', ',', '\n', ' ', ' ', ' ', ' ', ' ', ' ', ' ', ' ', '"', 'k', 'e', 'y',
  '_', 's', 'w', 'i', 't', 'c', 'h', '_', 'b', 'a', 's', 'e', '_', 'l', 'o', 'g', '"', ':', ' ', '5', ',', '\n', ' ', ' ',
  ' ', ' ', ' ', ' ', ' ', ' ', '"', 'k', 'e', 'y', '_', 's', 'w', 'i', 't', 'c', 'h', '_', 'l', 'e', 'v', 'e', 'l', '_',
  'c', 'o', 'u', 'n', 't', '"', ':', ' ', '1', '1', ',', '\n', ' ', ' ', ' ', ' ', ' ', ' ', ' ', ' ', '"', 'n', 'e', 'g',
  's', '_', 'b', 'a', 's', 'e', '_', 'l', 'o', 'g', '"', ':', ' ', '5', ',', '\n', ' ', ' ', ' ', ' ', ' ', ' ', ' ', ' ',
  '"', 'n', 'e', 'g', 's', '_', 'l', 'e', 'v', 'e', 'l', '_', 'c', 'o', 'u', 'n', 't', '"', ':', ' ', '1', '1', ',', '\n',
  ' ', ' ', ' ', ' ', ' ', ' ', ' ', ' ', '"', 'p', 'l', 'a', 'i', 'n', 't', 'e', 'x', 't', '_', 'm', 'o', 'd', 'u', 'l',
  'u', 's', '"', ':', ' ', '2', '5', '6', ',', '\n', ' ', ' ', ' ', ' ', ' ', ' ', ' ', ' ', '"', 's', 'e', 'c', 'u', 'r',
  'e', '_', 's', 'e', 'e', 'd', '"', ':', ' ', 't', 'r', 'u', 'e', '\n', ' ', ' ', ' ', ' ', ' ', ' ', '}', '\n', ' ', ' ',
  ' ', ' ', ']', '\n', ' ', ' ', ']', '\n', ']', '\n']

set_option maxRecDepth 20000 in
theorem repo_chars : repoParamsText = repoChars := by
  unfold repoParamsText repoChars
  exact String.toList_ofList

theorem repo_doc : DocText mkRepo (repoParams ()) repoParamsText := by
  rw [repo_chars]
  exact doc_of_test (by decide +kernel)

/-- The file of the repository is a JSON document, and gives seven runs with the default TFHE parameters. -/
theorem C87_repo_params (mk : List Char → Option F) (ofInt : Int → F) (m55 : F) (cli : Cli F)
    (h : mk ['-', '5', '5', '.', '0'] = some m55) :
    DocText mk (repoParams m55) repoParamsText ∧
    textParams mk ofInt m55 cli (some repoParamsText) =
      [.singleQuery 4096 1, .multiQuery 4096 36 1, .batched 384 32 1, .batched 384 128 1, .batched 384 512 1, .batched 384 2048 1,
        .batched 384 4096 1].map fun o => ⟨o, TFHEParameters.default' m55⟩ := by
  have hp : parse mk repoParamsText = some (repoParams m55) := by
    obtain ⟨w1, v, w2, e, a1, a2, a3⟩ := repo_doc
    refine (C87_grammar mk _ _).2 ⟨w1, v, w2, e, a1, ?_, a3⟩
    refine valueText_map (f := fun _ => m55) ?_ (repoParams ()) v a2
    intro t x ht
    unfold mkRepo at ht
    split at ht
    · rename_i hs; rw [hs]; exact h
    · cases ht
  refine ⟨(C87_grammar mk _ _).1 hp, ?_⟩
  unfold textParams
  rw [Option.map_some, hp]
  rfl

/-- Non-vacuity of `C87_cut` and `C87_truncated`: without its last newline a file is still a document; cut in the middle it is not. -/
example : ∃ l, DocText mkRepo (.arr l) "[[[], [ ]]]\n".toList ∧ parse mkRepo "[[[], ".toList = none ∧
    parse mkRepo "[[[], [ ]]]".toList = some (.arr l) :=
  ⟨[.arr [.arr [], .arr []]], (C87_grammar _ _ _).1 rfl, rfl, rfl⟩

/-- Escapes, exponents, the limits of the integers, and texts that are not JSON. -/
example : ([" [1, -2 ,\t18446744073709551615]\n", "[-9223372036854775808,{}]", "{\"\\u0061\\ud83d\\ude00\":[null,true,false,\"\\n\"]}"].map fun s =>
    (parse (F := List Char) some s.toList).map (write id)) =
    [some "[1,-2,18446744073709551615]".toList, some "[-9223372036854775808,{}]".toList, some "{\"a😀\":[null,true,false,\"\\n\"]}".toList] ∧
    ∀ s ∈ ["", "[1,]", "[01]", "{\"a\":1,}", "[1] x", "\"\\ud800\"", "+1", ".5", "1.", "nul", "[1 2]", "\"\n\"", "{a:1}", "--1", "1e"],
      (parse (F := List Char) some s.toList).isNone = true := by
  decide +kernel

/-- Non-vacuity of `C87_print`: nested values, escapes, negative numbers, a float. -/
example : Writable (F := Nat) (fun t => if t = "-0.0".toList then some 0 else none) (fun _ => "-0.0".toList)
    (.obj [("a\"\x01", .arr [.int (-5), .float 0, .str "\\"])]) := by
  simp only [Writable, WritableMembers, WritableAll, and_true]
  refine ⟨by decide, ['-'], ['0'], ['.', '0'], [], rfl, ⟨Or.inr rfl, ⟨⟨by simp, by simp [decDigits]⟩, fun _ => rfl⟩,
    Or.inr ⟨['0'], ⟨by simp, by simp [decDigits]⟩, rfl⟩, Or.inl rfl⟩, Or.inl (by simp), rfl⟩

end Panacea
