import Verif.Spec.CliArgs
import Verif.Props.Csv

/-! # Lemmas about command lines -/

namespace Panacea
open Spec

/-- A setting as the parser records it. -/
def recorded (s : String × Option Arg) : List Char × Arg := (s.1.toList, s.2.getD "true".toList)

theorem splitEq_name : ∀ a : List Char, '=' ∉ a → splitEq a = (a, none)
  | [], _ => rfl
  | c :: cs, h => by
    rw [List.mem_cons, not_or] at h
    unfold splitEq
    rw [if_neg (Ne.symm h.1), splitEq_name cs h.2]

theorem splitEq_joined (v : List Char) : ∀ a : List Char, '=' ∉ a → splitEq (a ++ '=' :: v) = (a, some v)
  | [], _ => rfl
  | c :: cs, h => by
    rw [List.mem_cons, not_or] at h
    rw [List.cons_append]
    unfold splitEq
    rw [if_neg (Ne.symm h.1), splitEq_joined v cs h.2]

theorem splitEq_some : ∀ {b a v : List Char}, splitEq b = (a, some v) → b = a ++ '=' :: v
  | [], a, v, h => by simp [splitEq] at h
  | c :: cs, a, v, h => by
    unfold splitEq at h
    by_cases hc : c = '='
    · rw [if_pos hc] at h
      simp only [Prod.mk.injEq, Option.some.injEq] at h
      obtain ⟨rfl, rfl⟩ := h
      rw [hc]; rfl
    · rw [if_neg hc] at h
      simp only [Prod.mk.injEq] at h
      obtain ⟨rfl, h2⟩ := h
      have := splitEq_some (b := cs) (a := (splitEq cs).1) (v := v) (by rw [← h2])
      rw [List.cons_append, ← this]

theorem splitEq_none : ∀ {b a : List Char}, splitEq b = (a, none) → b = a
  | [], a, h => by simp only [splitEq, Prod.mk.injEq, and_true] at h; exact h
  | c :: cs, a, h => by
    unfold splitEq at h
    by_cases hc : c = '='
    · rw [if_pos hc] at h; simp at h
    · rw [if_neg hc] at h
      simp only [Prod.mk.injEq] at h
      obtain ⟨rfl, h2⟩ := h
      have := splitEq_none (b := cs) (a := (splitEq cs).1) (by rw [← h2])
      rw [← this]

theorem cliKind_flag {name : String} (h : name ∈ flags) : cliKind name.toList = some .flag := by
  revert name; decide +kernel

theorem cliKind_valued {name : String} (h : name ∈ valued) :
    ∃ k, cliKind name.toList = some k ∧ k ≠ .flag ∧ (k = .float ↔ name = "standard-deviation") := by
  have : ∀ name ∈ valued, ((cliKind name.toList).any fun k => decide (k ≠ .flag) && decide (k = .float ↔ name = "standard-deviation")) = true := by
    decide +kernel
  have := this name h
  cases hk : cliKind name.toList with
  | none => rw [hk] at this; cases this
  | some k =>
    rw [hk] at this
    simp only [Option.any_some, Bool.and_eq_true, decide_eq_true_eq] at this
    exact ⟨k, rfl, this⟩

theorem cliKind_some {name : List Char} {k : OptKind} (h : cliKind name = some k) :
    ∃ s : String, name = s.toList ∧ ((k = .flag ∧ s ∈ flags) ∨ (k ≠ .flag ∧ s ∈ valued ∧ (k = .float ↔ s = "standard-deviation"))) := by
  unfold cliKind at h
  cases hf : cliOptions.find? fun o => o.1.toList = name with
  | none => rw [hf] at h; cases h
  | some o =>
    rw [hf] at h
    simp only [Option.map_some, Option.some.injEq] at h
    have h1 := List.find?_some hf
    have h2 := List.mem_of_find?_eq_some hf
    simp only [decide_eq_true_eq] at h1
    refine ⟨o.1, h1.symm, ?_⟩
    rw [← h]
    have : ∀ o ∈ cliOptions, (o.2 = .flag ∧ o.1 ∈ flags) ∨ (o.2 ≠ .flag ∧ o.1 ∈ valued ∧ (o.2 = .float ↔ o.1 = "standard-deviation")) := by
      decide +kernel
    exact this o h2

theorem name_noEq {name : String} (h : name ∈ flags ∨ name ∈ valued) : '=' ∉ name.toList ∧ name.toList ≠ [] := by
  have h1 : ∀ n ∈ flags, '=' ∉ n.toList ∧ n.toList ≠ [] := by decide +kernel
  have h2 : ∀ n ∈ valued, '=' ∉ n.toList ∧ n.toList ≠ [] := by decide +kernel
  exact h.elim (h1 _) (h2 _)

theorem isValue_iff (negNum : Arg → Bool) {k : OptKind} {name : String} (hk : k = .float ↔ name = "standard-deviation") (v : Arg) :
    isValue negNum k v = true ↔ Separate negNum name v := by
  unfold isValue Separate
  split
  · next c cs =>
    simp only [Bool.and_eq_true, decide_eq_true_eq, List.head?_cons, ne_eq, not_true_eq_false, List.cons.injEq, true_and, reduceCtorEq,
      false_or, hk]
  · next h =>
    simp only [true_iff]
    rcases v with _ | ⟨a, _ | ⟨b, cs⟩⟩
    · left; simp
    · by_cases ha : a = '-'
      · subst ha; right; left; rfl
      · left; simpa using ha
    · by_cases ha : a = '-'
      · subst ha; exact absurd rfl (h b cs)
      · left; simpa using ha

theorem scan_sound (negNum : Arg → Bool) : ∀ args : List Arg,
    (∀ l, scanArgs negNum none args = some l → ∃ ss, CommandLine negNum ss args ∧ l = ss.map recorded) ∧
    (∀ p l, scanArgs negNum (some p) args = some l → ∃ v rest ss, args = v :: rest ∧ isValue negNum p.2 v = true ∧ CommandLine negNum ss rest ∧
      l = (p.1, v) :: ss.map recorded)
  | [] => ⟨fun l h => ⟨[], .nil, by simpa [scanArgs] using h.symm⟩, fun p l h => by simp [scanArgs] at h⟩
  | a :: rest => by
    have ih := scan_sound negNum rest
    refine ⟨fun l h => ?_, fun p l h => ?_⟩
    · unfold scanArgs at h
      split at h
      · next body =>
        by_cases hb : body = []
        · rw [if_pos hb] at h
          by_cases hr : rest = []
          · rw [if_pos hr] at h
            simp only [Option.some.injEq] at h
            subst h; subst hb; subst hr
            exact ⟨[], .stop, rfl⟩
          · rw [if_neg hr] at h; cases h
        · rw [if_neg hb] at h
          split at h
          · cases h
          · next hk he =>
            obtain ⟨s, e1, e2⟩ := cliKind_some hk
            simp only [true_and, ne_eq, not_true_eq_false, false_and, or_false] at e2
            have hbody := splitEq_none (b := body) (a := (splitEq body).1) (by rw [← he])
            rw [Option.map_eq_some_iff] at h
            obtain ⟨l', h1, rfl⟩ := h
            obtain ⟨ss, c1, rfl⟩ := ih.1 l' h1
            refine ⟨(s, none) :: ss, ?_, ?_⟩
            · have := CommandLine.cons (.flag e2) c1
              rw [hbody, e1]
              exact this
            · rw [e1]; rfl
          · cases h
          · next k v hne hk he =>
            obtain ⟨s, e1, e2⟩ := cliKind_some hk
            have e3 : s ∈ valued := by
              rcases e2 with ⟨e2, _⟩ | e2
              · exact absurd e2 (fun h => hne h)
              · exact e2.2.1
            have hbody := splitEq_some (b := body) (a := (splitEq body).1) (v := v) (by rw [← he])
            rw [Option.map_eq_some_iff] at h
            obtain ⟨l', h1, rfl⟩ := h
            obtain ⟨ss, c1, rfl⟩ := ih.1 l' h1
            refine ⟨(s, some v) :: ss, ?_, ?_⟩
            · have := CommandLine.cons (.joined e3 v) c1
              rw [hbody, e1]
              exact this
            · rw [e1]; rfl
          · next k hne hk he =>
            obtain ⟨s, e1, e2⟩ := cliKind_some hk
            have e3 : s ∈ valued ∧ (k = .float ↔ s = "standard-deviation") := by
              rcases e2 with ⟨e2, _⟩ | e2
              · exact absurd e2 (fun h => hne h)
              · exact e2.2
            have hbody := splitEq_none (b := body) (a := (splitEq body).1) (by rw [← he])
            obtain ⟨v, rest', ss, rfl, c2, c3, rfl⟩ := ih.2 _ l h
            refine ⟨(s, some v) :: ss, ?_, ?_⟩
            · have := CommandLine.cons (.apart e3.1 ((isValue_iff negNum e3.2 v).mp c2)) c3
              rw [hbody, e1]
              exact this
            · simp only [List.map_cons, recorded, Option.getD_some, e1]
      · cases h
    · unfold scanArgs at h
      by_cases hv : isValue negNum p.2 a = true
      · rw [if_pos hv, Option.map_eq_some_iff] at h
        obtain ⟨l', h1, rfl⟩ := h
        obtain ⟨ss, c1, rfl⟩ := ih.1 l' h1
        exact ⟨a, rest, ss, rfl, hv, c1, rfl⟩
      · rw [if_neg hv] at h; cases h

theorem scan_complete {negNum : Arg → Bool} {ss : List (String × Option Arg)} {args : List Arg} (h : CommandLine negNum ss args) :
    scanArgs negNum none args = some (ss.map recorded) := by
  induction h with
  | nil => rfl
  | stop => rfl
  | @cons _ ss as rest hs _ ih =>
    cases hs with
    | flag hf =>
      rename_i name
      obtain ⟨n1, n2⟩ := name_noEq (Or.inl hf)
      simp only [List.cons_append, List.nil_append]
      show scanArgs negNum none (('-' :: '-' :: name.toList) :: _) = _
      unfold scanArgs
      simp only [if_neg n2, splitEq_name _ n1, cliKind_flag hf, ih]
      rfl
    | joined hv v =>
      rename_i name
      obtain ⟨n1, n2⟩ := name_noEq (Or.inr hv)
      obtain ⟨k, k1, k2, k3⟩ := cliKind_valued hv
      simp only [List.cons_append, List.nil_append]
      show scanArgs negNum none (('-' :: '-' :: (name.toList ++ '=' :: v)) :: _) = _
      unfold scanArgs
      simp only [List.append_eq_nil_iff, reduceCtorEq, and_false, if_false, splitEq_joined v _ n1, k1, ih]
      cases k <;> first | exact absurd rfl k2 | rfl
    | apart hv hsep =>
      rename_i name v
      obtain ⟨n1, n2⟩ := name_noEq (Or.inr hv)
      obtain ⟨k, k1, k2, k3⟩ := cliKind_valued hv
      simp only [List.cons_append, List.nil_append]
      show scanArgs negNum none (('-' :: '-' :: name.toList) :: _) = _
      unfold scanArgs
      simp only [if_neg n2, splitEq_name _ n1, k1]
      have hval := (isValue_iff negNum k3 v).mpr hsep
      have key : scanArgs negNum (some (name.toList, k)) (v :: rest) = some (((name, some v) :: ss).map recorded) := by
        conv => lhs; unfold scanArgs
        simp only [if_pos hval, ih, Option.map_some]
        rfl
      cases k <;> first | exact absurd rfl k2 | exact key

theorem scan_iff (negNum : Arg → Bool) (args : List Arg) (l : List (List Char × Arg)) :
    scanArgs negNum none args = some l ↔ ∃ ss, CommandLine negNum ss args ∧ l = ss.map recorded := by
  refine ⟨(scan_sound negNum args).1 l, ?_⟩
  rintro ⟨ss, h, rfl⟩
  exact scan_complete h

/-- The settings of a command line are options with values and flags without. -/
theorem Spec.CommandLine.proper {negNum : Arg → Bool} {ss : List (String × Option Arg)} {args : List Arg} (h : CommandLine negNum ss args) :
    ∀ s ∈ ss, (s.1 ∈ flags ∧ s.2 = none) ∨ (s.1 ∈ valued ∧ s.2.isSome) := by
  induction h with
  | nil => simp
  | stop => simp
  | cons hs _ ih =>
    intro s hm
    rcases List.mem_cons.mp hm with rfl | hm
    · cases hs with
      | flag hf => exact .inl ⟨hf, rfl⟩
      | joined hv v => exact .inr ⟨hv, rfl⟩
      | apart hv _ => exact .inr ⟨hv, rfl⟩
    · exact ih s hm

theorem given_none {ss : List (String × Option Arg)} {name : String} :
    given (ss.map recorded) name = none ↔ ∀ o, (name, o) ∉ ss := by
  unfold given
  rw [Option.map_eq_none_iff, List.find?_eq_none]
  simp only [List.mem_map, decide_eq_true_eq, forall_exists_index, and_imp, Prod.forall]
  constructor
  · intro h o ho
    exact h name.toList (o.getD "true".toList) name o ho rfl rfl
  · intro h a b s o ho e he
    simp only [recorded, Prod.mk.injEq] at e
    rw [he] at e
    rw [String.toList_inj.mp e.1] at ho
    exact h o ho

theorem given_some {ss : List (String × Option Arg)} (hn : (ss.map Prod.fst).Nodup) {name : String} {v : Arg} :
    given (ss.map recorded) name = some v ↔ ∃ o, (name, o) ∈ ss ∧ o.getD "true".toList = v := by
  constructor
  · intro h
    unfold given at h
    rw [Option.map_eq_some_iff] at h
    obtain ⟨x, h1, rfl⟩ := h
    have h2 := List.find?_some h1
    have h3 := List.mem_of_find?_eq_some h1
    simp only [decide_eq_true_eq] at h2
    rw [List.mem_map] at h3
    obtain ⟨s, hs, rfl⟩ := h3
    simp only [recorded] at h2 ⊢
    exact ⟨s.2, by rw [← String.toList_inj.mp h2]; exact hs, rfl⟩
  · rintro ⟨o, ho, rfl⟩
    cases hg : given (ss.map recorded) name with
    | none => exact absurd ho (given_none.mp hg o)
    | some w =>
      unfold given at hg
      rw [Option.map_eq_some_iff] at hg
      obtain ⟨x, h1, rfl⟩ := hg
      have h2 := List.find?_some h1
      have h3 := List.mem_of_find?_eq_some h1
      simp only [decide_eq_true_eq] at h2
      rw [List.mem_map] at h3
      obtain ⟨s, hs, rfl⟩ := h3
      simp only [recorded] at h2 ⊢
      have e : s.1 = name := String.toList_inj.mp h2
      have := List.inj_on_of_nodup_map hn hs ho e
      rw [this]

/-- An option with a value is read as the specification says. -/
theorem opt_takes {α : Type} {ss : List (String × Option Arg)} (hn : (ss.map Prod.fst).Nodup)
    (hp : ∀ s ∈ ss, (s.1 ∈ flags ∧ s.2 = none) ∨ (s.1 ∈ valued ∧ s.2.isSome)) {name : String} (hf : name ∉ flags) (rd : Arg → Option α) (d x : α) :
    (match given (ss.map recorded) name with
      | none => some d
      | some v => rd v) = some x ↔ Takes ss name (fun v x => rd v = some x) d x := by
  unfold Takes
  cases hg : given (ss.map recorded) name with
  | none =>
    have h := given_none.mp hg
    simp only [Option.some.injEq]
    constructor
    · rintro rfl; exact .inr ⟨h, rfl⟩
    · rintro (⟨v, hv, _⟩ | ⟨_, e⟩)
      · exact absurd hv (h _)
      · exact e.symm
  | some v =>
    obtain ⟨o, ho, e⟩ := (given_some hn).mp hg
    have ho2 : o = some v := by
      rcases hp _ ho with ⟨h, _⟩ | ⟨_, h⟩
      · exact absurd h hf
      · cases o with
        | none => cases h
        | some w => simp only [Option.getD_some] at e; rw [e]
    subst ho2
    constructor
    · intro h; exact .inl ⟨v, ho, h⟩
    · rintro (⟨w, hw, h⟩ | ⟨h, _⟩)
      · have := List.inj_on_of_nodup_map hn hw ho rfl
        simp only [Prod.mk.injEq, true_and, Option.some.injEq] at this
        rw [← this]; exact h
      · exact absurd ho (h _)

theorem flag_given {ss : List (String × Option Arg)} (hn : (ss.map Prod.fst).Nodup)
    (hp : ∀ s ∈ ss, (s.1 ∈ flags ∧ s.2 = none) ∨ (s.1 ∈ valued ∧ s.2.isSome)) {name : String} (hf : name ∈ flags) :
    (given (ss.map recorded) name).isSome = true ↔ (name, none) ∈ ss := by
  have hv : name ∉ valued := by revert name; decide +kernel
  rw [Option.isSome_iff_exists]
  constructor
  · rintro ⟨v, h⟩
    obtain ⟨o, ho, _⟩ := (given_some hn).mp h
    rcases hp _ ho with ⟨_, h⟩ | ⟨h, _⟩
    · simp only at h; rw [← h]; exact ho
    · exact absurd h hv
  · intro h
    exact ⟨_, (given_some hn).mpr ⟨none, h, rfl⟩⟩

theorem nodup_recorded (ss : List (String × Option Arg)) : ((ss.map recorded).map Prod.fst).Nodup ↔ (ss.map Prod.fst).Nodup := by
  have : (ss.map recorded).map Prod.fst = (ss.map Prod.fst).map String.toList := by
    rw [List.map_map, List.map_map]; rfl
  rw [this, List.nodup_map_iff (fun a b h => String.toList_inj.mp h)]

end Panacea
