import Verif.Model.Params
import Mathlib.Data.List.ProdSigma

/-! # C13, C14: parameter files and command line -/

namespace Panacea

theorem foldl_push {α β : Type} (f : β → α) (l : List β) (out : List α) :
    l.foldl (fun out x => out ++ [f x]) out = out ++ l.map f := by
  induction l generalizing out with
  | nil => simp
  | cons x l ih => simp [ih]

theorem foldl_extend {α β : Type} (g : β → List α) (l : List β) (out : List α) :
    l.foldl (fun out x => out ++ g x) out = out ++ l.flatMap g := by
  induction l generalizing out with
  | nil => simp
  | cons x l ih => simp [ih]

/-- C13: the result is, group by group in order, the cartesian product of the group's lists, oram-major. -/
theorem C13_cartesian {F : Type} (input : InputParamsList F) :
    fromInputParamsList input =
      input.flatMap (fun g => (g.1.product g.2).map (fun p => (⟨p.1, p.2⟩ : ServerParams F))) := by
  unfold fromInputParamsList
  have h1 : ∀ (x : List ORAMParameters × List (TFHEParameters F)) (out : List (ServerParams F)),
      x.1.foldl (fun out xOram => x.2.foldl (fun out xTfhe => out ++ [⟨xOram, xTfhe⟩]) out) out
        = out ++ (x.1.product x.2).map (fun p => (⟨p.1, p.2⟩ : ServerParams F)) := by
    intro x out
    have h2 : ∀ (o : ORAMParameters) (out : List (ServerParams F)),
        x.2.foldl (fun out xTfhe => out ++ [⟨o, xTfhe⟩]) out = out ++ x.2.map (fun t => (⟨o, t⟩ : ServerParams F)) :=
      fun o out => foldl_push _ _ _
    simp only [h2]
    rw [foldl_extend]
    congr 1
    simp only [List.product, List.map_flatMap, List.map_map]
    rfl
  have h3 : (fun (out : List (ServerParams F)) (x : List ORAMParameters × List (TFHEParameters F)) =>
      x.1.foldl (fun out xOram => x.2.foldl (fun out xTfhe => out ++ [⟨xOram, xTfhe⟩]) out) out)
      = fun out x => out ++ (x.1.product x.2).map (fun p => (⟨p.1, p.2⟩ : ServerParams F)) := by
    funext out x; exact h1 x out
  rw [h3, foldl_extend, List.nil_append]

/-- C13: the number of experiments is the sum over the groups of the products of the list lengths. -/
theorem C13_length {F : Type} (input : InputParamsList F) :
    (fromInputParamsList input).length = (input.map (fun g => g.1.length * g.2.length)).sum := by
  rw [C13_cartesian, List.length_flatMap]
  congr 1
  apply List.map_congr_left
  intro g _
  rw [List.length_map]; exact List.length_product _ _

/-- C13: an experiment is run iff some group lists both its parts. -/
theorem C13_mem {F : Type} (input : InputParamsList F) (o : ORAMParameters) (t : TFHEParameters F) :
    (⟨o, t⟩ : ServerParams F) ∈ fromInputParamsList input ↔ ∃ g ∈ input, o ∈ g.1 ∧ t ∈ g.2 := by
  rw [C13_cartesian, List.mem_flatMap]
  constructor
  · rintro ⟨g, hg, hm⟩
    rw [List.mem_map] at hm
    obtain ⟨⟨a, b⟩, hab, he⟩ := hm
    cases he
    exact ⟨g, hg, List.mem_product.1 hab⟩
  · rintro ⟨g, hg, h1, h2⟩
    exact ⟨g, hg, List.mem_map.2 ⟨(o, t), List.mem_product.2 ⟨h1, h2⟩, rfl⟩⟩

/-- C13: the default list is exactly the default parameters. -/
theorem C13_default {F : Type} (m55 : F) :
    fromInputParamsList (InputParamsList.default' m55) = [⟨.batched 384 16 1, TFHEParameters.default' m55⟩] := rfl

/-- C14: if the parameter file opens, the command line has no influence; a malformed file means the default list. -/
theorem C14_file {F : Type} (m55 : F) (cli cli' : Cli F) (p : Option (InputParamsList F)) :
    selectParams m55 cli (.opened p) = selectParams m55 cli' (.opened p) ∧
    selectParams m55 cli (.opened none) = [⟨.batched 384 16 1, TFHEParameters.default' m55⟩] ∧
    ∀ l, selectParams m55 cli (.opened (some l)) =
      l.flatMap (fun g => (g.1.product g.2).map (fun p => (⟨p.1, p.2⟩ : ServerParams F))) :=
  ⟨rfl, rfl, fun l => C13_cartesian l⟩

/-- C14: otherwise exactly one experiment is run, chosen by the mode, with one iteration and the CLI's TFHE parameters. -/
theorem C14_cli {F : Type} (m55 : F) (cli : Cli F) :
    ∃ o, selectParams m55 cli .cannotOpen = [⟨o, cli.tfhe⟩] ∧
      (cli.mode = 0 → o = .singleQuery cli.itemCount 1) ∧
      (cli.mode = 1 → o = .multiQuery cli.itemCount cli.queryCount 1) ∧
      (2 ≤ cli.mode → o = .batched cli.rows cli.cols 1) := by
  obtain ⟨mode, ic, qc, rows, cols, tfhe⟩ := cli
  match mode with
  | 0 => exact ⟨.singleQuery ic 1, rfl, by simp, by simp, by simp⟩
  | 1 => exact ⟨.multiQuery ic qc 1, rfl, by simp, by simp, by simp⟩
  | n + 2 => exact ⟨.batched rows cols 1, rfl, by simp, by simp, by simp⟩

example : (fromInputParamsList
    [([.singleQuery 4 1, .batched 6 2 1], [TFHEParameters.default' (0 : Nat)]), ([], [TFHEParameters.default' 1])]).length = 2 := by
  decide

end Panacea
