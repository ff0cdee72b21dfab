import Mathlib.Logic.Relation
import Verif.Model.Report

/-!
# `par_iter().map(f).collect()` and the `parallel` flag of `simulate`

The scheduler of rayon as a small-step relation: one slot per item; an idle worker of the pool may take any pending item, a running item
may finish at any time.  A panic inside `f` is stored in its slot; the call returns when every item has finished, or propagates the panic
as soon as no item is running (items that never started may be dropped, as `rayon::join` does).
-/

namespace Panacea
variable {α β : Type} {n : Nat}

/-- What has happened to one item of a parallel map  (/repo/src/decision_tree.rs:671, /repo/src/oram.rs:263). -/
inductive Slot (β : Type) where
  | pending
  | running (worker : Nat)
  | finished (r : Option β)

/-- One step of a pool of `N` workers mapping `f` over `l`, as in /repo/src/decision_tree.rs:671. -/
inductive ParMapStep (f : α → Option β) (l : List α) (N : Nat) : List (Slot β) → List (Slot β) → Prop where
  | start {sl : List (Slot β)} {i t : Nat} : sl[i]? = some .pending → t < N → (∀ j : Nat, sl[j]? ≠ some (.running t)) →
      ParMapStep f l N sl (sl.set i (.running t))
  | finish {sl : List (Slot β)} {i t : Nat} {a : α} : sl[i]? = some (.running t) → l[i]? = some a →
      ParMapStep f l N sl (sl.set i (.finished (f a)))

/-- No item has been taken  (/repo/src/decision_tree.rs:671, /repo/src/oram.rs:263). -/
def parMapInit (l : List α) : List (Slot β) := l.map fun _ => .pending

/-- The call can return `out` in this state: all items finished normally, or an item panicked and none is running  (/repo/src/decision_tree.rs:671, /repo/src/oram.rs:263). -/
def ParMapOut (sl : List (Slot β)) (out : Option (List β)) : Prop :=
  (∃ vs : List β, sl = vs.map (fun v => .finished (some v)) ∧ out = some vs) ∨
  (Slot.finished none ∈ sl ∧ (∀ t, Slot.running t ∉ sl) ∧ out = none)

/-- Some schedule of `N` workers makes `l.par_iter().map(f).collect()` return (or panic with) `out`  (/repo/src/decision_tree.rs:671, /repo/src/oram.rs:263). -/
def ParMapRun (f : α → Option β) (l : List α) (N : Nat) (out : Option (List β)) : Prop :=
  ∃ sl, Relation.ReflTransGen (ParMapStep f l N) (parMapInit l) sl ∧ ParMapOut sl out

/-- `simulate`, /repo/src/decision_tree.rs:643-694, with its `parallel` flag and a pool of `N` workers: the possible predictions
(`none` = panic).  The key `s` is given; the clock is dropped. -/
def SimulateRun (fft : Fft n) (ctx : Ctx) (ceilLog2 : Nat → Nat) (s : Poly n) (model : Tree) (features : List (List Nat)) (parallel : Bool)
    (N : Nat) (g : Gen n) (out : Option (List Nat)) : Prop :=
  match negGsw ctx s g with
  | none => out = none
  | some (negS, g) =>
    match genAllSubsKsk ctx s g with
    | none => out = none
    | some (ksks, g) =>
      match mapGenM (encryptFeatureVector ctx s) features g with
      | none => out = none
      | some (clientCts, _) =>
        ∃ outputs : Option (List (List (RLWE n))),
          (if parallel then ParMapRun (simulateServer fft ctx ceilLog2 model ksks negS) clientCts N outputs
            else outputs = mapOption (simulateServer fft ctx ceilLog2 model ksks negS) clientCts) ∧
          out = outputs.bind fun os => mapOption (simulateCheck ctx s model) (os.zip features)

/-- `SimulationResult`, /repo/src/decision_tree.rs:574-587; the durations are kept as the texts `{:?}` prints. -/
structure SimulationResult (F : Type) where
  inputCount : Nat
  setupDuration : List Char
  serverDuration : List Char
  predictions : List Nat
  std : F
  polySize : Nat
  baseLog : Nat
  levelCount : Nat
  ksBaseLog : Nat
  ksLevelCount : Nat
  negsBaseLog : Nat
  negsLevelCount : Nat
deriving DecidableEq

/-- `SimulationResult::new`, /repo/src/decision_tree.rs:589-612, for a context made by `Context::new` from `p`
(/repo/src/context.rs:123-146). -/
def SimulationResult.new {F : Type} (inputCount : Nat) (setup server : List Char) (predictions : List Nat) (p : TFHEParameters F) :
    SimulationResult F :=
  ⟨inputCount, setup, server, predictions, p.standardDeviation, p.polynomialSize, p.baseLog, p.levelCount, p.keySwitchBaseLog,
    p.keySwitchLevelCount, p.negsBaseLog, p.negsLevelCount⟩

/-- A whole call of `simulate`, /repo/src/decision_tree.rs:643-694, with the parameters `p` for the context. -/
def SimulateReturnsWith {F : Type} (p : TFHEParameters F) (fft : Fft n) (ceilLog2 : Nat → Nat) (s : Poly n) (model : Tree)
    (features : List (List Nat)) (parallel : Bool) (N : Nat) (g : Gen n) (setup server : List Char) (R : SimulationResult F) : Prop :=
  ∃ ctx ys, Ctx.ofParams p = some ctx ∧ SimulateRun fft ctx ceilLog2 s model features parallel N g (some ys) ∧
    R = SimulationResult.new features.length setup server ys p

/-- `simulate`, /repo/src/decision_tree.rs:643-694: the context is made from the default parameters (line 646), whose polynomial size is
2048 = 2 ^ 11. -/
def SimulateReturns {F : Type} (m55 : F) (fft : Fft (2 ^ 11)) (ceilLog2 : Nat → Nat) (s : Poly (2 ^ 11)) (model : Tree) (features : List (List Nat))
    (parallel : Bool) (N : Nat) (g : Gen (2 ^ 11)) (setup server : List Char) (R : SimulationResult F) : Prop :=
  SimulateReturnsWith (TFHEParameters.default' m55) fft ceilLog2 s model features parallel N g setup server R

/-- The decomposition parameters and the noise as both `Display` implementations print them: `q`, `poly_size`, `log_std`,
`default_decomp`, `ks_decomp`, `negs_decomp`; /repo/src/context.rs:66-68, /repo/src/decision_tree.rs:616-620. -/
def paramsDisplay (q polySize : Nat) (std : List Char) (b l kb kl nb nl : Nat) : List Char :=
  "q=".toList ++ fmtNat q ++ ", poly_size=".toList ++ fmtNat polySize ++ ", log_std=".toList ++ std ++
  ", default_decomp=(".toList ++ fmtNat b ++ ",".toList ++ fmtNat l ++ "), ks_decomp=(".toList ++ fmtNat kb ++ ",".toList ++ fmtNat kl ++
  "), negs_decomp=(".toList ++ fmtNat nb ++ ",".toList ++ fmtNat nl ++ ")".toList

/-- `Display for SimulationResult`, /repo/src/decision_tree.rs:614-622; `fmtF` prints the `f64`. -/
def SimulationResult.text {F : Type} (fmtF : F → List Char) (R : SimulationResult F) : List Char :=
  "input_count=".toList ++ fmtNat R.inputCount ++ ", setup_duration=".toList ++ R.setupDuration ++ ", server_duration=".toList ++
  R.serverDuration ++ ", ".toList ++
  paramsDisplay 64 R.polySize (fmtF R.std) R.baseLog R.levelCount R.ksBaseLog R.ksLevelCount R.negsBaseLog R.negsLevelCount

/-- `Display for Context`, /repo/src/context.rs:64-70, for the context made from `p` (whose codec stores the plaintext modulus,
/repo/src/codec.rs). -/
def contextText {F : Type} (fmtF : F → List Char) (p : TFHEParameters F) (codec : Codec) : List Char :=
  paramsDisplay 64 p.polynomialSize (fmtF p.standardDeviation) p.baseLog p.levelCount p.keySwitchBaseLog p.keySwitchLevelCount
    p.negsBaseLog p.negsLevelCount ++ ", pt_modulus=(".toList ++ fmtNat codec.ptModulus.toNat ++ ")".toList

end Panacea
