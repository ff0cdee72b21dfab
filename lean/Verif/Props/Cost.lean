import Verif.Spec.Cost
import Verif.Props.Oblivious
import Verif.Props.DecryptDb
import Verif.Props.MeasuredTree

/-!
# C80: the work of every server call is a function of public sizes

Every theorem says that the counting program computes the value of the model (same result, same panics), and counts its operations.
-/

namespace Panacea
namespace Cost
variable {n : Nat} {α β : Type}

theorem Work.ext' {a b : Work} (h1 : a.ext = b.ext) (h2 : a.subs = b.subs) (h3 : a.mul = b.mul) : a = b := by
  cases a; cases b; simp_all

theorem Costed.ext' {x : Costed α} {v : Option α} {w : Work} (h1 : x.val = v) (h2 : x.work = w) : x = ⟨v, w⟩ := by
  cases x; simp_all

theorem add_def (a b : Work) : a + b = ⟨a.ext + b.ext, a.subs + b.subs, a.mul + b.mul⟩ := rfl

theorem Runs.eq {x : Costed α} {m : Option α} {w w' : Work} (h : Runs x m w) (e : m.isSome → w = w') : Runs x m w' :=
  ⟨h.1, fun hs => (h.2 hs).trans (e hs)⟩

theorem runs_pure (a : α) : Runs (pure a : Costed α) (some a) ⟨0, 0, 0⟩ := ⟨rfl, fun _ => rfl⟩

theorem runs_panic (w : Work) : Runs (panic : Costed α) none w := ⟨rfl, fun h => by cases h⟩

theorem runs_free (o : Option α) : Runs (free o) o ⟨0, 0, 0⟩ := ⟨rfl, fun _ => rfl⟩

theorem runs_ext (fft : Fft n) (C : RGSW n) (out d : RLWE n) :
    Runs (extProduct fft C out d) (some (externalProduct fft C out d)) ⟨1, 0, 0⟩ := ⟨rfl, fun _ => rfl⟩

theorem Runs.bind {x : Costed α} {m : Option α} {w w' : Work} {f : α → Costed β} {g : α → Option β} (hx : Runs x m w)
    (hf : ∀ a, m = some a → Runs (f a) (g a) w') : Runs (x >>= f) (m.bind g) (w + w') := by
  obtain ⟨v, u⟩ := x
  obtain ⟨h1, h2⟩ := hx
  simp only at h1 h2
  subst h1
  cases v with
  | none => exact ⟨rfl, fun h => by cases h⟩
  | some a =>
    obtain ⟨h3, h4⟩ := hf a rfl
    refine ⟨h3, fun hs => ?_⟩
    show u + (f a).work = w + w'
    rw [h2 rfl, h4 hs]

theorem runs_mapC {f : α → Costed β} {g : α → Option β} {w : Work} : ∀ (l : List α), (∀ a ∈ l, Runs (f a) (g a) w) →
    Runs (mapC f l) (mapOption g l) (Work.times l.length w)
  | [], _ => (runs_pure []).eq fun _ => by simp [Work.times]
  | a :: l, h => by
    have e : mapOption g (a :: l) = (g a).bind fun b => (mapOption g l).bind fun bs => some (b :: bs) := by
      rw [mapOption]
      cases g a <;> cases mapOption g l <;> rfl
    rw [e]
    refine ((h a List.mem_cons_self).bind fun b _ => (runs_mapC l fun a ha => h a (List.mem_cons_of_mem _ ha)).bind fun bs _ =>
      runs_pure _).eq fun _ => ?_
    simp [Work.times, add_def, Nat.succ_mul]; omega

theorem Runs.of {x : Costed α} {m m' : Option α} {w w' : Work} (h : Runs x m w) (e : m' = m) (ew : m.isSome → w = w') :
    Runs x m' w' := e ▸ h.eq ew

theorem bindSome {o : Option α} {g g' : α → Option β} (h : ∀ a, o = some a → g a = g' a) : o.bind g = o.bind g' := by
  cases o with
  | none => rfl
  | some a => exact h a rfl

/-! ## Trees of products -/

theorem runs_demuxRec (fft : Fft n) : ∀ (cs : List (RGSW n)) (b : RLWE n),
    Runs (demuxRec fft cs b) (Panacea.demuxRec fft cs b) ⟨2 ^ cs.length - 1, 0, 0⟩
  | [], b => runs_panic _
  | [c], b => by
    unfold demuxRec
    exact ((runs_ext fft c 0 b).bind (g := fun left => some [left, b - left]) fun left _ => runs_pure _).of rfl fun _ => rfl
  | c :: r :: rs, b => by
    rw [demuxRec]
    refine ((runs_ext fft c 0 b).bind fun left _ =>
        (runs_demuxRec fft (r :: rs) left).bind fun lo _ => (runs_demuxRec fft (r :: rs) (b - left)).bind fun ro _ => runs_pure _).of ?_ fun _ => ?_
    · rw [Panacea.demuxRec]
      show _ = (Panacea.demuxRec fft (r :: rs) (externalProduct fft c 0 b)).bind _
      cases Panacea.demuxRec fft (r :: rs) (externalProduct fft c 0 b) <;>
        cases Panacea.demuxRec fft (r :: rs) (b - externalProduct fft c 0 b) <;> rfl
    · have : 0 < 2 ^ (r :: rs).length := Nat.two_pow_pos _
      have e : (c :: r :: rs).length = (r :: rs).length + 1 := rfl
      rw [e, Nat.pow_succ]
      refine Work.ext' ?_ rfl rfl
      show 1 + ((2 ^ (r :: rs).length - 1) + ((2 ^ (r :: rs).length - 1) + 0)) = 2 ^ (r :: rs).length * 2 - 1
      omega

theorem runs_decomposed (fft : Fft n) (ctx : Ctx) (cs : List (RLWE n)) (negS : RGSW n) :
    Runs (decomposedRlweToRgsw fft ctx cs negS) (Panacea.decomposedRlweToRgsw fft ctx cs negS) ⟨ctx.levelCount, 0, 0⟩ := by
  unfold decomposedRlweToRgsw
  have hm : ∀ l : List (RLWE n), mapOption (fun c => some (externalProduct fft negS 0 c, c)) l
      = some (l.map fun c => (externalProduct fft negS 0 c, c)) := by
    intro l
    induction l with
    | nil => rfl
    | cons a l ih => rw [mapOption, ih]; rfl
  by_cases h : ctx.levelCount ≤ cs.length
  · rw [if_pos h]
    refine ((runs_mapC (g := fun c => some (externalProduct fft negS 0 c, c)) (w := ⟨1, 0, 0⟩) _ fun c _ => ?_).bind fun rows _ =>
      runs_pure _).of ?_ fun _ => ?_
    · exact ((runs_ext fft negS 0 c).bind fun r _ => runs_pure _).of rfl fun _ => rfl
    · rw [hm, Panacea.decomposedRlweToRgsw, if_pos h]; rfl
    · refine Work.ext' ?_ ?_ ?_ <;> simp [add_def, Work.times, h]
  · rw [if_neg h]
    exact (runs_panic _).of (by rw [Panacea.decomposedRlweToRgsw, if_neg h]) fun _ => rfl

/-! ## Traces and expansion -/

theorem runs_trace1Loop (fft : Fft n) (ksks : KskMap n) : ∀ (is : List Nat) (buf out : RLWE n),
    Runs (trace1Loop fft ksks is buf out) (Panacea.trace1Loop fft ksks is buf out) ⟨0, is.length, 0⟩
  | [], buf, out => runs_pure _
  | i :: is, buf, out => by
    rw [trace1Loop, Panacea.trace1Loop]
    have key := (runs_free (ksks (traceExp n i))).bind (f := fun ksk => if ksk.subsK = traceExp n i then do
        let buf' ← subsKey fft ksk buf out
        trace1Loop fft ksks is buf' (out + buf')
      else panic) (g := fun ksk => if ksk.subsK = traceExp n i then
        (ksk.subs fft buf out).bind fun buf' => Panacea.trace1Loop fft ksks is buf' (out + buf') else none)
      (w' := ⟨0, 1 + is.length, 0⟩) (fun ksk _ => by
        by_cases h : ksk.subsK = traceExp n i
        · rw [if_pos h, if_pos h]
          refine Runs.of (Runs.bind (m := ksk.subs fft buf out) (w := ⟨0, 1, 0⟩) ⟨rfl, fun _ => rfl⟩ fun buf' _ =>
            runs_trace1Loop fft ksks is buf' (out + buf')) rfl fun _ => ?_
          simp [add_def]
        · rw [if_neg h, if_neg h]; exact runs_panic _)
    refine key.of ?_ fun _ => ?_
    · cases ksks (traceExp n i) with
      | none => rfl
      | some ksk =>
        show (if _ then _ else _) = (if _ then _ else _)
        by_cases h : ksk.subsK = traceExp n i
        · rw [if_pos h, if_pos h]; cases ksk.subs fft buf out <;> rfl
        · rw [if_neg h, if_neg h]
    · simp [add_def]; omega

theorem runs_trace1FourierLoop (fft : Fft n) (ksks : KskMap n) : ∀ (is : List Nat) (buf : FRLWE n) (out : RLWE n),
    Runs (trace1FourierLoop fft ksks is buf out) (Panacea.trace1FourierLoop fft ksks is buf out) ⟨0, is.length, 0⟩
  | [], buf, out => runs_pure _
  | i :: is, buf, out => by
    rw [trace1FourierLoop, Panacea.trace1FourierLoop]
    have key := (runs_free (ksks (traceExp n i))).bind (f := fun ksk => if ksk.subsK = traceExp n i then do
        let buf' ← fourierSubsKey ksk buf out
        trace1FourierLoop fft ksks is buf' ⟨out.mask + fft.backward buf'.mask, out.body + fft.backward buf'.body⟩
      else panic) (g := fun ksk => if ksk.subsK = traceExp n i then
        (ksk.fourierSubs buf out).bind fun buf' => Panacea.trace1FourierLoop fft ksks is buf'
          ⟨out.mask + fft.backward buf'.mask, out.body + fft.backward buf'.body⟩ else none)
      (w' := ⟨0, 1 + is.length, 0⟩) (fun ksk _ => by
        by_cases h : ksk.subsK = traceExp n i
        · rw [if_pos h, if_pos h]
          refine Runs.of (Runs.bind (m := ksk.fourierSubs buf out) (w := ⟨0, 1, 0⟩) ⟨rfl, fun _ => rfl⟩ fun buf' _ =>
            runs_trace1FourierLoop fft ksks is buf' _) rfl fun _ => ?_
          simp [add_def]
        · rw [if_neg h, if_neg h]; exact runs_panic _)
    refine key.of ?_ fun _ => ?_
    · cases ksks (traceExp n i) with
      | none => rfl
      | some ksk =>
        show (if _ then _ else _) = (if _ then _ else _)
        by_cases h : ksk.subsK = traceExp n i
        · rw [if_pos h, if_pos h]; cases ksk.fourierSubs buf out <;> rfl
        · rw [if_neg h, if_neg h]
    · simp [add_def]; omega

theorem runs_trace1 (fft : Fft n) (ksks : KskMap n) {ln : Nat} (hn : n = 2 ^ ln) (hl : ln < 64) (c : RLWE n) :
    Runs (trace1 fft ksks c) (Panacea.trace1 fft ksks c) ⟨0, ln, 0⟩ := by
  have e : log2 n = some ln := by rw [hn]; exact log2_pow hl
  refine ((runs_free (log2 n)).bind (w' := ⟨0, ln, 0⟩) fun l h => (runs_trace1Loop fft ksks (List.range' 1 l) 0 c).eq fun _ => ?_).of ?_ fun _ => ?_
  · rw [e] at h; cases h; simp
  · rw [Panacea.trace1, e]; rfl
  · simp [add_def]

theorem runs_trace1Fourier (fft : Fft n) (ksks : KskMap n) {ln : Nat} (hn : n = 2 ^ ln) (hl : ln < 64) (c : RLWE n) :
    Runs (trace1Fourier fft ksks c) (Panacea.trace1Fourier fft ksks c) ⟨0, ln, 0⟩ := by
  have e : log2 n = some ln := by rw [hn]; exact log2_pow hl
  refine ((runs_free (log2 n)).bind (w' := ⟨0, ln, 0⟩) fun l h =>
    (runs_trace1FourierLoop fft ksks (List.range' 1 l) ⟨[], []⟩ c).eq fun _ => ?_).of ?_ fun _ => ?_
  · rw [e] at h; cases h; simp
  · rw [Panacea.trace1Fourier, e]; rfl
  · simp [add_def]

/-- C80 (`expand`): `log2 n` substitutions for every ciphertext given, and one external product per level. -/
theorem C80_expand (fft : Fft n) (ctx : Ctx) (cs : List (RLWE n)) (ksks : KskMap n) (negS : RGSW n) {ln : Nat} (hn : n = 2 ^ ln)
    (hl : ln < 64) :
    Runs (expand fft ctx cs ksks negS) (Panacea.expand fft ctx cs ksks negS) ⟨ctx.levelCount, cs.length * ln, 0⟩ := by
  unfold expand Panacea.expand
  by_cases h : cs = []
  · rw [if_pos h, if_pos h]; exact runs_panic _
  · rw [if_neg h, if_neg h]
    refine ((runs_mapC cs fun c _ => runs_trace1 fft ksks hn hl c).bind fun csp _ => runs_decomposed fft ctx csp negS).of ?_ fun _ => ?_
    · cases mapOption (Panacea.trace1 fft ksks) cs <;> rfl
    · simp [add_def, Work.times]

/-- C80 (`expand_fourier`): `log2 n` substitutions and one external product per level. -/
theorem C80_expand_fourier (fft : Fft n) (ctx : Ctx) (cs : List (RLWE n)) (ksks : KskMap n) (negS : RGSW n) {ln : Nat} (hn : n = 2 ^ ln)
    (hl : ln < 64) : Runs (expandFourier fft ctx cs ksks negS) (Panacea.expandFourier fft ctx cs ksks negS)
      ⟨ctx.levelCount, ctx.levelCount * ln, 0⟩ := by
  unfold expandFourier Panacea.expandFourier
  by_cases h : cs = []
  · rw [if_pos h, if_pos h]; exact runs_panic _
  · rw [if_neg h, if_neg h]
    by_cases h2 : ctx.levelCount ≤ cs.length
    · rw [if_pos h2, if_pos h2]
      refine ((runs_mapC (g := Panacea.expandFourierRow fft ksks negS) (w := ⟨1, ln, 0⟩) _ fun c _ => ?_).bind fun rows _ =>
        runs_pure _).of ?_ fun _ => ?_
      · refine ((runs_trace1Fourier fft ksks hn hl c).bind fun cp _ => (runs_ext fft negS 0 cp).bind fun r _ => runs_pure _).of ?_ fun _ => ?_
        · rw [Panacea.expandFourierRow]; cases Panacea.trace1Fourier fft ksks c <;> rfl
        · simp [add_def]
      · cases mapOption (Panacea.expandFourierRow fft ksks negS) (cs.take ctx.levelCount) <;> rfl
      · refine Work.ext' ?_ ?_ ?_ <;> simp [add_def, Work.times, h2]
    · rw [if_neg h2, if_neg h2]; exact runs_panic _

/-! ## Decision trees -/

theorem runs_lessEqThan (fft : Fft n) (c : RLWE n) (d : Nat) :
    Runs (lessEqThan fft c d) (c.lessEqThan fft d) ⟨0, 0, 2⟩ := by
  unfold lessEqThan RLWE.lessEqThan
  by_cases h : d < n
  · rw [if_pos h, if_pos h]; exact ⟨rfl, fun _ => rfl⟩
  · rw [if_neg h, if_neg h]; exact runs_panic _

theorem runs_compareCt (fft : Fft n) (d : NodeData) (c : RLWE n) :
    Runs (compareCt fft d c) (Panacea.compareCt fft d c) ⟨0, 0, 2⟩ := by
  unfold compareCt Panacea.compareCt
  cases d.op
  · exact runs_lessEqThan _ _ _
  · exact runs_panic _

theorem runs_compareExpandOne (fft : Fft n) (ctx : Ctx) (clientCts : List (List (RLWE n))) (ksks : KskMap n) (negS : RGSW n)
    {ln lv : Nat} (hn : n = 2 ^ ln) (hl : ln < 64) (hc : ∀ cts ∈ clientCts, cts.length = lv) (d : NodeData) :
    Runs (compareExpandOne fft ctx clientCts ksks negS d) (Panacea.compareExpandOne fft ctx clientCts ksks negS d)
      ⟨ctx.levelCount, ctx.levelCount * ln, 2 * lv⟩ := by
  refine ((runs_free clientCts[d.feature]?).bind (w' := ⟨ctx.levelCount, ctx.levelCount * ln, 2 * lv⟩) fun cts h =>
    ((runs_mapC cts fun c _ => runs_compareCt fft d c).bind fun cts' _ =>
      C80_expand_fourier fft ctx cts' ksks negS hn hl).eq fun _ => ?_).of ?_ fun _ => ?_
  · rw [hc cts (List.mem_of_getElem? h)]; simp [add_def, Work.times]; omega
  · unfold Panacea.compareExpandOne
    cases clientCts[d.feature]? with
    | none => rfl
    | some cts =>
      simp only [Option.bind_some]
      cases mapOption (Panacea.compareCt fft d) cts <;> rfl
  · simp [add_def]

theorem flatten_len : ∀ t : Tree, t.flatten.length = t.countInternal
  | .missing => rfl
  | .leaf _ => rfl
  | .internal d l r => by
    rw [Tree.flatten, Tree.countInternal, List.length_cons, List.length_append, flatten_len l, flatten_len r]; omega

/-- Number of inner nodes of an encrypted tree. -/
def inner {C : Type} : EncTree C → Nat
  | .leaf _ => 0
  | .internal _ l r => 1 + inner l + inner r

theorem runs_evalEncNode (fft : Fft n) : ∀ (t : EncTree (RGSW n)) (out : List (RLWE n)) (b : RLWE n),
    Runs (evalEncNode fft t out b) (some (Panacea.evalEncNode fft t out b)) ⟨inner t, 0, 0⟩
  | .leaf x, out, b => runs_pure _
  | .internal ct l r, out, b => by
    rw [evalEncNode]
    refine ((runs_ext fft ct 0 b).bind fun left _ => (runs_evalEncNode fft l out left).bind fun o _ =>
      runs_evalEncNode fft r o (b - left)).of rfl fun _ => ?_
    simp [add_def, inner]; omega

theorem inner_build {C : Type} : ∀ (t : Tree) (cts : List C) (x : EncTree C × List C), EncTree.build t cts = some x →
    inner x.1 = t.countInternal
  | .missing, cts, x, h => by cases h; rfl
  | .leaf _, cts, x, h => by cases h; rfl
  | .internal d l r, cts, x, h => by
    cases cts with
    | nil => rw [EncTree.build] at h; cases h
    | cons ct cts =>
      rw [EncTree.build] at h
      cases hl : EncTree.build l cts with
      | none => rw [hl] at h; cases h
      | some y =>
        rw [hl] at h; simp only at h
        cases hr : EncTree.build r y.2 with
        | none => rw [hr] at h; cases h
        | some z =>
          rw [hr] at h; cases h
          rw [inner, inner_build l _ _ hl, inner_build r _ _ hr]; rfl

/-- C80 (decision tree): for a tree with `m` inner nodes, `m*(lv+1)` external products, `m*lv*log2 n` substitutions and `2*m*lv`
polynomial products, whatever the features, the labels and the thresholds. -/
theorem C80_decision_tree (fft : Fft n) (ctx : Ctx) (ceilLog2 : Nat → Nat) (model : Tree) (ksks : KskMap n) (negS : RGSW n)
    (cts : List (List (RLWE n))) {ln : Nat} (hn : n = 2 ^ ln) (hl : ln < 64) (hc : ∀ c ∈ cts, c.length = ctx.levelCount) :
    Runs (simulateServer fft ctx ceilLog2 model ksks negS cts) (Panacea.simulateServer fft ctx ceilLog2 model ksks negS cts)
      ⟨model.countInternal * (ctx.levelCount + 1), model.countInternal * (ctx.levelCount * ln), model.countInternal * (2 * ctx.levelCount)⟩ := by
  have hf : model.flatten.length = model.countInternal := (flatten_len model)
  refine ((runs_mapC _ fun d _ => runs_compareExpandOne fft ctx cts ksks negS hn hl hc d).bind
    (w' := ⟨model.countInternal, 0, 0⟩) fun rgsws _ => ((runs_free (EncTree.new model rgsws)).bind (w' := ⟨model.countInternal, 0, 0⟩)
      fun root hroot => ((runs_free (trivialOne ctx)).bind fun c _ => runs_evalEncNode fft root.1 _ c).eq fun _ => ?_).eq fun _ => ?_).of ?_ fun _ => ?_
  · have : inner root.1 = model.countInternal := by
      unfold EncTree.new at hroot
      split at hroot
      · cases hroot
      · split at hroot
        · exact inner_build _ _ _ hroot
        · cases hroot
    simp [add_def, this]
  · simp [add_def]
  · unfold Panacea.simulateServer compareExpand
    cases mapOption (Panacea.compareExpandOne fft ctx cts ksks negS) model.flatten with
    | none => rfl
    | some rgsws =>
      simp only [Option.bind_some]
      cases EncTree.new model rgsws with
      | none => rfl
      | some root =>
        simp only [Option.bind_some]
        unfold Panacea.encEval
        cases trivialOne (n := n) ctx <;> rfl
  · rw [hf]
    refine Work.ext' ?_ ?_ ?_ <;> simp [add_def, Work.times, Nat.mul_add]

/-- C80 (`simulate`): in every run of `simulate` that returns, the server's work for each feature vector is the same, as in
`C80_decision_tree`: features, labels and thresholds do not matter. -/
theorem C80_simulate {fft : Fft n} {ctx : Ctx} {ceilLog2 : Nat → Nat} {s : Poly n} {model : Tree} {features : List (List Nat)} {g : Gen n}
    {ys : List Nat} {ln : Nat} (hn : n = 2 ^ ln) (hl : ln < 64) (h : simulate fft ctx ceilLog2 s model features g = some ys) :
    ∃ negS g1 ksks g2 clientCts g3, negGsw ctx s g = some (negS, g1) ∧ genAllSubsKsk ctx s g1 = some (ksks, g2) ∧
      mapGenM (encryptFeatureVector ctx s) features g2 = some (clientCts, g3) ∧ clientCts.length = features.length ∧
      ∀ cts ∈ clientCts, ∃ out, simulateServer fft ctx ceilLog2 model ksks negS cts =
        ⟨some out, ⟨model.countInternal * (ctx.levelCount + 1), model.countInternal * (ctx.levelCount * ln),
          model.countInternal * (2 * ctx.levelCount)⟩⟩ := by
  unfold simulate at h
  split at h
  · cases h
  rename_i negS g1 hneg
  split at h
  · cases h
  rename_i ksks g2 hk
  split at h
  · cases h
  rename_i clientCts g3 hcts
  split at h
  · cases h
  rename_i outputs hout
  obtain ⟨l1, l2⟩ := mapGenM_forall (Q := fun cts : List (List (RLWE n)) => ∀ c ∈ cts, c.length = ctx.levelCount) (fun f g r hr => by
    unfold encryptFeatureVector at hr
    split at hr
    · cases hr
    · exact (mapGenM_forall (Q := fun c : List (RLWE n) => c.length = ctx.levelCount) (fun v g r hr => by
        have := (mapGenM_forall (Q := fun _ => True) (fun _ _ _ _ => trivial) hr).1
        rwa [List.length_range'] at this) hr).2) hcts
  refine ⟨negS, g1, ksks, g2, clientCts, g3, hneg, hk, hcts, l1, fun cts hc => ?_⟩
  have hr := C80_decision_tree fft ctx ceilLog2 model ksks negS cts hn hl (l2 cts hc)
  obtain ⟨i, hi⟩ := List.mem_iff_getElem?.mp hc
  have hlt : i < outputs.length := by
    rw [mapOption_length hout]; exact (List.getElem?_eq_some_iff.mp hi).1
  obtain ⟨a, ha, hb⟩ := mapOption_getElem? hout i _ (List.getElem?_eq_getElem hlt)
  rw [hi] at ha; cases ha
  rw [hb] at hr
  exact ⟨_, Costed.ext' hr.1 (hr.2 rfl)⟩

/-! ## ORAM -/

theorem runs_demuxLevel (fft : Fft n) (ctx : Ctx) (a : List (RGSW n)) (level : Nat) :
    Runs (demuxLevel fft ctx a level) (Panacea.demuxLevel fft ctx a level) ⟨2 ^ a.length - 1, 0, 0⟩ := by
  unfold demuxLevel Panacea.demuxLevel
  by_cases h : ctx.baseLog * level = 0 ∨ 64 < ctx.baseLog * level
  · rw [if_pos h, if_pos h]; exact runs_panic _
  · rw [if_neg h, if_neg h]
    refine ((runs_demuxRec fft a _).bind (g := fun tmp => if tmp.length = 2 ^ a.length then some tmp else none) (w' := ⟨0, 0, 0⟩)
      fun tmp _ => ?_).of ?_ fun _ => rfl
    · by_cases ht : tmp.length = 2 ^ a.length
      · rw [if_pos ht, if_pos ht]; exact runs_pure _
      · rw [if_neg ht, if_neg ht]; exact runs_panic _
    · unfold demuxWith
      cases Panacea.demuxRec fft a ⟨0, Poly.set 0 0 (gadget ctx.baseLog level)⟩ <;> rfl

/-- If the selectors are computed there are levels, and there is one column for every leaf. -/
theorem selectors_cols {fft : Fft n} {ctx : Ctx} {q : ClientQuery n} {cols : Nat} {L : List (List (RLWE n))}
    (h : Panacea.decomposedSelectors fft ctx q cols = some L) : cols = 2 ^ q.a.length ∧ L.length = cols := by
  have hl := selectors_length h
  refine ⟨?_, hl⟩
  unfold Panacea.decomposedSelectors at h
  cases hm : mapOption (Panacea.demuxLevel fft ctx q.a) (List.range' 1 ctx.levelCount) with
  | none => rw [hm] at h; cases h
  | some v =>
    rw [hm] at h; simp only at h
    cases ht : transpose v with
    | none => rw [ht] at h; cases h
    | some w =>
      rw [ht] at h; simp only at h
      split at h
      · rename_i hw
        cases v with
        | nil => cases ht
        | cons r v =>
          have e := (C06_transpose_entries _ _ ht).1
          obtain ⟨lev, _, hd⟩ := mapOption_mem hm r List.mem_cons_self
          unfold Panacea.demuxLevel at hd
          split at hd
          · cases hd
          · split at hd
            · cases hd
            · split at hd
              · rename_i hr
                cases hd
                rw [← hw, e]; exact hr
              · cases hd
      · cases h

theorem runs_selectors (fft : Fft n) (ctx : Ctx) (q : ClientQuery n) (cols : Nat) :
    Runs (decomposedSelectors fft ctx q cols) (Panacea.decomposedSelectors fft ctx q cols) ⟨ctx.levelCount * (cols - 1), 0, 0⟩ := by
  have e : Panacea.decomposedSelectors fft ctx q cols
      = (mapOption (Panacea.demuxLevel fft ctx q.a) (List.range' 1 ctx.levelCount)).bind fun v => (transpose v).bind fun w =>
        if w.length = cols then some w else none := by
    unfold Panacea.decomposedSelectors
    cases mapOption (Panacea.demuxLevel fft ctx q.a) (List.range' 1 ctx.levelCount) with
    | none => rfl
    | some v =>
      simp only [Option.bind_some]
      cases transpose v <;> rfl
  refine ((runs_mapC _ fun l _ => runs_demuxLevel fft ctx q.a l).bind fun v _ => (runs_free (transpose v)).bind
    (g := fun w => if w.length = cols then some w else none) (w' := ⟨0, 0, 0⟩) fun w _ => ?_).of e fun hs => ?_
  · by_cases ht : w.length = cols
    · rw [if_pos ht, if_pos ht]; exact runs_pure _
    · rw [if_neg ht, if_neg ht]; exact runs_panic _
  · rw [← e] at hs
    obtain ⟨L, hL⟩ := Option.isSome_iff_exists.mp hs
    rw [(selectors_cols hL).1]
    simp [add_def, Work.times]

theorem runs_partialResponse (fft : Fft n) (ctx : Ctx) (negS : RGSW n) (x : List (RLWE n) × RLWE n) :
    Runs (partialResponse fft ctx negS x) (Panacea.partialResponse fft ctx negS x) ⟨ctx.levelCount + 1, 0, 0⟩ := by
  refine ((runs_decomposed fft ctx x.1 negS).bind fun l _ => (runs_ext fft l 0 x.2).bind fun y _ => runs_pure _).of ?_ fun _ => rfl
  unfold Panacea.partialResponse
  cases Panacea.decomposedRlweToRgsw fft ctx x.1 negS <;> rfl

theorem runs_responseLoop (fft : Fft n) (ctx : Ctx) (negS : RGSW n) : ∀ (xs : List (List (RLWE n) × RLWE n)) (y : RLWE n)
    (ls : List (RGSW n)), Runs (responseLoop fft ctx negS xs y ls) (Panacea.responseLoop fft ctx negS xs y ls)
      ⟨xs.length * (ctx.levelCount + 1), 0, 0⟩
  | [], y, ls => (runs_pure _).of rfl fun _ => by simp
  | x :: xs, y, ls => by
    rw [responseLoop]
    refine ((runs_decomposed fft ctx x.1 negS).bind fun l _ => (runs_ext fft l y x.2).bind fun y' _ =>
      runs_responseLoop fft ctx negS xs y' (ls ++ [l])).of ?_ fun _ => ?_
    · rw [Panacea.responseLoop]
      cases Panacea.decomposedRlweToRgsw fft ctx x.1 negS <;> rfl
    · refine Work.ext' ?_ rfl rfl
      show ctx.levelCount + (1 + xs.length * (ctx.levelCount + 1)) = (xs.length + 1) * (ctx.levelCount + 1)
      rw [Nat.succ_mul]; omega

theorem runs_processOneMt (reduce : List (RLWE n) → RLWE n) (fft : Fft n) (ctx : Ctx) (q : ClientQuery n) (data : List (RLWE n))
    (negS : RGSW n) : Runs (processOneMt reduce fft ctx q data negS) (Panacea.processOneMt reduce fft ctx q data negS)
      ⟨selectWork ctx.levelCount data.length, 0, 0⟩ := by
  refine ((runs_selectors fft ctx q data.length).bind (w' := ⟨data.length * (ctx.levelCount + 1), 0, 0⟩) fun L hL =>
    ((runs_mapC _ fun x _ => runs_partialResponse fft ctx negS x).bind fun rs _ => runs_pure _).eq fun _ => ?_).of ?_ fun _ => ?_
  · simp [add_def, Work.times, (selectors_cols hL).2]
  · unfold Panacea.processOneMt
    cases Panacea.decomposedSelectors fft ctx q data.length with
    | none => rfl
    | some L =>
      simp only [Option.bind_some]
      cases mapOption (Panacea.partialResponse fft ctx negS) (L.zip data) <;> rfl
  · have e : data.length * (ctx.levelCount + 1) = ctx.levelCount * data.length + data.length := by ring
    refine Work.ext' ?_ rfl rfl
    simp only [add_def, selectWork, e]; omega

theorem runs_processOneSt (fft : Fft n) (ctx : Ctx) (q : ClientQuery n) (data : List (RLWE n)) (negS : RGSW n) :
    Runs (processOneSt fft ctx q data negS) (Panacea.processOneSt fft ctx q data negS) ⟨selectWork ctx.levelCount data.length, 0, 0⟩ := by
  refine ((runs_selectors fft ctx q data.length).bind (w' := ⟨data.length * (ctx.levelCount + 1), 0, 0⟩) fun L hL =>
    (runs_responseLoop fft ctx negS (L.zip data) 0 []).eq fun _ => ?_).of ?_ fun _ => ?_
  · simp [(selectors_cols hL).2]
  · unfold Panacea.processOneSt
    cases Panacea.decomposedSelectors fft ctx q data.length <;> rfl
  · have e : data.length * (ctx.levelCount + 1) = ctx.levelCount * data.length + data.length := by ring
    refine Work.ext' ?_ rfl rfl
    simp only [add_def, selectWork, e]; omega

theorem mapOption_pure {f : α → β} : ∀ l : List α, mapOption (fun a => some (f a)) l = some (l.map f)
  | [] => rfl
  | a :: l => by rw [mapOption, mapOption_pure l]; rfl

theorem runs_updateDb (fft : Fft n) (q : ClientQuery n) (data : List (RLWE n)) (ls : List (RGSW n)) (h : ls.length = data.length) :
    Runs (updateDb fft q data ls) (some (Panacea.updateDb fft q data ls)) ⟨2 * data.length, 0, 0⟩ := by
  refine (runs_mapC (g := fun x => some (Panacea.updateCell fft q x.2 x.1 x.1)) (w := ⟨2, 0, 0⟩) (data.zip ls) fun x _ => ?_).of ?_ fun _ => ?_
  · exact ((runs_ext fft q.op x.1 (q.data - x.1)).bind fun tmp _ => runs_ext fft x.2 x.1 (tmp - x.1)).of rfl fun _ => rfl
  · rw [mapOption_pure, Panacea.updateDb, List.map_zip_eq_zipWith]; rfl
  · simp [Work.times, h, Nat.mul_comm]

/-- C80 (`process_one`): `lv*(2*cols - 1) + 3*cols` external products for a row of `cols` columns, for every access, key and database. -/
theorem C80_process_one (reduce : List (RLWE n) → RLWE n) (fft : Fft n) (S : Server n) (q : ClientQuery n) :
    Runs (processOne reduce fft S q) (S.processOne reduce fft q) ⟨rowWork S.ctx.levelCount (S.data.headD []).length, 0, 0⟩ := by
  unfold processOne Server.processOne
  cases S.data with
  | nil => exact runs_panic _
  | cons row rest =>
    refine ((runs_processOneMt reduce fft S.ctx q row S.negS).bind (w' := ⟨2 * row.length, 0, 0⟩) fun r hr =>
      ((runs_updateDb fft q row r.2 ?_).bind fun row' _ => runs_pure _).eq fun _ => rfl).of ?_ fun _ => rfl
    · unfold Panacea.processOneMt at hr
      cases hL : Panacea.decomposedSelectors fft S.ctx q row.length with
      | none => rw [hL] at hr; cases hr
      | some L =>
        rw [hL] at hr; simp only at hr
        cases hm : mapOption (Panacea.partialResponse fft S.ctx S.negS) (L.zip row) with
        | none => rw [hm] at hr; cases hr
        | some rs =>
          rw [hm] at hr; cases hr
          simp [mapOption_length hm, (selectors_cols hL).2]
    · simp only
      cases Panacea.processOneMt reduce fft S.ctx q row S.negS <;> rfl

theorem runs_multiTmps (fft : Fft n) (data : List (RLWE n)) (q : ClientQuery n) (ls : List (RGSW n)) (h : ls.length = data.length) :
    Runs (multiTmps fft data q ls) (some (Panacea.multiTmps fft data q ls)) ⟨2 * data.length, 0, 0⟩ := by
  refine (runs_mapC (g := fun x => some (externalProduct fft x.1 0 (rw fft q.op q.data x.2))) (w := ⟨2, 0, 0⟩) (ls.zip data) fun x _ => ?_).of ?_
    fun _ => ?_
  · exact ((runs_ext fft q.op x.2 (q.data - x.2)).bind fun tmp _ => runs_ext fft x.1 0 tmp).of rfl fun _ => rfl
  · rw [mapOption_pure, Panacea.multiTmps, List.map_zip_eq_zipWith]; rfl
  · simp [Work.times, h, Nat.mul_comm]

/-- C80 (`process_multi`): for `k` queries on a row of `cols` columns, `k` times the work of one access and `cols` external products to
write the row. -/
theorem C80_process_multi {reduceV : List (List (RLWE n)) → List (RLWE n)} {reduceG : List (List (RGSW n)) → List (RGSW n)} (fft : Fft n)
    (S : Server n) (qs : List (ClientQuery n)) {cols : Nat} (hcols : (S.data.headD []).length = cols)
    (hV : IsReduction addVec (List.replicate cols 0) reduceV)
    (hG : IsReduction addGswVec (List.replicate cols (RGSW.allocate n S.ctx.baseLog S.ctx.levelCount)) reduceG) :
    Runs (processMulti reduceV reduceG fft S qs) (S.processMulti reduceV reduceG fft qs)
      ⟨qs.length * rowWork S.ctx.levelCount cols + cols, 0, 0⟩ := by
  unfold processMulti Server.processMulti
  cases hS : S.data with
  | nil => exact runs_panic _
  | cons row rest =>
    have hc : row.length = cols := by rw [hS] at hcols; exact hcols
    subst hc
    refine ((runs_mapC qs fun q _ => runs_processOneSt fft S.ctx q row S.negS).bind
      (w' := ⟨qs.length * (2 * row.length) + row.length, 0, 0⟩) fun rs hrs => ?_).of (m := (mapOption
        (fun q => Panacea.processOneSt fft S.ctx q row S.negS) qs).bind fun rs => some (rs.map Prod.fst,
        (⟨List.zipWith (fun cell (x : RGSW n × RLWE n) => Panacea.cmux fft x.1 0 cell x.2) row ((reduceG (rs.map Prod.snd)).zip
          (reduceV (List.zipWith (Panacea.multiTmps fft row) qs (rs.map Prod.snd)))) :: rest, S.negS, S.ctx⟩ : Server n))) ?_ fun _ => ?_
    · have s1 : ∀ x ∈ rs.map Prod.snd, SelShape row.length S.ctx.baseLog S.ctx.levelCount x := by
        intro x hx
        obtain ⟨⟨y, ls⟩, hr, rfl⟩ := List.mem_map.mp hx
        obtain ⟨q, _, hq⟩ := mapOption_mem hrs _ hr
        exact processOneSt_selShape fft hq
      have s2 : rs.length = qs.length := mapOption_length hrs
      have s3 : ∀ x ∈ List.zipWith (Panacea.multiTmps fft row) qs (rs.map Prod.snd), x.length = row.length := by
        intro x hx
        obtain ⟨i, hi, rfl⟩ := List.getElem_of_mem hx
        rw [List.length_zipWith] at hi
        rw [List.getElem_zipWith, Panacea.multiTmps, List.length_zipWith]
        have := (s1 _ (List.getElem_mem (l := rs.map Prod.snd) (n := i) (by omega))).1
        omega
      have e3 := (parReduce_vec (hV _) s3).1
      have e4 := (parReduce_gsw (hG _) s1).1.1
      have em : mapOption (fun x : ClientQuery n × List (RGSW n) => some (Panacea.multiTmps fft row x.1 x.2)) (qs.zip (rs.map Prod.snd))
          = some (List.zipWith (Panacea.multiTmps fft row) qs (rs.map Prod.snd)) := by
        rw [mapOption_pure, List.map_zip_eq_zipWith]; rfl
      refine Runs.of ((runs_mapC (g := fun x : ClientQuery n × List (RGSW n) => some (Panacea.multiTmps fft row x.1 x.2))
        (w := ⟨2 * row.length, 0, 0⟩) (qs.zip (rs.map Prod.snd)) fun x hx => ?_).bind (w' := ⟨row.length, 0, 0⟩)
        (g := fun tmps => some (rs.map Prod.fst,
        (⟨List.zipWith (fun cell (x : RGSW n × RLWE n) => Panacea.cmux fft x.1 0 cell x.2) row ((reduceG (rs.map Prod.snd)).zip
          (reduceV tmps)) :: rest, S.negS, S.ctx⟩ : Server n))) fun tmps htm => ?_) ?_ fun _ => ?_
      · exact runs_multiTmps fft row x.1 x.2 (s1 _ (List.of_mem_zip hx).2).1
      · rw [em] at htm
        cases htm
        refine ((runs_mapC (g := fun x : RLWE n × RGSW n × RLWE n => some (Panacea.cmux fft x.2.1 0 x.1 x.2.2)) (w := ⟨1, 0, 0⟩) _
          fun x _ => ⟨rfl, fun _ => rfl⟩).bind fun row' _ => runs_pure _).of ?_ fun _ => ?_
        · rw [mapOption_pure, List.map_zip_eq_zipWith]; rfl
        · simp [add_def, Work.times, e3, e4]
      · rw [em]; rfl
      · simp [add_def, Work.times, s2]
    · simp only
      cases mapOption (fun q => Panacea.processOneSt fft S.ctx q row S.negS) qs <;> rfl
    · refine Work.ext' ?_ ?_ ?_ <;> simp [add_def, Work.times, rowWork, Nat.mul_add]
      omega

theorem runs_flagProduct (fft : Fft n) (ls : List (List (RGSW n))) (flags : List (RGSW n)) (p : Nat × Nat) (v : RLWE n) :
    Runs (flagProduct fft ls flags p v) (Panacea.flagProduct fft ls flags p v) ⟨2, 0, 0⟩ := by
  refine ((runs_free flags[p.1]?).bind fun fl _ => (runs_free (Panacea.flagProduct.cellSel ls p)).bind fun l _ =>
    (runs_ext fft fl 0 v).bind fun t _ => runs_ext fft l 0 t).of ?_ fun _ => rfl
  unfold Panacea.flagProduct
  cases flags[p.1]? <;> cases Panacea.flagProduct.cellSel ls p <;> rfl

theorem runs_correctConsistency (fft : Fft n) (data : List (List (RLWE n))) (ls : List (List (RGSW n))) (flags : List (RGSW n))
    (positions : List (Nat × Nat)) : Runs (correctConsistency fft data ls flags positions)
      (Panacea.correctConsistency fft data ls flags positions) ⟨itemWork positions.length, 0, 0⟩ := by
  have e : Panacea.correctConsistency fft data ls flags positions = (mapOption (cellAt data) positions).bind fun cells =>
      match cells with
      | [] => none
      | vFirst :: vs => correctValue fft ls flags positions vFirst vs := by
    unfold Panacea.correctConsistency
    cases mapOption (cellAt data) positions with
    | none => rfl
    | some cells => cases cells <;> rfl
  refine ((runs_free (mapOption (cellAt data) positions)).bind (w' := ⟨itemWork positions.length, 0, 0⟩) fun cells hc => ?_).of e fun _ => by
    simp [add_def]
  cases cells with
  | nil => exact runs_panic _
  | cons vFirst vs =>
    have e2 : correctValue fft ls flags positions vFirst vs = (mapOption (fun p => Panacea.flagProduct fft ls flags p vFirst) positions).bind
        fun firsts => match firsts with
          | [] => none
          | v1 :: v1s => (mapOption (fun x : (Nat × Nat) × RLWE n => Panacea.flagProduct fft ls flags x.1 x.2) ((positions.drop 1).zip vs)).bind
            fun terms => some (terms.foldl (fun acc v => acc + v) v1 + (v1 :: v1s).foldl (fun acc v => acc - v) vFirst) := by
      unfold correctValue
      cases mapOption (fun p => Panacea.flagProduct fft ls flags p vFirst) positions with
      | none => rfl
      | some f =>
        cases f with
        | nil => rfl
        | cons v1 v1s =>
          simp only [Option.bind_some]
          cases mapOption (fun x : (Nat × Nat) × RLWE n => Panacea.flagProduct fft ls flags x.1 x.2) ((positions.drop 1).zip vs) <;> rfl
    have hl : vs.length = positions.length - 1 := by
      have := mapOption_length hc
      rw [List.length_cons] at this; omega
    refine ((runs_mapC positions fun p _ => runs_flagProduct fft ls flags p vFirst).bind (w' := ⟨2 * (positions.length - 1), 0, 0⟩)
      fun firsts _ => ?_).of e2 fun _ => ?_
    · cases firsts with
      | nil => exact runs_panic _
      | cons v1 v1s =>
        refine ((runs_mapC _ fun x _ => runs_flagProduct fft ls flags x.1 x.2).bind fun terms _ => runs_pure _).eq fun _ => ?_
        simp [add_def, Work.times, hl]; omega
    · simp [add_def, Work.times, itemWork]; omega

theorem runs_correctAll (fft : Fft n) (H : NaiveHash) (cols : Nat) (ls : List (List (RGSW n))) (flags : List (RGSW n)) :
    ∀ (is : List Nat) (data : List (List (RLWE n))), Runs (correctAll fft H cols ls flags is data)
      (Panacea.correctAll fft H cols ls flags is data) ⟨is.length * itemWork H.hCount, 0, 0⟩
  | [], data => (runs_pure _).of rfl fun _ => by simp
  | i :: is, data => by
    rw [correctAll]
    refine ((runs_free (itemPositions H cols i)).bind (w' := ⟨(is.length + 1) * itemWork H.hCount, 0, 0⟩) fun positions hp =>
      ((runs_correctConsistency fft data ls flags positions).bind fun v _ => runs_correctAll fft H cols ls flags is _).eq fun _ => ?_).of ?_
        fun _ => by simp [add_def]
    · have : positions.length = H.hCount := by
        have := mapOption_length hp
        rwa [List.length_range] at this
      refine Work.ext' ?_ rfl rfl
      show itemWork positions.length + is.length * itemWork H.hCount = _
      rw [this, Nat.succ_mul]; exact Nat.add_comm _ _
    · rw [Panacea.correctAll, correctItem]
      cases itemPositions H cols i with
      | none => rfl
      | some positions =>
        simp only [Option.bind_some]
        cases Panacea.correctConsistency fft data ls flags positions <;> rfl

/-- C80 (`process_batch`): `rows` times the work of one access, and for every item stored `h` times the correction of its copies. -/
theorem C80_process_batch (fft : Fft n) (S : Server n) (qs : List (ClientQuery n)) (H : NaiveHash) {rows cols : Nat} (hrows : 0 < rows)
    (hsh : DbShape rows cols S.data) : Runs (processBatch fft S qs H) (S.processBatch fft qs H)
      ⟨rows * rowWork S.ctx.levelCount cols + rows * cols / H.hCount * itemWork H.hCount, 0, 0⟩ := by
  have hScols : S.cols = some cols := by
    unfold Server.cols
    rcases hS : S.data with _ | ⟨row, rest⟩
    · have := hsh.1; rw [hS] at this; simp at this; omega
    · simp [hsh.2 row (by rw [hS]; exact List.mem_cons_self)]
  unfold processBatch Server.processBatch
  by_cases hq : qs.length = S.data.length
  · rw [if_pos hq, if_pos hq]
    have e : ∀ rs : List (RLWE n × List (RGSW n)), mapOption
        (fun x : (ClientQuery n × List (RLWE n)) × List (RGSW n) => some (Panacea.updateDb fft x.1.1 x.1.2 x.2)) ((qs.zip S.data).zip (rs.map Prod.snd))
          = some (List.zipWith (fun (x : ClientQuery n × List (RLWE n)) l => Panacea.updateDb fft x.1 x.2 l) (qs.zip S.data) (rs.map Prod.snd)) := by
      intro rs; rw [mapOption_pure, List.map_zip_eq_zipWith]; rfl
    refine ((runs_mapC (g := batchRow fft S) (w := ⟨selectWork S.ctx.levelCount cols, 0, 0⟩) (qs.zip S.data) fun x hx => ?_).bind
      (w' := ⟨rows * (2 * cols) + rows * cols / H.hCount * itemWork H.hCount, 0, 0⟩)
      fun rs hrs => (Runs.bind (runs_mapC (g := fun x : (ClientQuery n × List (RLWE n)) × List (RGSW n) =>
        some (Panacea.updateDb fft x.1.1 x.1.2 x.2)) (w := ⟨2 * cols, 0, 0⟩) ((qs.zip S.data).zip (rs.map Prod.snd)) fun x hx => ?_)
        (w' := ⟨rows * cols / H.hCount * itemWork H.hCount, 0, 0⟩)
        fun data1 _ => ((runs_free S.cols).bind (g := fun cols => if H.hCount = 0 then none else
          (Panacea.correctAll fft H cols (rs.map Prod.snd) (qs.map ClientQuery.op) (List.range (S.data.length * cols / H.hCount)) data1).bind
            fun data2 => some (rs.map Prod.fst, (⟨data2, S.negS, S.ctx⟩ : Server n)))
          (w' := ⟨rows * cols / H.hCount * itemWork H.hCount, 0, 0⟩) fun c hc => ?_).eq fun _ => by simp [add_def]).eq fun _ => ?_).of ?_ fun _ => ?_
    · have := hsh.2 x.2 (List.of_mem_zip hx).2
      rw [← this]; exact runs_processOneSt fft S.ctx x.1 x.2 S.negS
    · obtain ⟨k, hk⟩ := List.mem_iff_getElem?.mp hx
      obtain ⟨k1, k2⟩ := zip_getElem.mp hk
      have hlen := hsh.2 x.1.2 (List.of_mem_zip (List.mem_of_getElem? k1)).2
      rw [List.getElem?_map] at k2
      cases hr : rs[k]? with
      | none => rw [hr] at k2; cases k2
      | some r =>
        rw [hr] at k2
        obtain ⟨a, ha, hb⟩ := mapOption_getElem? hrs k r hr
        rw [k1] at ha; cases ha
        have hx2 : r.2 = x.2 := by injection k2
        have := (processOneSt_selShape fft (hb : Panacea.processOneSt fft S.ctx x.1.1 x.1.2 S.negS = some r)).1
        rw [← hlen]
        exact runs_updateDb fft x.1.1 x.1.2 x.2 (by rw [← hx2]; exact this)
    · rw [hScols] at hc; cases hc
      by_cases h0 : H.hCount = 0
      · rw [if_pos h0, if_pos h0]; exact runs_panic _
      · rw [if_neg h0, if_neg h0]
        refine ((runs_correctAll fft H cols _ _ _ data1).bind fun data2 _ => runs_pure _).eq fun _ => ?_
        simp [add_def, hsh.1]
    · have : rs.length = rows := by rw [mapOption_length hrs, List.length_zip, hq, hsh.1, min_self]
      simp [add_def, Work.times, hq, hsh.1, this]
    · cases hm : mapOption (batchRow fft S) (qs.zip S.data) with
      | none => rfl
      | some rs =>
        simp only [Option.bind_some]
        rw [e rs, hScols]
        simp only [Option.bind_some]
        by_cases h0 : H.hCount = 0
        · rw [if_pos h0, if_pos h0]
        · rw [if_neg h0, if_neg h0]
          cases Panacea.correctAll fft H cols (rs.map Prod.snd) (qs.map ClientQuery.op) (List.range (S.data.length * cols / H.hCount))
            (List.zipWith (fun (x : ClientQuery n × List (RLWE n)) l => Panacea.updateDb fft x.1 x.2 l) (qs.zip S.data) (rs.map Prod.snd)) <;> rfl
    · refine Work.ext' ?_ ?_ ?_ <;> simp [add_def, Work.times, rowWork, Nat.mul_add, hq, hsh.1]
      omega
  · rw [if_neg hq, if_neg hq]; exact runs_panic _

/-- C80 (`demux_with`): one external product for every inner node of the binary tree, `2^bits - 1` in total. -/
theorem C80_demux (fft : Fft n) (bits : List (RGSW n)) (b : RLWE n) :
    Runs (demuxRec fft bits b) (demuxWith fft b bits) ⟨2 ^ bits.length - 1, 0, 0⟩ := runs_demuxRec fft bits b

/-- C80 (linear): the work of one access is linear in the number of columns, and a batch that serves one access per row to `N` items
stored `h` times each costs at most `h*(2*lv + 7)` external products per item. -/
theorem C80_linear (lv cols rows h N : Nat) (hN : rows * cols = h * N) :
    rowWork lv cols ≤ (2 * lv + 3) * cols ∧ (0 < h → rows * rowWork lv cols + rows * cols / h * itemWork h ≤ N * (h * (2 * lv + 7))) := by
  have h1 : rowWork lv cols ≤ (2 * lv + 3) * cols := by
    have : lv * (cols - 1) ≤ lv * cols := Nat.mul_le_mul_left _ (Nat.sub_le _ _)
    have e : (2 * lv + 3) * cols = lv * cols + lv * cols + cols + 2 * cols := by ring
    unfold rowWork selectWork; omega
  refine ⟨h1, fun hh => ?_⟩
  have h2 : rows * cols / h = N := by rw [hN]; exact Nat.mul_div_cancel_left N hh
  have h3 : N * itemWork h ≤ N * (4 * h) := Nat.mul_le_mul_left _ (by unfold itemWork; omega)
  have h4 : rows * rowWork lv cols ≤ rows * ((2 * lv + 3) * cols) := Nat.mul_le_mul_left _ h1
  have h5 : rows * ((2 * lv + 3) * cols) = N * (h * (2 * lv + 3)) := by
    calc rows * ((2 * lv + 3) * cols) = rows * cols * (2 * lv + 3) := by ring
      _ = h * N * (2 * lv + 3) := by rw [hN]
      _ = _ := by ring
  have h6 : N * (h * (2 * lv + 7)) = N * (h * (2 * lv + 3)) + N * (4 * h) := by ring
  rw [h2]; omega

/-- C80 (same work): two accesses to one-row servers with the same number of columns and levels do the same work, whatever is read or
written, if neither panics. -/
theorem C80_same_work {n n' : Nat} {reduce : List (RLWE n) → RLWE n} {reduce' : List (RLWE n') → RLWE n'} {fft : Fft n} {fft' : Fft n'}
    {S : Server n} {S' : Server n'} {q : ClientQuery n} {q' : ClientQuery n'} (hl : S.ctx.levelCount = S'.ctx.levelCount)
    (hc : (S.data.headD []).length = (S'.data.headD []).length) (h : (S.processOne reduce fft q).isSome)
    (h' : (S'.processOne reduce' fft' q').isSome) : (processOne reduce fft S q).work = (processOne reduce' fft' S' q').work := by
  rw [(C80_process_one reduce fft S q).2 h, (C80_process_one reduce' fft' S' q').2 h', hl, hc]

/-! ## Communication -/

theorem outRlwe_length (c : RLWE n) : (Flat.outRlwe c).length = n * 2 := by
  simp [Flat.outRlwe, Flat.out]; omega

theorem outRgsw_length (C : RGSW n) : (Flat.outRgsw C).words.length = C.rows.length * (2 * (n * 2)) := by
  have : ∀ l : List (RLWE n × RLWE n), (l.flatMap fun r => Flat.outRlwe r.1 ++ Flat.outRlwe r.2).length = l.length * (2 * (n * 2)) := by
    intro l
    induction l with
    | nil => simp
    | cons r l ih =>
      rw [List.flatMap_cons, List.length_append, ih, List.length_append, outRlwe_length, outRlwe_length, List.length_cons]; ring
  exact this C.rows

theorem queryWords_of_shape {ctx : Ctx} {cols : Nat} {q : ClientQuery n} (h : QueryShape ctx cols q) :
    (queryWords q).length = (Nat.log2 cols + 1) * (ctx.levelCount * (4 * n)) + 2 * n := by
  have e : ∀ l : List (RGSW n), (∀ C ∈ l, C.rows.length = ctx.levelCount) →
      (l.flatMap fun C => (Flat.outRgsw C).words).length = l.length * (ctx.levelCount * (2 * (n * 2))) := by
    intro l hl
    induction l with
    | nil => simp
    | cons C l ih =>
      rw [List.flatMap_cons, List.length_append, ih fun C hC => hl C (List.mem_cons_of_mem _ hC), outRgsw_length,
        hl C List.mem_cons_self, List.length_cons]; ring
  rw [queryWords, List.length_append, List.length_append, e _ fun C hC => (h.levels C hC).2, outRgsw_length, outRlwe_length, h.op.2, h.addr]
  ring

/-- C80 (communication): a query is `(log2 cols + 1) * lv * 4n + 2n` words, for every index, operation and data; a batch is one such query
for every row. -/
theorem C80_query_size {ctx : Ctx} {s : Poly n} {cols : Nat} (h0 : 0 < cols) (h1 : cols < 2 ^ 64) :
    (∀ i g r, makeReadQuery ctx s cols i g = some r →
      (queryWords r.1).length = (Nat.log2 cols + 1) * (ctx.levelCount * (4 * n)) + 2 * n) ∧
    (∀ i alpha g r, makeWriteQuery ctx s cols i alpha g = some r →
      (queryWords r.1).length = (Nat.log2 cols + 1) * (ctx.levelCount * (4 * n)) + 2 * n) ∧
    (∀ rows H indices g qs g', (genReadQueryBatch ctx s rows cols H indices g = some (qs, g') ∨
      ∃ alpha, genWriteQueryBatch ctx s rows cols H indices alpha g = some (qs, g')) →
      (qs.flatMap queryWords).length = rows * ((Nat.log2 cols + 1) * (ctx.levelCount * (4 * n)) + 2 * n)) := by
  refine ⟨fun i g r h => queryWords_of_shape (C51_read_query h h0 h1), fun i alpha g r h => queryWords_of_shape (C51_write_query h h0 h1),
    fun rows H indices g qs g' h => ?_⟩
  obtain ⟨hl, hq⟩ := C51_batch_query h0 h1 h
  rw [← hl]
  clear hl h
  induction qs with
  | nil => simp
  | cons q qs ih =>
    rw [List.flatMap_cons, List.length_append, queryWords_of_shape (hq q List.mem_cons_self),
      ih fun q hq' => hq q (List.mem_cons_of_mem _ hq'), List.length_cons]; ring

/-! ### Non-vacuity -/

/-- The client's WRITE of 7 to column 2 of the example server (four columns, 20 levels) succeeds and costs 152 external products; READ of
column 1 costs the same. -/
example : ∃ r q g1 q' g2 y S1 y' S2, negGsw exTreeCtx exKey exGen = some r ∧
    makeWriteQuery exTreeCtx exKey 4 2 ⟨fun _ => 7⟩ exGen = some (q, g1) ∧ makeReadQuery exTreeCtx exKey 4 1 g1 = some (q', g2) ∧
    let S := Server.new [exRow] r.1 exTreeCtx
    let sum := fun xs : List (RLWE 4) => xs.foldl (· + ·) 0
    processOne sum exFft S q = ⟨some (y, S1), ⟨152, 0, 0⟩⟩ ∧ processOne sum exFft S q' = ⟨some (y', S2), ⟨152, 0, 0⟩⟩ ∧
    decryptDecodeRlwe exTreeCtx exKey y = ⟨fun _ => 2⟩ ∧ decryptDecodeRlwe exTreeCtx exKey y' = ⟨fun _ => 1⟩ := by
  obtain ⟨r, h1, h2⟩ := exServerKeys
  have hw : Spec.Encodable (16 : Scalar) (⟨fun _ => 7⟩ : Poly 4) := fun k => by show (7 : Scalar).toNat < _; decide
  obtain ⟨q, g1, enc, q1, g1b, q2, q3⟩ := C42_write_query (t := 16) (ctx := exTreeCtx) (by decide) (by decide) (by decide) (by decide)
    exKey (i := 2) (D := 2) (by decide) (by decide) hw exGen_bounded
  obtain ⟨q', g2, m, p1, _, p3⟩ := C42_read_query (t := 16) (ctx := exTreeCtx) (by decide) (by decide) (by decide) (by decide)
    exKey (i := 1) (D := 2) (by decide) (by decide) g1b
  have hr : IsReduction (· + ·) (0 : RLWE 4) (fun xs => xs.foldl (· + ·) 0) := fun xs => ParReduce.fold xs
  obtain ⟨y, S1, e1, e2⟩ := C41_decoded (t := 16) (by decide) exFft_bounded exKey_binary (S := Server.new [exRow] r.1 exTreeCtx)
    (by change Codec.new 16 = some exTreeCtx.codec; decide) h2 (by decide) q3 rfl (by decide) exRow_enc (pt := ⟨fun _ => 2⟩)
    (by change exTreeCtx.codec.polyEncode (⟨fun _ => 2⟩ : Poly 4) = _; decide +kernel) hr
    (by change 2 * (0 + 2 ^ 2 * deltaSel exTreeCtx 4 3 5 2) < _; decide)
  obtain ⟨y', S2, f1, f2⟩ := C41_decoded (t := 16) (by decide) exFft_bounded exKey_binary (S := Server.new [exRow] r.1 exTreeCtx)
    (by change Codec.new 16 = some exTreeCtx.codec; decide) h2 (by decide) p3 rfl (by decide) exRow_enc (pt := ⟨fun _ => 1⟩)
    (by change exTreeCtx.codec.polyEncode (⟨fun _ => 1⟩ : Poly 4) = _; decide +kernel) hr
    (by change 2 * (0 + 2 ^ 2 * deltaSel exTreeCtx 4 3 5 2) < _; decide)
  refine ⟨r, q, g1, q', g2, y, S1, y', S2, h1, q1, p1, ?_, ?_, e2, f2⟩
  · have h := C80_process_one (fun xs : List (RLWE 4) => xs.foldl (· + ·) 0) exFft (Server.new [exRow] r.1 exTreeCtx) q
    rw [e1] at h
    exact Costed.ext' h.1 (h.2 rfl)
  · have h := C80_process_one (fun xs : List (RLWE 4) => xs.foldl (· + ·) 0) exFft (Server.new [exRow] r.1 exTreeCtx) q'
    rw [f1] at h
    exact Costed.ext' h.1 (h.2 rfl)

/-- The run of `C71_witness` (default parameters, two inner nodes, three feature vectors): 20 external products, 198 substitutions and 36
polynomial products for every feature vector. -/
example : ∃ (ksks : KskMap (2 ^ 11)) (negS : RGSW (2 ^ 11)) (clientCts : List (List (List (RLWE (2 ^ 11))))), clientCts.length = 3 ∧ ∀ cts ∈ clientCts, ∃ out, simulateServer treeFft defaultCtx exF64.ceilLog2
    (.internal ⟨1500, 0, 0, .leq⟩ (.internal ⟨700, 1, 1, .leq⟩ (.leaf 2) (.leaf 3)) (.leaf 1)) ksks negS cts = ⟨some out, ⟨20, 198, 36⟩⟩ := by
  obtain ⟨ys, h, -⟩ := C71_witness
  obtain ⟨negS, _, ksks, _, clientCts, _, -, -, -, h1, h2⟩ := C80_simulate (ln := 11) rfl (by decide) h
  exact ⟨ksks, negS, clientCts, h1, h2⟩

/-- The repository's default parameters (9 levels): 10743 external products for one access to 512 columns. -/
example : rowWork 9 512 = 10743 ∧ itemWork 3 = 10 := by decide

end Cost
end Panacea
