import Verif.Spec.PdteCircuit
import Verif.Lemmas.Circuit
import Verif.Lemmas.Keyswitch

/-! # Symbolic execution of the decision tree server -/

namespace Panacea
variable {n : Nat}

theorem fourierKeyswitchLoop_none : ∀ (rows : List (RLWE n)) (terms : List (Poly n)) (acc : FRLWE n), terms.length < rows.length →
    fourierKeyswitchLoop rows terms acc = none
  | [], terms, acc, h => by simp at h
  | [r], terms, acc, h => by
    have : terms = [] := List.length_eq_zero_iff.mp (by simpa using h)
    subst this; rfl
  | r :: r2 :: rows, terms, acc, h => by
    match terms, h with
    | [], _ => rfl
    | [_], _ => rfl
    | t :: t2 :: ts, h => rw [fourierKeyswitchLoop]; exact fourierKeyswitchLoop_none rows ts _ (by simpa using h)

theorem evalXk_isSome (p : Poly n) (k : Nat) : (evalXk p k).isSome = (decide (k % 2 = 1) && isPow2 n) := by
  unfold evalXk evalXkInMemory
  by_cases h : k % 2 = 1
  · rw [if_pos h]
    by_cases h2 : isPow2 n
    · rw [if_pos h2]; simp [h, h2]
    · rw [if_neg h2]; simp [h2]
  · rw [if_neg h]; simp [h]

/-- Does a substitution with a key of this shape succeed? -/
def subsOk (n : Nat) (sh : Nat × Nat × Nat) : Bool := decide (sh.1 % 2 = 1) && isPow2 n && decide (sh.2.2 ≤ sh.2.1)

theorem fourierSubs_isSome (K : KeyswitchKey n) (after : FRLWE n) (c : RLWE n) :
    (K.fourierSubs after c).isSome = subsOk n (K.subsK, K.levelCount, K.ksks.length) := by
  unfold KeyswitchKey.fourierSubs subsOk
  have h1 := evalXk_isSome c.mask K.subsK
  have h2 := evalXk_isSome c.body K.subsK
  simp only
  rw [← h1]
  rw [← h1] at h2
  cases hm : evalXk c.mask K.subsK with
  | none => simp
  | some m =>
    rw [hm] at h2
    obtain ⟨b, hb⟩ := Option.isSome_iff_exists.mp h2
    rw [hb]
    simp only [Option.isSome_some, Bool.true_and]
    unfold KeyswitchKey.fourierKeyswitchCiphertext
    simp only
    by_cases h : K.ksks.length ≤ K.levelCount
    · rw [fourierKeyswitchLoop_spec _ _ _ (by simp [maskTerms_length, h])]; simp [h]
    · rw [fourierKeyswitchLoop_none _ _ _ (by simp [maskTerms_length]; omega)]; simp [h]

theorem fourierSubs_after (K : KeyswitchKey n) (a b : FRLWE n) (c : RLWE n) : K.fourierSubs a c = K.fourierSubs b c := rfl

/-- Symbolic loop of `trace1_fourier`. -/
def traceSym (n : Nat) (shape : KskShape) : List Nat → TCirc → Option TCirc
  | [], c => some c
  | i :: is, c =>
    match shape (traceExp n i) with
    | none => none
    | some sh => if sh.1 = traceExp n i ∧ subsOk n sh then traceSym n shape is (.add c (.subs (traceExp n i) c)) else none

variable (fft : Fft n) (I : PdteInputs n)

theorem trace_sym {shape : KskShape} (hs : ∀ k, (I.ksks k).map (fun K => (K.subsK, K.levelCount, K.ksks.length)) = shape k) :
    ∀ (is : List Nat) (buf : FRLWE n) (c : TCirc),
    trace1FourierLoop fft I.ksks is buf (c.eval fft I) = (traceSym n shape is c).map (TCirc.eval fft I)
  | [], _, _ => rfl
  | i :: is, buf, c => by
    rw [trace1FourierLoop, traceSym]
    have h := hs (traceExp n i)
    cases hk : I.ksks (traceExp n i) with
    | none => rw [hk] at h; rw [← h]; rfl
    | some K =>
      rw [hk] at h
      rw [← h]
      simp only [Option.map_some]
      by_cases h1 : K.subsK = traceExp n i
      · rw [if_pos h1]
        have h2 := fourierSubs_isSome K buf (c.eval fft I)
        cases hx : K.fourierSubs buf (c.eval fft I) with
        | none =>
          rw [hx] at h2
          rw [if_neg (by rw [← h2]; simp)]
          rfl
        | some x =>
          rw [hx] at h2
          rw [if_pos ⟨h1, h2.symm⟩]
          have e : (TCirc.add c (.subs (traceExp n i) c)).eval fft I
              = ⟨(c.eval fft I).mask + fft.backward x.mask, (c.eval fft I).body + fft.backward x.body⟩ := by
            simp only [TCirc.eval]
            rw [hk]
            simp only [Option.bind_some]
            rw [fourierSubs_after K _ buf, hx]
            rfl
          have ih := trace_sym hs is x (.add c (.subs (traceExp n i) c))
          rw [e] at ih
          exact ih
      · rw [if_neg h1, if_neg (fun h => h1 h.1)]; rfl

/-- Symbolic `trace1_fourier`. -/
def trace1Sym (n : Nat) (shape : KskShape) (c : TCirc) : Option TCirc :=
  match log2 n with
  | none => none
  | some ln => traceSym n shape (List.range' 1 ln) c

theorem trace1_sym {shape : KskShape} (hs : ∀ k, (I.ksks k).map (fun K => (K.subsK, K.levelCount, K.ksks.length)) = shape k) (c : TCirc) :
    trace1Fourier fft I.ksks (c.eval fft I) = (trace1Sym n shape c).map (TCirc.eval fft I) := by
  unfold trace1Fourier trace1Sym
  cases log2 n with
  | none => rfl
  | some ln => exact trace_sym fft I hs _ _ c

/-- Symbolic `expand_fourier`. -/
def expandSym (n : Nat) (ctx : Ctx) (shape : KskShape) (cs : List TCirc) : Option TGCirc :=
  if cs.length = 0 then none
  else if ctx.levelCount ≤ cs.length then
    (mapOption (trace1Sym n shape) (cs.take ctx.levelCount)).map fun rows =>
      rows.foldl (fun C c => .level C (.ext .negS .zero c) c) (.empty ctx.baseLog)
  else none

theorem tlevels_eval : ∀ (cs : List TCirc) (C : TGCirc),
    (cs.foldl (fun C c => TGCirc.level C (.ext .negS .zero c) c) C).eval fft I
      = ⟨(C.eval fft I).baseLog, (C.eval fft I).rows ++ (cs.map (TCirc.eval fft I)).map fun c => (externalProduct fft I.negS 0 c, c)⟩
  | [], C => by simp
  | c :: cs, C => by
    rw [List.foldl_cons, tlevels_eval cs]
    simp [TGCirc.eval, TCirc.eval]

theorem expand_sym {shape : KskShape} (hs : ∀ k, (I.ksks k).map (fun K => (K.subsK, K.levelCount, K.ksks.length)) = shape k) (ctx : Ctx)
    (cs : List TCirc) :
    expandFourier fft ctx (cs.map (TCirc.eval fft I)) I.ksks I.negS = (expandSym n ctx shape cs).map (TGCirc.eval fft I) := by
  unfold expandFourier expandSym
  by_cases h0 : cs.length = 0
  · rw [if_pos h0, if_pos (by rw [List.length_eq_zero_iff.mp h0]; rfl)]; rfl
  · rw [if_neg h0, if_neg (fun h => h0 (by simpa using h)), List.length_map]
    by_cases h1 : ctx.levelCount ≤ cs.length
    · rw [if_pos h1, if_pos h1, ← List.map_take]
      have h2 : ∀ c, expandFourierRow fft I.ksks I.negS (TCirc.eval fft I c)
          = (trace1Sym n shape c).map fun c => (externalProduct fft I.negS 0 (c.eval fft I), c.eval fft I) := fun c => by
        unfold expandFourierRow
        rw [trace1_sym fft I hs c]
        cases trace1Sym n shape c <;> rfl
      rw [mapOption_comm h2]
      cases mapOption (trace1Sym n shape) (cs.take ctx.levelCount) with
      | none => rfl
      | some rows =>
        simp only [Option.map_some, tlevels_eval]
        simp [TGCirc.eval, List.map_map, Function.comp_def]
    · rw [if_neg h1, if_neg h1]; rfl

/-- Symbolic `compare_expand` for one node; `m` = number of ciphertexts of its feature. -/
def compareSym (n : Nat) (ctx : Ctx) (shape : KskShape) (lens : List Nat) (d : NodeData) : Option TGCirc :=
  match lens[d.feature]? with
  | none => none
  | some m =>
    match mapOption (fun l => match d.op with
      | .leq => if d.threshold < n then some (TCirc.leq d.threshold (.input d.feature l)) else none
      | .gt => none) (List.range m) with
    | none => none
    | some cs => expandSym n ctx shape cs

theorem mapOption_congr_mem {α β : Type} {f g : α → Option β} : ∀ {l : List α}, (∀ a ∈ l, f a = g a) → mapOption f l = mapOption g l
  | [], _ => rfl
  | a :: l, h => by
    rw [mapOption, mapOption, h a List.mem_cons_self, mapOption_congr_mem fun b hb => h b (List.mem_cons_of_mem _ hb)]

theorem compare_sym {shape : KskShape} {lens : List Nat} (hI : PdteShape lens shape I) (ctx : Ctx) (d : NodeData) :
    compareExpandOne fft ctx I.cts I.ksks I.negS d = (compareSym n ctx shape lens d).map (TGCirc.eval fft I) := by
  unfold compareExpandOne compareSym
  have h1 : lens[d.feature]? = I.cts[d.feature]?.map List.length := by rw [← hI.cts, List.getElem?_map]
  rw [h1]
  cases hf : I.cts[d.feature]? with
  | none => rfl
  | some cs =>
    simp only [Option.map_some]
    have h2 : cs = (List.range cs.length).map fun l => TCirc.eval fft I (.input d.feature l) := by
      apply List.ext_getElem
      · simp
      · intro l h3 h4
        simp only [List.getElem_map, List.getElem_range, TCirc.eval, hf, Option.bind_some]
        rw [List.getElem?_eq_getElem h3]; rfl
    have h3 : mapOption (compareCt fft d) cs = (mapOption (fun l => match d.op with
        | .leq => if d.threshold < n then some (TCirc.leq d.threshold (.input d.feature l)) else none
        | .gt => none) (List.range cs.length)).map (List.map (TCirc.eval fft I)) := by
      conv_lhs => rw [h2]
      refine mapOption_comm (fun l => ?_) _
      unfold compareCt
      cases d.op with
      | gt => rfl
      | leq =>
        simp only
        by_cases h : d.threshold < n
        · rw [if_pos h]
          simp only [Option.map_some, TCirc.eval]
          have : ∀ c : RLWE n, ∃ x, c.lessEqThan fft d.threshold = some x := fun c => by
            unfold RLWE.lessEqThan; rw [if_pos h]; exact ⟨_, rfl⟩
          obtain ⟨x, hx⟩ := this ((I.cts[d.feature]?.bind fun c => c[l]?).getD 0)
          rw [hx]; rfl
        · rw [if_neg h]
          unfold RLWE.lessEqThan; rw [if_neg h]; rfl
    rw [h3]
    cases mapOption _ (List.range cs.length) with
    | none => rfl
    | some ts => exact expand_sym fft I hI.keys ctx ts

/-- Map the ciphertexts of an encrypted tree. -/
def EncTree.mapC {C D : Type} (f : C → D) : EncTree C → EncTree D
  | .leaf x => .leaf x
  | .internal c l r => .internal (f c) (mapC f l) (mapC f r)

theorem EncTree.maxLeaf_mapC {C D : Type} (f : C → D) : ∀ t : EncTree C, (t.mapC f).maxLeaf = t.maxLeaf
  | .leaf _ => rfl
  | .internal _ l r => by rw [mapC, maxLeaf, maxLeaf, maxLeaf_mapC f l, maxLeaf_mapC f r]

theorem EncTree.build_comm {C D : Type} (f : C → D) : ∀ (t : Tree) (cs : List C),
    EncTree.build t (cs.map f) = (EncTree.build t cs).map fun x => (x.1.mapC f, x.2.map f)
  | .missing, _ => rfl
  | .leaf _, _ => rfl
  | .internal _ l r, [] => rfl
  | .internal _ l r, c :: cs => by
    rw [List.map_cons, EncTree.build, EncTree.build]
    rw [build_comm f l cs]
    cases EncTree.build l cs with
    | none => rfl
    | some x =>
      simp only [Option.map_some]
      rw [build_comm f r x.2]
      cases EncTree.build r x.2 <;> rfl

theorem EncTree.new_comm {C D : Type} (f : C → D) (t : Tree) (cs : List C) :
    EncTree.new t (cs.map f) = (EncTree.new t cs).map fun x => (x.1.mapC f, x.2.map f) := by
  cases cs with
  | nil => rfl
  | cons c cs =>
    cases t with
    | missing => rfl
    | leaf => rfl
    | internal d l r => exact EncTree.build_comm f (.internal d l r) (c :: cs)

/-- Symbolic `eval_enc_node`. -/
def evalSym : EncTree TGCirc → List TCirc → TCirc → List TCirc
  | .leaf x, out, b => out.mapIdx fun i ct => if x.testBit i then .add ct b else ct
  | .internal ct l r, out, b => evalSym r (evalSym l out (.ext ct .zero b)) (.sub b (.ext ct .zero b))

theorem eval_sym : ∀ (t : EncTree TGCirc) (out : List TCirc) (b : TCirc),
    evalEncNode fft (t.mapC (TGCirc.eval fft I)) (out.map (TCirc.eval fft I)) (b.eval fft I) = (evalSym t out b).map (TCirc.eval fft I)
  | .leaf x, out, b => by
    rw [EncTree.mapC, evalEncNode, evalSym]
    unfold addLabel
    apply List.ext_getElem
    · simp
    · intro i h1 h2
      simp only [List.getElem_mapIdx, List.getElem_map]
      split <;> rfl
  | .internal ct l r, out, b => by
    rw [EncTree.mapC, evalEncNode, evalSym]
    have h1 := eval_sym l out (.ext ct .zero b)
    have h2 := eval_sym r (evalSym l out (.ext ct .zero b)) (.sub b (.ext ct .zero b))
    simp only [TCirc.eval] at h1 h2
    rw [h1, h2]

/-- Symbolic `server_f`. -/
def serverSym (n : Nat) (ctx : Ctx) (ceilLog2 : Nat → Nat) (model : Tree) (shape : KskShape) (lens : List Nat) : Option (List TCirc) :=
  match mapOption (compareSym n ctx shape lens) model.flatten with
  | none => none
  | some gs =>
    match EncTree.new model gs with
    | none => none
    | some (root, _) =>
      match ctx.codec.encode 1 with
      | none => none
      | some v => some (evalSym root (List.replicate (ceilLog2 (root.maxLeaf + 1)) .zero) (.const v))

theorem server_sym {shape : KskShape} {lens : List Nat} (hI : PdteShape lens shape I) (ctx : Ctx) (ceilLog2 : Nat → Nat) (model : Tree) :
    simulateServer fft ctx ceilLog2 model I.ksks I.negS I.cts
      = (serverSym n ctx ceilLog2 model shape lens).map (List.map (TCirc.eval fft I)) := by
  unfold simulateServer serverSym compareExpand
  have h1 := mapOption_comm (ea := id) (fun d => compare_sym fft I hI ctx d) model.flatten
  rw [List.map_id] at h1
  rw [h1]
  cases mapOption (compareSym n ctx shape lens) model.flatten with
  | none => rfl
  | some gs =>
    simp only [Option.map_some]
    rw [EncTree.new_comm]
    cases EncTree.new model gs with
    | none => rfl
    | some x =>
      simp only [Option.map_some]
      unfold encEval trivialOne
      rw [EncTree.maxLeaf_mapC]
      cases ctx.codec.encode 1 with
      | none => rfl
      | some v =>
        simp only [Option.map_some]
        have := eval_sym fft I x.1 (List.replicate (ceilLog2 (x.1.maxLeaf + 1)) .zero) (.const v)
        rw [List.map_replicate] at this
        simp only [TCirc.eval] at this
        rw [← this]

end Panacea
