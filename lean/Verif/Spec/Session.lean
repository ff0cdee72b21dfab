import Verif.Spec.Oram

/-! # Specification vocabulary for sessions mixing `process_one` and `process_multi` on one row -/

namespace Panacea
variable {n : Nat}

/-- One step of a session: one command through `process_one`, or a list of commands through one call of `process_multi`. -/
inductive Call (n : Nat)
  | one (c : Cmd n)
  | multi (cs : List (Cmd n))

/-- The commands of a step. -/
def Call.cmds : Call n → List (Cmd n)
  | .one c => [c]
  | .multi cs => cs

/-- A step is valid: valid commands for pairwise distinct items. -/
def Call.Valid (N : Nat) (t : Scalar) (st : Call n) : Prop := (∀ c ∈ st.cmds, c.Valid N t) ∧ (st.cmds.map Cmd.index).Nodup

/-- Plain array semantics of a session: every command of a step returns the content of its item *before the step*; then all writes of the
step take place. -/
def Spec.session (v : Nat → Poly n) : List (Call n) → List (List (Poly n))
  | [] => []
  | st :: sts => st.cmds.map (fun c => v c.index) :: Spec.session (st.cmds.foldl Spec.apply v) sts

/-- `R` is a possible behaviour of rayon's reductions for `cols` columns. -/
structure Reducer.Valid (ctx : Ctx) (cols : Nat) (R : Reducer n) : Prop where
  one : IsReduction (· + ·) 0 R.one
  vec : IsReduction addVec (List.replicate cols 0) R.vec
  gsw : IsReduction addGswVec (List.replicate cols (RGSW.allocate n ctx.baseLog ctx.levelCount)) R.gsw

/-- A user session on a one-row server: generate the queries of the step in order, one server call, decrypt and decode the responses. -/
def runSession (fft : Fft n) (ctx : Ctx) (s : Poly n) (cols : Nat) (H : NaiveHash) :
    List (Reducer n × Call n) → Server n → Gen n → Option (List (List (Poly n)) × Server n × Gen n)
  | [], S, g => some ([], S, g)
  | (R, .one c) :: sts, S, g =>
    match clientQuery ctx s 1 cols H c g with
    | none => none
    | some (q, g) =>
      match S.processOne R.one fft q with
      | none => none
      | some (y, S) =>
        match runSession fft ctx s cols H sts S g with
        | none => none
        | some (ys, S, g) => some ([decryptDecodeRlwe ctx s y] :: ys, S, g)
  | (R, .multi cs) :: sts, S, g =>
    match mapGenM (clientQuery ctx s 1 cols H) cs g with
    | none => none
    | some (qs, g) =>
      match S.processMulti R.vec R.gsw fft qs with
      | none => none
      | some (y, S) =>
        match runSession fft ctx s cols H sts S g with
        | none => none
        | some (ys, S, g) => some (y.map (decryptDecodeRlwe ctx s) :: ys, S, g)

/-- Noise added to the database by a step. -/
def callNoise (ctx : Ctx) (n B phi D : Nat) : Call n → Nat
  | .one _ => deltaOp ctx n B phi + deltaSel ctx n B phi D
  | .multi cs => deltaOp ctx n B phi + cs.length * deltaSel ctx n B phi D
      + extNoise n ctx.baseLog ctx.levelCount (cs.length * selNoise ctx n B phi D) phi 1

/-- Noise added by a session. -/
def sessionNoise (ctx : Ctx) (n B phi D : Nat) (sts : List (Call n)) : Nat := (sts.map (callNoise ctx n B phi D)).sum

end Panacea
