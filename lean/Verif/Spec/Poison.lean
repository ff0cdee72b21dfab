import Verif.Model.Poison
import Verif.Spec.Sched

/-!
# Vocabulary for panics
-/

namespace Panacea
variable {n : Nat}

/-- The two databases have the same number of rows, and the rows have the same lengths. -/
def SameShape (m m' : Mem n) : Prop := m.map List.length = m'.map List.length

/-- Every store of the task is to a cell that the task has read before. -/
def ReadFirst (t : Task n) : Prop := ∀ (d : Nat) (p : Nat × Nat) (f : List (RLWE n) → Option (RLWE n)), t[d]? = some (Stmt.write p f) → ∃ (e : Nat) (b : Bool), e < d ∧ t[e]? = some (Stmt.read p b)

/-- All tasks have ended, normally or by a panic. -/
def PConf.Ended (P : PConf n) : Prop := P.conf.Terminal

end Panacea
