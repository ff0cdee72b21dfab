import Verif.Model.Cost
import Verif.Model.Flat

/-!
# What a server call costs

The counting programs of `Model/Cost` compute the values of the other models and, unless they panic, execute the stated numbers of
operations.
-/

namespace Panacea
namespace Cost

/-- The program computes `m` (`none` = panic), and if it does not panic then it executes exactly the operations `w`. -/
def Runs {α : Type} (x : Costed α) (m : Option α) (w : Work) : Prop := x.val = m ∧ (m.isSome → x.work = w)

/-- `k` times the work `w`. -/
def Work.times (k : Nat) (w : Work) : Work := ⟨k * w.ext, k * w.subs, k * w.mul⟩

/-- External products of one access to one row of `cols` columns, before the database is written: for each of `lv` levels a tree with
`cols` leaves is demultiplexed (one product for every inner node) and every leaf is multiplied with the key-switching ciphertext; then one
product for every column. -/
def selectWork (lv cols : Nat) : Nat := lv * (cols - 1) + lv * cols + cols

/-- External products of one access to one row: two for every column to write it, the READ/WRITE flag and the selector. -/
def rowWork (lv cols : Nat) : Nat := selectWork lv cols + 2 * cols

/-- External products of the consistency correction of one item stored at `h` places: two for every place with the first copy, two for
every other place with its own copy. -/
def itemWork (h : Nat) : Nat := 2 * h + 2 * (h - 1)

/-- The words the client sends for a query: the flat vectors of the address ciphertexts, of the READ/WRITE flag and of the data. -/
def queryWords {n : Nat} (q : ClientQuery n) : List Scalar :=
  q.a.flatMap (fun C => (Flat.outRgsw C).words) ++ (Flat.outRgsw q.op).words ++ Flat.outRlwe q.data

end Cost
end Panacea
