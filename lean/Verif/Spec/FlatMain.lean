import Verif.Model.FlatMain
import Verif.Spec.FlatOram
import Verif.Spec.MeasuredMain

/-! # The binary in memory: what is assumed about a run -/

namespace Panacea
namespace Flat
variable {n : Nat}

/-- The reductions of server call `k`. -/
def Env.red (E : Env n) (k : Nat) : FlatReducer := ⟨E.redOne k, E.redVec k, E.redGsw k⟩

/-- The same random choices: in memory and in the other model the shuffle, the key, the generators and the Fourier rounding agree.  The
reductions of the two may differ. -/
structure Env.Same (E : Env n) (E' : Panacea.Env n) : Prop where
  shuffle : E.shuffle = E'.shuffle
  key : StoresPoly E.s E'.s
  g : E.g = E'.g
  fft : E.fft = E'.fft

/-- The schedule of a run in memory is possible for `cols` columns: reductions that are reductions, and every hash map that the client computes is
visited entry by entry, in some order. -/
structure Env.Possible (E : Env n) (ctx : Ctx) (cols : Nat) : Prop where
  red : ∀ k, (E.red k).Valid n ctx cols
  entries : ∀ (H : NaiveHash) (is : List Nat) (d : Nat) (m : NaiveHash.Mapping), H.hashToMapping is d = some m →
    ∀ r c i, (r, c, i) ∈ E.entries m ↔ m r = some (c, i)

end Flat
end Panacea
