import Verif.Model.Flat

/-!
# Memory layout of ciphertexts

What it means for a vector of words to hold a ciphertext: the position of every coefficient, written down independently of the
slice operations of `Model/Flat`.
-/

namespace Panacea
variable {n : Nat}

/-- `w` holds the polynomial `p`: exactly `n` words, word `k` is coefficient `k`. -/
structure StoresPoly (w : List Scalar) (p : Poly n) : Prop where
  length : w.length = n
  get : ∀ k : Fin n, w[k.val]? = some (p k)

/-- `w` holds the RLWE ciphertext `c`: `2n` words, the mask at `0 .. n-1`, the body at `n .. 2n-1`. -/
structure StoresRlwe (w : List Scalar) (c : RLWE n) : Prop where
  length : w.length = 2 * n
  mask : ∀ k : Fin n, w[k.val]? = some (c.mask k)
  body : ∀ k : Fin n, w[n + k.val]? = some (c.body k)

/-- `C` holds the RGSW ciphertext `R`: same parameters, `4n` words per level, in each of them mask and body of the first row, then
mask and body of the second row. -/
structure StoresRgsw (C : Flat.Ggsw) (R : RGSW n) : Prop where
  baseLog : C.baseLog = R.baseLog
  levelCount : C.levelCount = R.rows.length
  length : C.words.length = 4 * n * R.rows.length
  mask0 : ∀ (l : Fin R.rows.length) (k : Fin n), C.words[4 * n * l.val + k.val]? = some (R.rows[l].1.mask k)
  body0 : ∀ (l : Fin R.rows.length) (k : Fin n), C.words[4 * n * l.val + n + k.val]? = some (R.rows[l].1.body k)
  mask1 : ∀ (l : Fin R.rows.length) (k : Fin n), C.words[4 * n * l.val + 2 * n + k.val]? = some (R.rows[l].2.mask k)
  body1 : ∀ (l : Fin R.rows.length) (k : Fin n), C.words[4 * n * l.val + 3 * n + k.val]? = some (R.rows[l].2.body k)

/-- `w` holds the LWE ciphertext `c`: `n + 1` words, the mask and then the body. -/
structure StoresLwe (w : List Scalar) (c : LWE n) : Prop where
  length : w.length = n + 1
  mask : ∀ k : Fin n, w[k.val]? = some (c.mask k)
  body : w[n]? = some c.body

/-- Two lists of the same length, related element by element. -/
def StoresAll {α β : Type} (R : α → β → Prop) (ws : List α) (cs : List β) : Prop := List.Forall₂ R ws cs

/-- `K` holds the key switching key `L`. -/
structure StoresKsk (K : Flat.Ksk) (L : KeyswitchKey n) : Prop where
  baseLog : K.baseLog = L.baseLog
  levelCount : K.levelCount = L.levelCount
  subsK : K.subsK = L.subsK
  rows : StoresAll StoresRlwe K.ksks L.ksks

/-- Two computations that may panic agree: both panic, or both succeed with results related by `R`. -/
def Agree {α β : Type} (R : α → β → Prop) : Option α → Option β → Prop
  | none, none => True
  | some a, some b => R a b
  | _, _ => False

end Panacea
