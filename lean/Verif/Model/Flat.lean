import Verif.Model.Lwe

/-!
# Ciphertexts as the code stores them: flat vectors of words

The other models give a ciphertext its mathematical structure (a mask and a body polynomial, a list of row pairs).  The code stores
a `Vec<u64>` and addresses it through slices: /repo/src/rlwe.rs, /repo/src/rgsw.rs, /repo/src/lwe.rs.  Here the wrappers and loops of
these files are written on the word vectors, with the slice arithmetic of the views they use:
* a GLWE ciphertext of polynomial size `n` has `2n` words, mask first (`get_mask` = the first `n` words, `get_body` = the rest);
* a GGSW ciphertext has `2 * level_count` such ciphertexts after each other; `level_matrix_iter` yields pairs of them;
* an LWE ciphertext has `n` mask words and then one body word.

Vectors are lists.  Slices written through `get_mut_*` are written back into the vector.  The element-wise operations of concrete-core
(`update_with_wrapping_add`, `fill_with_copy`, ...) need equal lengths; lengths are only considered where they are equal.
Library operations (Fourier products, external product, GLWE/GGSW encryption, decomposition) are those of the other models, applied to
the polynomials the words stand for (`poly`, `rlwe`, `rgsw`).
-/

namespace Panacea
namespace Flat

variable {n : Nat}

/-- Support (`Scalar` vectors: /repo/src/num_types.rs, /repo/src/rlwe.rs:40-42). -/
abbrev Words := List Scalar

/-! ## Reading words for library calls -/

/-- `Polynomial::from_container` / `get_polynomial(0)` as a library call sees it: word `k` is coefficient `k`  (/repo/src/rlwe.rs:86-175). -/
def poly (n : Nat) (w : Words) : Poly n := ⟨fun k => w.getD k.val 0⟩

/-- The words of a polynomial a library call has computed  (/repo/src/rlwe.rs:86-175). -/
def out (p : Poly n) : Words := List.ofFn p.coeff

/-! ## `RLWECiphertext`, /repo/src/rlwe.rs:38-302 -/

/-- `RLWECiphertext::allocate`, /repo/src/rlwe.rs:44-49. -/
def allocate (n : Nat) : Words := List.replicate (n * 2) 0

/-- `get_mask` (`.as_polynomial_list().get_polynomial(0)`), /repo/src/rlwe.rs:59-61. -/
def getMask (n : Nat) (w : Words) : Words := w.take n

/-- `get_body`, /repo/src/rlwe.rs:55-57. -/
def getBody (n : Nat) (w : Words) : Words := w.drop n

/-- Write through `get_mut_mask`, /repo/src/rlwe.rs:63-65. -/
def modMask (n : Nat) (f : Words → Words) (w : Words) : Words := f (w.take n) ++ w.drop n

/-- Write through `get_mut_body`, /repo/src/rlwe.rs:67-69. -/
def modBody (n : Nat) (f : Words → Words) (w : Words) : Words := w.take n ++ f (w.drop n)

/-- `clear`, /repo/src/rlwe.rs:71-73; also /repo/src/lwe.rs:60-62 (`fill_with(Scalar::zero)`). -/
def clear (w : Words) : Words := w.map fun _ => 0

/-- `fill_with_copy`, /repo/src/rlwe.rs:75-77, and `fill_with_tensor`, 79-84, 329-334, /repo/src/lwe.rs:73-78: word by word. -/
def fillWithCopy (w other : Words) : Words := List.zipWith (fun _ y => y) w other

/-- concrete-core `update_with_wrapping_add`  (/repo/src/rlwe.rs:86-94, 130-137, 158-161; /repo/src/rgsw.rs:58-62). -/
def addWords (w other : Words) : Words := List.zipWith (· + ·) w other

/-- concrete-core `update_with_wrapping_sub`  (/repo/src/rlwe.rs:96-101, 139-143, 163-166). -/
def subWords (w other : Words) : Words := List.zipWith (· - ·) w other

/-- `utils::mul_const`, /repo/src/utils.rs:11-18. -/
def mulConst (w : Words) (c : Scalar) : Words := w.map fun x => x * c

/-- `update_mask_with_add`, /repo/src/rlwe.rs:86-94. -/
def updateMaskWithAdd (n : Nat) (w other : Words) : Words := modMask n (fun m => addWords m other) w

/-- `update_mask_with_sub`, /repo/src/rlwe.rs:96-101. -/
def updateMaskWithSub (n : Nat) (w other : Words) : Words := modMask n (fun m => subWords m other) w

/-- `update_body_with_add`, /repo/src/rlwe.rs:130-137. -/
def updateBodyWithAdd (n : Nat) (w other : Words) : Words := modBody n (fun b => addWords b other) w

/-- `update_body_with_sub`, /repo/src/rlwe.rs:139-143. -/
def updateBodyWithSub (n : Nat) (w other : Words) : Words := modBody n (fun b => subWords b other) w

/-- `update_with_add`, /repo/src/rlwe.rs:158-161: first the masks, then the bodies. -/
def updateWithAdd (n : Nat) (w other : Words) : Words :=
  let w1 := updateMaskWithAdd n w (getMask n other)
  updateBodyWithAdd n w1 (getBody n other)

/-- `update_with_sub`, /repo/src/rlwe.rs:163-166. -/
def updateWithSub (n : Nat) (w other : Words) : Words :=
  let w1 := updateMaskWithSub n w (getMask n other)
  updateBodyWithSub n w1 (getBody n other)

/-- `naive_update_with_mul_acc`, /repo/src/rlwe.rs:1181-1192: product into `tmp`, then added. -/
def naiveUpdateWithMulAcc (n : Nat) (o p1 p2 : Words) : Words :=
  let tmp := out (poly n p1 * poly n p2)
  addWords o tmp

/-- `naive_update_with_mul`, /repo/src/rlwe.rs:1194-1202. -/
def naiveUpdateWithMul (n : Nat) (p1 p2 : Words) : Words :=
  let tmp := out (poly n p1 * poly n p2)
  fillWithCopy p1 tmp

/-- `update_mask_with_mul`, /repo/src/rlwe.rs:103-118. -/
def updateMaskWithMul (n : Nat) (w other : Words) : Words :=
  let buffer := fillWithCopy (List.replicate n 0) (getMask n w)
  let w1 := modMask n clear w
  modMask n (fun m => naiveUpdateWithMulAcc n m buffer other) w1

/-- `update_body_with_mul`, /repo/src/rlwe.rs:145-152: the buffer is not used. -/
def updateBodyWithMul (n : Nat) (w other : Words) : Words :=
  let _buffer := fillWithCopy (List.replicate n 0) (getBody n w)
  let w1 := modBody n clear w
  modBody n (fun b => naiveUpdateWithMul n b other) w1

/-- `fourier_update_with_mul`, /repo/src/rlwe.rs:1077-1116. -/
def fourierUpdateWithMul (fft : Fft n) (p1 p2 : Words) : Words := out (Panacea.fourierUpdateWithMul fft (poly n p1) (poly n p2))

/-- `update_mask_with_mul_with_buf`, /repo/src/rlwe.rs:120-128. -/
def updateMaskWithMulWithBuf (fft : Fft n) (w other : Words) : Words := modMask n (fun m => fourierUpdateWithMul fft m other) w

/-- `update_body_with_mul_with_buf`, /repo/src/rlwe.rs:154-156. -/
def updateBodyWithMulWithBuf (fft : Fft n) (w other : Words) : Words := modBody n (fun b => fourierUpdateWithMul fft b other) w

/-- `update_with_monomial_div`, /repo/src/rlwe.rs:168-176: first the body, then the mask. -/
def updateWithMonomialDiv (n : Nat) (w : Words) (m : Nat) : Words :=
  let w1 := modBody n (fun b => out (RLWE.polyMonomialDiv (poly n b) m)) w
  modMask n (fun a => out (RLWE.polyMonomialDiv (poly n a) m)) w1

/-- The vector `t` of `less_eq_than`, /repo/src/rlwe.rs:247-254: `t[0] = 1`, then `iter_mut().take(n).skip(n - d)` set to -1. -/
def leqWords (n d : Nat) : Words :=
  let t := (List.replicate n 0).set 0 1
  t.take (n - d) ++ ((t.take n).drop (n - d)).map fun _ => scalarMAX

/-- `less_eq_than`, /repo/src/rlwe.rs:244-258: body first. -/
def lessEqThan (fft : Fft n) (w : Words) (d : Nat) : Option Words :=
  if d < n then
    let t := leqWords n d
    let w1 := updateBodyWithMulWithBuf fft w t
    some (updateMaskWithMulWithBuf fft w1 t)
  else none

/-- The vector `t` of `eq_to`, /repo/src/rlwe.rs:265-273. -/
def eqWords (n d : Nat) : Words :=
  let t := List.replicate n 0
  if d = 0 then t.set 0 1 else t.set (n - d) scalarMAX

/-- `eq_to`, /repo/src/rlwe.rs:262-277. -/
def eqTo (fft : Fft n) (w : Words) (d : Nat) : Option Words :=
  if d < n then
    let t := eqWords n d
    let w1 := updateBodyWithMulWithBuf fft w t
    some (updateMaskWithMulWithBuf fft w1 t)
  else none

/-- `*x.first_mut() = (*x.first()).wrapping_add(delta)`  (/repo/src/rlwe.rs:244-300). -/
def addFirst (delta : Scalar) : Words → Words
  | [] => []
  | x :: xs => (x + delta) :: xs

/-- `not_in_place`, /repo/src/rlwe.rs:282-289. -/
def notInPlace (n : Nat) (w : Words) : Words :=
  let delta : Scalar := (1 : Scalar) <<< 63
  let w1 := w.map fun x => 0 - x
  modBody n (addFirst delta) w1

/-- `not`, /repo/src/rlwe.rs:292-301. -/
def not (n : Nat) (w : Words) : Words :=
  let delta : Scalar := (1 : Scalar) <<< 63
  let o := subWords (allocate n) w
  modBody n (addFirst delta) o

/-! ## `eval_x_k` on words -/

/-- Body of the loop, /repo/src/utils.rs:46-56. -/
def evalXkStep (n : Nat) (p : Words) (k : Nat) (o : Words) (i : Nat) : Words :=
  let j := i * k % n
  let sign : Scalar := if (i * k) / n % 2 == 0 then 1 else 0xFFFFFFFFFFFFFFFF#64
  o.set j (sign * p.getD i 0)

/-- `eval_x_k`, /repo/src/utils.rs:26-57. -/
def evalXk (n : Nat) (p : Words) (k : Nat) : Option Words :=
  if k % 2 = 1 then
    if isPow2 n then
      some ((List.range' 1 (n - 1)).foldl (evalXkStep n p k) ((List.replicate n 0).set 0 (p.getD 0 0)))
    else none
  else none

/-! ## `RGSWCiphertext`, /repo/src/rgsw.rs -/

/-- `StandardGgswCiphertext<Vec<u64>>`: parameters and the flat vector (/repo/src/rgsw.rs:21-24). -/
structure Ggsw where
  baseLog : Nat
  levelCount : Nat
  words : Words

/-- The ciphertext as a library call sees it: level `l` (from 0) is at `l*4n`, its first row at offset 0, its second at `2n`  (/repo/src/rgsw.rs:24, 64-102). -/
def rgsw (n : Nat) (C : Ggsw) : RGSW n :=
  ⟨C.baseLog, (List.range C.levelCount).map fun l =>
    let m := (C.words.drop (l * (2 * (n * 2)))).take (2 * (n * 2))
    (⟨poly n (m.take n), poly n ((m.drop n).take n)⟩, ⟨poly n ((m.drop (n * 2)).take n), poly n ((m.drop (n * 2 + n)).take n)⟩)⟩

/-- The GLWE ciphertext as a library call sees it  (/repo/src/rlwe.rs:40-75). -/
def rlwe (n : Nat) (w : Words) : RLWE n := ⟨poly n (getMask n w), poly n (getBody n w)⟩

/-- The words of a GLWE ciphertext a library call has computed  (/repo/src/rlwe.rs:40-75). -/
def outRlwe (c : RLWE n) : Words := out c.mask ++ out c.body

/-- The words of a GGSW ciphertext a library call has computed  (/repo/src/rgsw.rs:24-56). -/
def outRgsw (C : RGSW n) : Ggsw := ⟨C.baseLog, C.rows.length, C.rows.flatMap fun r => outRlwe r.1 ++ outRlwe r.2⟩

/-- `RGSWCiphertext::allocate`, /repo/src/rgsw.rs:27-40. -/
def ggswAllocate (n baseLog levelCount : Nat) : Ggsw := ⟨baseLog, levelCount, List.replicate (levelCount * (2 * (n * 2))) 0⟩

/-- `ciphertext_count`, /repo/src/rgsw.rs:54-56. -/
def ciphertextCount (n : Nat) (C : Ggsw) : Nat := C.words.length / (n * 2)

/-- `update_with_add`, /repo/src/rgsw.rs:58-62: over the whole vector. -/
def ggswUpdateWithAdd (C D : Ggsw) : Ggsw := ⟨C.baseLog, C.levelCount, addWords C.words D.words⟩

/-- `get_nth_row`, /repo/src/rgsw.rs:180-192: chunk `i` of `2n` words is copied; `none` = `unwrap` past the last chunk. -/
def getNthRow (n : Nat) (C : Ggsw) (i : Nat) : Option Words :=
  if i < ciphertextCount n C then some (fillWithCopy (allocate n) ((C.words.drop (i * (n * 2))).take (n * 2))) else none

/-- `get_last_row`, /repo/src/rgsw.rs:176-178 (`none` also for the `0*2-1` underflow). -/
def getLastRow (n : Nat) (C : Ggsw) : Option Words :=
  if C.levelCount = 0 then none else getNthRow n C (C.levelCount * 2 - 1)

/-- `for (i, mut c) in x.as_mut_glwe_list().ciphertext_iter_mut().enumerate()`: the body `f` gets the index and the `m = 2n` words of
the chunk, and the variables of the surrounding function as a state; `none` is a panic  (/repo/src/rlwe.rs:444-472, /repo/src/rgsw.rs:196-226). -/
def forRows {σ : Type} (m : Nat) (f : Nat → Words → σ → Option (Words × σ)) : Nat → Nat → Words → σ → Option (Words × σ)
  | 0, _, w, s => some (w, s)
  | c + 1, i, w, s =>
    match f i (w.take m) s with
    | none => none
    | some (r, s1) =>
      match forRows m f c (i + 1) (w.drop m) s1 with
      | none => none
      | some (rs, s2) => some (r ++ rs, s2)

/-- The loop over all rows of a GGSW ciphertext  (/repo/src/rlwe.rs:444-472, /repo/src/rgsw.rs:196-226). -/
def ggswLoop {σ : Type} (n : Nat) (C : Ggsw) (f : Nat → Words → σ → Option (Words × σ)) (s : σ) : Option Ggsw :=
  match forRows (n * 2) f (ciphertextCount n C) 0 C.words s with
  | none => none
  | some (w, _) => some ⟨C.baseLog, C.levelCount, w⟩

/-- `struct RLWEKeyswitchKey`, /repo/src/rlwe.rs:511-517. -/
structure Ksk where
  ksks : List Words
  baseLog : Nat
  levelCount : Nat
  subsK : Nat

/-- The words of a key switching key of the other models  (/repo/src/rlwe.rs:512-532). -/
def outKsk (K : KeyswitchKey n) : Ksk := ⟨K.ksks.map outRlwe, K.baseLog, K.levelCount, K.subsK⟩

/-- `RLWEKeyswitchKey::allocate`, /repo/src/rlwe.rs:520-532. -/
def kskAllocate (n baseLog levelCount : Nat) : Ksk := ⟨List.replicate levelCount (allocate n), baseLog, levelCount, 0⟩

/-- `shift = 64 - base_log * level` and `1 << shift`, with the underflow panic of a checked build  (/repo/src/rlwe.rs:566-593, 1205-1253). -/
def gadgetWord (baseLog level : Nat) : Option Scalar :=
  if baseLog * level ≤ 64 then (if 64 - baseLog * level < 64 then some ((1 : Scalar) <<< (64 - baseLog * level)) else none) else none

/-- Body of the loop of `from_keyswitch_key`, /repo/src/rgsw.rs:204-223. -/
def fromKskRow (n : Nat) (ks : List Words) (baseLog i : Nat) (ct : Words) : Option Words :=
  let level := i / 2
  if i % 2 = 0 then
    match ks[level]? with
    | none => none
    | some k =>
      let ct1 := modMask n (fun m => subWords m (getMask n k)) ct
      some (modBody n (fun b => subWords b (getBody n k)) ct1)
  else
    match gadgetWord baseLog (level + 1) with
    | none => none
    | some g => some (modBody n (fun b => b.set 0 g) ct)

/-- `from_keyswitch_key`, /repo/src/rgsw.rs:196-225. -/
def fromKeyswitchKey (n : Nat) (K : Ksk) : Option Ggsw :=
  let rgsw := ggswAllocate n K.baseLog K.levelCount
  if ciphertextCount n rgsw = 2 * K.levelCount ∧ K.ksks.length = K.levelCount then
    ggswLoop n rgsw (fun i ct (_ : Unit) => (fromKskRow n K.ksks K.baseLog i ct).map fun w => (w, ())) ()
  else none

/-- `external_product(_with_buf(_glwe))`, /repo/src/rgsw.rs:64-116, on the words of `out` (or of a row). -/
def externalProduct (fft : Fft n) (C : Ggsw) (o d : Words) : Words :=
  outRlwe (Panacea.externalProduct fft (rgsw n C) (rlwe n o) (rlwe n d))

/-- `cmux_with_buf`, /repo/src/rgsw.rs:123-143. -/
def cmux (fft : Fft n) (C : Ggsw) (o ct0 ct1 : Words) : Words :=
  let tmp := fillWithCopy (allocate n) ct1
  let o1 := fillWithCopy o ct0
  let tmp1 := updateWithSub n tmp ct0
  externalProduct fft C o1 tmp1

/-! ## Encryption loops, /repo/src/rlwe.rs:444-506, 549-592 -/

/-- `encrypt_rlwe`, /repo/src/rlwe.rs:373-382. -/
def encryptRlwe (s : Poly n) (pt : Words) (g : Gen n) : Words × Gen n :=
  let r := Panacea.encryptRlwe s (poly n pt) g
  (outRlwe r.1, r.2)

/-- Body of the loop of `encrypt_rgsw`, /repo/src/rlwe.rs:453-470. -/
def encryptRgswRow (n : Nat) (ctx : Ctx) (encoded : Words) (i : Nat) (m : Words) (buf : Words) : Option (Words × Words) :=
  let level := i / 2 + 1
  match gadgetWord ctx.baseLog level with
  | none => none
  | some g =>
    let buf1 := fillWithCopy buf encoded
    let buf2 := mulConst buf1 g
    if i % 2 = 0 then some (modMask n (fun a => addWords a buf2) m, buf2)
    else some (modBody n (fun b => addWords b buf2) m, buf2)

/-- `encrypt_rgsw`, /repo/src/rlwe.rs:444-471, into a ciphertext allocated with `baseLog`, `levelCount`. -/
def encryptRgsw (ctx : Ctx) (s : Poly n) (baseLog levelCount : Nat) (encoded : Words) (g : Gen n) : Option (Ggsw × Gen n) :=
  let r := Panacea.encryptConstantRgsw s baseLog levelCount 0 g
  let buf := List.replicate n 0
  match ggswLoop n (outRgsw r.1) (encryptRgswRow n ctx encoded) buf with
  | none => none
  | some C => some (C, r.2)

/-- `y * Scalar::MAX` with overflow checks: panics unless `y` is 0 or 1  (/repo/src/rlwe.rs:494-507). -/
def negWord (y : Scalar) : Option Scalar := if y = 0 ∨ y = 1 then some (y * scalarMAX) else none

/-- `neg_gsw`, /repo/src/rlwe.rs:494-506; the key is its words. -/
def negGsw (ctx : Ctx) (s : Words) (g : Gen n) : Option (Ggsw × Gen n) :=
  match mapOption negWord ((List.replicate n (0 : Scalar)).zip s |>.map (·.2)) with
  | none => none
  | some neg => encryptRgsw ctx (poly n s) ctx.negsBaseLog ctx.negsLevelCount neg g

/-- Body of the loop of `fill_with_keyswitch_key`, /repo/src/rlwe.rs:583-590. -/
def kskRow (K : Ksk) (before : Words) (after : Poly n) (level : Nat) (g : Gen n) : Option (Words × Gen n) :=
  let buf := clear (List.replicate n 0)
  let buf := fillWithCopy buf before
  match gadgetWord K.baseLog level with
  | none => none
  | some w => some (encryptRlwe after (mulConst buf w) g)

/-- `fill_with_keyswitch_key`, /repo/src/rlwe.rs:566-592: `(1..=level_count).zip(&mut ksks)`. -/
def fillWithKeyswitchKey (K : Ksk) (before after : Words) (g : Gen n) : Option (Ksk × Gen n) :=
  match mapGenM (fun (lk : Nat × Words) g => kskRow K before (poly n after) lk.1 g) ((List.range' 1 K.levelCount).zip K.ksks) g with
  | none => none
  | some (rows, g') => some (⟨rows ++ K.ksks.drop K.levelCount, K.baseLog, K.levelCount, 0⟩, g')

/-- `fill_with_subs_keyswitch_key`, /repo/src/rlwe.rs:549-562; `before` is the caller's key buffer. -/
def fillWithSubsKeyswitchKey (K : Ksk) (before after : Words) (k : Nat) (g : Gen n) : Option (Ksk × Gen n) :=
  match evalXk n after k with
  | none => none
  | some p =>
    let before1 := fillWithCopy before p
    match fillWithKeyswitchKey K before1 after g with
    | none => none
    | some (K1, g') => some (⟨K1.ksks, K1.baseLog, K1.levelCount, k⟩, g')

/-! ## Key switching, /repo/src/rlwe.rs:643-709 -/

/-- The loop, /repo/src/rlwe.rs:664-688; `terms` is what the decomposition still has to give. -/
def keyswitchLoop (fft : Fft n) : List Words → List (Poly n) → Words → Option Words
  | [], _, after => some after
  | _ :: _, [], _ => none
  | ksk :: ksks, term :: terms, after =>
    let polyMask := out (fourierUpdateWithMulAcc fft 0 (poly n (getMask n ksk)) term)
    let polyBody := out (fourierUpdateWithMulAcc fft 0 (poly n (getBody n ksk)) term)
    let after1 := updateMaskWithSub n after polyMask
    keyswitchLoop fft ksks terms (updateBodyWithSub n after1 polyBody)

/-- `keyswitch_ciphertext`, /repo/src/rlwe.rs:643-689. -/
def keyswitchCiphertext (fft : Fft n) (K : Ksk) (after before : Words) : Option Words :=
  let after1 := clear after
  let after2 := modBody n (fun b => addWords b (getBody n before)) after1
  keyswitchLoop fft K.ksks.reverse (maskTerms K.baseLog K.levelCount (poly n (getMask n before))) after2

/-- `subs`, /repo/src/rlwe.rs:693-709. -/
def subs (fft : Fft n) (K : Ksk) (after before : Words) : Option Words :=
  let c := fillWithCopy (allocate n) before
  match evalXk n (getMask n c) K.subsK, evalXk n (getBody n c) K.subsK with
  | some m, some b =>
    let c1 := modMask n (fun x => fillWithCopy x m) c
    let c2 := modBody n (fun x => fillWithCopy x b) c1
    keyswitchCiphertext fft K after c2
  | _, _ => none

/-- Loop of `trace1`, /repo/src/rlwe.rs:183-189. -/
def trace1Loop (fft : Fft n) (ksks : Nat → Option Ksk) : List Nat → Words → Words → Option Words
  | [], _, o => some o
  | i :: is, buf, o =>
    let k := traceExp n i
    match ksks k with
    | none => none
    | some ksk =>
      if ksk.subsK = k then
        match subs fft ksk buf o with
        | none => none
        | some buf' => trace1Loop fft ksks is buf' (updateWithAdd n o buf')
      else none

/-- `trace1`, /repo/src/rlwe.rs:179-191. -/
def trace1 (fft : Fft n) (ksks : Nat → Option Ksk) (w : Words) : Option Words :=
  match log2 n with
  | none => none
  | some ln => trace1Loop fft ksks (List.range' 1 ln) (allocate n) w

/-! ## Expansion loops, /repo/src/rlwe.rs:989-1075 -/

/-- Body of the row loop of `expand` and `decomposed_rlwe_to_rgsw`, /repo/src/rlwe.rs:998-1005, 1066-1073. -/
def packRow (fft : Fft n) (cs : List Words) (negS : Ggsw) (i : Nat) (c : Words) : Option Words :=
  let k := i / 2
  if i % 2 = 0 then
    match cs[k]? with
    | none => none
    | some ck => some (externalProduct fft negS c ck)
  else
    match cs[k]? with
    | none => none
    | some ck => some (fillWithCopy c ck)

/-- `decomposed_rlwe_to_rgsw`, /repo/src/rlwe.rs:1059-1075. -/
def decomposedRlweToRgsw (fft : Fft n) (ctx : Ctx) (cs : List Words) (negS : Ggsw) : Option Ggsw :=
  ggswLoop n (ggswAllocate n ctx.baseLog ctx.levelCount)
    (fun i c (_ : Unit) => (packRow fft cs negS i c).map fun w => (w, ())) ()

/-- `expand`, /repo/src/rlwe.rs:989-1007. -/
def expand (fft : Fft n) (ctx : Ctx) (cs : List Words) (ksks : Nat → Option Ksk) (negS : Ggsw) : Option Ggsw :=
  if cs = [] then none
  else match mapOption (trace1 fft ksks) cs with
    | none => none
    | some csp =>
      ggswLoop n (ggswAllocate n ctx.baseLog ctx.levelCount)
        (fun i c (_ : Unit) => (packRow fft csp negS i c).map fun w => (w, ())) ()

/-- Body of the row loop of `expand_fourier`, /repo/src/rlwe.rs:1020-1028: `c_prime` is carried from the even to the odd row.
`trace` is `trace1_fourier` with the given keys. -/
def expandFourierRow (fft : Fft n) (trace : RLWE n → Option (RLWE n)) (cs : List Words) (negS : Ggsw) (i : Nat) (c cPrime : Words) :
    Option (Words × Words) :=
  let k := i / 2
  if i % 2 = 0 then
    match cs[k]? with
    | none => none
    | some ck =>
      match trace (rlwe n ck) with
      | none => none
      | some t => some (externalProduct fft negS c (outRlwe t), outRlwe t)
  else some (fillWithCopy c cPrime, cPrime)

/-- `expand_fourier`, /repo/src/rlwe.rs:1011-1030. -/
def expandFourier (fft : Fft n) (ctx : Ctx) (cs : List Words) (ksks : KskMap n) (negS : Ggsw) : Option Ggsw :=
  if cs = [] then none
  else ggswLoop n (ggswAllocate n ctx.baseLog ctx.levelCount) (expandFourierRow fft (trace1Fourier fft ksks) cs negS) (allocate n)

/-! ## LWE, /repo/src/lwe.rs -/

/-- `LWECiphertext::get_mask`, /repo/src/lwe.rs:48-50: all words but the last. -/
def lweMask (w : Words) : Words := w.take (w.length - 1)

/-- `LWECiphertext::get_body`, /repo/src/lwe.rs:44-46: the last word. -/
def lweBody (w : Words) : Scalar := w.getD (w.length - 1) 0

/-- The words of an LWE ciphertext a library call has computed (/repo/src/lwe.rs:30-42, 64-82). -/
def outLwe (c : LWE n) : Words := out c.mask ++ [c.body]

/-- `LWESecretKey::to_rlwe_sk`, /repo/src/lwe.rs:135-139. -/
def toRlweSk (s : Words) : Words := fillWithCopy (List.replicate s.length 0) s

/-- The second row of level matrix `l`, copied into a fresh ciphertext, /repo/src/lwe.rs:195-202. -/
def levelRow (n : Nat) (C : Ggsw) (l : Nat) : Words :=
  let matrix := (C.words.drop (l * (2 * (n * 2)))).take (2 * (n * 2))
  let ct := (matrix.drop (n * 2)).take (n * 2)
  let o := updateMaskWithAdd n (allocate n) (getMask n ct)
  updateBodyWithAdd n o (getBody n ct)

/-- Body of the inner loop of `conv_lwe_to_rlwe`, /repo/src/lwe.rs:204-223. -/
def convStep (n : Nat) (o : Words) (cd : Words × Scalar) : Words :=
  let ct := modMask n (fun m => mulConst m cd.2) cd.1
  let ct := modBody n (fun b => mulConst b cd.2) ct
  let o := modMask n (fun m => subWords m (getMask n ct)) o
  modBody n (fun b => subWords b (getBody n ct)) o

/-- Body of the outer loop, /repo/src/lwe.rs:185-224. -/
def convOuter (n : Nat) (ctx : Ctx) (o : Words) (ka : Ggsw × Scalar) : Words :=
  let closest := closestRepresentable ctx.ksBaseLog ctx.ksLevelCount ka.2
  let digits := decompose ctx.ksBaseLog ctx.ksLevelCount closest
  let rows := (List.range ka.1.levelCount).reverse.map (levelRow n ka.1)
  (rows.zip digits).foldl (convStep n) o

/-- `conv_lwe_to_rlwe`, /repo/src/lwe.rs:178-236. -/
def convLweToRlwe (n : Nat) (ctx : Ctx) (ksks : List Ggsw) (lwe : Words) : Words :=
  let o := (ksks.zip (lweMask lwe)).foldl (convOuter n ctx) (allocate n)
  let b := (List.replicate n 0).set 0 (lweBody lwe)
  modBody n (fun x => addWords x b) o

/-- `expand_slow`, /repo/src/rlwe.rs:1035-1057 (sample extraction is a library call). -/
def expandSlow (fft : Fft n) (ctx : Ctx) (cs : List Words) (ksks : List Ggsw) (negS : Ggsw) : Option Ggsw :=
  if n = ksks.length ∧ cs.length = ctx.levelCount ∧ cs ≠ [] then
    decomposedRlweToRgsw fft ctx (cs.map fun w => convLweToRlwe n ctx ksks (outLwe (constSampleExtract (rlwe n w)))) negS
  else none

end Flat
end Panacea
