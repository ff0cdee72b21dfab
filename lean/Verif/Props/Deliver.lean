import Verif.Spec.Deliver
import Verif.Props.Session
import Verif.Props.Batch

/-!
# C96: the server is an array for whatever arrives, in the order it arrives
-/

namespace Panacea
variable {n : Nat}

/-- A session of one call is: make the message, serve it, decode. -/
theorem runSession_single {fft : Fft n} {ctx : Ctx} {s : Poly n} {cols : Nat} {H : NaiveHash} {R : Reducer n} {c : Call n} {S S' : Server n}
    {g g' : Gen n} {yss : List (List (Poly n))} (h : runSession fft ctx s cols H [(R, c)] S g = some (yss, S', g')) :
    ∃ msg ys, Message.make ctx s cols H c g = some (msg, g') ∧ msg.serve fft R S = some (ys, S') ∧ yss = [ys.map (decryptDecodeRlwe ctx s)] := by
  cases c with
  | one c =>
    simp only [runSession] at h
    split at h
    · cases h
    · rename_i q g1 hq
      split at h
      · cases h
      · rename_i y S1 hy
        cases h
        exact ⟨.one q, [y], by simp only [Message.make, hq, Option.map_some], by simp only [Message.serve, hy, Option.map_some], rfl⟩
  | multi cs =>
    simp only [runSession] at h
    split at h
    · cases h
    · rename_i qs g1 hq
      split at h
      · cases h
      · rename_i y S1 hy
        cases h
        exact ⟨.multi qs, y, by simp only [Message.make, hq, Option.map_some], hy, rfl⟩

/-- C96: whatever messages arrive, in whatever order -- each a message some client with this key made for a valid call, possibly lost before or after,
duplicated, delayed or replayed -- the server never panics and answers like a plain array to which the calls are applied in the order of arrival,
within the noise budget. -/
theorem C96_delivery {t : Scalar} {ctx : Ctx} (hcd : Codec.new t = some ctx.codec) (hn : 0 < n) {fft : Fft n} {phi : Nat}
    (hf : fft.Bounded phi) {s : Poly n} (hs : Binary s) (shuffle : List Nat → List Nat) (hsh : ∀ l, (shuffle l).Perm l) {hc N : Nat}
    {H : NaiveHash} (hnew : NaiveHash.new shuffle hc N = some H) {D : Nat} (hD1 : 1 ≤ D) (hD : D < 64) (hsize : 2 ^ D = hc * N) {B : Nat} :
    ∀ (arrivals : List (Reducer n × Call n × Message n)) (v : Nat → Poly n) (e : Nat) (S : Server n),
      B ≤ e → OneInv ctx s H D N B v e S →
      (∀ a ∈ arrivals, a.1.Valid ctx (2 ^ D) ∧ a.2.1.Valid N t ∧ Message.For ctx s (2 ^ D) H B a.2.1 a.2.2) →
      2 * (e + sessionNoise ctx n B phi D (arrivals.map fun a => a.2.1) + 2 ^ D * deltaSel ctx n B phi D) < 2 ^ 64 / t.toNat →
      ∃ yss S', deliver fft (arrivals.map fun a => (a.1, a.2.2)) S = some (yss, S') ∧
        yss.map (fun ys => ys.map (decryptDecodeRlwe ctx s)) = Spec.session v (arrivals.map fun a => a.2.1) ∧
        OneInv ctx s H D N B ((arrivals.map fun a => a.2.1).foldl (fun v c => c.cmds.foldl Spec.apply v) v)
          (e + sessionNoise ctx n B phi D (arrivals.map fun a => a.2.1)) S'
  | [], v, e, S, _, hinv, _, _ => ⟨[], S, rfl, rfl, by simpa [sessionNoise] using hinv⟩
  | (R, c, msg) :: rest, v, e, S, he, hinv, hval, hb => by
    obtain ⟨h1, h2, g, g', hg, hmake⟩ := hval _ (List.mem_cons_self ..)
    have hsum : sessionNoise ctx n B phi D (((R, c, msg) :: rest).map fun a => a.2.1)
        = sessionNoise ctx n B phi D [c] + sessionNoise ctx n B phi D (rest.map fun a => a.2.1) := by
      simp [sessionNoise]
    rw [hsum] at hb ⊢
    obtain ⟨S1, g1, r1, _, r3⟩ := C54_session hcd hn hf hs shuffle hsh hnew hD1 hD hsize [(R, c)] v e S g he hg hinv
      (fun st hst => by rw [List.mem_singleton] at hst; subst hst; exact ⟨h1, h2⟩)
      (by simp only [List.map_cons, List.map_nil]; omega)
    obtain ⟨msg', ys, m1, m2, m3⟩ := runSession_single r1
    dsimp only at hmake
    rw [hmake] at m1
    cases m1
    simp only [List.map_cons, List.map_nil, List.foldl_cons, List.foldl_nil] at r3
    obtain ⟨yss, S', d1, d2, d3⟩ := C96_delivery hcd hn hf hs shuffle hsh hnew hD1 hD hsize rest _ _ S1 (le_trans he (Nat.le_add_right _ _)) r3
      (fun a ha => hval a (List.mem_cons_of_mem _ ha)) (by omega)
    refine ⟨ys :: yss, S', ?_, ?_, ?_⟩
    · simp only [List.map_cons, deliver, m2, d1]
    · simp only [List.map_cons, List.map_nil, Spec.session, d2]
      simp only [List.map_cons, List.map_nil, Spec.session] at m3
      rw [← (List.cons.inj m3).1]
    · rw [← Nat.add_assoc]; exact d3

/-- Every valid call has a message. -/
theorem make_some {t : Scalar} {ctx : Ctx} (hcd : Codec.new t = some ctx.codec) (h1 : 1 ≤ ctx.baseLog) (h2 : 1 ≤ ctx.levelCount)
    (h3 : ctx.baseLog * ctx.levelCount < 64) (s : Poly n) (shuffle : List Nat → List Nat) (hsh : ∀ l, (shuffle l).Perm l) {hc N : Nat}
    {H : NaiveHash} (hnew : NaiveHash.new shuffle hc N = some H) {D : Nat} (hD : D < 64) (hsize : 2 ^ D = hc * N) {B : Nat} {c : Call n}
    (hv : c.Valid N t) {g : Gen n} (hg : g.Bounded B) : ∃ msg g', Message.make ctx s (2 ^ D) H c g = some (msg, g') ∧ g'.Bounded B := by
  obtain ⟨b1, b2, _⟩ := C10_tuple_bijection shuffle hsh hc N H hnew 1 (2 ^ D) (by positivity) (by omega)
  have hcpos : 0 < hc := by
    rcases Nat.eq_zero_or_pos hc with h0 | h0
    · have : 0 < 2 ^ D := by positivity
      rw [hsize, h0] at this; omega
    · exact h0
  have htup : ∀ i, i < N → ∃ c, H.hashToTuple 0 i (2 ^ D) = some (0, c) := fun i hi => by
    obtain ⟨r, c, ht, hr, _⟩ := b1 0 i hcpos hi
    have : r = 0 := by omega
    subst this; exact ⟨c, ht⟩
  cases c with
  | one c =>
    obtain ⟨col, ht⟩ := htup c.index (hv.1 c (by simp [Call.cmds])).lt
    obtain ⟨q, g1, w, m, q1, q2, _⟩ := clientQuery_one hcd h1 h2 h3 s shuffle hsh hnew hD (hv.1 c (by simp [Call.cmds])) ht hg
    exact ⟨.one q, g1, by simp only [Message.make, q1, Option.map_some], q2⟩
  | multi cs =>
    obtain ⟨qs, _, g1, q1, q2, _⟩ := clientQueries hcd h1 h2 h3 s shuffle hsh hnew hD htup cs hv.1 hg
    exact ⟨.multi qs, g1, by simp only [Message.make, q1, Option.map_some], q2⟩

/-- The call of arrival `(k, j)`: client `k`'s `j`-th. -/
def callAt (clients : List (List (Call n) × Gen n)) (p : Nat × Nat) : Option (Call n) := clients[p.1]?.bind fun x => x.1[p.2]?

/-- The message of arrival `(k, j)`. -/
def msgAt (pool : List (List (Message n))) (p : Nat × Nat) : Option (Message n) := pool[p.1]?.bind fun x => x[p.2]?

/-- C96 (several clients, end to end): on a server made by `setup_random_oram`, any number of clients that share the key prepare the messages of their calls,
each with its own generator, without a panic.  Whichever of these messages arrive, in whatever order and however often, the server answers like a plain
array, initially the plaintexts of the setup, to which the calls are applied in the order of arrival. -/
theorem C96_clients {t : Scalar} {ctx : Ctx} (hcd : Codec.new t = some ctx.codec) (hn : 0 < n) {fft : Fft n} {phi : Nat}
    (hf : fft.Bounded phi) {s : Poly n} (hs : Binary s) (shuffle : List Nat → List Nat) (hsh : ∀ l, (shuffle l).Perm l) {hc N : Nat}
    {H : NaiveHash} (hnew : NaiveHash.new shuffle hc N = some H) {D : Nat} (hD1 : 1 ≤ D) (hD : D < 64) (hsize : 2 ^ D = hc * N)
    (h1 : 1 ≤ ctx.baseLog) (h2 : 1 ≤ ctx.levelCount) (h3 : ctx.baseLog * ctx.levelCount < 64)
    (hn1 : ctx.negsBaseLog = ctx.baseLog) (hn2 : 1 ≤ ctx.negsLevelCount) (hn3 : ctx.negsBaseLog * ctx.negsLevelCount < 64)
    {g : Gen n} {B : Nat} (hg : g.Bounded B) (clients : List (List (Call n) × Gen n))
    (hcl : ∀ x ∈ clients, x.2.Bounded B ∧ ∀ c ∈ x.1, c.Valid N t) :
    ∃ S pts g1 pool, setupRandomOram ctx s 1 (2 ^ D) H g = some (S, pts, g1) ∧ pts.length = N ∧ prepare ctx s (2 ^ D) H clients = some pool ∧
      ∀ (arrivals : List (Reducer n × Nat × Nat)) (calls : List (Call n)), (∀ a ∈ arrivals, a.1.Valid ctx (2 ^ D)) →
        arrivals.map (fun a => callAt clients a.2) = calls.map some →
        2 * (B + sessionNoise ctx n B phi D calls + 2 ^ D * deltaSel ctx n B phi D) < 2 ^ 64 / t.toNat →
        ∃ msgs yss S', arrivals.map (fun a => msgAt pool a.2) = msgs.map some ∧
          deliver fft ((arrivals.map Prod.fst).zip msgs) S = some (yss, S') ∧
          yss.map (fun ys => ys.map (decryptDecodeRlwe ctx s)) = Spec.session (fun i => pts.getD i 0) calls := by
  obtain ⟨S, pts, g1, hset, e3, _, hinv⟩ := setup_oneInv hcd hs shuffle hsh hnew hsize h1 h2 h3 hn1 hn2 hn3 hg
  obtain ⟨pool, hp, hpool⟩ := mapOption_spec (f := fun x => (mapGenM (Message.make ctx s (2 ^ D) H) x.1 x.2).map Prod.fst)
    (Q := fun x ms => List.Forall₂ (fun c m => c.Valid N t ∧ Message.For ctx s (2 ^ D) H B c m) x.1 ms) clients (fun x hx => by
      obtain ⟨hb, hv⟩ := hcl x hx
      obtain ⟨r, r1, r2, _⟩ := mapGenM_spec (f := Message.make ctx s (2 ^ D) H) (P := fun g => g.Bounded B)
        (Q := fun c m => c.Valid N t ∧ Message.For ctx s (2 ^ D) H B c m) x.1 (fun c hc g hg => by
          obtain ⟨msg, g', m1, m2⟩ := make_some hcd h1 h2 h3 s shuffle hsh hnew hD hsize (hv c hc) hg
          exact ⟨(msg, g'), m1, ⟨hv c hc, g, g', hg, m1⟩, m2⟩) x.2 hb
      exact ⟨r.1, by simp only [r1, Option.map_some], r2⟩)
  refine ⟨S, pts, g1, pool, hset, e3, hp, fun arrivals calls hR hcalls hbud => ?_⟩
  -- the messages that arrive
  have key : ∀ (arrivals : List (Reducer n × Nat × Nat)) (calls : List (Call n)), (∀ a ∈ arrivals, a.1.Valid ctx (2 ^ D)) →
      arrivals.map (fun a => callAt clients a.2) = calls.map some →
      ∃ arr : List (Reducer n × Call n × Message n), arr.map (fun a => a.2.1) = calls ∧ arr.map Prod.fst = arrivals.map Prod.fst ∧
        arrivals.map (fun a => msgAt pool a.2) = (arr.map fun a => a.2.2).map some ∧
        ∀ a ∈ arr, a.1.Valid ctx (2 ^ D) ∧ a.2.1.Valid N t ∧ Message.For ctx s (2 ^ D) H B a.2.1 a.2.2 := by
    intro arrivals
    induction arrivals with
    | nil =>
      intro calls _ h
      cases calls with
      | nil => exact ⟨[], rfl, rfl, rfl, fun a ha => absurd ha (List.not_mem_nil)⟩
      | cons c cs => simp at h
    | cons a arrivals ih =>
      intro calls hR h
      cases calls with
      | nil => simp at h
      | cons c cs =>
        simp only [List.map_cons, List.cons.injEq] at h
        obtain ⟨hc, hcs⟩ := h
        obtain ⟨arr, i1, i2, i3, i4⟩ := ih cs (fun a ha => hR a (List.mem_cons_of_mem _ ha)) hcs
        have : ∃ m, msgAt pool a.2 = some m ∧ c.Valid N t ∧ Message.For ctx s (2 ^ D) H B c m := by
          unfold callAt at hc
          obtain ⟨x, hx, hxc⟩ := Option.bind_eq_some_iff.mp hc
          obtain ⟨ms, hms, hf2⟩ := forall₂_getElem (List.Forall₂.flip hpool) hx
          obtain ⟨m, hm, hq⟩ := forall₂_getElem (List.Forall₂.flip hf2) hxc
          exact ⟨m, by unfold msgAt; rw [hms]; exact hm, hq⟩
        obtain ⟨m, hm, hv, hfor⟩ := this
        refine ⟨(a.1, c, m) :: arr, by simp [i1], by simp [i2], by simp [i3, hm], ?_⟩
        intro b hb
        rcases List.mem_cons.mp hb with rfl | hb
        · exact ⟨hR a (List.mem_cons_self ..), hv, hfor⟩
        · exact i4 b hb
  obtain ⟨arr, a1, a2, a3, a4⟩ := key arrivals calls hR hcalls
  obtain ⟨yss, S', d1, d2, _⟩ := C96_delivery hcd hn hf hs shuffle hsh hnew hD1 hD hsize arr _ B S (le_refl B) hinv a4 (by rw [a1]; exact hbud)
  refine ⟨arr.map fun a => a.2.2, yss, S', a3, ?_, by rw [d2, a1]⟩
  rw [← a2, List.zip_map']
  exact d1

theorem apply_idem (v : Nat → Poly n) (c : Cmd n) : Spec.apply (Spec.apply v c) c = Spec.apply v c := by
  cases c with
  | read i => rfl
  | write i a => simp [Spec.apply]

theorem apply_other {v : Nat → Poly n} {c : Cmd n} {i : Nat} (h : c.index ≠ i) : Spec.apply v c i = v i := by
  cases c with
  | read j => rfl
  | write j a => exact Function.update_of_ne (Ne.symm h) _ _

/-- What a call stores at an item, independently of what was there. -/
theorem foldl_apply_congr : ∀ (cs : List (Cmd n)) {v w : Nat → Poly n} {i : Nat}, v i = w i → cs.foldl Spec.apply v i = cs.foldl Spec.apply w i
  | [], _, _, _, h => h
  | .read j :: cs, v, w, i, h => foldl_apply_congr cs (v := v) (w := w) h
  | .write j a :: cs, v, w, i, h => by
    rw [List.foldl_cons, List.foldl_cons]
    refine foldl_apply_congr cs ?_
    by_cases hij : i = j
    · subst hij; simp [Spec.apply]
    · simp [Spec.apply, Function.update_of_ne hij, h]

theorem foldl_apply_const : ∀ (cs : List (Cmd n)) (i : Nat), (∃ a, ∀ v : Nat → Poly n, cs.foldl Spec.apply v i = a) ∨ ∀ v : Nat → Poly n, cs.foldl Spec.apply v i = v i
  | [], _ => .inr fun _ => rfl
  | c :: cs, i => by
    rcases foldl_apply_const cs i with ⟨a, h⟩ | h
    · exact .inl ⟨a, fun v => h _⟩
    · cases c with
      | read j => exact .inr fun v => h v
      | write j b =>
        by_cases hij : i = j
        · subst hij; exact .inl ⟨b, fun v => by rw [List.foldl_cons, h]; simp [Spec.apply]⟩
        · exact .inr fun v => by rw [List.foldl_cons, h]; simp [Spec.apply, Function.update_of_ne hij]

/-- Applying a call twice is applying it once. -/
theorem call_idem (c : Call n) (v : Nat → Poly n) : c.cmds.foldl Spec.apply (c.cmds.foldl Spec.apply v) = c.cmds.foldl Spec.apply v := by
  funext i
  rcases foldl_apply_const c.cmds i with ⟨a, h⟩ | h
  · rw [h, h]
  · rw [h]

theorem session_append (v : Nat → Poly n) : ∀ (a b : List (Call n)),
    Spec.session v (a ++ b) = Spec.session v a ++ Spec.session (a.foldl (fun v c => c.cmds.foldl Spec.apply v) v) b
  | [], _ => rfl
  | c :: a, b => by simp only [List.cons_append, Spec.session, session_append _ a b, List.foldl_cons]

/-- C96 (duplicates are harmless): a message that is delivered twice in a row changes no later answer. -/
theorem C96_duplicate {t : Scalar} {ctx : Ctx} (hcd : Codec.new t = some ctx.codec) (hn : 0 < n) {fft : Fft n} {phi : Nat}
    (hf : fft.Bounded phi) {s : Poly n} (hs : Binary s) (shuffle : List Nat → List Nat) (hsh : ∀ l, (shuffle l).Perm l) {hc N : Nat}
    {H : NaiveHash} (hnew : NaiveHash.new shuffle hc N = some H) {D : Nat} (hD1 : 1 ≤ D) (hD : D < 64) (hsize : 2 ^ D = hc * N) {B : Nat}
    (pre post : List (Reducer n × Call n × Message n)) (x x' : Reducer n × Call n × Message n) (hdup : x'.2 = x.2) (v : Nat → Poly n) (e : Nat) (S : Server n)
    (he : B ≤ e) (hinv : OneInv ctx s H D N B v e S)
    (hval : ∀ a ∈ pre ++ x :: x' :: post, a.1.Valid ctx (2 ^ D) ∧ a.2.1.Valid N t ∧ Message.For ctx s (2 ^ D) H B a.2.1 a.2.2)
    (hb : 2 * (e + sessionNoise ctx n B phi D ((pre ++ x :: x' :: post).map fun a => a.2.1) + 2 ^ D * deltaSel ctx n B phi D) < 2 ^ 64 / t.toNat) :
    ∃ yss S' yss' S'', deliver fft ((pre ++ x :: post).map fun a => (a.1, a.2.2)) S = some (yss, S') ∧
      deliver fft ((pre ++ x :: x' :: post).map fun a => (a.1, a.2.2)) S = some (yss', S'') ∧
      (yss.drop (pre.length + 1)).map (fun ys => ys.map (decryptDecodeRlwe ctx s)) = (yss'.drop (pre.length + 2)).map (fun ys => ys.map (decryptDecodeRlwe ctx s)) := by
  have hsub : ∀ a ∈ pre ++ x :: post, a ∈ pre ++ x :: x' :: post := by
    intro a ha
    simp only [List.mem_append, List.mem_cons] at ha ⊢
    tauto
  obtain ⟨yss, S', d1, d2, _⟩ := C96_delivery hcd hn hf hs shuffle hsh hnew hD1 hD hsize (pre ++ x :: post) v e S he hinv (fun a ha => hval a (hsub a ha)) (by
    simp only [sessionNoise, List.map_append, List.map_cons, List.sum_append, List.sum_cons] at hb ⊢
    omega)
  obtain ⟨yss', S'', f1, f2, _⟩ := C96_delivery hcd hn hf hs shuffle hsh hnew hD1 hD hsize (pre ++ x :: x' :: post) v e S he hinv hval hb
  refine ⟨yss, S', yss', S'', d1, f1, ?_⟩
  rw [List.map_drop, List.map_drop, d2, f2]
  have hl : ∀ (v : Nat → Poly n) (cs : List (Call n)), (Spec.session v cs).length = cs.length := by
    intro v cs
    induction cs generalizing v with
    | nil => rfl
    | cons c cs ih => simp only [Spec.session, List.length_cons, ih]
  simp only [List.map_append, List.map_cons]
  rw [session_append, session_append, List.drop_append, List.drop_append, hl]
  simp only [Spec.session, hdup, call_idem, List.length_map]
  have hd : ∀ k, List.drop (pre.length + k) (Spec.session v (pre.map fun a => a.2.1)) = [] := fun k =>
    List.drop_of_length_le (by rw [hl, List.length_map]; omega)
  rw [hd 1, hd 2]
  rw [show pre.length + 1 - pre.length = 1 by omega, show pre.length + 2 - pre.length = 2 by omega]
  rfl

/-- C96 (replay, a finding): the server can undo a WRITE by handling an old message again.  After `write i a`, `write i b` and a replay of the first message,
`read i` is answered with `a`. -/
theorem C96_replay {t : Scalar} {ctx : Ctx} (hcd : Codec.new t = some ctx.codec) (hn : 0 < n) {fft : Fft n} {phi : Nat}
    (hf : fft.Bounded phi) {s : Poly n} (hs : Binary s) (shuffle : List Nat → List Nat) (hsh : ∀ l, (shuffle l).Perm l) {hc N : Nat}
    {H : NaiveHash} (hnew : NaiveHash.new shuffle hc N = some H) {D : Nat} (hD1 : 1 ≤ D) (hD : D < 64) (hsize : 2 ^ D = hc * N) {B : Nat}
    {i : Nat} (hi : i < N) {a b : Poly n} (ha : Spec.Encodable t a) (hb : Spec.Encodable t b) {wa wb r : Message n}
    (hwa : Message.For ctx s (2 ^ D) H B (.one (.write i a)) wa) (hwb : Message.For ctx s (2 ^ D) H B (.one (.write i b)) wb)
    (hr : Message.For ctx s (2 ^ D) H B (.one (.read i)) r) {R : Reducer n} (hR : R.Valid ctx (2 ^ D)) {v : Nat → Poly n} {e : Nat} {S : Server n}
    (he : B ≤ e) (hinv : OneInv ctx s H D N B v e S)
    (hbud : 2 * (e + 4 * (deltaOp ctx n B phi + deltaSel ctx n B phi D) + 2 ^ D * deltaSel ctx n B phi D) < 2 ^ 64 / t.toNat) :
    ∃ yss S', deliver fft [(R, wa), (R, wb), (R, wa), (R, r)] S = some (yss, S') ∧
      yss.map (fun ys => ys.map (decryptDecodeRlwe ctx s)) = [[v i], [a], [b], [a]] := by
  have hnd : ∀ c : Cmd n, c.Valid N t → (Call.one c).Valid N t := fun c h => ⟨fun c' h' => by simp [Call.cmds] at h'; subst h'; exact h, by simp [Call.cmds]⟩
  obtain ⟨yss, S', d1, d2, _⟩ := C96_delivery hcd hn hf hs shuffle hsh hnew hD1 hD hsize
    [(R, .one (.write i a), wa), (R, .one (.write i b), wb), (R, .one (.write i a), wa), (R, .one (.read i), r)] v e S he hinv (by
      intro x hx
      simp only [List.mem_cons, List.not_mem_nil, or_false] at hx
      rcases hx with rfl | rfl | rfl | rfl
      · exact ⟨hR, hnd _ ⟨hi, ha⟩, hwa⟩
      · exact ⟨hR, hnd _ ⟨hi, hb⟩, hwb⟩
      · exact ⟨hR, hnd _ ⟨hi, ha⟩, hwa⟩
      · exact ⟨hR, hnd _ hi, hr⟩) (by
      simp only [sessionNoise, List.map_cons, List.map_nil, callNoise, List.sum_cons, List.sum_nil]
      omega)
  refine ⟨yss, S', d1, ?_⟩
  rw [d2]
  simp [Spec.session, Call.cmds, Cmd.index, Spec.apply]

/-- C96 (batches): whatever batches arrive, in whatever order -- each made by some client with this key for a valid batch command -- the server never panics,
every mapped row is answered with the content of its item in the plain array to which the commands are applied in the order of arrival, and the database
stays consistent. -/
theorem C96_batches {t : Scalar} {ctx : Ctx} (hcd : Codec.new t = some ctx.codec) (hn : 0 < n) {fft : Fft n} {phi : Nat}
    (hf : fft.Bounded phi) {s : Poly n} (hs : Binary s) (shuffle : List Nat → List Nat) (hshf : ∀ l, (shuffle l).Perm l) {hc N : Nat}
    {H : NaiveHash} (hnew : NaiveHash.new shuffle hc N = some H) {D rows : Nat} (hD1 : 1 ≤ D) (hD : D < 64) (hpos : 0 < rows)
    (hsize : rows * 2 ^ D = hc * N) {T : Nat → Nat → Nat × Nat} (L : Layout H rows (2 ^ D) hc N T) {B : Nat} :
    ∀ (arrivals : List (BatchCmd n × List (ClientQuery n))) (v : Nat → Poly n) (e : Nat) (S : Server n),
      B ≤ e → S.ctx = ctx → ServerKeys ctx s S.negS B → DbShape rows (2 ^ D) S.data → Consistent ctx s hc N T S.data v e →
      (∀ a ∈ arrivals, a.1.Valid N t ∧ BatchFor ctx s rows (2 ^ D) H B a.1 a.2) →
      2 * (e + arrivals.length * ((2 * hc - 1) * (deltaOp ctx n B phi + deltaSel ctx n B phi D)) + 2 ^ D * deltaSel ctx n B phi D)
        < 2 ^ 64 / t.toNat →
      ∃ yss S', deliverBatches fft H (arrivals.map Prod.snd) S = some (yss, S') ∧
        Spec.batchOk H (2 ^ D) v (arrivals.map Prod.fst) (yss.map fun ys => ys.map (decryptDecodeRlwe ctx s)) ∧ DbShape rows (2 ^ D) S'.data ∧
        Consistent ctx s hc N T S'.data ((arrivals.map Prod.fst).foldl (Spec.applyBatch H (2 ^ D)) v)
          (e + arrivals.length * ((2 * hc - 1) * (deltaOp ctx n B phi + deltaSel ctx n B phi D)))
  | [], v, e, S, _, _, _, hsh, hcons, _, _ => ⟨[], S, rfl, trivial, hsh, by simpa using hcons⟩
  | (c, qs) :: rest, v, e, S, he, hctx, hk, hsh, hcons, hval, hb => by
    obtain ⟨hv, g, g', hg, hmake⟩ := hval _ (List.mem_cons_self ..)
    subst hctx
    obtain ⟨mapping, qs', g'', ys, S1, a1, a2, a3, a4, a5, a6, a7, a8, a9, _⟩ := C46_batch_access hn hf hs hcd hk shuffle hshf hnew hD1 hD hpos
      hsize L hsh hcons hv hg
    dsimp only at hmake a1
    rw [hmake] at a2
    cases a2
    have hnoise : batchNoise S.ctx n B phi D hc e = e + (2 * hc - 1) * (deltaOp S.ctx n B phi + deltaSel S.ctx n B phi D) := by
      unfold batchNoise; rw [max_eq_left he]
    rw [hnoise] at a9
    generalize hX : (2 * hc - 1) * (deltaOp S.ctx n B phi + deltaSel S.ctx n B phi D) = X at *
    have hstep : e + X + rest.length * X = e + (rest.length + 1) * X := by ring
    simp only [List.length_cons] at hb ⊢
    obtain ⟨yss, S', d1, d2, d3, d4⟩ := C96_batches hcd hn hf hs shuffle hshf hnew hD1 hD hpos hsize L rest _ _ S1 (le_trans he (Nat.le_add_right _ _)) a6
      (by rw [a5]; exact hk) a7 a9 (fun a ha => hval a (List.mem_cons_of_mem _ ha)) (by rw [hX, hstep]; exact hb)
    rw [hX, hstep] at d4
    refine ⟨ys :: yss, S', ?_, ⟨?_, d2⟩, d3, d4⟩
    · simp only [List.map_cons, deliverBatches, a4, d1]
    · intro m r col i hm hr
      rw [a1] at hm
      cases hm
      obtain ⟨y, enc, y1, y2, y3⟩ := a8 r col i hr
      rw [List.getElem?_map, y1, Option.map_some]
      refine congrArg some (decryptDecode_of_enc hcd y2 y3 ?_)
      have : 0 ≤ (rest.length + 1) * X := Nat.zero_le _
      omega

/-- The hypotheses are met: two clients of a database of 4 items.  The first writes item 2 twice, the second reads items 2 and 3 in one call.  The messages
arrive out of order, the first one twice: the last read sees the item as the replayed message wrote it. -/
theorem C96_witness : ∃ S pts g1 pool, setupRandomOram exTreeCtx exKey 1 4 ⟨(List.range 4).reverse, 1, 4⟩ exGen = some (S, pts, g1) ∧
    prepare exTreeCtx exKey 4 ⟨(List.range 4).reverse, 1, 4⟩
      [([.one (.write 2 ⟨fun _ => 7⟩), .one (.write 2 ⟨fun _ => 9⟩)], exGen), ([.multi [.read 2, .read 3]], exGen)] = some pool ∧
    ∃ msgs yss S', [(0, 1), (1, 0), (0, 0), (1, 0)].map (msgAt pool) = msgs.map some ∧
      deliver exFft (([foldReducer 4 exTreeCtx 4, foldReducer 4 exTreeCtx 4, foldReducer 4 exTreeCtx 4, foldReducer 4 exTreeCtx 4]).zip msgs) S
        = some (yss, S') ∧
      yss.map (fun ys => ys.map (decryptDecodeRlwe exTreeCtx exKey)) =
        [[pts.getD 2 0], [⟨fun _ => 9⟩, pts.getD 3 0], [⟨fun _ => 9⟩], [⟨fun _ => 7⟩, pts.getD 3 0]] := by
  have h7 : Spec.Encodable (16 : Scalar) (⟨fun _ => 7⟩ : Poly 4) := fun k => by show (7 : Scalar).toNat < _; decide
  have h9 : Spec.Encodable (16 : Scalar) (⟨fun _ => 9⟩ : Poly 4) := fun k => by show (9 : Scalar).toNat < _; decide
  obtain ⟨S, pts, g1, pool, h1, _, h2, h3⟩ := C96_clients (t := 16) (ctx := exTreeCtx) (by decide) (by decide) exFft_bounded exKey_binary
    List.reverse (fun l => List.reverse_perm l) (hc := 1) (N := 4) (H := ⟨(List.range 4).reverse, 1, 4⟩) rfl (D := 2) (by decide)
    (by decide) (by decide) (by decide) (by decide) (by decide) rfl (by decide) (by decide) exGen_bounded
    [([.one (.write 2 ⟨fun _ => 7⟩), .one (.write 2 ⟨fun _ => 9⟩)], exGen), ([.multi [.read 2, .read 3]], exGen)] (by
      intro x hx
      simp only [List.mem_cons, List.not_mem_nil, or_false] at hx
      rcases hx with rfl | rfl
      · refine ⟨exGen_bounded, fun c hc => ?_⟩
        simp only [List.mem_cons, List.not_mem_nil, or_false] at hc
        rcases hc with rfl | rfl
        · refine ⟨fun c hc => ?_, by simp [Call.cmds]⟩
          simp only [Call.cmds, List.mem_cons, List.not_mem_nil, or_false] at hc
          subst hc; exact ⟨by decide, h7⟩
        · refine ⟨fun c hc => ?_, by simp [Call.cmds]⟩
          simp only [Call.cmds, List.mem_cons, List.not_mem_nil, or_false] at hc
          subst hc; exact ⟨by decide, h9⟩
      · refine ⟨exGen_bounded, fun c hc => ?_⟩
        simp only [List.mem_cons, List.not_mem_nil, or_false] at hc
        subst hc
        refine ⟨fun c hc => ?_, by simp [Call.cmds, Cmd.index]⟩
        simp only [Call.cmds, List.mem_cons, List.not_mem_nil, or_false] at hc
        rcases hc with rfl | rfl <;> (show _ < _; decide))
  obtain ⟨msgs, yss, S', m1, m2, m3⟩ := h3
    [(foldReducer 4 exTreeCtx 4, 0, 1), (foldReducer 4 exTreeCtx 4, 1, 0), (foldReducer 4 exTreeCtx 4, 0, 0), (foldReducer 4 exTreeCtx 4, 1, 0)]
    [.one (.write 2 ⟨fun _ => 9⟩), .multi [.read 2, .read 3], .one (.write 2 ⟨fun _ => 7⟩), .multi [.read 2, .read 3]] (by
      intro a ha
      simp only [List.mem_cons, List.not_mem_nil, or_false] at ha
      rcases ha with rfl | rfl | rfl | rfl <;> exact foldReducer_valid _ _) rfl (by decide)
  refine ⟨S, pts, g1, pool, h1, h2, msgs, yss, S', m1, m2, ?_⟩
  rw [m3]
  simp [Spec.session, Call.cmds, Cmd.index, Spec.apply]

end Panacea
