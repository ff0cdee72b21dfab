import Verif.Spec.Session

/-!
# Messages between clients and the server

The crate leaves the transport to its user: client functions return queries, server functions take them.  Here the two are separated: messages are made
by clients that share the key (each with its own generator), and the server handles whatever arrives, in the order it arrives: messages may be lost,
duplicated, delayed, or replayed.
-/

namespace Panacea
variable {n : Nat}

/-- What a client sends for one call: one query for `process_one`, several for `process_multi`. -/
inductive Message (n : Nat)
  | one (q : ClientQuery n)
  | multi (qs : List (ClientQuery n))

/-- The client makes the message of a call. -/
def Message.make (ctx : Ctx) (s : Poly n) (cols : Nat) (H : NaiveHash) (c : Call n) (g : Gen n) : Option (Message n × Gen n) :=
  match c with
  | .one c => (clientQuery ctx s 1 cols H c g).map fun x => (.one x.1, x.2)
  | .multi cs => (mapGenM (clientQuery ctx s 1 cols H) cs g).map fun x => (.multi x.1, x.2)

/-- The server handles a message. -/
def Message.serve (fft : Fft n) (R : Reducer n) (S : Server n) : Message n → Option (List (RLWE n) × Server n)
  | .one q => (S.processOne R.one fft q).map fun x => ([x.1], x.2)
  | .multi qs => S.processMulti R.vec R.gsw fft qs

/-- The server handles the messages in the order they arrive. -/
def deliver (fft : Fft n) : List (Reducer n × Message n) → Server n → Option (List (List (RLWE n)) × Server n)
  | [], S => some ([], S)
  | (R, m) :: ms, S =>
    match m.serve fft R S with
    | none => none
    | some (ys, S) =>
      match deliver fft ms S with
      | none => none
      | some (yss, S) => some (ys :: yss, S)

/-- `msg` is a message some client with this key makes for the call `c`. -/
def Message.For (ctx : Ctx) (s : Poly n) (cols : Nat) (H : NaiveHash) (B : Nat) (c : Call n) (msg : Message n) : Prop :=
  ∃ g g', g.Bounded B ∧ Message.make ctx s cols H c g = some (msg, g')

/-- The server handles batches in the order they arrive. -/
def deliverBatches (fft : Fft n) (H : NaiveHash) : List (List (ClientQuery n)) → Server n → Option (List (List (RLWE n)) × Server n)
  | [], S => some ([], S)
  | qs :: ms, S =>
    match S.processBatch fft qs H with
    | none => none
    | some (ys, S) =>
      match deliverBatches fft H ms S with
      | none => none
      | some (yss, S) => some (ys :: yss, S)

/-- `qs` is a batch some client with this key makes for the command `c`. -/
def BatchFor (ctx : Ctx) (s : Poly n) (rows cols : Nat) (H : NaiveHash) (B : Nat) (c : BatchCmd n) (qs : List (ClientQuery n)) : Prop :=
  ∃ g g', g.Bounded B ∧ clientBatch ctx s rows cols H c g = some (qs, g')

/-- Every client prepares the messages of its calls, one after the other with its own generator. -/
def prepare (ctx : Ctx) (s : Poly n) (cols : Nat) (H : NaiveHash) (clients : List (List (Call n) × Gen n)) : Option (List (List (Message n))) :=
  mapOption (fun x => (mapGenM (Message.make ctx s cols H) x.1 x.2).map Prod.fst) clients

end Panacea
