import Verif.Model.Wire
import Mathlib.Logic.Relation
import Mathlib.Logic.Function.Basic

/-!
# Clients of an online server

Models `implementation/src/streaming/online.rs` with its sockets: any number of clients connect to one server, send their
messages piece by piece, may close their connections at any time, and read the answers. The server is a single thread which
accepts one connection after the other.

Simplifications: a connection, once made, waits in a queue of unlimited size; messages arrive in pieces of single tokens and in
order, none is lost; a client sends one message on its connection.
-/

namespace Soco
namespace Clients

/-- What a client has done, `streaming/online.rs:250-275` `next` and `streaming/online.rs:277-284` `stop`. -/
structure Conn where
  /-- Has called `TcpStream::connect`. -/
  connected : Bool
  /-- The part of the message which has arrived at the server. -/
  sent : List Tok
  /-- The rest of the message. -/
  left : List Tok
  /-- The client closed the connection, or crashed. -/
  closed : Bool
  /-- What the server wrote to the connection. -/
  answer : Option (List Tok)

/-- A client which has not done anything yet. -/
def Conn.new (message : List Tok) : Conn := ⟨false, [], message, false, none⟩

/-- Where the thread of the server is, `streaming/online.rs:166-247`. -/
inductive Mode (n : Nat) where
  /-- Waits for the next connection. -/
  | listening
  /-- Reads from a connection (`bincode::deserialize_from`). -/
  | reading (i : Fin n)
  /-- The loop has ended. -/
  | stopped

/-- The clients and the server. -/
structure Net (n : Nat) (P T M : Type) where
  conns : Fin n → Conn
  /-- Connections which were not accepted yet. -/
  queue : List (Fin n)
  mode : Mode n
  state : ServerState P T M

section
variable {n : Nat} {P T M K B : Type} [Value T] [Wire B] [Wire T] [Wire M] [Wire K]

/-- What may happen next. The flag tells whether a client gives up, that is, closes its connection before it was answered. -/
inductive Net.Step (S : Server P T K) (A : OnlineAlgorithm P T M) (update : Online P → B → Res (Online P))
    (message : Fault → String) : Bool → Net n P T M → Net n P T M → Prop where
  /-- A client connects, `online.rs:263`. -/
  | connect (w : Net n P T M) (i : Fin n) (h : (w.conns i).connected = false) (ho : (w.conns i).closed = false) :
      Net.Step S A update message false w
        { w with conns := Function.update w.conns i { w.conns i with connected := true }, queue := w.queue ++ [i] }
  /-- The next piece of a message arrives, `online.rs:265-268`. -/
  | send (w : Net n P T M) (i : Fin n) (t : Tok) (ts : List Tok) (h : (w.conns i).connected = true)
      (ho : (w.conns i).closed = false) (hl : (w.conns i).left = t :: ts) :
      Net.Step S A update message false w
        { w with conns := Function.update w.conns i { w.conns i with sent := (w.conns i).sent ++ [t], left := ts } }
  /-- A client that was answered closes its connection, at the end of `next` (`online.rs:253-275`). -/
  | close (w : Net n P T M) (i : Fin n) (h : (w.conns i).connected = true) (ho : (w.conns i).closed = false)
      (ha : (w.conns i).answer ≠ none) :
      Net.Step S A update message false w { w with conns := Function.update w.conns i { w.conns i with closed := true } }
  /-- A client closes its connection without an answer, for example because it crashed, or at the end of `stop`
  (`online.rs:278-284`). -/
  | giveUp (w : Net n P T M) (i : Fin n) (h : (w.conns i).connected = true) (ho : (w.conns i).closed = false)
      (ha : (w.conns i).answer = none) :
      Net.Step S A update message true w { w with conns := Function.update w.conns i { w.conns i with closed := true } }
  /-- The server accepts the next connection, `online.rs:170-172`. -/
  | accept (w : Net n P T M) (i : Fin n) (q : List (Fin n)) (hm : w.mode = .listening) (hq : w.queue = i :: q) :
      Net.Step S A update message false w { w with queue := q, mode := .reading i }
  /-- The server has read a message, and answers, `online.rs:175-228`. -/
  | answer (w : Net n P T M) (i : Fin n) (b : B) (r : OnlineResponse T M K) (s : ServerState P T M) (ts : List Tok)
      (hm : w.mode = .reading i) (hb : receive (w.conns i).sent = some b) (hr : handle S A update w.state b = .ok (r, s))
      (hts : Wire.Enc (outcome message (.ok r)) ts) :
      Net.Step S A update message false w
        { w with conns := Function.update w.conns i { w.conns i with answer := some ts }, mode := .listening, state := s }
  /-- The server has read a message, panics, answers with the message of the panic, and stops, `online.rs:229-238`. -/
  | fail (w : Net n P T M) (i : Fin n) (b : B) (e : Fault) (ts : List Tok)
      (hm : w.mode = .reading i) (hb : receive (w.conns i).sent = some b) (hr : handle S A update w.state b = .error e)
      (hts : Wire.Enc (outcome message (.error e : Res (OnlineResponse T M K))) ts) :
      Net.Step S A update message false w
        { w with conns := Function.update w.conns i { w.conns i with answer := some ts }, mode := .stopped }
  /-- The server has read a message, but the connection was closed, so that the answer cannot be written. This is a panic,
  `online.rs:219`, and so is the attempt to write its message, `online.rs:235`, which ends the thread. (An answer to a closed
  connection can also go unnoticed, which is `answer`.) -/
  | broken (w : Net n P T M) (i : Fin n) (b : B) (hm : w.mode = .reading i) (hb : receive (w.conns i).sent = some b)
      (hc : (w.conns i).closed = true) :
      Net.Step S A update message false w { w with mode := .stopped }
  /-- The connection was closed in the midst of a message, or what arrived is not the beginning of any message. The server stops,
  `online.rs:241-244`. -/
  | stop (w : Net n P T M) (i : Fin n) (hm : w.mode = .reading i) (hb : receive (α := B) (w.conns i).sent = none)
      (hc : (w.conns i).closed = true ∨ ∀ more, receive (α := B) ((w.conns i).sent ++ more) = none) :
      Net.Step S A update message false w { w with mode := .stopped }

/-- What may happen, in any number of steps. -/
def Net.Steps (S : Server P T K) (A : OnlineAlgorithm P T M) (update : Online P → B → Res (Online P))
    (message : Fault → String) (w w' : Net n P T M) : Prop :=
  Relation.ReflTransGen (fun w w' => ∃ b, Net.Step S A update message b w w') w w'

/-- What may happen if no client gives up. -/
def Net.PatientSteps (S : Server P T K) (A : OnlineAlgorithm P T M) (update : Online P → B → Res (Online P))
    (message : Fault → String) (w w' : Net n P T M) : Prop :=
  Relation.ReflTransGen (Net.Step S A update message false) w w'

/-- The server has been started, and no client has connected yet. -/
def Net.start (messages : Fin n → List Tok) (s : ServerState P T M) : Net n P T M :=
  ⟨fun i => .new (messages i), [], .listening, s⟩

end
end Clients
end Soco
