import Verif.Model.Clients
import Verif.Spec.Wire

/-! # Specification: serving several clients one after the other -/

namespace Soco.Spec
open Soco

/-- Reading depends only on what is read: what follows is left over. -/
def Local (α : Type) [Wire α] : Prop :=
  ∀ (a : α) (ts us rest : List Tok), Wire.get ts = some (a, us) → Wire.get (ts ++ rest) = some (a, us ++ rest)

/-- The clients in `log`, no client twice, are the ones that were answered, and their answers are those of a service that handles
the inputs of these clients in this order, one after the other: every client has the answer to its own input. -/
structure InOrder {n : Nat} {P T M K B : Type} [Value T] [Wire B] [Wire T] [Wire M] [Wire K] (S : Server P T K)
    (A : OnlineAlgorithm P T M) (update : Online P → B → Res (Online P)) (message : Fault → String) (s : ServerState P T M)
    (inputs : Fin n → B) (log : List (Fin n)) (w : Clients.Net n P T M) : Prop where
  once : log.Nodup
  answered : ∀ i, i ∈ log ↔ (w.conns i).answer ≠ none
  all : (serve S A update s (log.map fun i => some (inputs i))).length = log.length
  own : ∀ (k : Nat) (i : Fin n) (r : Res (OnlineResponse T M K)), log[k]? = some i →
    (serve S A update s (log.map fun i => some (inputs i)))[k]? = some r →
    ∃ ts, (w.conns i).answer = some ts ∧ Wire.Enc (outcome message r) ts

end Soco.Spec
