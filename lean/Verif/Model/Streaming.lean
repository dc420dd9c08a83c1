import Verif.Model.Convert

/-!
# Online algorithms, streaming and the online server

Models `implementation/src/algorithms/online/mod.rs`, `implementation/src/streaming/utils.rs` and
`implementation/src/streaming/online.rs`. An algorithm is a parameter; its options are fixed.
-/

namespace Soco

/-- `algorithms/online/mod.rs:57-78` `OnlineAlgorithm`: arguments are the online instance, the current slot,
the schedule so far and the latest memory; the result is a `Step` (`algorithms/online/mod.rs:17-21`). `default` is the memory used
if nothing was memorised (`problem.rs` `DefaultGivenOnlineProblem`). -/
structure OnlineAlgorithm (P T M : Type) where
  default : Online P → M
  call : Online P → Int → Schedule T → M → Res (Config T × Option M)

section
variable {P T M : Type} [Value T]

/-- `algorithms/online/mod.rs:79-94` `OnlineAlgorithm::next`. -/
def OnlineAlgorithm.next (A : OnlineAlgorithm P T M) (o : Online P) (xs : Schedule T) (prevM : Option M) :
    Res (Config T × Option M) :=
  A.call o (Schedule.tEnd xs + 1) xs (prevM.getD (A.default o))

/-- `streaming/utils.rs:83-109` `Online::next`. The schedule, passed by reference in Rust, is part of the
result; `tEnd` is `Problem::t_end`. -/
def onlineNext (tEnd : P → Int) (A : OnlineAlgorithm P T M) (o : Online P) (xs : Schedule T)
    (prevM : Option M) : Res (Config T × Schedule T × Option M) := do
  assertR (decide (Schedule.tEnd xs + 1 = tEnd o.p))
    (.onlineInconsistentCurrentTimeSlot (Schedule.tEnd xs) (tEnd o.p))
  let step ← A.next o xs prevM
  .ok (step.1, Schedule.extend xs step.1, step.2)

/-- `streaming/utils.rs:50-75` `stream_from`. The callback `update` returns the updated instance and whether to
continue. The loop has no bound in the code: `none` means that `fuel` iterations did not suffice. -/
def streamFrom (tEnd : P → Int) (verify : Online P → Res Unit) (A : OnlineAlgorithm P T M)
    (update : Online P → Schedule T → Online P × Bool) :
    Nat → Online P → Schedule T → Option M → Option (Res (Online P × Schedule T × Option M))
  | 0, _, _, _ => none
  | fuel + 1, o, xs, prevM =>
    match onlineNext tEnd A o xs prevM with
    | .error e => some (.error e)
    | .ok (_, xs', m) =>
      match update o xs' with
      | (o', false) => some (.ok (o', xs', m))
      | (o', true) =>
        match verify o' with
        | .error e => some (.error e)
        | .ok () => streamFrom tEnd verify A update fuel o' xs' m

/-- `streaming/utils.rs:22-39` `stream`. -/
def stream (tEnd : P → Int) (verify : Online P → Res Unit) (A : OnlineAlgorithm P T M)
    (update : Online P → Schedule T → Online P × Bool) (fuel : Nat) (o : Online P) :
    Option (Res (Online P × Schedule T × Option M)) :=
  streamFrom tEnd verify A update fuel o [] none

/-- The callback of `streaming/utils.rs:133-140` and `streaming/utils.rs:172-179`. `setTEnd` is
`Problem::set_t_end` (`problem.rs:33-34`), `inc_t_end` (`problem.rs:36-38`) adds one. -/
def offlineUpdate (tEnd : P → Int) (setTEnd : P → Int → P) (horizon : Int) (o : Online P)
    (_ : Schedule T) : Online P × Bool :=
  if tEnd o.p < horizon - o.w then ({ o with p := setTEnd o.p (tEnd o.p + 1) }, true) else (o, false)

/-- `streaming/utils.rs:117-143` `offline_stream`. -/
def offlineStream (tEnd : P → Int) (setTEnd : P → Int → P) (verify : Online P → Res Unit)
    (A : OnlineAlgorithm P T M) (horizon : Int) (fuel : Nat) (o : Online P) :
    Option (Res (Online P × Schedule T × Option M)) :=
  stream tEnd verify A (offlineUpdate tEnd setTEnd horizon) fuel o

/-- `streaming/utils.rs:154-184` `offline_stream_from`. -/
def offlineStreamFrom (tEnd : P → Int) (setTEnd : P → Int → P) (verify : Online P → Res Unit)
    (A : OnlineAlgorithm P T M) (horizon : Int) (fuel : Nat) (o : Online P) (xs : Schedule T)
    (prevM : Option M) : Option (Res (Online P × Schedule T × Option M)) :=
  streamFrom tEnd verify A (offlineUpdate tEnd setTEnd horizon) fuel o xs prevM

/-! ### The online server, `streaming/online.rs` -/

/-- What the server and `prepare` need to know about a problem type: `t_end`, `set_t_end` (`problem.rs:31-34`),
`verify` of the online instance, and the objective function. `toI` rounds a schedule to an integral one and casts it
back (`xs.to_i()` and `int_xs.to()`, `convert.rs:392-413`). -/
structure Server (P T K : Type) where
  tEnd : P → Int
  setTEnd : P → Int → P
  verify : Online P → Res Unit
  objective : P → Schedule T → Res K
  toI : Schedule T → Schedule T

/-- `streaming/online.rs:34-40` `OfflineResponse` without the runtime. -/
structure OfflineResponse (T M K : Type) where
  xs : Schedule T
  cost : K
  intXs : Schedule T
  intCost : K
  m : Option M

/-- `streaming/online.rs:93-141` `prepare`. `p` is the instance generated from the model. Note that `t_end` is
already reduced by the prediction window before `offline_stream` reduces it again. `Schedule::empty` needs no
fuel. -/
def prepare {K : Type} (S : Server P T K) (A : OnlineAlgorithm P T M) (w : Int) (fuel : Nat) (p : P) :
    Option (Res (Online P × OfflineResponse T M K)) :=
  let tEnd := S.tEnd p - w
  let p := if S.tEnd p > 1 then S.setTEnd p 1 else p
  let o : Online P := ⟨p, w⟩
  match S.verify o with
  | .error e => some (.error e)
  | .ok () =>
    let streamed := if tEnd ≥ 1 then offlineStream S.tEnd S.setTEnd S.verify A tEnd fuel o
      else some (.ok (o, [], none))
    match streamed with
    | none => none
    | some (.error e) => some (.error e)
    | some (.ok (o, xs, m)) => some (do
        let cost ← S.objective o.p xs
        let intCost ← S.objective o.p (S.toI xs)
        .ok (o, ⟨xs, cost, S.toI xs, intCost, m⟩))

/-- The variables that survive from one request to the next, `streaming/online.rs:148-151`. -/
structure ServerState (P T M : Type) where
  o : Online P
  xs : Schedule T
  m : Option M

/-- `streaming/online.rs:42-50` `OnlineResponse` in the good case, without the runtime. -/
structure OnlineResponse (T M K : Type) where
  x : Config T
  cost : K
  intX : Config T
  intCost : K
  m : Option M

/-- The closure of `streaming/online.rs:184-224`: `update` is `Model::update`, which may panic. Failures are
unwrapped, hence panics, too; here every fault is kept as it is. -/
def handle {K B : Type} (S : Server P T K) (A : OnlineAlgorithm P T M) (update : Online P → B → Res (Online P))
    (s : ServerState P T M) (input : B) : Res (OnlineResponse T M K × ServerState P T M) := do
  let o ← update s.o input
  let r ← onlineNext S.tEnd A o s.xs s.m
  let cost ← S.objective o.p r.2.1
  let intCost ← S.objective o.p (S.toI r.2.1)
  let intX ← Schedule.now (S.toI r.2.1)
  .ok (⟨r.1, cost, intX, intCost, r.2.2⟩, ⟨o, r.2.1, r.2.2⟩)

/-- `streaming/online.rs:170-247`, the loop over the connections, as the list of responses. A request is the
deserialised input or `none` if deserialisation fails, as for the empty message of `stop` (`online.rs:278-284`).
Sockets are not modelled; for the messages see `Verif.Model.Wire`. -/
def serve {K B : Type} (S : Server P T K) (A : OnlineAlgorithm P T M) (update : Online P → B → Res (Online P)) :
    ServerState P T M → List (Option B) → List (Res (OnlineResponse T M K))
  | _, [] => []
  | _, none :: _ => []
  | s, some input :: rest =>
    match handle S A update s input with
    | .ok (r, s') => .ok r :: serve S A update s' rest
    | .error e => [.error e]

end

end Soco
