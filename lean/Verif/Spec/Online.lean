import Verif.Model.Streaming

/-!
# Specification: playing an online algorithm

The instances seen slot by slot are shown to the algorithm one after another; every decision is appended
to the schedule and the memory is passed along.
-/

namespace Soco.Spec
open Soco

/-- Play `A` on the instances `os`, starting with the schedule `xs` and the memory `m`. -/
def play {P T M : Type} [Value T] (tEnd : P → Int) (A : OnlineAlgorithm P T M) :
    Schedule T → Option M → List (Online P) → Res (Schedule T × Option M)
  | xs, m, [] => .ok (xs, m)
  | xs, m, o :: os =>
    match onlineNext tEnd A o xs m with
    | .error e => .error e
    | .ok (_, xs', m') => play tEnd A xs' m' os

/-- A run of an online algorithm over the instances `os`, one per slot, from the schedule `xs` and the memory `m`
to the schedule `ys` and the memory `k`: in every slot the instance shown is the one of the slot after the schedule
so far; the algorithm sees that instance, the slot, the schedule so far and the latest memory (or the default
memory), and its answer is appended. -/
inductive Run {P T M : Type} (tEnd : P → Int) (A : OnlineAlgorithm P T M) :
    Schedule T → Option M → List (Online P) → Schedule T → Option M → Prop
  | nil (xs : Schedule T) (m : Option M) : Run tEnd A xs m [] xs m
  | step (xs : Schedule T) (m : Option M) (o : Online P) (os : List (Online P)) (x : Config T) (m' : Option M)
      (ys : Schedule T) (k : Option M) (slot : tEnd o.p = (xs.length : Int) + 1)
      (decide : A.call o ((xs.length : Int) + 1) xs (m.getD (A.default o)) = .ok (x, m'))
      (rest : Run tEnd A (xs ++ [x]) m' os ys k) : Run tEnd A xs m (o :: os) ys k

section
variable {P T M : Type}

/-- A streamed run consists of the instances `os` shown to the algorithm: each is what the callback made of the
one before, verified, and the callback ended the stream at the last. -/
inductive Streamed (tEnd : P → Int) (verify : Online P → Res Unit) (A : OnlineAlgorithm P T M)
    (update : Online P → Schedule T → Online P × Bool) :
    Online P → Schedule T → Option M → List (Online P) → Online P → Schedule T → Option M → Prop
  | stop (o : Online P) (xs : Schedule T) (m : Option M) (ys : Schedule T) (k : Option M) (o' : Online P)
      (one : Run tEnd A xs m [o] ys k) (stopped : update o ys = (o', false)) :
      Streamed tEnd verify A update o xs m [o] o' ys k
  | next (o : Online P) (xs : Schedule T) (m : Option M) (ys : Schedule T) (k : Option M) (o' : Online P)
      (os : List (Online P)) (o'' : Online P) (zs : Schedule T) (k' : Option M)
      (one : Run tEnd A xs m [o] ys k) (continued : update o ys = (o', true)) (verified : verify o' = .ok ())
      (rest : Streamed tEnd verify A update o' ys k os o'' zs k') :
      Streamed tEnd verify A update o xs m (o :: os) o'' zs k'

/-- The instances obtained from `o` by the updates with `inputs`, one after another. -/
inductive Updates {B : Type} (update : Online P → B → Res (Online P)) :
    Online P → List B → List (Online P) → Prop
  | nil (o : Online P) : Updates update o [] []
  | step (o o' : Online P) (b : B) (bs : List B) (os : List (Online P)) (one : update o b = .ok o')
      (rest : Updates update o' bs os) : Updates update o (b :: bs) (o' :: os)

/-- The response to the `i`-th input of a sequential run that begins with the schedule `xs`, shows the instances
`os` and ends with the schedule `ys`. -/
structure Answer {K : Type} (S : Server P T K) (A : OnlineAlgorithm P T M) (xs : Schedule T) (m : Option M)
    (os : List (Online P)) (ys : Schedule T) (i : Nat) (r : OnlineResponse T M K) : Prop where
  run : Run S.tEnd A xs m (os.take (i + 1)) (ys.take (xs.length + i + 1)) r.m
  x : ys[xs.length + i]? = some r.x
  cost : ∃ o, os[i]? = some o ∧ S.objective o.p (ys.take (xs.length + i + 1)) = .ok r.cost ∧
    S.objective o.p (S.toI (ys.take (xs.length + i + 1))) = .ok r.intCost
  intX : (S.toI (ys.take (xs.length + i + 1))).getLast? = some r.intX

end

end Soco.Spec
