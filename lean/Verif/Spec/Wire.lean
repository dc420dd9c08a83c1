import Verif.Model.Wire
import Verif.Spec.Online

/-!
# Specification: what survives the wire

A type survives the wire if whatever is sent is received, whatever follows it in the message. A run may be interrupted between
any two slots: schedule and memory are sent, and the run goes on with what is received.
-/

namespace Soco.Spec
open Soco

/-- Whatever is sent is received, and nothing of what follows is taken away. -/
def Faithful (α : Type) [Wire α] : Prop :=
  ∀ (a : α) (ts rest : List Tok), Wire.Enc a ts → Wire.get (ts ++ rest) = some (a, rest)

/-- Every value can be sent. -/
def Sendable (α : Type) [Wire α] : Prop := ∀ a : α, ∃ ts, Wire.Enc a ts

/-- A run (`Run`) that may be interrupted before every slot, any number of times. -/
inductive Interrupted {P T M : Type} [Wire T] [Wire M] (tEnd : P → Int) (A : OnlineAlgorithm P T M) :
    Schedule T → Option M → List (Online P) → Schedule T → Option M → Prop
  | nil (xs : Schedule T) (m : Option M) : Interrupted tEnd A xs m [] xs m
  | step (xs : Schedule T) (m : Option M) (o : Online P) (os : List (Online P)) (x : Config T) (m' : Option M)
      (ys : Schedule T) (k : Option M) (slot : tEnd o.p = (xs.length : Int) + 1)
      (decide : A.call o ((xs.length : Int) + 1) xs (m.getD (A.default o)) = .ok (x, m'))
      (rest : Interrupted tEnd A (xs ++ [x]) m' os ys k) : Interrupted tEnd A xs m (o :: os) ys k
  | restart (xs xs' : Schedule T) (m m' : Option M) (os : List (Online P)) (ys : Schedule T) (k : Option M)
      (ts us : List Tok) (sent : Wire.Enc xs ts) (received : receive ts = some xs')
      (sentMemory : Wire.Enc m us) (receivedMemory : receive us = some m')
      (rest : Interrupted tEnd A xs' m' os ys k) : Interrupted tEnd A xs m os ys k

end Soco.Spec
