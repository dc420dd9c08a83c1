import Verif.Model.DataCenter

/-! # Specification: a data center with a single type of servers and jobs -/

namespace Soco.Spec
open Soco

/-- A data center with up to `servers` servers of one type, which receives jobs of one type from one source. -/
structure Farm where
  /-- Number of servers. -/
  servers : ℤ
  /-- Length of a time slot. -/
  slot : ℚ
  /-- The largest utilisation allowed. -/
  maxUse : ℚ
  /-- Processing time of a job. -/
  time : ℚ
  /-- Routing delay in a slot. -/
  route : Int → ℚ
  /-- Energy consumed by a server at some utilisation. -/
  power : ℚ → ℚ
  /-- Price of energy in a slot. -/
  price : Int → ℚ
  /-- Revenue lost per job and unit of delay beyond `delay`. -/
  gamma : ℚ
  /-- Delay without loss of revenue. -/
  delay : ℚ
  /-- Cost of powering up a server. -/
  switching : ℚ

namespace Farm
variable (F : Farm)

/-- The part of a slot during which each of `j` servers is busy if they share `l` jobs. The number of servers is
rational, as fractional problems allow parts of servers. -/
def use (l : ℚ) (j : ℚ) : ℚ := F.time * l / (j * F.slot)

/-- What `j` servers cost which process `l` jobs in slot `t`: the energy, and the loss of revenue caused by the sum of
the sojourn time, the routing delay and the processing time. It is infinite if no server is active, the servers cannot
process the jobs in time, or their utilisation is too large. -/
def slotCost (t : Int) (l : ℚ) (j : ℚ) : ECost :=
  if j ≤ 0 then if l = 0 then 0 else ⊤
  else if F.use l j < 1 ∧ F.use l j ≤ F.maxUse then
    ((F.price t * (j * F.power (F.use l j)) +
      F.gamma * max 0 (F.time / (1 - F.use l j) + F.route t + F.time - F.delay) * l : ℚ) : ECost)
  else ⊤

/-- Parameters are in their ranges and the energy consumed is a convex function of the utilisation. -/
structure Valid : Prop where
  servers : 0 < F.servers
  slot : 0 < F.slot
  time : 0 ≤ F.time
  price : ∀ t, 1 ≤ t → 0 < F.price t
  gamma : 0 ≤ F.gamma
  switching : 0 < F.switching
  power : ∀ u, 0 ≤ u → 0 ≤ F.power u
  convex : ∀ u v, 0 ≤ u → 0 ≤ v → ∀ a, 0 ≤ a → a ≤ 1 →
    F.power ((1 - a) * u + a * v) ≤ (1 - a) * F.power u + a * F.power v

/-- All servers together can process `l` jobs. -/
def Carries (l : ℚ) : Prop := 0 ≤ l ∧ F.use l F.servers < 1 ∧ F.use l F.servers ≤ F.maxUse

end Farm

/-- The model `m` has one location, server type, source and job type, linear energy prices, and the parameters of `F`. -/
def IsFarm (m : DataCenterModel) (F : Farm) : Prop :=
  ∃ (loc : Location) (st : ServerType) (src : Source) (jt : JobType),
    m.locations = [loc] ∧ m.serverTypes = [st] ∧ m.sources = [src] ∧ m.jobTypes = [jt] ∧
    loc.m st.key = some F.servers ∧ st.maxUtilization = F.maxUse ∧ jt.processingTimeOn st = .ok F.time ∧
    (∀ t, 1 ≤ t → src.routingDelayTo t loc = .ok (F.route t)) ∧
    (∀ u, m.consumptionModel.consumption m.delta st u = .ok (F.power u)) ∧
    (∀ t p, 1 ≤ t → m.energyModel.cost t loc p = .ok (ECost.mulQ (F.price t) p)) ∧
    m.lossModel jt.key = some ⟨F.gamma, F.delay⟩ ∧
    (∃ c, m.switchingModel st.key = some c ∧ c.switchingCost = F.switching) ∧ m.delta = F.slot

end Soco.Spec
