import Verif.Model.DataCenter

/-! # Specification: what operating a data center costs in one time slot -/

namespace Soco.Spec
open Soco

/-- The sum of `g 0, …, g (n - 1)`. -/
def sumTo {α : Type} [Zero α] [Add α] (n : Nat) (g : Nat → α) : α := ((List.range n).map g).sum

/-- A network of data centers during some time slot. -/
structure Site where
  locations : Nat
  types : Nat
  sources : Nat
  jobTypes : Nat
  /-- Length of the time slot. -/
  slot : ℚ
  /-- The largest utilisation allowed for servers of type `k`. -/
  maxUse : Nat → ℚ
  /-- Processing time of a job of type `i` on a server of type `k`. -/
  time : Nat → Nat → ℚ
  /-- Routing delay from source `s` to location `j`. -/
  route : Nat → Nat → ℚ
  /-- Energy consumed by a server of type `k` at some utilisation. -/
  power : Nat → ℚ → ℚ
  /-- What energy costs at location `j`. -/
  price : Nat → ECost → ECost
  /-- Revenue lost per job of type `i` with some delay. -/
  loss : Nat → ℚ → ℚ

namespace Site
variable (D : Site) (n : Nat → Nat → ℚ) (a : Nat → Nat → Nat → Nat → ℚ)

/-- The jobs of servers of type `k` at location `j`, if `a j k s i` jobs of type `i` from source `s` are sent to them. -/
def jobs (j k : Nat) : ℚ := sumTo D.sources fun s => sumTo D.jobTypes fun i => a j k s i

/-- The time needed to process these jobs. -/
def work (j k : Nat) : ℚ := sumTo D.sources fun s => sumTo D.jobTypes fun i => D.time i k * a j k s i

/-- The part of the slot during which each of the `n j k` servers is busy. -/
def utilisation (j k : Nat) : ℚ := D.work a j k / (n j k * D.slot)

/-- The energy consumed by the servers of type `k` at location `j`, infinite if their utilisation is too large. -/
def energyOf (j k : Nat) : ECost :=
  if n j k ≤ 0 then 0
  else if D.utilisation n a j k ≤ D.maxUse k then ((n j k * D.power k (D.utilisation n a j k) : ℚ) : ECost)
  else ⊤

/-- The cost of energy at location `j`. -/
def energyCost (j : Nat) : ECost := D.price j (sumTo D.types (D.energyOf n a j))

/-- The mean sojourn time of jobs at a server sharing its processor among its jobs. -/
def sojourn (j k : Nat) : ℚ := D.work a j k / D.jobs a j k / (1 - D.utilisation n a j k)

/-- The revenue lost by the jobs of type `i` from source `s` processed by servers of type `k` at location `j`. -/
def lossOf (j k s i : Nat) : ℚ := D.loss i (D.sojourn n a j k + D.route s j + D.time i k) * a j k s i

/-- The revenue lost at location `j`. -/
def lossAt (j : Nat) : ℚ :=
  sumTo D.types fun k => if n j k ≤ 0 then 0 else
    sumTo D.sources fun s => sumTo D.jobTypes fun i => D.lossOf n a j k s i

/-- No jobs are sent to inactive servers, and no server is sent more than it can process. -/
def Feasible : Prop := ∀ j k, j < D.locations → k < D.types →
  (n j k ≤ 0 → D.jobs a j k = 0) ∧ (0 < n j k → D.utilisation n a j k < 1)

end Site

/-- The model `m` describes `D` in slot `t`: all keys are found. -/
structure Describes (m : DataCenterModel) (t : Int) (D : Site) : Prop where
  locations : m.locations.length = D.locations
  types : m.serverTypes.length = D.types
  sources : m.sources.length = D.sources
  jobTypes : m.jobTypes.length = D.jobTypes
  slot : m.delta = D.slot
  maxUse : ∀ k (st : ServerType), m.serverTypes[k]? = some st → st.maxUtilization = D.maxUse k
  time : ∀ i (jt : JobType) k (st : ServerType), m.jobTypes[i]? = some jt → m.serverTypes[k]? = some st → jt.processingTimeOn st = .ok (D.time i k)
  route : ∀ s (src : Source) j (loc : Location), m.sources[s]? = some src → m.locations[j]? = some loc →
    src.routingDelayTo t loc = .ok (D.route s j)
  power : ∀ k st u, m.serverTypes[k]? = some st → m.consumptionModel.consumption m.delta st u = .ok (D.power k u)
  price : ∀ j loc p, m.locations[j]? = some loc → m.energyModel.cost t loc p = .ok (D.price j p)
  loss : ∀ i jt q, m.jobTypes[i]? = some jt → revenueLossOf m.lossModel jt q = .ok (D.loss i q)

end Soco.Spec
