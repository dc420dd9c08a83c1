import Verif.Lemmas.ApproxGraph
import Verif.Lemmas.ApproxRatio
import Verif.Lemmas.BiasedGreedy
import Verif.Lemmas.BudgetStep
import Verif.Lemmas.Convex
import Verif.Lemmas.CostFn
import Verif.Lemmas.Cover
import Verif.Lemmas.Gap
import Verif.Lemmas.GridOrder
import Verif.Lemmas.Guards
import Verif.Lemmas.LaneStep
import Verif.Lemmas.LazyRatio
import Verif.Lemmas.Lcp
import Verif.Lemmas.LcpFrac
import Verif.Lemmas.LcpFracRun
import Verif.Lemmas.Low
import Verif.Lemmas.Memoryless
import Verif.Lemmas.MultiDP
import Verif.Lemmas.MultiGraph
import Verif.Lemmas.MultiMain
import Verif.Lemmas.MultiPick
import Verif.Lemmas.NearProximity
import Verif.Lemmas.Objective
import Verif.Lemmas.Optimiser
import Verif.Lemmas.Proximity
import Verif.Lemmas.Regret
import Verif.Lemmas.RoundCost
import Verif.Lemmas.RoundedCap
import Verif.Lemmas.RoundedDP
import Verif.Lemmas.RoundedLevels
import Verif.Lemmas.RoundedLoops
import Verif.Lemmas.RoundedPick
import Verif.Lemmas.RoundedUni
import Verif.Lemmas.RoundedWhole
import Verif.Lemmas.RoundedWholeGrid
import Verif.Lemmas.SkiExpect
import Verif.Lemmas.SkiRandom
import Verif.Lemmas.SkiRental
import Verif.Lemmas.SubCost
import Verif.Lemmas.UniDP
import Verif.Lemmas.UniLevel
import Verif.Lemmas.UniMain
import Verif.Lemmas.UniStep
import Verif.Lemmas.Walk
import Verif.Lemmas.Window
import Verif.Lemmas.WindowCost
import Verif.Lemmas.Work
import Verif.Model.ApproxGraph
import Verif.Model.BalancedBudgeting
import Verif.Model.Basic
import Verif.Model.Build
import Verif.Model.Clients
import Verif.Model.Convert
import Verif.Model.Cost
import Verif.Model.DataCenter
import Verif.Model.Defaults
import Verif.Model.Descent
import Verif.Model.Distance
import Verif.Model.Draw
import Verif.Model.DualNorm
import Verif.Model.Horizon
import Verif.Model.Integral
import Verif.Model.LazyBudgeting
import Verif.Model.Lcp
import Verif.Model.Loads
import Verif.Model.Machine
import Verif.Model.Mahalanobis
import Verif.Model.MultiGraph
import Verif.Model.Numerics
import Verif.Model.OfflineFrac
import Verif.Model.Parallel
import Verif.Model.Probabilistic
import Verif.Model.Problem
import Verif.Model.Quadrature
import Verif.Model.Rand
import Verif.Model.Rbg
import Verif.Model.RbgThreads
import Verif.Model.Rounded
import Verif.Model.RoundedApprox
import Verif.Model.RoundedBudget
import Verif.Model.RoundedCost
import Verif.Model.RoundedLcp
import Verif.Model.RoundedUni
import Verif.Model.Solve
import Verif.Model.Static
import Verif.Model.Streaming
import Verif.Model.UniGraph
import Verif.Model.Verifiers
import Verif.Model.Wire
import Verif.Props.ApproxGraph
import Verif.Props.ApproxRatio
import Verif.Props.Averaged
import Verif.Props.Balanced
import Verif.Props.BalancedBudgeting
import Verif.Props.BalancedRatio
import Verif.Props.BalancedRoot
import Verif.Props.BalancedService
import Verif.Props.Best
import Verif.Props.BestLoad
import Verif.Props.Better
import Verif.Props.Brcp
import Verif.Props.BudgetExact
import Verif.Props.BudgetOne
import Verif.Props.BudgetRatio
import Verif.Props.CasesLoads
import Verif.Props.CasesMisc
import Verif.Props.CasesSearch
import Verif.Props.Clients
import Verif.Props.ClientsFarm
import Verif.Props.ClientsOrder
import Verif.Props.Complete
import Verif.Props.Convert
import Verif.Props.CostFn
import Verif.Props.DataCenter
import Verif.Props.Dearer
import Verif.Props.Defaults
import Verif.Props.Dense
import Verif.Props.Derivative
import Verif.Props.Descent
import Verif.Props.Descent2
import Verif.Props.Descent3
import Verif.Props.DescentInfinite
import Verif.Props.Discretise
import Verif.Props.Distance
import Verif.Props.DualNorm
import Verif.Props.DualRegret
import Verif.Props.DualRoot
import Verif.Props.Entropy
import Verif.Props.Even
import Verif.Props.Eventually
import Verif.Props.Examples
import Verif.Props.Expected
import Verif.Props.FeasibleSpaces
import Verif.Props.Fewer
import Verif.Props.Finer
import Verif.Props.Gap
import Verif.Props.Generated
import Verif.Props.Guards
import Verif.Props.Guards2
import Verif.Props.Guards3
import Verif.Props.Horizon
import Verif.Props.HorizonRatio
import Verif.Props.Hundredths
import Verif.Props.IdleEnds
import Verif.Props.InitialLoads
import Verif.Props.Integral
import Verif.Props.IntoSCO
import Verif.Props.Joint
import Verif.Props.Lanes
import Verif.Props.LazyBudgeting
import Verif.Props.LazyOne
import Verif.Props.LazyRandom
import Verif.Props.LazyService
import Verif.Props.LazyTwo
import Verif.Props.Lcp
import Verif.Props.LcpFrac
import Verif.Props.LcpWindow
import Verif.Props.Limit
import Verif.Props.Loads
import Verif.Props.Machine
import Verif.Props.Mahalanobis
import Verif.Props.Memoryless
import Verif.Props.MemorylessTight
import Verif.Props.Mixed
import Verif.Props.MixedFarm
import Verif.Props.Monotone
import Verif.Props.MoreChoice
import Verif.Props.MultiGraph
import Verif.Props.MultiGraph2
import Verif.Props.Network
import Verif.Props.Numerics
import Verif.Props.Objective
import Verif.Props.OfflineFrac
import Verif.Props.Outcomes
import Verif.Props.Outputs
import Verif.Props.Parts
import Verif.Props.Past
import Verif.Props.Peak
import Verif.Props.Periods
import Verif.Props.Planning
import Verif.Props.PlanningFrac
import Verif.Props.Pooling
import Verif.Props.ProbRatio
import Verif.Props.Probabilistic
import Verif.Props.Probabilistic2
import Verif.Props.Quadrature
import Verif.Props.Queries
import Verif.Props.Rand
import Verif.Props.Rbg
import Verif.Props.Rbg2
import Verif.Props.RbgRatio
import Verif.Props.RbgThreads
import Verif.Props.Reduce
import Verif.Props.Regret
import Verif.Props.Replan
import Verif.Props.Replay
import Verif.Props.Restart
import Verif.Props.Results
import Verif.Props.Returns
import Verif.Props.Reverse
import Verif.Props.RisingOrder
import Verif.Props.RobdMulti
import Verif.Props.RobdRatio
import Verif.Props.Robust
import Verif.Props.RoundCost
import Verif.Props.RoundedApprox
import Verif.Props.RoundedBudget
import Verif.Props.RoundedCost
import Verif.Props.RoundedUni
import Verif.Props.RoundedWhole
import Verif.Props.RoundedWholeGrid
import Verif.Props.Rounding
import Verif.Props.Scaled
import Verif.Props.Service
import Verif.Props.ServiceMore
import Verif.Props.ServiceRun
import Verif.Props.ServiceRuns
import Verif.Props.ServiceWindow
import Verif.Props.SeveralTypes
import Verif.Props.SingleType
import Verif.Props.Site
import Verif.Props.SloSblo
import Verif.Props.Solve
import Verif.Props.SolveLoads
import Verif.Props.Starts
import Verif.Props.Static
import Verif.Props.Steady
import Verif.Props.SteadyLazy
import Verif.Props.Streaming
import Verif.Props.Ties
import Verif.Props.Timeless
import Verif.Props.Twins
import Verif.Props.TypeOrder
import Verif.Props.UniGraph
import Verif.Props.UniGraph2
import Verif.Props.Units
import Verif.Props.UpdateHistories
import Verif.Props.Updates
import Verif.Props.Useless
import Verif.Props.Utils
import Verif.Props.Verifiers
import Verif.Props.Whole
import Verif.Props.WiderWindow
import Verif.Props.Wire
import Verif.Props.Worse
import Verif.Spec.ApproxGrid
import Verif.Spec.Budgeting
import Verif.Spec.Capacity
import Verif.Spec.CapacityFrac
import Verif.Spec.Clients
import Verif.Spec.Complete
import Verif.Spec.Convex
import Verif.Spec.CostFn
import Verif.Spec.DataCenter
import Verif.Spec.Descent
import Verif.Spec.DualNorm
import Verif.Spec.Entropy
import Verif.Spec.ExactRounding
import Verif.Spec.Feasible
import Verif.Spec.Foresight
import Verif.Spec.Gap
import Verif.Spec.Gentle
import Verif.Spec.Guards
import Verif.Spec.Horizon
import Verif.Spec.Hundredths
import Verif.Spec.Integral
import Verif.Spec.Load
import Verif.Spec.Mahalanobis
import Verif.Spec.Minimizer
import Verif.Spec.Network
import Verif.Spec.Norm
import Verif.Spec.OfflineFrac
import Verif.Spec.Online
import Verif.Spec.Optimiser
import Verif.Spec.Planning
import Verif.Spec.Probabilistic
import Verif.Spec.Quadrature
import Verif.Spec.Rand
import Verif.Spec.Rbg
import Verif.Spec.Rounding
import Verif.Spec.Scaled
import Verif.Spec.Schedule
import Verif.Spec.ServerCost
import Verif.Spec.SingleType
import Verif.Spec.Site
import Verif.Spec.Static
import Verif.Spec.Timeless
import Verif.Spec.Valid
import Verif.Spec.Window
import Verif.Spec.Wire
