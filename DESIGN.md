# Formal model of jonhue/soco: design

## Layout

* `lean/Verif/Model/*.lean`: executable model, function by function. Every definition cites the Rust lines it models (paths relative to `implementation/src/`) and says where it simplifies.
* `lean/Verif/Spec/*.lean`: small specifications, written without the helpers of the model (what a schedule costs, what feasible and optimal mean, what an exact optimiser is, which failures a call may return, ...).
* `lean/Verif/Lemmas/*.lean`: helper lemmas.
* `lean/Verif/Props/*.lean`: the property theorems, named `Cxx_...`, and beside them `example`s of concrete, non-trivial instances that meet the hypotheses. Where the code violates a property, the negation is proved of a concrete instance (`..._counterexample`) and the part that holds is named `..._partial`.
* `properties.jsonl`: the properties; `MANIFEST.json`: status and theorems of each; `seeded/LOG.jsonl`: wrong programs the theorems were tested against.

## Modelling decisions

* `f64` and `N64` become exact rationals `ℚ`; costs that may be `+∞` become `ECost = WithTop ℚ`; slacks and derivatives, which may also be `-∞`, become `WithBot (WithTop ℚ)`. Floating point rounding, NaN and overflow are outside of the model, except where a definition says otherwise (rounding of sums and products in the multi-dimensional graph search is modelled by `Multi.Rounded`, see C120, in the one-dimensional one by `Uni.Rounded`, see C123, in the approximate one by `Multi.Rounded.approxGraphSearch`, see C124, of the time for which lazy budgeting keeps servers by `Lb.Rounded`, see C125, and of the objective, including the order in which a parallel sum is formed, by `Rounded.objective` and `Split`, see C121; NaN in a few places is read as a panic or as the replacement value the code uses; the explicit rounding to `PRECISION = 0.01` **is** modelled, exactly).
* `i32` and `usize` become `Int` and `Nat`. Overflow and saturation are outside of the model unless a definition mentions them; `Model/Machine` has checked 32-bit versions of the places where intermediate results can leave the range (C105).
* Panics (`assert!`, `unwrap`, index out of bounds, division by zero where it panics) are the error value `Fault.panic`; `Err(Failure)` is `Fault.fail`. `Res α = Except Fault α`.
* `&mut` arguments become results. `HashMap` is a partial function, `BTreeMap` a sorted association list.
* rayon: where the result could depend on how work is split (C14, C22) the split is an arbitrary binary tree and the theorems hold for every tree. Elsewhere the sequential order is used.
* Loops without a bound in the code take fuel and return `Option`; theorems show that some fuel suffices, or describe what happens with any fuel.
* `T: Value` is the class `Value` with instances `ℤ` and `ℚ`.

### External code

External routines are parameters of the model. What a theorem assumes about them is an explicit hypothesis.

* **NLopt** (`Num.Solver`): given bounds, objective, initial point and constraints it answers with the points it probed, the point it returns and a status. The wrapper `optimize` (rounding of every argument and of the result, panics during probes, the replacement of the value after a timeout) is modelled around it. Hypotheses, in `Spec/Optimiser.lean`: `Sound` (answers lie within the bounds), `Inner` (also the probes do), `Exact` (the rounded answer is feasible and minimal among feasible points of the 0.01 grid). Lemma `exists_exact` shows that the hypotheses are satisfiable. For algorithms with a mutable global cache (randomly biased greedy) the solver is a strategy that asks one question after the other.
* **Brent's method** (`Num.Brent`): the points it evaluates and a root or failure. Hypothesis used: on an interval with a change of sign it answers with a point of the interval.
* **Quadrature** (`bacon_sci`): the integral between two end points; hypothesis used: additivity.
* **Finite differences** (`finitediff`): central differences are modelled for gradients; for the probabilistic algorithm the difference formulas are parameters.
* **Random numbers**: draws are parameters; probabilities are measures of sets of draws.
* **Square roots, powers, logarithms** in integral or rational code: parameters, except `Model/Distance.lean`, which is over the reals, and the logarithms of the 1-d graph search, which are exact (`Nat.log`, `Nat.clog`).
* **User functions** (costs, prices, delays): arbitrary functions which return values or panic.

## Trusted base

* Lean's kernel (Lean 4.33.0) and Mathlib as installed.
* Axioms of each theorem: a subset of `propext`, `Classical.choice`, `Quot.sound`. No own axioms, no `sorry`, no `native_decide`, no `bv_decide`.
* That each definition of the model says what the cited Rust lines do, with the simplifications named above and in its comment. The Rust code was read, not run.

## What is modelled

| file in `implementation/src` | model | remarks |
|---|---|---|
| `utils.rs`, `value.rs`, `vec_wrapper.rs`, `config.rs`, `schedule.rs` | `Basic`, `Machine` | without iterators and Python conversion; `Machine`: 32-bit versions with overflow |
| `result.rs` | `Basic` (`Failure`, `Fault`) | |
| `cost.rs` | `Cost` | complete except Python conversion |
| `model/mod.rs` | `Cost`, `DataCenter` | outputs, merging, `verify_update` |
| `problem.rs` | `Problem`, `Loads`, `BalancedBudgeting` | SCO, SSCO, SBLO, SLO, `Online`, objectives |
| `verifiers.rs` | `Verifiers`, `BalancedBudgeting` | |
| `convert.rs` | `Convert`, `Loads` | all conversions between problem types, discretisation, relaxation, reset |
| `distance.rs` | `Problem`, `Distance`, `DualNorm`, `Mahalanobis` | exact numbers; the maximiser behind the dual norm is a parameter |
| `breakpoints.rs`, `numerics/quadrature/*` | `Quadrature`, `Integral` | rules of the library are a parameter |
| `numerics/mod.rs`, `numerics/convex_optimization.rs` | `Numerics`, `Descent`, `DualNorm` | minimisation and maximisation; NLopt is a parameter |
| `numerics/roots.rs`, `numerics/finite_differences.rs` | `Descent`, `Probabilistic` | |
| `algorithms/offline/mod.rs`, `graph_search.rs` | `MultiGraph`, `LazyBudgeting` | options, cache, paths |
| `algorithms/offline/multi_dimensional/*` | `MultiGraph`, `ApproxGraph`, `Static`, `OfflineFrac` | |
| `algorithms/offline/uni_dimensional/*`, `algorithms/capacity_provisioning.rs` | `UniGraph`, `Lcp` | |
| `algorithms/online/mod.rs`, `streaming/utils.rs`, `streaming/online.rs` | `Streaming`, `Wire`, `Clients`, `RbgThreads` | `Streaming`: the sequence of requests and responses; `Wire`: messages as lists of primitive values; `Clients`: connections of several clients; `RbgThreads`: threads that share the cache of randomly biased greedy |
| `streaming/offline.rs`, `bindings/data_center/offline.rs` | `Solve` | verification, solving, cost of the result |
| `algorithms/online/uni_dimensional/*` | `Lcp`, `Descent` (memoryless), `Rand`, `Draw`, `Rbg`, `Probabilistic` | |
| `algorithms/online/multi_dimensional/*` | `LazyBudgeting`, `BalancedBudgeting`, `Descent`, `Horizon` | |
| `model/data_center/*` | `Loads`, `DataCenter` | hash maps are partial functions; Python closures are functions |

Not modelled: Python bindings (`bindings/`) apart from what they call, the bytes of serialised values, the operating system below the sockets, logging, timing, `Debug`/`Display`, floating point rounding other than as said above (C120 to C126).

## Properties

Columns: what is modelled, how it is proved, status in `MANIFEST.json`.

| id | property | model | proof | status |
|----|----------|-------|-------|--------|
| C01 | Plain and inverted objective differ by the final power-down cost | problem.rs objectives of SSCO, SLO, SBLO | telescoping sum by induction over slots; infinite costs separately | proved |
| C02 | The objective decomposes over time | same | induction over the horizon against an independent recursive cost (`Spec/Schedule.lean`) | proved |
| C03 | Objectives are non-negative and monotone in alpha | same | induction | proved |
| C04 | Conversion to SCO preserves the objective of every schedule | convert.rs `into_sco`, distance.rs `manhattan_scaled` | the absolute difference is twice the positive part minus the difference, then telescoping; equality of whole results | proved |
| C05 | Newer cost functions never rewrite the past | cost.rs `CostFn` as sorted association list | induction over the history of registrations; refinement to "latest registration not after the slot" | proved |
| C06 | Cost evaluation is guarded by the decision space | cost.rs `call_*_within_bounds`, the three decision spaces | case analysis, lifted to schedules | proved |
| C07 | Evaluation of cost functions fails exactly on the documented misuse | cost.rs evaluation with all panics | exact characterisation of the error value | proved |
| C08 | Resetting a problem shifts time and nothing else | convert.rs `reset` | unfolding, then C02 at the split | proved |
| C09 | Discretisation and relaxation agree on integral points | convert.rs `into_i`, `into_f` | floor and ceiling algebra; convexity of the interpolation by chord inequalities | proved |
| C10 | Problem verification is exact | verifiers.rs | equivalence with a declarative predicate (`Spec/Valid.lean`) | proved |
| C11 | Schedule verification is exact | verifiers.rs `Config`, `Schedule` | induction over the schedule | proved |
| C12 | Raw schedule encodings round-trip | schedule.rs raw encoding | induction on the number of slots | proved |
| C13 | Scalar utilities obey their contracts | utils.rs | order algebra; bit lemma for `is_pow_of_2` | proved |
| C14 | A failing slot makes the whole result a failure | model/mod.rs outputs, parallel sums | monoid laws; the parallel sum is an arbitrary splitting tree | proved |
| C15 | Aggregating predictions averages them | cost.rs `mean`, model/mod.rs `vertical_reduce` | mean of costs by induction; mean of outputs refuted for three samples | partial |
| C16 | Uni-dimensional graph search returns a feasible schedule and its true cost | 1-d optimal_graph_search.rs | loop invariant over slots: every stored path is a real path with its real cost | proved |
| C17 | Uni-dimensional graph search is optimal for convex costs | same with the refinement loop | proximity theorem: an optimum of the coarse grid has a fine optimum within two steps, by exchanging layers (`Lemmas/Proximity`) | proved |
| C18 | Rounding the bound to a power of two does not change the problem | `make_pow_of_2` | arithmetic of `Nat.clog` | proved |
| C19 | Multi-dimensional graph search is optimal | multi-d graph_search.rs with traversal order and path map | invariants: stored paths are sound, and complete for the vertices handled so far; the vertex order is topological | proved |
| C20 | Graph search panics exactly on infeasible instances | same | the same invariants; missing vertices are the only panics | proved |
| C21 | Graph search can be resumed from its cache | cache of the same | splitting of the fold over slots | proved |
| C22 | Parallel predecessor selection is deterministic | `find_optimal` with rayon `fold`/`reduce` | every splitting tree equals "first minimum" | proved |
| C23 | Inverted graph search minimises the inverted objective | inverted option | theorem for 1-d; counterexample for multi-d | partial |
| C24 | The approximation grid is well-formed | approx_graph_search.rs `build_values` | loop invariant; fuel shown sufficient | proved |
| C25 | Approximate graph search is optimal on its grid and bounded by the optimum's grid rounding | approx_graph_search.rs | instance of the generic graph search theorem | proved |
| C26 | Static integral search returns the best static configuration | static_integral.rs | early exit is sound for quasi-convex marginals; counterexamples otherwise | partial |
| C27 | Lazy capacity provisioning stays lazily between its bounds | lazy_capacity_provisioning.rs | projection lemmas; induction over the history | proved |
| C28 | Capacity provisioning bounds are ordered and sandwich the optimum | capacity_provisioning.rs | exchange argument (pointwise min and max of two schedules) | proved |
| C29 | Integral lazy capacity provisioning is 3-competitive | integral lcp through the streaming interface | potential function; induction over the history of revealed instances | proved |
| C30 | Randomised rounding yields neighbouring integers | randomized.rs | case analysis | proved |
| C31 | Randomised rounding is unbiased | randomized.rs | Lebesgue measure of the set of draws (Mathlib) | partial |
| C32 | Lazy budgeting for SLO always covers the demand | SLO lazy_budgeting | invariant over histories: sorted lanes, horizons, lanes dominate the optimum | partial |
| C33 | Lanes and configurations translate into each other | lanes | counting | proved |
| C34 | Lazy budgeting for SBLO never falls below the offline optimum and forgets nothing | SBLO lazy_budgeting with sub slots | invariant over histories, bookkeeping identity of activations | proved |
| C35 | Online streaming produces one decision per slot and rejects inconsistent histories | streaming/utils.rs, online/mod.rs | abstract algorithm; induction over inputs | proved |
| C36 | A streamed run can be split and resumed | same | induction; splitting of runs | proved |
| C37 | Offline streaming covers the horizon up to the prediction window | same, streaming/online.rs `prepare` | exact lengths; counterexamples | partial |
| C38 | The online server refines sequential streaming | streaming/online.rs server loop | simulation: responses of the server equal those of the sequential run | proved |
| C39 | Receding and averaging horizon control stay feasible and use their window | horizon_control/*.rs | oracle hypothesis on the optimiser, convexity of boxes | partial |
| C40 | Load balancing conserves load | loads.rs | algebra of fractions | partial |
| C41 | Predicted load samples are well-formed | loads.rs sampling | exact behaviour | partial |
| C42 | Data center dimensions are encoded bijectively | data_center/model.rs encoding | division with remainder | partial |
| C43 | Online updates append exactly one slot | data_center/model.rs updates | unfolding and C05 | proved |
| C44 | Energy quotas charge energy at its price | models/energy_cost.rs | recursion over sources | partial |
| C45 | Delay, revenue loss, energy and switching cost models are sane | models/*.rs | algebra | proved |
| C46 | Breakpoint grids are sorted, complete and make progress | breakpoints.rs | sortedness of insertion | partial |
| C47 | Piecewise integration equals integration | quadrature/piecewise.rs | induction over the recursion with fuel; additive integral as parameter | partial |
| C48 | Rounding to the numeric precision is a projection | numerics/mod.rs | floor algebra | proved |
| C49 | Distances used as switching costs are norms | distance.rs | algebra; Cauchy-Schwarz for the Euclidean norm over the reals | proved |
| C50 | Online balanced descent steps stay in the decision space | online_balanced_descent/*.rs, online_gradient_descent.rs, memoryless.rs | oracle hypotheses on optimiser and root finder | proved |
| C51 | The randomly biased greedy work function is the optimal prefix cost | randomly_biased_greedy.rs with its global cache | induction over slots; the cache only ever holds true values | proved |
| C52 | Dimension-restricted and option-restricted algorithms reject what they cannot solve | guards of all algorithms | `Checked`: exact description of the failures; all remaining code is shown not to return failures | proved |
| C53 | Backward-recurrent capacity provisioning is optimal | offline capacity_provisioning.rs | backward induction with exchange arguments | proved |
| C54 | Replaying loads online equals the offline instance | data_center/model.rs, loads.rs | unfolding | partial |
| C55 | Converting load problems to balanced-load problems preserves costs | convert.rs `into_sblo` | finite balanced costs equal load costs; rounding counterexample | partial |
| C56 | Cost and model output agree | loads.rs `apply_loads` | case analysis | proved |
| C57 | Load problems charge the average energy cost over the horizon | data_center/model.rs `to` for SLO | exact difference of the two averages | partial |
| C58 | Primal balanced descent keeps movement in balance with hitting cost | primal.rs, roots.rs | counterexample; partial theorem for the early exit | partial |
| C59 | Randomly biased greedy keeps its bias throughout a run | randomly_biased_greedy.rs | counterexample; partial theorem | partial |
| C60 | Offline convex optimization returns a feasible schedule of minimal cost | offline convex_optimization.rs | oracle hypothesis (exact optimiser) | proved |
| C61 | The static fractional baseline is the best constant schedule | static_fractional.rs | oracle hypothesis (exact optimiser) | proved |
| C62 | The probabilistic algorithm succeeds and stays in the decision space | probabilistic.rs | oracle hypotheses; induction over histories | proved |
| C63 | The probabilistic algorithm maintains a probability distribution | probabilistic.rs | counterexample with exact routines; mass of the initial density | partial |
| C64 | Approximate graph search has approximation ratio 2 gamma - 1 | approx_graph_search.rs, convert.rs `into_ssco` | a lazy schedule on the grid follows any given schedule; amortised analysis with an invariant per dimension (`Lemmas/ApproxRatio`) | proved |
| C65 | The memoryless algorithm is 3-competitive | memoryless.rs (`Model/Descent`), histories of instances with a shared movement cost (`Spec/Online`) | potential function argument with the position of the comparison schedule: one step costs at most 5 times what the comparison pays plus a decrease of the potential (`Lemmas/Memoryless`), summed by induction over the history; tightness of the factor by an instance on which the algorithm swings between two positions, by induction over its cycles | partial |
| C66 | Online gradient descent has sublinear regret | online_gradient_descent.rs (`Model/Descent`) | one step: convexity bounds the regret by the product of slope and distance, the projection is within half a hundredth of the exact one (`Lemmas/Regret`); induction over the history with a potential weighted by the learning rate. Counterexample from C50_ogd_boundary | partial |
| C67 | Solving an offline problem returns the objective of a verified, optimal solution | streaming/offline.rs `solve` and the SLO/SBLO wrappers of bindings/data_center/offline.rs (`Model/Solve`) | unfolding for the contract; C19 plus preservation of hitting costs by the conversions for optimality, stated with the independent `Spec.totalCost` | proved |
| C68 | Solving a load problem by graph search returns an optimal schedule | the same wrappers for load problems, `Spec/Load` for the cost of a load problem | C67 on the converted problem, C55 slot by slot; for one server type the optimiser has no variables and the balanced cost is computed exactly; counterexample with three units of load on one plus two servers | partial |
| C69 | The lazy budgeting algorithm keeps servers for a fixed time after they are needed, at twice the optimal cost | lazy budgeting with one type, `Spec/Window` for the window maximum and the number of slots servers are kept | the schedule is the window maximum by induction over the slots (all lanes rent independently); the ratio by a potential argument per lane, a ski rental problem (`Lemmas/SkiRental`) | partial |
| C70 | The cost of operating a data center is the price of its energy plus the revenue lost by delayed jobs | the objective of the data center model with all its parts; `Spec/Site` describes the network by plain functions and writes the costs as sums | part lemmas for each (location, type): consumption and loss equal the specification or fail exactly if infeasible; sums of results are settled (value or failure) | proved |
| C71 | Utilisation limits of servers are enforced | the same, linear energy costs | finiteness of the sum of C70 term by term; counterexample with one source of energy and quotas | partial |
| C72 | Randomised lazy budgeting draws its factor correctly and costs e / (e - 1) times the optimum in expectation | `sample_gamma` over the reals (`Model/Draw`), randomised lazy budgeting | distribution by the measure of an interval; potential argument per lane with the probabilities of being active (`Lemmas/SkiRandom`), integrated over the draw (`Lemmas/SkiExpect`) | partial |
| C73 | Randomised rounding preserves costs in expectation | `randomized` and `next` (as for C30, C31) and the relaxation of problems (as for C09); `Spec.expect` is the expectation over independent uniform draws | every step is a draw between two values with explicit probabilities; the interpolated cost-to-go is preserved by every gentle step (`Lemmas/RoundCost`), induction over the slots; counterexample with two slots | partial |
| C74 | Fractional lazy capacity provisioning is 3-competitive | lazy capacity provisioning with the fractional bounds (`Model/Lcp`), `Spec/CapacityFrac` for the problems | such runs equal the runs that always compute bounds from slot 0, to which the work function argument of C29 applies (`Lemmas/LcpFracRun`, `Lemmas/Work`); counterexample: thresholds that fall in every slot, all minimisers of every bound computation end in the threshold, induction over the slots | partial |
| C75 | Problems generated from a data center model carry its parameters | the functions that turn a data center model into problems, and `switching_costs` (`Model/DataCenter`) | case analysis on success; the parameters are compared with the small specification `Spec.Carries` | partial |
| C76 | Horizon control approaches the optimum as the window grows | horizon control (`Model/Horizon`), played on a history | each decision is compared with an arbitrary configuration of the competitor in the same slot, using the optimality of the plan's last configuration; averages by convexity; counterexample: jobs in all slots whose switching cost exceeds the loss of one slot | partial |
| C77 | Randomly biased greedy pays twice the optimum in expectation | randomly biased greedy (`Model/Rbg`) played on a history, means over equally spaced draws (`Spec.spread`, `Spec.meanOver`) | work functions on the grid are convex with bounded slopes; hitting costs by a potential, movement by counting the biases that lie between the slopes of a cell before and after a slot (`Lemmas/BiasedGreedy`); counterexample: after one slot the work function is constant, so the sign of each draw decides the position | partial |
| C78 | Regularised online balanced descent is competitive for strongly convex costs | regularised balanced descent and its weights (`Model/Descent`), played on a history | a grid minimiser of a strongly convex function is below every grid point by half the modulus times squared distance minus one grid step times distance; potential proportional to this quantity, summed over the history. Counterexample: a minimum one grid step away is never approached | partial |
| C79 | Primal online balanced descent is competitive | primal balanced descent (`Model/Descent`) with the root finder, played on a history | the root finder returns the lowest level whenever the move there costs less than 10, so the step goes to the minimiser; following minimisers is compared with any schedule by a potential. Counterexamples: a level at which the imbalance is 8 is accepted without moving; flat costs with alternating minimisers | partial |
| C80 | Greedy online balanced descent is competitive for quasiconvex costs | greedy balanced descent (`Model/Descent`), played on a history | as for C79, with the relaxed triangle inequality of squared distances | partial |
| C81 | Dual online balanced descent has sublinear regret | dual balanced descent (`Model/Descent`), played on a history | as for C79, with the dual imbalance at the minimiser; counterexample: minimisers alternating between 1/4 and 3/4 | partial |
| C82 | Lazy budgeting for balanced load is competitive | lazy budgeting for balanced load (`Model/BalancedBudgeting`, `Model/Loads`), played on a history | from the invariant of C34: parts of slots cost parts of their slots; each server that is kept is charged to the servers of an optimal schedule for the parts seen so far (`Lemmas/LazyRatio`); costs of slots are minima over assignments of sums of convex costs per type (`Props/BudgetExact`) | proved |
| C83 | The probabilistic algorithm is 2-competitive | the probabilistic algorithm (`Model/Probabilistic`), played on a history | the density does not change where second derivatives vanish and the root finder accepts the end 0 of the interval, so the mean stays where it is; for costs least at 0 the interval shrinks to the point 0 | partial |
| C84 | The dual of a switching cost is its dual norm | `dual_norm` with a maximiser as oracle (`Model/DualNorm`), `Spec.ExactMax` for exact maximisers on the grid | the result is the maximum of inner products over grid points in the unit ball; existence of the maximum for norms whose balls are bounded; counterexample with switching cost 400 | partial |
| C85 | The Mahalanobis distance is a norm that is smooth and strongly convex | `mahalanobis` over the rationals with the inverse of Mathlib (`Model/Mahalanobis`), `Spec.SquaredDistance` by the solution of a linear system | algebra of the symmetric bilinear form of the inverse; positivity by substituting the solution of the system; Cauchy-Schwarz for the triangle inequality | partial |
| C86 | A running capacity provisioning service answers every request and stays within three times the optimum | `integralService` instantiates the server of `Model/Streaming` as the bindings do | the instances shown are the past ones with growing horizon and those obtained by updates; all of them meet `Spec.Inst` with the same costs, so C29 applies to every prefix; runs are split and replayed by `prepare` (C36) and `serve` (C38) | proved |
| C87 | The cost of a single-type data center is convex in the number of servers | `objective`, `applyLoads`, `toSSCO`; `Spec.Farm` and `Spec.IsFarm` describe a data center by its parameters | C70 evaluates the objective; the optimiser has no variables; convexity of energy as a perspective of a convex function, of the sojourn time by algebra | proved |
| C88 | What is sent over the wire is received, and an interrupted run can be resumed | `Model/Wire`: messages as lists of primitive values, serialisation as a relation, deserialisation as a function; `Spec.Interrupted` for runs with crashes | reading back by induction over the structure of each type; a hash map is rebuilt by inserting its entries, which have different keys; skipped fields come back as an empty list and as a density that panics | partial |
| C89 | Numeric optimisation and root finding report what the libraries found | `minimize` (`Model/Numerics`), `unboundedMaximizer` (`Model/DualNorm`) and `findRoot` (`Model/Descent`), libraries as oracles that report the points they probe | induction over the probes; case distinction on the signs at the ends | proved |
| C90 | Offline plans for a data center with one type of servers | `solveOptimal`, `solveUni`, `solveApprox`, `solveStatic` (`Model/Solve`) on the problem generated from the model; `Spec.Farm.planCost` for the cost of a plan | C87 gives the problem and its convexity; C17, C19, C26 and C64 give optimality and ratios; C04 for the static optimum, which is computed for the converted problem; growth of costs with the number of servers by algebra | proved |
| C91 | Numerical integration returns the integral to the precision | `Model/Integral`: `integral` over the real numbers, with the quadrature rules as parameters; `Spec.GaussRules` says what they compute | change of variables by measure preserving maps; Gaussian integrals for the counterexample; induction over the calls of the piecewise integration | partial |
| C92 | Costs and plans of networks with several kinds of servers | `applyLoads` with the objective of a data center model, `toSSCO`, `solveOptimal`; `Spec.LoadSplit`, `Spec.Site.slotCost`, `Spec.networkCost` | fractions allowed by the constraints and splits correspond to each other; C70 evaluates the objective, C89 the optimiser, C67 the graph search; plans and schedules by induction over the slots | proved |
| C93 | Runs of randomly biased greedy in one process do not disturb each other | threads as programs that access the shared cache (`Model/RbgThreads`), a process as an interleaving of single accesses, entries may be forgotten at every store | invariant over all interleavings: entries are values of the work function of the shared problem, and every thread still computes the result it has alone; termination by a multiset order. Counterexample: an explicit schedule of two threads with an exact optimiser | partial |
| C94 | Clients of one server are served one after the other, and a patient client gets its own answer | clients and server as a transition system whose steps are single socket operations (`Model/Clients`), with the messages of `Model/Wire` and the handler of `Model/Streaming`; `Spec.InOrder` for the sequential explanation | invariant over all interleavings: a log of the answered clients whose inputs, served one after the other, give the answers; a measure decreases with every step; counterexamples by explicit runs and an invariant of what follows | partial |
| C95 | Fractional plans for a data center with one type of servers are cheapest | `Offline.solveBackward`, `solveConvex`, `solveStaticFractional` on top of `DataCenterModel.toSSCO/toSCO`, `Lcp.brcp`, `OfflineFrac.co`, `staticFractional`; costs of fractional plans are specified in `Spec/Planning.lean` | The generated problem is the one of C87; C53, C60 and C61 give optimality, C04 shows that the converted problem has the same objective; the cost returned is identified with the specified cost of the plan | proved |
| C96 | A running lazy budgeting service activates what the last loads require and stays within twice the optimum | `lazyService` instantiates the server of `Model/Streaming` as the bindings do | `Service.follows`, for every service: `prepare` streams the past (C36), `serve` continues the run (C38); the instances shown meet the hypotheses of C69, which gives the decisions and the ratio; the reported cost is evaluated by C02 | proved |
| C97 | Complete models are converted and evaluated without a panic, incomplete ones are not | `toSSCO`, `toSCO`, `toSBLO`, `toSLO` and `objective` (`Model/DataCenter`); `Spec/Complete` lists the parameters by key | every lookup of the code is shown to succeed exactly if the entry exists; if all exist C70 applies; conversely the cost of a slot without jobs in which one server of each kind is active reads all entries and cannot report a failure | proved |
| C98 | Static and approximate solvers for load problems | `solveApproxSLO`, `solveApproxSBLO`, `solveStaticSLO`, `solveStaticSBLO` (`Model/Solve`); `Spec/Load`, `Spec/Static`, `Spec/Hundredths` | C64 and C26 on the converted problem, C55_hundredths slot by slot; the least cost of keeping a configuration that covers a load is a covering problem, quasi-convex in every number of servers by exchanging servers (`Lemmas/Cover`); counterexamples with three units of load on one plus two servers | partial |
| C99 | Negative entropy is strongly convex and smooth on the simplex | `negativeEntropy` over the real numbers (`Model/Distance`); `Spec/Entropy` defines strong convexity and smoothness by chords | the distance of a chord to the function is a mean of divergences; the inequality of Pinsker from a bound for numbers (by derivatives) and Cauchy-Schwarz; upper bound by derivatives | proved |
| C100 | Ties of the one-dimensional graph search | `Uni.optimalGraphSearch` as for C16 and C17 | pointwise minimum and maximum of two schedules together cost at most as much as the two schedules, as moving in parallel costs at most as much as crossing; the sampled search keeps the lowest of the cheapest paths as it tries states in increasing order and keeps the first; a proximity argument carries the lowest optimum from one level of the search to the next | proved |
| C101 | Lazy capacity provisioning with a prediction window | `Lcp.lcpAlg boundedInt` as for C28 and C29, with a window; `Spec.Foresight` for perfect predictions | by C100 bounds are entries of the lowest optimal schedules; these grow (shrink, for the upper bounds) with the horizon, by a lattice argument with a potential for the remaining slots, so restarts in agreeing bounds change nothing; the work functions of C29 are tight at the bounds | proved |
| C102 | A capacity provisioning service with a prediction window stays within three times the optimum | `prepare`, `serve` and `DataCenterModel.updateSSCO` as for C86, with a window; `Spec.foreseen` for the requests | streaming the past leaves the instance at slot max(1, a − 2w); every update yields an instance that foresees w more slots (Spec.Foresight), so C101 applies to the whole run | proved |
| C103 | A balanced-load service with several server types stays within 2d+1+ε of the optimum at every request | `balancedService` instantiates the server of `Model/Streaming` as the bindings do; `Spec.ServesWithin` for what the client observes | `Service.follows`: streaming the past and serving requests is one run of the algorithm; every prefix of the run meets the hypotheses of C82_exact as the cost of a slot depends on the load of this slot only; reported costs are objective values by C02 | proved |
| C104 | The graph searches look at few configurations | the graph searches as for C21–C24 and C14; `Spec.SameOn Q p p'`: two problems which differ at most in the costs of configurations outside `Q t` | congruence of every step of the search in the costs of the rows (layer) it handles; the rows of each refinement depend on the previous path, so the set of configurations is built along the run, by induction over the refinements; the approximation grid is a duplicate-free subset of 0, the bounds and two values per power | proved |
| C105 | Arithmetic on 32-bit integers is exact within stated limits and aborts beyond them | `Model/Machine`: checked 32-bit versions of the row selections, the rounding of the bound, the horizons and totals; an overflow is a panic | equality with the unbounded versions: all values of all paths stay within the bound (invariant of the search), so every product and sum is small; beyond the limit the first product overflows | proved |
| C106 | Only relative costs matter | the graph searches as for C17, C19 and C25, lazy capacity provisioning as for C101; `Spec.InCurrency` for the same problem in another currency | one dimension: by C100 the result is the lowest optimal schedule, and being an optimal schedule does not depend on the currency or on fees; several dimensions: simulation, every step of the search commutes with the conversion of all costs in the table of paths | proved |
| C107 | Slightly wrong costs lead to slightly worse plans | objective values by C02; `Spec.AtMost ρ ε p q`: costs of `q` are at most `ρ` times those of `p` plus `ε` | induction over the slots gives the relation for the cost of a schedule; then twice, around the optimality of the search (C17, C19) or the ratio of lazy capacity provisioning (C29) | proved |
| C108 | More load never leads to fewer servers | the graph search as for C17, lazy capacity provisioning as for C101, the generated problem as for C87; `Spec.Busier` for costs under which additional servers are worth more | pointwise minimum and maximum of the two schedules cost together at most as much as the schedules, so the lowest optimum (C100) of the first problem is below the optimum of the second; bounds of lazy capacity provisioning are entries of lowest optima, and projection is monotone; for the data center, energy and delay are perspectives of convex functions of the utilisation, whose chords get steeper | proved |
| C109 | Dearer switching never leads to more switching | objective and `totalMovement` (`Model/Problem`), the graph searches as for C17 and C19; `Spec.Splits` for hitting cost and movement of a schedule | the objective is linear in the weight; the optimality of both schedules gives two inequalities, whose sum compares the movements | proved |
| C110 | Planning again does not change the plan | `SSCO.reset` (`Model/Convert`), `Uni.optimalGraphSearch`; `Spec.Replanned` for planning again and again | by C100 the plan is the lowest optimal schedule, whose tail is the lowest optimal schedule of the tail; C08 for the objective; induction over the times of planning | proved |
| C111 | Plans do not depend on the direction of time | objective values by C02, the graph searches as for C17 and C19; `Spec.Reversed` for the reversed problem | a closed walk from zero to zero costs as much upwards as downwards (telescoping), and returning to zero costs nothing; the lowest optimal schedule (C100) is unique | proved |
| C112 | With fewer servers the plan is cut at the number of servers | the graph searches as for C17 and C19, lazy capacity provisioning as for C101, the generated problem as for C87; `Spec.cutAt`, `Spec.Roomier` | putting what a plan has above the new bound on top of any schedule within the bound costs at most the difference to the cut plan (convexity, and movements of parts in the same direction add up), so the cut plan is the lowest optimum; bounds of lazy capacity provisioning are cut likewise and projection commutes with cutting | proved |
| C113 | Planning period by period costs at most one start of all servers per period | `Multi.optimalGraphSearch`, `SSCO.reset`; `Spec.Periods` for planning in periods, `Spec.fullPower` | C19 for every period; powering up from some configuration is cheaper than from zero, by at most the price of all servers; induction over the periods | proved |
| C114 | Independent fleets are planned independently | `Multi.optimalGraphSearch`, `Uni.optimalGraphSearch`; `Spec.Joint`, `Spec.JointAll` for instances which consist of fleets | the objective of schedules side by side is the sum of the objectives (induction over slots), every schedule splits into parts, C19 on all instances; C17 for single types | proved |
| C115 | The order in which types of servers are listed does not matter | objective values by C02, `Multi.optimalGraphSearch`; `Spec.reorder`, `Spec.Reordered` | sums over a permutation of the types; the inverse permutation brings every schedule back; C19 on both instances | proved |
| C116 | No online algorithm is better than lazy capacity provisioning | any value of `OnlineAlgorithm`, played as for C29; `Spec.Competitive` for the guarantee | an adversary asks in blocks for the state in which the algorithm was shortly before: the algorithm pays for staying or moving, and no server, one server and the states asked for together pay hardly more than the algorithm, so one of them at most a third; C101 for lazy capacity provisioning; for its windows an explicit family of problems, with the lowest optima of both objectives worked out | proved |
| C117 | No online algorithm for load problems is better than lazy budgeting | any value of `OnlineAlgorithm`, played as for C69; `Spec.CompetitiveLoad` for the guarantee | an adversary sends a job whenever no server of the algorithm is active; a server which is always active and one which is active for jobs only together pay hardly more than the algorithm; C69 for lazy budgeting | proved |
| C118 | Idle servers are kept exactly as long as keeping them is cheaper than switching | the one-dimensional graph search, the graph search for load problems, the problem generated from a data center, and `SwitchingCost.normalized`; `Spec.Kept` says in which slots servers are kept | the cost of a schedule splits into the costs of its levels (lanes); in a lane the cheapest choice fills exactly the short gaps, by induction over the slots; the graph search returns the lowest optimum (C100), which fills no gap for which both choices cost the same | proved |
| C119 | A crashed service is restored by starting it again with all loads so far | `prepare`, `serve`, `toSSCO`, `toSLO` and the updates of a data center model as for C86 and C96 | both services are runs of the algorithm (C86, C96) on problems with the same costs; lazy capacity provisioning decides by these costs only (C112), lazy budgeting by the largest of the last loads (C69) | partial |
| C120 | Rounding errors make plans of the graph search only slightly more expensive | `Multi.Rounded`: the functions of the graph search once more, with every sum and product of costs rounded by a function `fl`; `Spec.Rounds` says what is assumed of it, `Spec.double` is rounding to 53 binary digits | the invariant of C19 with factors: the cost of a vertex is at most `(1+u)^E` times the cost of any schedule leading there, and there is a schedule whose cost is at most `1/(1-u)^E` times it, where `E` bounds the roundings on a path; induction over slots and configurations; Bernoulli for the millionth | proved |
| C121 | Computed costs of schedules are accurate, however the slots are summed in parallel | `Rounded.objective`: the objective with every sum and product rounded by `fl` and the slots summed along a tree `Split`; `Spec.Rounds` | one factor per operation on the way from a product to the total; a splitting without empty parts has at most `T` additions on such a way; C14 for the exact sum | proved |
| C122 | Data centers built from constants do not depend on time | the constructors in `Model/Build`; `DataCenterModel.objective`, `toSSCO`, `toSLO`; `Spec.Timeless` says that sources and prices are built from constants | delays and prices are the only parts of the objective which see the slot; equal objectives are equal inputs of the solver; C111 for reversed days, C119 for restarts | proved |
| C123 | Rounding errors of the one-dimensional graph search stay small beside the cost of running all servers | `Uni.Rounded`: the functions of the one-dimensional search once more, with every sum and product of costs rounded by a function `fl`; the costs of the extended problem are rounded as well | on each level the schedule found is optimal among the schedules of the level up to the factors of C120; proximity (C17) with an error term turns this into an additive error against all schedules, which doubles from level to level; monotone rounding keeps the search below the original bound | proved |
| C124 | The approximate graph search stays approximate with rounded costs and rounded powers | `Multi.Rounded.approxGraphSearch`: the approximate search with rounded sums and products and an oracle for the powers of `gamma` (`Spec.Powers`) | the rounded powers form a grid of ratio at most `gamma (1 + d) / (1 - d)`; the argument of C64 on this grid, with the factors of C120 | proved |
| C125 | Rounding the time for which idle servers are kept costs next to nothing | `Lb.Rounded`: lazy budgeting with product and quotient of `next_time_horizon` rounded by `fl` | for one type rounding is the same as another factor `gamma`, so C69 gives the window; the schedule is the one for a switching cost larger by at most a factor `1 + u`, for which C69 bounds the cost | proved |
| C126 | Whole costs are computed without rounding errors | `Uni.Rounded`, `Multi.Rounded`, `Rounded.objective`, `Lcp.Rounded` (bounds found by the rounded search), `Spec.ExactTo` (rounding keeps the first multiples of a unit), `Spec.Multiple`. | Invariant of the traversal: every stored path cost is infinite or a multiple of the unit below slot number times the largest cost of a slot. Both runs then take the same steps. For lazy capacity provisioning: induction over the slots played, the memorised bounds stay within the decision space. Any bound: costs differ by less than one unit (C123), hence are ordered. Several dimensions: the bound on stored costs depends on the layer and the sum of the indices. Cost of a schedule: partial sums are at most the total. | proved |
| C127 | Limiting switching and charging more for it lead to the same plans | `OfflineFrac.co` and `OfflineFrac.staticFractional`, as in C60 and C61 | the objective is the hitting cost plus the weight times the total movement; each plan is compared with the other one, which is admissible for it by C60 | proved |
| C128 | More choice never makes plans dearer | `Multi.optimalGraphSearch`; `Spec.MoreChoice` relates the two problems | the plan of the smaller problem, padded with zeros, is a schedule of the larger one that costs at most as much; C19 for both | proved |
| C129 | Default options mean the plain problem, and give fixed guarantees | the defaults of the options (`Model/Defaults`) and the algorithms they are passed to | C17, C19, C64, C77 and C82 for the default values; the aborting defaults by computation for all inputs | proved |
| C130 | A wider prediction window narrows the range of decisions | integral lazy capacity provisioning with windows, as for C101 | the bounds are entries of the lowest optimal schedules of the slots known (C101); lengthening the horizon raises those for powering up and lowers those for powering down, by exchanging schedules (`Lemmas/Window`) | proved |
| C131 | A resumed search does not depend on the past | the graph searches with caches, as for C21, and their use for load problems | the loop over slots starts after the cache, so it evaluates costs of later slots only; with C21 for two stages | proved |
| C132 | For factors close to one the approximate search is exact | the approximate search, as for C24 | consecutive powers differ by at most one up to the largest bound, so every integer is on the grid (C24); the grid is sorted without duplicates, so it is the list of all integers and both searches run on the same values | proved |
| C133 | Planning with predicted samples minimises the expected cost | cost functions with samples, objectives and graph search, as for C15, C02 and C19 | the mean of samples times their number is their sum (C15); induction over the schedule; optimality (C19) for the mean and for every scenario | proved |
| C134 | Finer slots without new information do not change the cost of plans | objectives and graph search, as for C02 and C19 | the cost of a stretched plan by induction over the plan; for the other direction each plan of the finer problem contains k plans of the coarser one, one for each part, whose movement is not larger (triangle inequality) and whose hitting costs sum to k times the finer ones | proved |
| C135 | Two types of identical servers are as good as one | objectives and graph search, as for C02 and C19 | servers of both types together need not more movement than separately; dividing a number at the bound of the first type is monotone in both parts, so movement is the same; induction over plans, optimality (C19) | proved |
| C136 | Data centers made of default parts have costs in closed form | the constructors of parts (`Model/Build`) and the hitting cost of a data center, as for C92 | C92 for the network described by the model; with one kind of servers all of the load is sent to it | proved |
| C137 | Better servers are used first, unless they are cheaper to start | objectives and graph search, as for C02 and C19 | exchanging servers one by one makes no slot dearer; total numbers need no more movement than the two types separately (as in C135); optimality (C19); the last part by an instance with three slots | proved |
| C138 | Steady demand is met by a steady number of servers | The multi-dimensional graph search, the objective and the data center model (all modelled before). | All slots are merged into one slot whose cost is the sum; by C134 (finer slots) the optimum is unchanged and attained by the stretched plan, which is constant. C122_hitting gives equal costs of slots with equal loads. | proved |
| C139 | Optimal costs are concave in the prices | objectives and graph search, as for C02 and C19 | total costs are linear in hitting and switching costs (induction on the plan); the optimal plan of the mean is a plan of both problems | proved |
| C140 | Under steady demand capacity provisioning only adds servers and pays at most twice the optimum | lazy capacity provisioning and its bounds, as for C27 to C29 and C101 | the lowest optimal plan of steady demand is constant (an entry of least cost would be cheaper throughout); the numbers worth starting grow with the time they are kept; the cost is bounded by induction on the slots | proved |
| C141 | Servers from which no slot profits are never started | graph search, objectives, capacity provisioning and services, as for C19, C27, C101 and C86 | movement splits into movement below and movement above the numbers, and the latter is positive if they are ever exceeded; capping a plan makes no slot dearer, so exceeding them contradicts optimality; the lower bound of capacity provisioning is an entry of the lowest optimal plan | proved |
| C142 | Parts of servers do not help | relaxed problems, objectives, graph search and capacity provisioning, as for C09, C19, C73 and C101 | with a common denominator N of the schedule, the N roundings obtained by adding k / N and rounding down cost on average exactly what the fractional schedule costs: interpolated costs are means over the roundings, and roundings are monotone so movement is too; one of them costs no more than the mean | proved |
| C143 | Servers that are no longer needed are switched off in time, and servers that are needed are started in time | capacity provisioning with a prediction window and services, as for C101 and C102 | the upper (lower) bound is an entry of the lowest cheapest schedule up to the end of the window; cutting the end of this schedule at the number of servers saves e for each extra server and slot, and adds at most one switch for each server that stays above throughout, so the cut schedule is no dearer once the slots reach the switching cost | proved |
| C144 | Capacity provisioning never switches more than the optimal plan | capacity provisioning with a prediction window, services and the one-dimensional graph search, as for C17, C101 and C102 | the plan of the search is the lowest cheapest one and lies between the bounds of every slot; a sequence that moves lazily between bounds has climbed at most as much as any sequence between the bounds, and the difference of starts and stops is the last number of servers | proved |
| C145 | Pooling two data centers never costs more | the generated problems of three data centers, as for C87 and C90 | the utilisation of the pooled servers is a weighted mean of those of the two groups; energy is convex in it, and the loss per job is convex and rising, so by the sum inequality of Chebyshev the sum of two plans is no dearer for the pooled loads | proved |
| C146 | A data center in which nothing is better is not cheaper | the generated problems of two data centers, as for C87 and C90 | slot by slot the same number of servers costs no less in the second data center, so its optimal plan is a plan for the first which costs no more there | proved |
| C147 | Fractional costs are convex in the loads | the generated fractional problems, as for C95 | the cost of a slot is subadditive (C145) and homogeneous in load and servers together, hence jointly convex; switching costs are convex in the plan | proved |
| C148 | Even demand is cheapest | the generated fractional problems, as for C95 | pooling all slots into one (subadditivity, C145) and scaling back gives the cost of the mean number of servers for the mean load; a plan starts at least as many servers as its mean | proved |
| C149 | Additional servers have diminishing returns | one-dimensional graph search and generated problems, as for C17, C87 and C112 | the two roundings of the mean of an optimal plan with fewer and one with more servers are plans for the number in between, and together cost no more, as hitting costs are convex and movement is submodular and translation invariant (induction on the plan) | proved |
| C150 | Rising demand and demand with a single peak are cheapest | one-dimensional graph search and generated problems, as for C87 and C90 | a rearrangement inequality by insertion sort, as additional servers are worth more under more load (C108); sorted servers are started once, and every plan starts at least its largest number of servers | proved |
| C151 | Slots without jobs before and after a day cost nothing | one-dimensional graph search and generated problems, as for C87 and C90 | a plan is extended by slots without servers; conversely the part of a plan for the loads switches on at most as many servers as the plan | proved |

## Scope of each theorem, limits and findings

A property counts as `partial` if the code, read exactly, violates part of it; then a `_counterexample` theorem shows the violation and the `_partial` theorems show what does hold.

* **C01** (proved): Finite and infinite cases; general initial configuration (C01_plain_vs_inverted_from) and zero start.
* **C02** (proved): Any alpha, both directions, any horizon; failure of a slot propagates.
* **C03** (proved): Decomposition into hitting part plus alpha times movement; non-negativity; monotonicity in alpha.
* **C04** (proved): Equality of the whole result (cost, output, panic), on schedules of horizon length with d entries per configuration.
* **C05** (proved): Exact characterisation of the registration used; past unchanged, replacement and order independence as corollaries.
* **C06** (proved): Guarded evaluation for the three decision spaces; finite objectives imply feasibility for SSCO, SCO and SBLO (Props/FeasibleSpaces.lean). For SLO the claim about bounds is false (C06_slo_ignores_bounds_counterexample), and C06_finite_objective_slo says what holds instead.
* **C07** (proved): Exact panic conditions for user functions that return a list of samples.
* **C08** (proved): Exact behaviour of reset slots, identity, composition, objective split. Needs the first remaining slot to be certain: resetting into a predicted slot panics (C08_reset_predicted_counterexample).
* **C09** (proved): Interpolation, agreement at integers, round trip, convexity on the whole interval, lower bound by the best integral cost. Discretised problems have the floors of the bounds and the same costs at integral points; rounding schedules up keeps covering and may leave the bounds (C09_rounded_up_counterexample).
* **C10** (proved): Exact acceptance for SCO, SSCO, SLO, Online. SLO needs a hitting cost per dimension, which verify does not check (counterexample: panic). Absence of panics needs configurations with d entries, which Schedule::verify does not check (counterexample).
* **C11** (proved): Exact acceptance, panics only on too long configurations.
* **C12** (proved): Acceptance, both round trips, build_raw.
* **C13** (proved): All listed contracts; is_pow_of_2 on natural numbers.
* **C14** (proved): Independence of every splitting tree of the parallel sum, first failure, sums and concatenation, tied to the objective. With rounding see C121.
* **C15** (partial): The cost is the mean of the samples for any number of samples. Energy cost and revenue loss are the means for two samples only: for three the claim is false (C15_three_samples_counterexample), because samples are merged pairwise by halving.
* **C16** (proved): For costs finite and non-negative at the bound (convex or not): success, original bound respected, true objective. For arbitrary costs: C16_any_costs. A start above the bound breaks the claim (counterexample).
* **C17** (proved): All bounds, horizons (also empty), convex extended-valued costs, alpha >= 0, both directions, starts up to the bound. Finite cost at the bound is needed (counterexample).
* **C18** (proved): Exact logarithms: the f64 logarithm of the code is assumed exact.
* **C19** (proved): All dimensions, bounds, horizons >= 1, cost functions, alpha >= 0, both values of the inverted option. Convexity not needed.
* **C20** (proved): Exact panic condition. An empty horizon also panics (the result vertex is missing), which the statement adds.
* **C21** (proved): Equality of the whole result, for any number of stages and for problems that grow.
* **C22** (proved): Every splitting tree; the result is the first minimal predecessor.
* **C23** (partial): Holds for the uni-dimensional search with convex costs (C23_uni_inverted_partial). False for the multi-dimensional search (C23_multi_inverted_counterexample): it minimises the plain objective (proved).
* **C24** (proved): Exact description of the grid, gaps, termination; with gamma <= 1 building does not terminate (C24_gamma_le_one_diverges).
* **C25** (proved): Optimal among all schedules on the grid, for every gamma > 1, alpha >= 0, horizon >= 1.
* **C26** (partial): Proved for quasi-convex marginals, hence in one dimension with convex costs and for separable convex costs in any dimension. False for jointly convex costs in two dimensions (C26_two_dimensions_counterexample), and alpha is ignored (C26_alpha_counterexample).
* **C27** (proved): Integral and fractional, any window, memory, history and bound finder; the failures of lcp are exact.
* **C28** (proved): Integral problems without prediction window, certain slots. For fractional problems the bound after a restart is wrong (C28_fractional_restart_counterexample): the objective runs over t_end + w slots.
* **C29** (proved): Full 3-competitiveness of the run through the streaming interface, for every sequence of instances revealed by an adversary; no prediction window, certain slots.
* **C30** (proved): Any relaxation, memory, history and draw. Casts to i32 are exact in the model.
* **C31** (partial): Proved for runs whose steps are gentle: increases, decreases that stay below the ceiling of the new value, and arrivals at integers. For all other decreases to a fractional value the code always rounds down (C31_decrease_counterexample), so the full claim is false.
* **C32** (partial): Proved for every history of verified instances with positive hitting costs whose balanced-load costs are defined and finite with all servers active, deterministic and randomised variant, any non-negative gamma. On the remaining verified instances the algorithm aborts (C32_zero_cost_counterexample, C32_rounding_counterexample).
* **C33** (proved): All sizes; lanes ordered, counts exact, round trip.
* **C34** (proved): Every history of verified instances with finite idle costs, not all zero, whose costs are defined within the bounds and finite with all servers on; the division into sub slots and the choice among them are part of the theorem. With idle costs all zero the code aborts (C34_zero_idle_cost_counterexample).
* **C35** (proved): All algorithms, problem types, instances, histories and memories.
* **C36** (proved): Streaming equals the run over the instances it shows (both directions), runs split at every point, resuming to a later horizon, first error.
* **C37** (partial): offline_stream: proved. Preparing the server subtracts the window twice (C37_window_twice_counterexample) and breaks if the horizon does not exceed the window (C37_short_horizon_counterexample); C37_prepare_partial gives the exact lengths.
* **C38** (proved): Sockets and threads are not modelled; a malformed message is a request without input. For the messages see C88.
* **C39** (partial): Feasibility proved for every history and every optimiser that respects its bounds (bounds multiples of 0.01; otherwise rounding can leave the box, C39_rounding_counterexample), and AFHC is the mean of its w+1 plans. The window claim is false of the code: plans are charged up to the current slot only and predictions are never read (C39_predictions_ignored, C39_window_counterexample). The _partial theorems state what the plans do minimise.
* **C40** (partial): Proved for one load type: conservation, non-negativity (for solver answers within bounds and tolerance), and for balanced-load costs in full, including that no load goes to inactive servers. With two or more types part of the load is lost (C40_two_types_counterexample, exact condition C40_conserved_iff), and solver probes can abort (C40_solver_counterexamples). The search for an assignment starts with fractions that give nothing to idle types and distribute no load twice (C40_initial), though not always with a feasible point (C40_initial_counterexample).
* **C41** (partial): Sampling aborts for uneven predictions and returns one vector per job type in place of one per sample (C41_transposed_counterexample). C41_sampling_partial is the exact behaviour; a certain single type is sampled correctly.
* **C42** (partial): Encoding and bounds proved for all sizes. Switching costs have one entry per server type, so the claim fails for two or more locations (C42_two_locations_counterexample).
* **C43** (proved): All four problem types: exact success condition, frame, and unchanged earlier costs; whole histories for all four.
* **C44** (partial): Linear model proved. For quotas the code adds the price in place of multiplying it (C44_price_counterexample) and makes infinite consumption finite; the partial theorems give the exact charge and its monotonicity.
* **C45** (proved): All listed facts, for all real (rational) parameters.
* **C46** (partial): Lists: proved for new points without duplicates, as the documentation demands. Grids make progress exactly for widths of at least 1 (C46_grid_progress_partial) and are grids of multiples only for width 1 (C46_unit_grid, C46_grid_counterexample).
* **C47** (partial): Every piece is rounded to 0.01, and ten small pieces on one side, consecutive or not, end the integration there, so the claim is false (three counterexamples). C47_piecewise_partial gives the exact stopping points and error bound; with fewer than ten fixed breakpoints the result is the integral up to rounding.
* **C48** (proved): Precision 0.01 and rounding away from zero as in the code, exact rationals.
* **C49** (proved): Manhattan and scaled Manhattan for integral and fractional configurations, in exact arithmetic; the Euclidean norm over the reals, and the Bregman identity of half its square. Panics of the scaled norm are characterised.
* **C50** (proved): All six descent algorithms, for every optimiser that stays within its bounds, every root finder that answers on brackets, bounds on the 0.01 grid; with exact optimisers also what the result minimises. Limits shown beside: at the boundary gradient descent minimises the constant infinity (C50_ogd_boundary, C50_ogd_counterexample), negative entropy fails in the first slot, and the regulariser has weight zero. Where no configuration has a finite cost, the dual balanced algorithm aborts and the primal one goes to the point the optimiser names (C50_dobd_infinite, C50_pobd_infinite).
* **C51** (proved): Any exact optimiser and any eviction of the cache, whatever the cache held before the run. Two interleaved runs that share the cache are not covered: the keys do not identify the instance (C51_shared_cache_counterexample).
* **C52** (proved): Checked r checks: a failure is returned exactly when a requirement is violated, and it is that of the first violated one. One theorem per algorithm; the user given cost functions return costs or panic (UserCosts), which their Rust type enforces. SBLO lazy budgeting: the prediction window failure exactly for w != 0, and no other unsupported-failure. The multi-dimensional optimal graph search is stated for problems with at least one dimension (it panics without). The approximate graph search is stated for runs whose grid computation terminates.
* **C53** (proved): Relative to an optimiser that solves the prefix problems exactly (hypothesis only on the calls made).
* **C54** (partial): Balanced-load instances: exact equality (C54_replay_sblo). Convex instances: proved for one load type; with two the online evaluation panics (C54_two_types_counterexample).
* **C55** (partial): Finite balanced costs equal the load cost and respect capacity. They are finite exactly if the load can be handed out in whole hundredths (C55_hundredths), which is the case for every sufficient number of servers if the load divides 100 (C55_divisors), or with one percent slack per type (C55_slack); then both costs agree (C55_same_cost). In general they do not, because fractions are rounded to two digits (C55_rounding_counterexample).
* **C56** (proved): Any solver that returns vectors of the right length.
* **C57** (partial): The code averages over the slots 0 to T-1 (C57_rising_prices_counterexample); C57_average_partial gives the exact difference, which vanishes if the prices of slots 0 and T agree.
* **C58** (partial): False of the code: the root finder accepts any imbalance below 10 (C58_pobd_counterexample). Proved when a minimiser of the hitting cost already keeps the balance (C58_pobd_balance_partial), and when the imbalance exceeds 10 at both ends of the search and a balanced level exists: then the movement costs exactly beta times the level chosen (C58_level_partial).
* **C59** (partial): False of the code: the memory is never returned, so the bias is drawn anew in every slot (C59_counterexample). Holds when the draws agree.
* **C60** (proved): Given an exact optimiser. If no schedule meets the bound, a violating schedule is returned without error (C60_infeasible).
* **C61** (proved): Given an exact optimiser. A movement bound of 0 is accepted although the result moves (C61_zero_movement_counterexample).
* **C62** (proved): Any optimiser that stays within its bounds, any root finder that answers on brackets, any derivative and integration routine that returns. C62_derivative, C62_second_derivative and C62_infinite_costs: what the numeric derivatives are, also where costs are infinite.
* **C63** (partial): False of the code even with exact routines: the mass is 2 after the first slot of a simple instance (C63_mass_counterexample). The initial density has mass 1, and C63_left_bound_partial shows that the left bound is always an end of the interval searched, because of a wrong sign.
* **C64** (proved): Ratio proved for all hitting costs that grow at most proportionally (C64_approximation_ratio), and that balanced-load problems with increasing costs are such (exact load balancer that evaluates feasible points only: C64_balanced_ratio). Without the assumption the ratio is unbounded (C64_convex_counterexample).
* **C65** (partial): False of the code: the numeric precision of 0.01 makes the ratio unbounded (C65_precision_counterexample), and even when the precision has no effect, the balance chosen yields 18/5 on seven slots (C65_balance_counterexample). Proved instead: 5 times the cost of any schedule plus a precision term per slot, for convex Lipschitz costs and an exact optimiser (C65_competitive_partial); the factor 5 is best possible: every smaller factor fails with any error allowed per slot (C65_five_counterexample).
* **C66** (partial): False of the code: at a bound, where the algorithm begins, the difference quotient is infinite and the algorithm may never move, so that regret is linear (C66_regret_counterexample). Proved instead: the classical regret bound plus errors of the difference quotient and of the numeric precision, for runs that keep the distance of the difference quotient from the bounds (C66_regret_partial).
* **C67** (proved): solve: exact contract, rejection, end-to-end optimality for SSCO and SBLO; with alpha other than one the reported cost is the plain objective, not the minimised one (C67_unfair_counterexample). Running time and logging are not modelled.
* **C68** (partial): One server type: optimal (C68_one_type_optimal). Several types: optimal if every load divides 100 (C68_divisors_optimal), and always optimal among schedules that hand out the loads in whole hundredths (C68_hundredths); in general false because load fractions are rounded to hundredths (C68_rounding_counterexample).
* **C69** (partial): One server type: the number of servers kept is described exactly (C69_window, both variants) and the deterministic variant is 2-competitive. For two types the documented ratio 2d is false of the code: load fractions are rounded to hundredths and the ratio is unbounded (C69_two_types_counterexample).
* **C70** (proved): Value and failures of the objective for every assignment.
* **C71** (partial): Linear energy costs: exact. With quotas an infinite consumption has finite cost (C71_quotas_counterexample). A price of zero gives NaN (a panic) in the code and is excluded.
* **C72** (partial): Distribution of the factor proved; one server type: expected cost at most e/(e-1) times the cost of any schedule. The draw is a real number; the algorithm uses any number with the same number of slots. For two types the ratio is unbounded for every draw (C72_two_types_counterexample), because load fractions are rounded to hundredths.
* **C73** (partial): Equality for schedules of gentle steps (as in C31). When coming down from an integer to a fractional value the code always rounds down, and the ratio is unbounded even for fractional schedules of cost at most twice the optimum (C73_decrease_counterexample).
* **C74** (partial): False of the code: once the two bounds have met, later bound computations also charge for returning to the reference state after the last slot, and the ratio is unbounded for every exact optimiser (C74_unbounded_counterexample). Proved: ratio 3 for all runs in which the bounds never tighten right after meeting (C74_three_competitive_partial).
* **C75** (partial): Proved for convex problems and for fractional load problems (C75_convex, C75_balanced_partial, C75_load_partial, C75_exact_loads); integral load problems lose the fractional part of each load (C75_truncated_counterexample).
* **C76** (partial): False of the code, which ignores predictions (C39_predictions_ignored): for every window there are histories with ratio close to 16 for receding horizon control and at least 16/9 for averaging fixed horizon control, at a fixed ratio of switching and operating cost (C76_rhc_counterexample, C76_afhc_counterexample). Proved: ratios 1+rho and (1+rho)^2 for every window, where rho bounds switching cost by operating cost (C76_rhc_partial, C76_afhc_partial).
* **C77** (partial): False of the code, which never returns the memory holding the bias and so draws it anew in every slot (C59_counterexample): with independent draws the mean cost grows linearly although a schedule of cost 1 exists (C77_redrawn_counterexample). Proved: with one draw for all slots, uniform over N equally spaced values, the mean cost is at most twice the cost of every schedule on the grid plus a term of order 1/N (C77_same_draw_partial). Real draws and inexact optimisers are missing.
* **C78** (partial): The numeric precision of 0.01 makes the ratio unbounded (C78_precision_counterexample). Proved: for every R above the documented ratio, and the weights of the code (C78_weights), R times the cost of every schedule on the grid plus a precision term per slot, in one dimension for all strongly convex costs (C78_robd_partial) and in all dimensions for sums of a smooth strongly convex part and convex parts for each dimension (C78_dimensions_partial).
* **C79** (partial): False of the code, whose root finder accepts an imbalance below 10: with 2/5-polyhedral costs it never moves and no ratio holds (C79_distance_counterexample), and in one dimension no constant ratio holds (C79_constant_counterexample). Proved, in all dimensions: ratio max(1, 2/alpha) if no move in the decision space costs 10 or more (C79_polyhedral_partial).
* **C80** (partial): False of the code, which follows the minimisers whenever moves cost less than 10, so that the ratio is of order 1/m (C80_ratio_counterexample). Proved, in all dimensions: ratio max(3, 6/m) in that case (C80_quasiconvex_partial).
* **C81** (partial): False of the code: with alternating minimisers the regret is linear for every balance parameter (C81_regret_counterexample). Proved in one dimension: if the dual imbalance at the minimisers is below 10, the regret is at most the movement along the minimisers (C81_path_partial); if the imbalance exceeds 10 at both ends of the search and a balanced level exists, the chosen level is balanced exactly (C81_level_partial).
* **C82** (proved): C82_exact for any number of types, with an optimiser that assigns loads optimally; C82_one_type for one type, without that assumption; C82_ratio is the general statement about costs of slots.
* **C83** (partial): False of the code, with any ratio: with hitting cost 1 - x the algorithm stays near 0 forever (C83_ratio_counterexample). Proved: it is optimal if hitting costs are least at 0 and slopes and switching cost are within the tolerance of the root finder (C83_zero_partial).
* **C84** (partial): False of the code in one respect: all values are rounded to the grid of the numeric precision, so that the dual of a large norm vanishes everywhere (C84_definite_counterexample). Proved for exact maximisers on the grid: value, seminorm, inner products, the line, scaling, infinite arguments.
* **C85** (partial): Proved over the rationals: value, definiteness, symmetry, triangle inequality for the roots, exact strong convexity and smoothness constant 2. False of the code: singular semi-definite matrices are rejected (C85_invertible), and the function is the squared distance, which does not scale like a norm and is not 1-smooth, while half of its square is not strongly convex (C85_smooth_counterexample).
* **C86** (proved): C86_service for all models with convex offline costs, C86_single_type in terms of the parameters of a data center. One load type (with several types updating fails, C54_two_types_counterexample) and no prediction window (with a window the server fails, C37_window_twice_counterexample).
* **C87** (proved): C87_problem, C87_convex, C87_power, and the same for fractional problems.
* **C88** (partial): False of two memories, which skip fields: after reloading, lazy budgeting for balanced load (C88_balanced_counterexample) and the probabilistic algorithm (C88_probabilistic_counterexample, C88_probabilistic_stuck) always fail. Proved for all requests, responses and other memories, for sessions and for runs interrupted any number of times. Messages are lists of primitive values, not bytes.
* **C89** (proved): C89_minimize and C89_maximize characterise when a result is returned; C89_root_narrow, C89_root_ends, C89_root_brackets and C89_root_inner cover root finding. The value reported by the library is taken to be the objective at the point it returns.
* **C90** (proved): C90_optimal and C90_optimal_one_dimension: graph search; C90_approximation: ratio; C90_static: best fixed number of servers; C90_rising: the energy models meet the requirement of the approximation. The optimiser is only assumed to return the empty point when there are no variables.
* **C91** (partial): C91_finite, C91_above, C91_below: finite and half-infinite intervals. Over all numbers the claim is false of the code: Gauss-Hermite quadrature integrates with the weight exp(-x^2), for which the code does not compensate (C91_whole_partial says what is computed, C91_whole_counterexample shows the difference). C91_piecewise: piecewise integration, the only caller, never integrates over all numbers. The accuracy of the rules is a hypothesis (Spec.GaussRules).
* **C92** (proved): C92_slot_cost: any network; C92_everything_sent; C92_cheapest_plan: the generated problem is assumed to be accepted, which by C42 requires a single location. NLopt is assumed to be exact on the grid of the numeric precision and to evaluate feasible points only. With several sources or job types the splits are those of the code, in which the shares of a load do not sum up to one (C40).
* **C93** (partial): C93_same_problem_partial: any number of steps for the same problem, in any slots and with any biases, under every schedule; every schedule ends and no thread gets stuck. C93_counterexample: false for different problems, as the keys of the cache do not tell problems apart: a step that is interrupted after it cleared the cache decides by the costs of the other problem. The access to the cache is atomic (it is behind a mutex); all else in a thread is local.
* **C94** (partial): C94_in_order: every interleaving, also with clients that give up or keep silent. C94_everyone_partial and C94_data_center_partial: patient clients. False otherwise: C94_give_up_counterexample (a connection closed without a message stops the server, as `stop` does on purpose) and C94_silent_counterexample. One connection per client; messages arrive piece by piece in order; connections are accepted in the order in which they were made. C94_first_come: no client is overtaken by one that connects later, for all interleavings. C94_reaches_partial: with patient clients a state in which everyone is answered can always be reached.
* **C95** (proved): Numeric optimisers are parameters with stated guarantees; for backward-recurrent capacity provisioning the existence of rational cheapest plans of all prefixes is a hypothesis (a sufficient condition is proved beside it)
* **C96** (proved): C96_lazy_service. Integral loads. C96_later_prices_counterexample: the cost of a server stays the one computed from the past when prices change later, so the optimum meant is that for the prices of the past. For several kinds of servers the ratio is false (C69).
* **C97** (proved): C97_convex_iff, C97_smoothed_iff, C97_balanced_iff, C97_load_iff for the conversions, C97_evaluable_iff for the cost of a slot (at least one location, type, source and job type, slots of positive length, processing times not negative). Closures given in Python are total
* **C98** (partial): Static solver: C98_static_load for load problems whose loads divide 100 (or one type), C98_static_balanced_partial for balanced-load problems with quasi-convex least costs. Approximation: C98_balanced_approximation for balanced load, C98_divisors_approximation for load problems whose loads divide 100 (or one type), C98_load_approximation_partial otherwise, compared with schedules that hand out loads in hundredths. False in general: C98_static_rounding_counterexample, C98_static_balanced_counterexample, C98_approximation_rounding_counterexample
* **C99** (proved): C99_defined, C99_strongly_convex (the parameter is twice the documented one if strong convexity is defined with the factor 1/2), C99_smooth; C99_positive_counterexample for other decision spaces. Over the real numbers
* **C100** (proved): C100_lowest_optimum.
* **C101** (proved): C101_window_bounds, C101_window_bound_values, C101_window_three_competitive, and C101_offline_stream for a whole offline problem streamed with a window. The same window in every slot and perfect predictions (predicted mean costs equal the costs that occur). C101_short_horizon_counterexample: the slots of the last window have to be taken into account.
* **C102** (proved): C102_window_service for any data center model whose problem is one-dimensional with convex costs, C102_single_type in terms of the parameters of a data center. C102_short_past_counterexample: with at least one but not more loads than the window the service starts and ends with a failure at the first request. Predictions are exact; the same window in every request.
* **C103** (proved): C103_balanced_service for any model whose server costs are convex and least when idle, C103_park in terms of the parameters of a data center. Optimiser for the assignment of loads exact on hundredths.
* **C104** (proved): C104_one_dimension, C104_approximation, C104_feasible. Counts distinct configurations; repeated evaluations of the same configuration within a slot are not counted.
* **C105** (proved): C105_search, C105_search_overflow, C105_lazy_budgeting, C105_horizon_overflow, C105_total, C105_time. Other arithmetic on i32 (dimensions, lengths, sub time slots) stays unbounded in the model.
* **C106** (proved): C106_one_dimension, C106_lazy, C106_several_dimensions, C106_approximation. Exact arithmetic: rounding of floating point numbers may break ties differently after a change of currency. C106_service for running services priced in another currency.
* **C107** (proved): C107_costs, C107_plans (any plan within a factor of the believed optimum), C107_one_dimension, C107_several_dimensions, C107_lazy.
* **C108** (proved): C108_one_dimension, C108_lazy for any costs; C108_single_type and C108_single_type_lazy for the data center model. C108_several_types_counterexample shows that the restriction to one type of server is needed. C108_service for running services with or without a prediction window.
* **C109** (proved): C109_parts (any problem, also failures), C109_plans and C109_concave (any optimal schedules), C109_one_dimension, C109_several_dimensions.
* **C110** (proved): C110_replan, C110_replanned. Certain (not sampled) hitting costs.
* **C111** (proved): C111_objective, C111_one_dimension, C111_several_dimensions. Switching costs paid when powering up.
* **C112** (proved): C112_one_dimension, C112_lazy, C112_single_type, C112_several_dimensions. C112_service for running services with or without a prediction window.
* **C113** (proved): C113_periods, C113_longer, C113_attained.
* **C114** (proved): C114_joint, C114_fleets, C114_types.
* **C115** (proved): C115_objective, C115_plan.
* **C116** (proved): C116_best, C116_lcp, C116_window.
* **C117** (proved): C117_best, C117_lazy_budgeting.
* **C118** (proved): C118_plan, C118_load, C118_data_center.
* **C119** (partial): C119_capacity_provisioning (any model whose problem is one-dimensional with convex costs), C119_single_type. Lazy budgeting: C119_lazy_budgeting_partial if both services compute the same average cost of a server; false otherwise (C119_prices_counterexample: with rising prices the restarted service keeps servers for a shorter time, so its initial schedule differs from what was decided). C122_restart gives the same average cost for a data center whose costs do not depend on time.
* **C120** (proved): C120_graph_search (all ways of rounding), C120_double (53 binary digits), C120_double_rounds, C120_exact (without rounding this model of the search is the one of C19). C120_optimal_counterexample shows that the plan need not be an exact optimum. Overflow and subnormal numbers are not modelled; costs of single slots are taken as given.
* **C121** (proved): C121_objective (all ways of rounding and splitting), C121_double (53 binary digits). C121_split_counterexample shows that the last digits depend on the splitting. Costs of single slots are taken as given; overflow and subnormal numbers are not modelled.
* **C122** (proved): C122_objective, C122_hitting, C122_backwards, C122_single_type, C122_average, C122_restart, C122_normalized.
* **C123** (proved): C123_graph_search (all monotone ways of rounding, all bounds), C123_double_mono and C123_double (53 binary digits), C123_exact (without rounding this model of the search is the one of C16). C123_optimal_counterexample shows a plan of cost 6291459 where the best one costs 8. Costs of single slots are taken as given; overflow and subnormal numbers are not modelled.
* **C124** (proved): C124_approx_search, C124_double, C124_powers (powers rounded to 53 digits satisfy the assumption), C124_exact (without rounding this is the search of C25). Costs of single slots are taken as given; overflow and subnormal numbers are not modelled.
* **C125** (proved): C125_window, C125_two_competitive, C125_double_nat, C125_double, C125_exact; C125_slots_counterexample shows servers kept for three slots where the exact quotient is below three. The search for an optimal plan inside the algorithm is exact in this model.
* **C126** (proved): Run equality of the rounded and the exact searches (one and several dimensions, full and approximate grids) and of lazy capacity provisioning by an invariant on all stored path costs; exact cost of a schedule for every split of the parallel sum; optimality for any bound from C123 and the gap of one unit; a counterexample beyond 2^53 units.
* **C127** (proved): Exact optimisers (as in C60): comparison of optimal plans for different weights and limits. The optimiser is an oracle; exact means optimal on the grid of the numeric precision.
* **C128** (proved): C128_more_choice for the optimal graph search, with the old plan as witness; C128_online_counterexample shows that the claim does not extend to lazy capacity provisioning.
* **C129** (proved): C129_search, C129_alpha, C129_one, C129_constrained, C129_approx, C129_budgeting, C129_rbg, C129_descent. The decimal 1.1 is taken as 11/10; the default step sizes of gradient descent (1 over a square root) are not included.
* **C130** (proved): C130_wider_window (all windows, all histories); C130_cost_counterexample: window 1 costs 5 where window 0 costs 4.
* **C131** (proved): C131_past, C131_past_approx (any cache); C131_resume, C131_loads_resume (two stages); C131_loads, C131_linear_loads. Concrete: a resumed search succeeds where the costs of the past abort.
* **C132** (proved): C132_dense; C132_coarse_counterexample shows that the claim needs the bound on the factor. Powers are exact (see C124 for rounded powers).
* **C133** (proved): C133_costs and C133_expected for any scenarios described by samples, C133_samples: cost functions that return samples are of this form. Concrete: expected cost 6, best plans of the scenarios 0 and 6.
* **C134** (proved): C134_plans for all plans, C134_finer for the optimum; C134_uneven_counterexample shows that equal costs are needed.
* **C135** (proved): C135_plans for all plans, C135_optimum for the search. The divided type is the first one; by C115 the order of types does not matter.
* **C136** (proved): C136_cost, C136_capacity, for exact optimisers (as for C92).
* **C137** (proved): C137_plans, C137_optimum, C137_switching_counterexample (for the last part of the claim). The two types are the first two; by C115 the order of types does not matter.
* **C138** (proved): For every valid problem with slot-independent costs, and for data centers built from constants with constant loads.
* **C139** (proved): C139_plans for all plans, C139_optimum for the search. C139_farm_plans and C139_single_type say the same of data centers with one type of servers whose prices of energy are mixed with any weights.
* **C140** (proved): C140_decisions, C140_cost (integral algorithm, exact predictions within the window), C140_tight for the factor. C140_service for running services of data centers with one type of servers.
* **C141** (proved): C141_plans for the graph search, C141_lazy for capacity provisioning, C141_service, C141_idle and C141_peak for running services; C141_alpha_needed shows that the weight has to be positive.
* **C142** (proved): C142_round, C142_optimum and C142_lazy. The relaxation is the one of the code (linear interpolation between integers); fractional problems generated directly from a data center model have other costs.
* **C143** (proved): C143_off and C143_on for problems, C143_service_off, C143_service_on and C143_no_more_jobs for services. C143_off_tight: a run that keeps its server exactly as long as allowed.
* **C144** (proved): C144_starts for problems, C144_service for services, at every time of the run. C144_other_plans: another cheapest plan with fewer starts, so the claim is about the plan returned by the search.
* **C145** (proved): C145_pooling compares what the solver returns for the three generated problems. C145_scaled for k equal data centers. C145_saves: a case in which pooling is strictly cheaper.
* **C146** (proved): C146_worse compares what the solver returns for the two generated problems. C146_rising_needed: more load costs less if consumption falls with the utilisation.
* **C147** (proved): C147_plans for all plans, C147_backward for the solver, given an exact optimiser and loads with cheapest plans (as for C95). C147_integral_counterexample is the last sentence of the claim.
* **C148** (proved): C148_plans for all plans, C148_backward for the solver, given an exact optimiser and loads with cheapest plans (as for C95). C148_integral_counterexample is the last sentence of the claim.
* **C149** (proved): C149_one_dimension for the search, C149_single_type for generated problems of data centers.
* **C150** (proved): C150_plans for all plans, C150_order and C150_peak for the search. C150_order_matters is the last sentence of the claim.
* **C151** (proved): C151_idle_ends compares what the solver returns for both problems.

## Testing the theorems

`seeded/LOG.jsonl` lists wrong programs: one edit to one definition of the model (a boundary, a swapped argument, a dropped update), the claim it breaks and the theorems whose proofs then fail. Edits that no theorem noticed lead to stronger theorems, listed under `tightened`.
