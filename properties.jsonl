{"id": "C01", "title": "Plain and inverted objective differ by the final power-down cost", "statement": "For a simplified problem (SSCO, SLO or SBLO) and a schedule that covers the horizon and starts from the all-zero configuration, objective_function minus inverted_objective_function equals the switching cost of powering the last configuration down, sum_k beta_k * x_{T,k}; if one of the two is infinite so is the other. With a non-zero initial configuration the difference is the switching-cost-weighted sum of last minus initial configuration.", "quantifier": "all problem instances, dimensions, horizons, hitting costs and schedules", "why_tests_cant": "it is an identity over schedules of every length and dimension; a test fixes one schedule", "anchors": ["implementation/src/problem.rs: Problem::objective_function, inverted_objective_function, scaled_movement, sum_over_schedule"]}
{"id": "C02", "title": "The objective decomposes over time", "statement": "The (alpha-unfair, possibly inverted) objective over a horizon T is exactly the sum over slots 1..T of hitting cost plus alpha times movement; hence it splits at every slot into the cost of a prefix plus the cost of the remaining problem started from the configuration reached, depends only on the first T configurations, treats missing configurations as the default configuration, and charges no hitting cost after the problem's own horizon.", "quantifier": "all horizons, split points, schedules, default configurations, alpha and both movement directions", "why_tests_cant": "the recursion must agree with the sum for every length and split", "anchors": ["implementation/src/problem.rs: _objective_function_with_default, sum_over_schedule, total_movement"]}
{"id": "C03", "title": "Objectives are non-negative and monotone in alpha", "statement": "With non-negative hitting costs, non-negative switching costs and alpha >= 0 every objective value is non-negative, total_movement is non-negative, and the alpha-unfair objective is non-decreasing in alpha; the alpha-unfair objective equals hitting part plus alpha times total_movement.", "quantifier": "all instances, schedules and alpha", "why_tests_cant": "universally quantified inequality", "anchors": ["implementation/src/problem.rs: alpha_unfair_objective_function, total_movement"]}
{"id": "C04", "title": "Conversion to SCO preserves the objective of every schedule", "statement": "Converting a simplified problem into a smoothed convex optimisation problem leaves the objective value and the model output of every schedule that covers the horizon unchanged, including schedules that leave the decision space (infinite on both sides).", "quantifier": "all simplified instances with horizon >= 1 and all schedules of the horizon's length", "why_tests_cant": "the equality relies on telescoping over the whole schedule and on the modified last slot", "anchors": ["implementation/src/convert.rs: SimplifiedSmoothedConvexOptimization::into_sco", "implementation/src/distance.rs: manhattan_scaled"]}
{"id": "C05", "title": "Newer cost functions never rewrite the past", "statement": "A cost function built by any sequence of additions evaluates slot t with the function registered under the largest time stamp not exceeding t, where a later registration under the same stamp replaces the earlier one; adding a function for slot t leaves the cost of every earlier slot unchanged, and the order in which functions with different stamps are added is irrelevant.", "quantifier": "all sequences of additions, all slots and arguments", "why_tests_cant": "must hold for every history of updates", "anchors": ["implementation/src/cost.rs: CostFn::new, add, get, call_mean, call_certain, call_predictive"]}
{"id": "C06", "title": "Cost evaluation is guarded by the decision space", "statement": "Evaluating a hitting cost outside the decision space never calls the user's function and always yields an infinite cost labelled OutsideDecisionSpace; inside the decision space it yields exactly the user's (mean) cost. A schedule of finite objective therefore stays in the decision space in every slot for smoothed convex optimization, simplified or not, and for balanced-load optimization. Load optimization does not consult its bounds; there a finite objective means that every slot has at least as many servers as its load asks for.", "quantifier": "all decision spaces, slots, points and cost functions", "why_tests_cant": "every point and every user function", "anchors": ["implementation/src/cost.rs: call_mean_within_bounds, call_certain_within_bounds, call_predictive_within_bounds, DecisionSpace::within"]}
{"id": "C07", "title": "Evaluation of cost functions fails exactly on the documented misuse", "statement": "Evaluating a cost function panics exactly if the slot is < 1, no function covers the slot, the function returns no sample, it returns several samples for its own current slot, or (for certain evaluation) it returns several samples; otherwise it returns, and for certain functions mean, certain and predictive evaluation agree.", "quantifier": "all cost functions, slots and arguments", "why_tests_cant": "completeness of the error conditions over all inputs", "anchors": ["implementation/src/cost.rs: SingleCostFn::call_mean, call_certain, call_predictive, CostFn::get"]}
{"id": "C08", "title": "Resetting a problem shifts time and nothing else", "statement": "After reset(s) slot t of the new problem costs what slot t+s of the old problem cost, the horizon shrinks by s, reset(0) is a no-op, resetting twice equals resetting by the sum, and the objective of a full schedule equals the objective of its first s slots plus the objective of the reset problem on the remaining slots started from configuration s, provided the first remaining slot is certain.", "quantifier": "all simplified smoothed convex problems (the problems with a reset), shifts and schedules", "why_tests_cant": "composition law over all shifts and schedules", "anchors": ["implementation/src/convert.rs: Resettable for CostFn, SimplifiedSmoothedConvexOptimization, Schedule", "implementation/src/utils.rs: shift_time"]}
{"id": "C09", "title": "Discretisation and relaxation agree on integral points", "statement": "Relaxing an integral one-dimensional problem and evaluating it at an integral point gives the original cost; between two integers the relaxed cost is the linear interpolation and lies between the two neighbours; discretising the relaxation gives back the original cost at every integral point; for a convex integral cost the relaxed cost is convex on consecutive unit intervals and never beats the best integral cost.", "quantifier": "all cost functions and all points", "why_tests_cant": "all real arguments and all cost functions", "anchors": ["implementation/src/convert.rs: DiscretizableCostFn::into_i, RelaxableCostFn::into_f, DiscretizableProblem, RelaxableProblem"]}
{"id": "C10", "title": "Problem verification is exact", "statement": "verify accepts a problem exactly if the documented constraints hold (positive dimension, non-negative horizon, vector lengths equal to the dimension, positive bounds and switching costs; for SLO also ordered, efficient dimensions and non-negative loads), Online::verify adds w >= 0, and evaluating the objective of a verified SSCO problem on a verified schedule with d entries per configuration never panics when its cost function is total.", "quantifier": "all problem instances", "why_tests_cant": "equivalence with a predicate over all instances", "anchors": ["implementation/src/verifiers.rs: VerifiableProblem::verify, Online::verify"]}
{"id": "C11", "title": "Schedule verification is exact", "statement": "Schedule::verify accepts exactly the schedules whose length is the horizon and whose every entry lies between 0 and the corresponding upper bound; it panics only if a configuration has more entries than there are bounds.", "quantifier": "all schedules, horizons and bound vectors", "why_tests_cant": "equivalence over all schedules", "anchors": ["implementation/src/verifiers.rs: Config::verify, Schedule::verify"]}
{"id": "C12", "title": "Raw schedule encodings round-trip", "statement": "from_raw accepts exactly the encodings of length d*w, from_raw of the flattened schedule returns the schedule, flattening from_raw returns the encoding, and build_raw encodes the schedule that repeats one configuration w times.", "quantifier": "all dimensions, windows, schedules and encodings", "why_tests_cant": "round-trip over all sizes", "anchors": ["implementation/src/schedule.rs: from_raw, build_raw, raw_encoding_len"]}
{"id": "C13", "title": "Scalar utilities obey their contracts", "statement": "project(x,a,b) lies in [a,b] whenever a <= b, is the identity on [a,b], is idempotent, monotone and non-expansive; pos, min, max are the lattice operations; shift_time and unshift_time are inverse; access is 1-based and defined exactly on 1..len; is_pow_of_2 holds exactly for powers of two among positive integers; frac lies in [0,1).", "quantifier": "all numbers", "why_tests_cant": "all numbers", "anchors": ["implementation/src/utils.rs: project, pos, min, max, shift_time, unshift_time, access, is_pow_of_2, frac, mean"]}
{"id": "C14", "title": "A failing slot makes the whole result a failure", "statement": "Combining model outputs over a schedule yields a failure exactly if some slot failed, and then the first failure; otherwise energy cost and revenue loss are the sums and the assignments the concatenation in time order. The result does not depend on how the parallel sum splits the schedule.", "quantifier": "all output sequences and all ways of splitting a parallel reduction", "why_tests_cant": "all schedules of splitting", "anchors": ["implementation/src/model/mod.rs: ModelOutput::horizontal_reduce", "implementation/src/cost.rs: Sum for Cost", "implementation/src/model/data_center/mod.rs: horizontal_merge"]}
{"id": "C15", "title": "Aggregating predictions averages them", "statement": "The cost of an uncertain slot is the arithmetic mean of the sampled costs, and the reported energy cost and revenue loss are the means of the sampled values.", "quantifier": "all non-empty sample lists", "why_tests_cant": "all sample counts; the pairwise merge is only right for small counts", "anchors": ["implementation/src/cost.rs: Cost::mean", "implementation/src/model/mod.rs: ModelOutput::vertical_reduce", "implementation/src/model/data_center/mod.rs: vertical_merge", "implementation/src/utils.rs: mean"]}
{"id": "C16", "title": "Uni-dimensional graph search returns a feasible schedule and its true cost", "statement": "Whenever the uni-dimensional optimal_graph_search returns a schedule of finite cost, the schedule has one configuration per slot, every configuration is an integer between 0 and the (power-of-two rounded) bound, and the reported cost equals the alpha-unfair (inverted if requested) objective of that schedule for the problem with the rounded bound, started from x_start; as long as start and schedule respect the original bound this is the objective of the original problem.", "quantifier": "all integral one-dimensional SSCO instances, alpha, x_start, both movement directions, convex or not", "why_tests_cant": "dynamic program over all horizons and bounds", "anchors": ["implementation/src/algorithms/offline/uni_dimensional/optimal_graph_search.rs: optimal_graph_search, find_schedule, select_initial_rows, select_next_rows"]}
{"id": "C17", "title": "Uni-dimensional graph search is optimal for convex costs", "statement": "For every one-dimensional integral SSCO instance with convex non-negative hitting costs that are finite at the upper bound, the returned schedule respects the original bound and no integral schedule within the bounds has a smaller (alpha-unfair, possibly inverted) objective from x_start, although only a logarithmic number of states per slot is inspected.", "quantifier": "all bounds (powers of two or not), horizons, convex cost families, alpha >= 0, every x_start not above the bound, both directions", "why_tests_cant": "optimality is a claim against exponentially many schedules for every instance", "anchors": ["implementation/src/algorithms/offline/uni_dimensional/optimal_graph_search.rs: optimal_graph_search, make_pow_of_2"]}
{"id": "C18", "title": "Rounding the bound to a power of two does not change the problem", "statement": "make_pow_of_2 keeps horizon, switching cost and the costs of all states up to the old bound, produces a power-of-two bound between the old bound and twice the old bound, and makes every state above the old bound strictly more expensive than the old bound, if that has a finite cost.", "quantifier": "all instances with non-negative costs", "why_tests_cant": "all bounds", "anchors": ["implementation/src/algorithms/offline/uni_dimensional/optimal_graph_search.rs: make_pow_of_2", "implementation/src/utils.rs: is_pow_of_2"]}
{"id": "C19", "title": "Multi-dimensional graph search is optimal", "statement": "For every integral SSCO instance that verify accepts and whose cost at the upper bounds is finite in every slot, multi-dimensional optimal_graph_search returns (for horizons of at least one slot) a schedule of horizon length inside the bounds, the reported cost is its alpha-unfair objective, and no integral schedule inside the bounds is cheaper; convexity is not needed.", "quantifier": "all dimensions, bounds, horizons, cost functions and alpha >= 0", "why_tests_cant": "optimality against exponentially many schedules", "anchors": ["implementation/src/algorithms/offline/multi_dimensional/graph_search.rs: graph_search, handle_layer, handle_config, find_immediate_predecessors, find_optimal_predecessor, update_paths", "implementation/src/algorithms/offline/multi_dimensional/optimal_graph_search.rs: optimal_graph_search"]}
{"id": "C20", "title": "Graph search panics exactly on infeasible instances", "statement": "Multi-dimensional graph search on a verified instance aborts exactly if the horizon is empty or in some slot the configuration with all servers active has infinite cost; it never aborts on a missing vertex, and no path of infinite cost is silently replaced by a free one.", "quantifier": "all verified instances", "why_tests_cant": "reachability of panics over all instances", "anchors": ["implementation/src/algorithms/offline/multi_dimensional/graph_search.rs: find_optimal_predecessor, find_immediate_predecessors, update_paths"]}
{"id": "C21", "title": "Graph search can be resumed from its cache", "statement": "Running multi-dimensional graph search for a longer horizon from the cache returned for a shorter horizon yields the same result and the same cache as running it from scratch, for every split into any number of stages.", "quantifier": "all instances, horizons and split points", "why_tests_cant": "all histories of resumption", "anchors": ["implementation/src/algorithms/offline/graph_search.rs: Cache, read_cache", "implementation/src/algorithms/offline/multi_dimensional/graph_search.rs: graph_search"]}
{"id": "C22", "title": "Parallel predecessor selection is deterministic", "statement": "The predecessor chosen for a vertex is the first one of minimal total cost, independently of how the parallel fold and reduce partition the predecessors.", "quantifier": "all predecessor lists and all binary splittings of the parallel iterator", "why_tests_cant": "scheduler non-determinism", "anchors": ["implementation/src/algorithms/offline/multi_dimensional/graph_search.rs: find_optimal_predecessor"]}
{"id": "C23", "title": "Inverted graph search minimises the inverted objective", "statement": "With the inverted option a graph search returns a schedule minimising the inverted objective function.", "quantifier": "all instances", "why_tests_cant": "optimality claim; refuted by one instance for the multi-dimensional search", "anchors": ["implementation/src/algorithms/offline/multi_dimensional/graph_search.rs: graph_search", "implementation/src/algorithms/offline/uni_dimensional/optimal_graph_search.rs: optimal_graph_search", "implementation/src/algorithms/offline/mod.rs: OfflineOptions"]}
{"id": "C24", "title": "The approximation grid is well-formed", "statement": "For every gamma > 1 and every vector of positive bounds, the value grid used by approx_graph_search is strictly increasing, contains 0 and every bound, stays within 0..max bound, and consecutive positive values differ by at most a factor gamma or by one; building it terminates. For gamma < 2 it also contains 1.", "quantifier": "all gamma > 1 and bound vectors", "why_tests_cant": "all real gamma and all bounds", "anchors": ["implementation/src/algorithms/offline/multi_dimensional/approx_graph_search.rs: build_values, cache_bound_indices"]}
{"id": "C25", "title": "Approximate graph search is optimal on its grid and bounded by the optimum's grid rounding", "statement": "approx_graph_search returns a schedule inside the bounds whose cost is its objective and minimal among all schedules that use only grid values; in particular it is never better than the optimum.", "quantifier": "all instances and gamma > 1", "why_tests_cant": "optimality claim", "anchors": ["implementation/src/algorithms/offline/multi_dimensional/approx_graph_search.rs: approx_graph_search"]}
{"id": "C26", "title": "Static integral search returns the best static configuration", "statement": "static_integral returns a configuration within the bounds which minimises the (alpha-weighted) cost of staying at one configuration forever.", "quantifier": "all instances with convex costs", "why_tests_cant": "optimality over all configurations; the early stop is only right for unimodal costs", "anchors": ["implementation/src/algorithms/offline/multi_dimensional/static_integral.rs"]}
{"id": "C27", "title": "Lazy capacity provisioning stays lazily between its bounds", "statement": "Every configuration chosen by (integral or fractional) lazy capacity provisioning is the projection of the previous configuration onto the interval given by the lower and upper bound: it lies in the interval, it equals the previous configuration whenever that lies in the interval, and otherwise moves to the nearest end.", "quantifier": "all instances, histories, windows and memories", "why_tests_cant": "all online histories", "anchors": ["implementation/src/algorithms/online/uni_dimensional/lazy_capacity_provisioning.rs", "implementation/src/algorithms/capacity_provisioning.rs: find_lower_bound, find_upper_bound"]}
{"id": "C28", "title": "Capacity provisioning bounds are ordered and sandwich the optimum", "statement": "For integral problems the lower bound (last state of an optimal schedule for the plain costs) never exceeds the upper bound (last state of an optimal schedule for the inverted costs), both lie in the decision space, and some optimal schedule of the full problem lies between them in every slot.", "quantifier": "all convex instances with certain slots and all prefixes", "why_tests_cant": "all instances", "anchors": ["implementation/src/algorithms/capacity_provisioning.rs", "implementation/src/algorithms/offline/uni_dimensional/capacity_provisioning.rs: brcp"]}
{"id": "C29", "title": "Integral lazy capacity provisioning is 3-competitive", "statement": "On every one-dimensional integral instance with convex non-negative costs the total cost of the schedule built online by lazy capacity provisioning (without prediction window) is at most three times the cost of the best offline schedule.", "quantifier": "all horizons, bounds and convex cost sequences with certain slots chosen by an adversary", "why_tests_cant": "competitive ratio is a worst case over all inputs", "anchors": ["implementation/src/algorithms/online/uni_dimensional/lazy_capacity_provisioning.rs", "implementation/src/algorithms/capacity_provisioning.rs"]}
{"id": "C30", "title": "Randomised rounding yields neighbouring integers", "statement": "The integral configuration produced from a fractional one by randomised rounding is always its floor or its ceiling, hence within the integral bounds when the fractional schedule is.", "quantifier": "all fractional schedules, previous states and random draws", "why_tests_cant": "all random outcomes", "anchors": ["implementation/src/algorithms/online/uni_dimensional/randomized.rs"]}
{"id": "C31", "title": "Randomised rounding is unbiased", "statement": "If the previous integral configuration was rounded up with probability equal to the fractional part, the next integral configuration is rounded up with probability equal to the next fractional part, so that the expected integral configuration equals the fractional one in every slot.", "quantifier": "all fractional schedules", "why_tests_cant": "statement about exact probabilities for every real input", "anchors": ["implementation/src/algorithms/online/uni_dimensional/randomized.rs"]}
{"id": "C32", "title": "Lazy budgeting for SLO always covers the demand", "statement": "For every verified SLO instance, every configuration chosen online by lazy budgeting has total capacity at least the load, respects the bounds, uses exactly as many servers as there are active lanes, and the internal ordering assertion never fires.", "quantifier": "all verified instances, loads and histories", "why_tests_cant": "invariant over all histories of lanes and horizons", "anchors": ["implementation/src/algorithms/online/multi_dimensional/lazy_budgeting/smoothed_load_optimization.rs"]}
{"id": "C33", "title": "Lanes and configurations translate into each other", "statement": "Distributing a configuration to lanes and collecting it again returns the configuration; lanes are ordered from more to less efficient types and the number of active lanes is the total number of servers.", "quantifier": "all configurations and dimensions", "why_tests_cant": "round-trip for every size", "anchors": ["implementation/src/algorithms/online/multi_dimensional/lazy_budgeting/smoothed_load_optimization.rs: build_lanes, collect_config"]}
{"id": "C34", "title": "Lazy budgeting for SBLO never falls below the offline optimum and forgets nothing", "statement": "In every (sub) time slot the number of active servers of each type is at least the number in the optimal schedule of the instance seen so far, servers are only powered down once their accumulated idle cost reaches the switching cost, and the number of active servers equals the number powered up and not yet powered down.", "quantifier": "all instances whose idle costs are finite and not all zero, and all histories", "why_tests_cant": "invariant over all histories", "anchors": ["implementation/src/algorithms/online/multi_dimensional/lazy_budgeting/smoothed_balanced_load_optimization.rs"]}
{"id": "C35", "title": "Online streaming produces one decision per slot and rejects inconsistent histories", "statement": "Advancing an online problem computes a decision exactly if the schedule so far is one slot shorter than the current time slot and otherwise fails without deciding; a run over an input stream appends exactly one configuration per input, never alters earlier configurations, and the k-th decision depends only on the first k inputs.", "quantifier": "all algorithms, models, inputs and histories", "why_tests_cant": "all histories and all algorithms", "anchors": ["implementation/src/streaming/utils.rs: next, stream, stream_from", "implementation/src/algorithms/online/mod.rs: OnlineAlgorithm::next, Step"]}
{"id": "C36", "title": "A streamed run can be split and resumed", "statement": "Streaming a list of inputs in several calls, passing schedule and memory along, gives the same schedule, memory and problem as streaming the concatenation in one call; an error in one slot stops the run with the first error.", "quantifier": "all algorithms, inputs and split points", "why_tests_cant": "all histories", "anchors": ["implementation/src/streaming/utils.rs: stream, stream_from, offline_stream_from"]}
{"id": "C37", "title": "Offline streaming covers the horizon up to the prediction window", "statement": "offline_stream returns a schedule with exactly max(1, T - w) configurations and leaves the prediction window unused; starting the online server on an offline problem with prediction window w prepares a schedule for all T - w slots.", "quantifier": "all horizons, windows and algorithms", "why_tests_cant": "all horizons and windows", "anchors": ["implementation/src/streaming/utils.rs: offline_stream, offline_stream_from", "implementation/src/streaming/online.rs: prepare, start"]}
{"id": "C38", "title": "The online server refines sequential streaming", "statement": "For every sequence of requests the server's responses are exactly those of the sequential loop: each well-formed input is answered with the decision and cost for the next slot, the state afterwards is the state of the sequential run, and after the first failed or malformed request or the stop request no further decision is made.", "quantifier": "all request sequences and algorithms", "why_tests_cant": "all request histories", "anchors": ["implementation/src/streaming/online.rs: run, handle_connection, start, next, stop"]}
{"id": "C39", "title": "Receding and averaging horizon control stay feasible and use their window", "statement": "Given an optimiser that returns points of the decision space, receding horizon control and averaging fixed horizon control return configurations inside the decision space; averaging fixed horizon control returns the mean of its w+1 fixed horizon plans; with prediction window w the decision accounts for the costs of the current and the next w slots.", "quantifier": "all instances, windows and optimisers", "why_tests_cant": "all instances and all optimiser outputs", "anchors": ["implementation/src/algorithms/online/multi_dimensional/horizon_control/mod.rs", "implementation/src/algorithms/online/multi_dimensional/horizon_control/receding_horizon_control.rs", "implementation/src/algorithms/online/multi_dimensional/horizon_control/averaging_fixed_horizon_control.rs"]}
{"id": "C40", "title": "Load balancing conserves load", "statement": "When loads are distributed to server types by fractions, the loads assigned over all server types sum up to the incoming load of each job type, no assigned load is negative, and a configuration without active servers never receives load at finite cost.", "quantifier": "all load profiles, configurations and fractions", "why_tests_cant": "conservation for all real inputs", "anchors": ["implementation/src/model/data_center/loads.rs: LoadFractions, apply_loads", "implementation/src/model/data_center/mod.rs: safe_balancing"]}
{"id": "C41", "title": "Predicted load samples are well-formed", "statement": "Sampling load profiles from a prediction yields between the smallest and largest number of predicted values profiles, each with one value per job type, and the sampling never aborts.", "quantifier": "all predicted load profiles", "why_tests_cant": "all shapes of predictions", "anchors": ["implementation/src/model/data_center/loads.rs: PredictedLoadProfile::sample_load_profiles"]}
{"id": "C42", "title": "Data center dimensions are encoded bijectively", "statement": "The mapping between (location, server type) pairs and dimensions, and between (source, job type) pairs and load types, used by the data center model is a bijection consistent with the number of dimensions, and bounds and switching costs have one entry per dimension.", "quantifier": "all numbers of locations, server types, sources and job types", "why_tests_cant": "all sizes", "anchors": ["implementation/src/model/data_center/model.rs: parse/encode helpers, generate_bounds, d_, e_", "implementation/src/model/data_center/models/switching_cost.rs: switching_costs"]}
{"id": "C43", "title": "Online updates append exactly one slot", "statement": "Updating an online instance with new information increases the horizon by exactly one, keeps dimension, bounds, switching cost and window, requires information for the current slot and the whole prediction window, and leaves the costs of all earlier slots unchanged.", "quantifier": "all instances and update histories", "why_tests_cant": "all histories", "anchors": ["implementation/src/model/data_center/model.rs: update", "implementation/src/model/mod.rs: verify_update"]}
{"id": "C44", "title": "Energy quotas charge energy at its price", "statement": "With quotas the energy cost of a location is the sum over sources (cheapest first) of price times energy drawn minus profit of unused energy; with a single unlimited source it equals the linear model, it is zero for zero consumption without profits, and it is monotone in the consumption.", "quantifier": "all prices, limits and consumptions", "why_tests_cant": "all real inputs", "anchors": ["implementation/src/model/data_center/models/energy_cost.rs: EnergyCostModel::cost"]}
{"id": "C45", "title": "Delay, revenue loss, energy and switching cost models are sane", "statement": "The average delay is non-negative, non-decreasing in the number of jobs and infinite exactly when the arrival rate reaches the service rate; revenue loss is non-negative and non-decreasing in the delay; linear energy consumption is affine between idle and peak power; building a switching cost from a normalised switching cost and normalising it again is the identity.", "quantifier": "all real parameters", "why_tests_cant": "all real inputs", "anchors": ["implementation/src/model/data_center/models/delay.rs", "implementation/src/model/data_center/models/revenue_loss.rs", "implementation/src/model/data_center/models/energy_consumption.rs", "implementation/src/model/data_center/models/switching_cost.rs"]}
{"id": "C46", "title": "Breakpoint grids are sorted, complete and make progress", "statement": "Adding breakpoints yields a sorted duplicate-free list containing exactly the old and new points; iterating the grid visits strictly growing points in both directions.", "quantifier": "all breakpoint lists and grid widths", "why_tests_cant": "all lists", "anchors": ["implementation/src/breakpoints.rs: Breakpoints::add, grid"]}
{"id": "C47", "title": "Piecewise integration equals integration", "statement": "Integrating piecewise over breakpoints equals integrating over the whole interval for every additive integral, regardless of the breakpoints.", "quantifier": "all breakpoint sets, intervals and additive integrals", "why_tests_cant": "all breakpoint sets", "anchors": ["implementation/src/numerics/quadrature/piecewise.rs"]}
{"id": "C48", "title": "Rounding to the numeric precision is a projection", "statement": "apply_precision is idempotent, monotone, changes a value by at most half the precision and fixes the multiples of the precision.", "quantifier": "all numbers", "why_tests_cant": "all numbers", "anchors": ["implementation/src/numerics/mod.rs: apply_precision"]}
{"id": "C49", "title": "Distances used as switching costs are norms", "statement": "manhattan, manhattan_scaled (with non-negative weights) are non-negative, symmetric, absolutely homogeneous and satisfy the triangle inequality, vanish at zero, and manhattan_scaled of a difference equals half of the two one-sided switching costs.", "quantifier": "all vectors and weights", "why_tests_cant": "all vectors of every dimension", "anchors": ["implementation/src/distance.rs: manhattan, manhattan_scaled"]}
{"id": "C50", "title": "Online balanced descent steps stay in the decision space", "statement": "The gradient step, greedy and balanced descent variants return, given optimisers and projections that return points of the decision space, configurations inside the decision space; greedy balanced descent moves on the segment between the two candidate points; online gradient descent with zero gradient stays put.", "quantifier": "all instances and oracle outputs", "why_tests_cant": "all oracle outputs", "anchors": ["implementation/src/algorithms/online/multi_dimensional/online_balanced_descent/greedy.rs", "implementation/src/algorithms/online/multi_dimensional/online_balanced_descent/meta.rs", "implementation/src/algorithms/online/multi_dimensional/online_gradient_descent.rs"]}
{"id": "C51", "title": "The randomly biased greedy work function is the optimal prefix cost", "statement": "The work function used by randomly biased greedy, w_t(x) = min_y (w_{t-1}(y) + f_t(y) + movement), equals the minimal cost over all schedules of t slots followed by a move to x; caching it by (t,x) never changes its value.", "quantifier": "all instances, times and points, given an exact minimiser", "why_tests_cant": "equality with a minimum over all schedules", "anchors": ["implementation/src/algorithms/online/uni_dimensional/randomly_biased_greedy.rs"]}
{"id": "C52", "title": "Dimension-restricted and option-restricted algorithms reject what they cannot solve", "statement": "Each algorithm returns the documented failure, and no schedule, exactly when called with an unsupported dimension, prediction window, inverted movement or movement constraint.", "quantifier": "all problems and options", "why_tests_cant": "all option combinations", "anchors": ["implementation/src/algorithms/offline/**", "implementation/src/algorithms/online/**", "implementation/src/result.rs: Failure"]}
{"id": "C53", "title": "Backward-recurrent capacity provisioning is optimal", "statement": "On every one-dimensional fractional problem with convex hitting costs, backward-recurrent capacity provisioning returns one configuration per slot, inside the bounds, whose alpha-weighted total cost is minimal among all schedules, provided its optimiser solves the prefix problems exactly; it rejects inverted costs, constrained movement and other dimensions.", "quantifier": "all horizons, bounds, alpha > 0 and convex extended-valued costs", "why_tests_cant": "optimality is relative to all fractional schedules, an infinite set", "anchors": ["implementation/src/algorithms/offline/uni_dimensional/capacity_provisioning.rs: brcp", "implementation/src/algorithms/capacity_provisioning.rs: find_bound"]}
{"id": "C54", "title": "Replaying loads online equals the offline instance", "statement": "Starting from the offline instance of some loads and adding further loads through online updates yields the same problem as the offline instance of all loads: equal horizon, dimension, bounds and switching costs, and equal hitting costs of every configuration in every slot.", "quantifier": "all models, all splits of all load sequences", "why_tests_cant": "all lengths and splits of load histories", "anchors": ["implementation/src/model/data_center/model.rs: to, update, DataCenterOfflineInput::into_online", "implementation/src/model/data_center/loads.rs: apply_predicted_loads, apply_loads_over_time"]}
{"id": "C55", "title": "Converting load problems to balanced-load problems preserves costs", "statement": "The balanced-load problem obtained from a smoothed load problem charges each configuration of the decision space the same hitting cost: the weighted number of servers if there is a server for each unit of load, and infinite cost otherwise.", "quantifier": "all load problems, slots and configurations, given an exact solver", "why_tests_cant": "all real inputs and all solver answers", "anchors": ["implementation/src/convert.rs: SmoothedLoadOptimization::into_sblo", "implementation/src/problem.rs: hit_cost"]}
{"id": "C56", "title": "Cost and model output agree", "statement": "Each evaluation of the cost of a load assignment that returns has an output; a successful output splits the cost exactly into energy cost and revenue loss and carries an assignment of full length, and a failure goes with infinite cost.", "quantifier": "all objectives, profiles, configurations and solver answers", "why_tests_cant": "the solver is an external library whose answers range over all vectors and status codes", "anchors": ["implementation/src/model/data_center/loads.rs: apply_loads", "implementation/src/numerics/convex_optimization.rs: minimize"]}
{"id": "C57", "title": "Load problems charge the average energy cost over the horizon", "statement": "Generating a smoothed load problem from a data center charges each server type the energy cost of a fully utilised server averaged over the slots 1, ..., T of the time horizon.", "quantifier": "all prices, horizons and server types", "why_tests_cant": "all horizons and price functions", "anchors": ["implementation/src/model/data_center/model.rs: OfflineModel<SmoothedLoadOptimization>::to"]}
{"id": "C58", "title": "Primal balanced descent keeps movement in balance with hitting cost", "statement": "In every slot, primal online balanced descent with balance parameter beta pays for movement at most beta times the hitting cost of the configuration it chooses, as the documentation of the option says.", "quantifier": "all instances, histories and beta > 0, given an exact optimiser", "why_tests_cant": "all real inputs and histories", "anchors": ["implementation/src/algorithms/online/multi_dimensional/online_balanced_descent/primal.rs: pobd, Options::beta", "implementation/src/numerics/roots.rs: find_root"]}
{"id": "C59", "title": "Randomly biased greedy keeps its bias throughout a run", "statement": "Randomly biased greedy draws one bias when it starts and uses it in every slot of the run.", "quantifier": "all instances, histories and random draws", "why_tests_cant": "all histories and all values of the random draws", "anchors": ["implementation/src/algorithms/online/uni_dimensional/randomly_biased_greedy.rs: randomly_biased_greedy, Memory::default"]}
{"id": "C60", "title": "Offline convex optimization returns a feasible schedule of minimal cost", "statement": "Offline convex optimization returns a schedule within the decision space whose alpha-unfair cost is minimal among all schedules that meet the bound on total movement, if there is such a schedule.", "quantifier": "all instances, values of alpha and movement bounds, given an exact optimiser", "why_tests_cant": "all real inputs and sizes", "anchors": ["implementation/src/algorithms/offline/multi_dimensional/convex_optimization.rs: co"]}
{"id": "C61", "title": "The static fractional baseline is the best constant schedule", "statement": "The static fractional algorithm returns a constant schedule in the decision space whose cost is minimal among all constant schedules.", "quantifier": "all instances, given an exact optimiser", "why_tests_cant": "all real inputs and sizes", "anchors": ["implementation/src/algorithms/offline/multi_dimensional/static_fractional.rs: static_fractional"]}
{"id": "C62", "title": "The probabilistic algorithm succeeds and stays in the decision space", "statement": "On every history the probabilistic algorithm returns a configuration within the decision space; its new density vanishes outside of the determined range, which lies in the decision space, and no breakpoint is lost.", "quantifier": "all one-dimensional instances with finite costs, all histories, integration and root finding routines", "why_tests_cant": "all real inputs, histories and answers of external routines", "anchors": ["implementation/src/algorithms/online/uni_dimensional/probabilistic.rs: probabilistic"]}
{"id": "C63", "title": "The probabilistic algorithm maintains a probability distribution", "statement": "The density which the probabilistic algorithm carries from slot to slot has total mass 1.", "quantifier": "all one-dimensional instances and histories, given exact routines", "why_tests_cant": "all real inputs and histories", "anchors": ["implementation/src/algorithms/online/uni_dimensional/probabilistic.rs: probabilistic, find_right_bound, find_left_bound", "implementation/src/numerics/roots.rs: find_root"]}
{"id": "C64", "title": "Approximate graph search has approximation ratio 2 gamma - 1", "statement": "For every gamma > 1, approximate graph search returns a feasible schedule whose (alpha-unfair) cost is at most 2 gamma - 1 times the cost of any feasible schedule, provided that hitting costs grow at most proportionally with the number of servers. Balanced-load problems with non-negative, increasing server costs satisfy this. For convex hitting costs in general no ratio is guaranteed.", "quantifier": "every integral SSCO instance of any dimension and horizon whose hitting costs grow at most proportionally, every gamma > 1 and alpha >= 0, every feasible schedule to compare with; every balanced-load instance with increasing costs and every exact load balancer", "why_tests_cant": "The bound compares with all schedules of all instances; it rests on an amortised argument over arbitrarily long schedules and on the gaps of the grid for real gamma.", "anchors": ["implementation/src/algorithms/offline/multi_dimensional/approx_graph_search.rs: approx_graph_search, build_values", "implementation/src/algorithms/offline/multi_dimensional/graph_search.rs: graph_search", "implementation/src/convert.rs: into_ssco", "implementation/src/problem.rs: SmoothedBalancedLoadOptimization"]}
{"id": "C65", "title": "The memoryless algorithm is 3-competitive", "statement": "For every one-dimensional fractional SSCO instance with convex hitting costs, the total cost of the memoryless algorithm is at most 3 times the cost of any schedule.", "quantifier": "all one-dimensional instances with convex hitting costs, all horizons, all schedules to compare with, given an exact optimiser", "why_tests_cant": "a ratio compares with every schedule on every history", "anchors": ["implementation/src/algorithms/online/uni_dimensional/memoryless.rs: memoryless, next", "implementation/src/algorithms/mod.rs (documentation: 3-competitive)", "implementation/src/numerics/mod.rs: ApplicablePrecision"]}
{"id": "C66", "title": "Online gradient descent has sublinear regret", "statement": "The hitting costs of online gradient descent exceed those of the best fixed configuration by an amount that grows more slowly than the number of slots.", "quantifier": "all one-dimensional instances with convex, Lipschitz hitting costs, all learning rates and horizons, all fixed configurations, given an exact optimiser", "why_tests_cant": "asymptotic statement about arbitrarily long histories", "anchors": ["implementation/src/algorithms/online/multi_dimensional/online_gradient_descent.rs: ogd, next", "implementation/src/algorithms/mod.rs (documentation: sublinear regret)", "implementation/src/numerics/finite_differences.rs: gradient"]}
{"id": "C67", "title": "Solving an offline problem returns the objective of a verified, optimal solution", "statement": "Solving an offline problem generates the instance, rejects it with the failure of its verification if it is invalid, runs the algorithm and returns its schedule together with the plain objective of that schedule in the generated instance; nothing is returned otherwise. With the multi-dimensional graph search, for convex problems and for balanced-load problems (which are converted first), the schedule lies in the decision space and no schedule of it has a smaller \u03b1-unfair objective in the original problem. With an \u03b1 other than one the reported cost is not the quantity that was minimised.", "quantifier": "all models' generated instances, algorithms, options; all valid instances whose costs are defined in the decision space and finite with all servers active", "why_tests_cant": "the set of instances and competing schedules is infinite", "anchors": ["implementation/src/streaming/offline.rs: solve", "implementation/src/bindings/data_center/offline.rs: optimal_graph_search_py, optimal_graph_search_sblo_py, optimal_graph_search_sblo", "implementation/src/convert.rs: into_ssco"]}
{"id": "C68", "title": "Solving a load problem by graph search returns an optimal schedule", "statement": "Solving a smoothed load problem by the graph search (through two conversions) returns a schedule of the decision space with a server for each unit of load in every slot, and the cost reported is that of the load problem. The schedule is optimal among all schedules for whose configurations the optimiser finds a distribution of the load; with one server type it is optimal among all schedules. With several types it need not be, because the distribution of the load is rounded to hundredths.", "quantifier": "all valid load problems with positive hitting costs whose balanced-load costs are defined, all optimisers, all competing schedules", "why_tests_cant": "the set of instances, optimisers and competing schedules is infinite", "anchors": ["implementation/src/bindings/data_center/offline.rs: optimal_graph_search_slo_py, optimal_graph_search_slo", "implementation/src/convert.rs: into_sblo", "implementation/src/streaming/offline.rs: solve"]}
{"id": "C69", "title": "The lazy budgeting algorithm keeps servers for a fixed time after they are needed, at twice the optimal cost", "statement": "With one server type, deterministic lazy budgeting keeps as many servers active as the largest load among the last slots, where the number of slots is the switching cost divided by the cost of a server (rounded up); randomized lazy budgeting scales this number by its random factor. The total cost of the deterministic variant is at most twice that of any schedule that serves all loads (documented for d server types: 2d).", "quantifier": "all load problems with one server type, all horizons, prediction-free online runs and all competing schedules, given an exact optimiser", "why_tests_cant": "the ratio compares with every schedule on every history of loads", "anchors": ["implementation/src/algorithms/online/multi_dimensional/lazy_budgeting/smoothed_load_optimization.rs: lb, next, deterministic_next_time_horizon", "implementation/src/algorithms/mod.rs (documentation: 2d-competitive)"]}
{"id": "C70", "title": "The cost of operating a data center is the price of its energy plus the revenue lost by delayed jobs", "statement": "For every configuration and assignment of jobs to servers, the costs of a slot are: per location the price of the energy consumed by all servers at the utilisation given by their jobs, and for every job the loss due to sojourn time, routing delay and processing time. A failure (and no panic) is reported exactly if jobs are sent to inactive servers or servers receive as much work as they can process.", "quantifier": "all data center models with complete parameters, all numbers of locations, server types, sources and job types, all configurations and non-negative assignments", "why_tests_cant": "sums over arbitrary networks and continuous assignments; failures must be exactly the infeasible assignments", "anchors": ["implementation/src/model/data_center/model.rs: objective, energy_cost, energy_consumption, revenue_loss, overall_revenue_loss, total_sub_jobs, limit_utilization", "implementation/src/model/data_center/mod.rs: safe_balancing", "implementation/src/model/data_center/models/delay.rs: average_delay"]}
{"id": "C71", "title": "Utilisation limits of servers are enforced", "statement": "The cost of an assignment of jobs is finite if and only if no active server is utilised beyond the limit of its type; the cost of a server of a generated balanced-load problem is infinite beyond the limit.", "quantifier": "all data center models, configurations, assignments and utilisations", "why_tests_cant": "the limit is a boundary in a continuous space of assignments over arbitrary networks", "anchors": ["implementation/src/model/data_center/model.rs: ServerType, limit_utilization, energy_consumption, to", "implementation/src/model/data_center/models/energy_cost.rs: cost"]}
{"id": "C72", "title": "Randomised lazy budgeting draws its factor correctly and costs e / (e - 1) times the optimum in expectation", "statement": "The random factor lies in the unit interval with distribution function (exp x - 1) / (e - 1). With one server type, the expected total cost of the randomised variant is at most e / (e - 1) times that of any schedule that serves all loads (documented for d server types: d times this ratio).", "quantifier": "all load problems with one server type, all horizons and all competing schedules; expectation over the continuous uniform draw", "why_tests_cant": "an expectation over a continuum of draws, compared with every schedule on every history", "anchors": ["implementation/src/algorithms/online/multi_dimensional/lazy_budgeting/smoothed_load_optimization.rs: lb, sample_gamma, next_time_horizon", "implementation/src/utils.rs: sample_uniform", "implementation/src/algorithms/mod.rs (documentation: e/(e-1) d-competitive)"]}
{"id": "C73", "title": "Randomised rounding preserves costs in expectation", "statement": "The expected cost of the integral schedule obtained by randomised rounding equals the cost of the fractional schedule on the relaxed problem. Consequently, if the fractional algorithm is c-competitive (documented: 2), so is the randomised integral algorithm in expectation.", "quantifier": "all one-dimensional integral problems with finite costs, all horizons, all fractional schedules without a decrease from an integer (or above) to a fractional value; expectation over independent continuous draws", "why_tests_cant": "an expectation over sequences of continuous draws for every schedule", "anchors": ["implementation/src/algorithms/online/uni_dimensional/randomized.rs: randomized, next", "implementation/src/convert.rs: into_f", "implementation/src/algorithms/mod.rs (documentation: Randomized Integral Relaxation, 2-competitive)"]}
{"id": "C74", "title": "Fractional lazy capacity provisioning is 3-competitive", "statement": "Lazy capacity provisioning for fractional problems is documented as 3-competitive: on every problem revealed slot by slot, with non-negative convex hitting costs, the cost of its schedule is at most three times the cost of every other schedule.", "quantifier": "all fractional one-dimensional problems with convex hitting costs, all numbers of slots, all alternative schedules, all exact optimisers", "why_tests_cant": "a ratio against all schedules and all instances; the bounds are computed from a reference slot that depends on the whole history, and tests compare at most a few short instances", "anchors": ["implementation/src/algorithms/online/uni_dimensional/lazy_capacity_provisioning.rs: lcp, find_initial_time", "implementation/src/algorithms/capacity_provisioning.rs: find_bound (fractional)", "implementation/src/algorithms/mod.rs: documentation of Lazy Capacity Provisioning"]}
{"id": "C75", "title": "Problems generated from a data center model carry its parameters", "statement": "A problem generated from a data center model has one slot per given load profile, one dimension per location and server type with the number of servers as bound, for each server type the cost of switching computed from energy, delay, wear and risk of the model, and the given loads: convex problems charge in slot t the cost of assigning the load profile of slot t, load problems have the number of jobs of slot t as load.", "quantifier": "all data center models, load profiles, configurations and optimisers for which a problem is generated", "why_tests_cant": "models and loads are arbitrary; tests generate a few instances", "anchors": ["implementation/src/model/data_center/model.rs: DataCenterModel Model::to", "implementation/src/model/data_center/models/switching_cost.rs: switching_costs", "implementation/src/model/data_center/loads.rs: apply_loads_over_time"]}
{"id": "C76", "title": "Horizon control approaches the optimum as the window grows", "statement": "With perfect predictions, the cost of receding horizon control (in one dimension) and of averaging fixed horizon control is at most 1 + O(1/w) times the cost of an optimal schedule, where the constant depends only on the ratio of switching cost and operating cost.", "quantifier": "all windows, histories, convex costs bounded below by operating costs, and exact optimisers", "why_tests_cant": "a bound for all windows, costs and horizons", "anchors": ["implementation/src/algorithms/README.md: Receding Horizon Control, Averaging Fixed Horizon Control", "implementation/src/algorithms/online/multi_dimensional/horizon_control/receding_horizon_control.rs: rhc", "implementation/src/algorithms/online/multi_dimensional/horizon_control/averaging_fixed_horizon_control.rs: afhc", "implementation/src/algorithms/online/multi_dimensional/horizon_control/mod.rs: next"]}
{"id": "C77", "title": "Randomly biased greedy pays twice the optimum in expectation", "statement": "The expected cost of randomly biased greedy, over the bias drawn uniformly between -1 and 1, is at most twice the cost of every schedule.", "quantifier": "all histories of one-dimensional problems with convex hitting costs, all horizons, exact optimisers", "why_tests_cant": "an expectation over a random draw and a bound for all costs and horizons", "anchors": ["implementation/src/algorithms/README.md: Randomly Biased Greedy", "implementation/src/algorithms/online/uni_dimensional/randomly_biased_greedy.rs: rbg, next, w, Memory"]}
{"id": "C78", "title": "Regularised online balanced descent is competitive for strongly convex costs", "statement": "With hitting costs that are m-strongly convex and movement costing half the squared distance, the cost of regularised online balanced descent with its own weights is at most (1 + sqrt(1 + 4/m)) / 2 times the cost of every schedule.", "quantifier": "all histories with strongly convex hitting costs, all parameters m, all horizons, exact optimisers", "why_tests_cant": "a bound for all costs, parameters and horizons", "anchors": ["implementation/src/algorithms/README.md: Regularized Online Balanced Descent", "implementation/src/algorithms/online/multi_dimensional/online_balanced_descent/regularized.rs: robd, build_parameters, Options"]}
{"id": "C79", "title": "Primal online balanced descent is competitive", "statement": "The cost of primal online balanced descent is at most 3 + O(1/alpha) times the cost of every schedule for the Euclidean norm and locally alpha-polyhedral hitting costs, and O(sqrt(d)) times for the Manhattan norm.", "quantifier": "all histories, decision spaces, norms, polyhedral constants and horizons, exact optimisers", "why_tests_cant": "a bound for all costs, parameters and horizons", "anchors": ["implementation/src/algorithms/README.md: Primal Online Balanced Descent", "implementation/src/algorithms/online/multi_dimensional/online_balanced_descent/primal.rs: pobd", "implementation/src/algorithms/online/multi_dimensional/online_balanced_descent/meta.rs: obd", "implementation/src/numerics/roots.rs: find_root"]}
{"id": "C80", "title": "Greedy online balanced descent is competitive for quasiconvex costs", "statement": "With hitting costs that are m-quasiconvex and movement costing half the squared distance, the cost of greedy online balanced descent is at most O(1/sqrt(m)) times the cost of every schedule.", "quantifier": "all histories, decision spaces, parameters m and horizons, exact optimisers", "why_tests_cant": "a bound for all costs, parameters and horizons", "anchors": ["implementation/src/algorithms/README.md: Greedy Online Balanced Descent", "implementation/src/algorithms/online/multi_dimensional/online_balanced_descent/greedy.rs: gobd", "implementation/src/algorithms/online/multi_dimensional/online_balanced_descent/primal.rs: pobd", "implementation/src/numerics/roots.rs: find_root"]}
{"id": "C81", "title": "Dual online balanced descent has sublinear regret", "statement": "The cost of dual online balanced descent exceeds the cost of the best fixed configuration by an amount that grows slower than the number of slots.", "quantifier": "all histories with convex hitting costs, balance parameters and horizons, exact optimisers", "why_tests_cant": "a bound for all costs, parameters and horizons", "anchors": ["implementation/src/algorithms/README.md: Dual Online Balanced Descent", "implementation/src/algorithms/online/multi_dimensional/online_balanced_descent/dual.rs: dobd", "implementation/src/numerics/roots.rs: find_root"]}
{"id": "C82", "title": "Lazy budgeting for balanced load is competitive", "statement": "Playing lazy budgeting on a history of balanced-load instances with d server types and parameter epsilon never fails and returns a schedule within the bounds whose cost is at most 2d + 1 + epsilon times the cost of every schedule within the bounds.", "quantifier": "all histories of integral balanced-load problems in which a server costs a convex function of its load that is least when idle and some type has a positive idle cost, all epsilon, all horizons, all numbers of types, optimisers that assign loads optimally", "why_tests_cant": "a bound for all costs, loads, parameters and horizons", "anchors": ["implementation/src/algorithms/README.md: Lazy Budgeting (SBLO)", "implementation/src/algorithms/online/multi_dimensional/lazy_budgeting/smoothed_balanced_load_optimization.rs: lb, alg_b, determine_config, determine_sub_time_slots, modify_problem", "implementation/src/problem.rs: SmoothedBalancedLoadOptimization::hit_cost"]}
{"id": "C83", "title": "The probabilistic algorithm is 2-competitive", "statement": "The cost of the probabilistic algorithm is at most twice the cost of every schedule in the decision space.", "quantifier": "all histories of one-dimensional problems with convex hitting costs that are smooth or piecewise linear, all horizons, exact optimisers, root finders and integrals", "why_tests_cant": "a bound for all costs and horizons", "anchors": ["implementation/src/algorithms/README.md: Probabilistic Algorithm", "implementation/src/algorithms/online/uni_dimensional/probabilistic.rs: probabilistic, find_right_bound, find_left_bound, expected_value", "implementation/src/numerics/roots.rs: find_root"]}
{"id": "C84", "title": "The dual of a switching cost is its dual norm", "statement": "The dual of a norm, computed by maximisation, is the largest inner product of its argument with a vector of norm at most 1: it is a seminorm, the inner product of two vectors is at most the norm of one times the dual of the other, the dual of the norm |x| on the line is |x|, scaling a norm by c divides its dual by c, and it vanishes only at 0.", "quantifier": "all dimensions, all vectors, all norms, all exact maximisers on the grid of the numeric precision", "why_tests_cant": "a statement about all vectors and all norms, and about a maximisation over an unbounded set", "anchors": ["implementation/src/distance.rs: dual_norm", "implementation/src/numerics/convex_optimization.rs: find_unbounded_maximizer, build_empty_bounds", "implementation/src/algorithms/online/multi_dimensional/online_balanced_descent/dual.rs: dobd"]}
{"id": "C85", "title": "The Mahalanobis distance is a norm that is smooth and strongly convex", "statement": "The Mahalanobis distance of a positive semi-definite matrix exists, measures the distance to the mean with respect to the matrix, is not negative, vanishes only at the mean, is symmetric about the mean, satisfies the triangle inequality, scales with its argument, is 1-Lipschitz smooth and 1-strongly convex, as documented.", "quantifier": "all dimensions, all symmetric matrices, all means and all configurations", "why_tests_cant": "a statement about all matrices and all points", "anchors": ["implementation/src/distance.rs: mahalanobis, norm_squared"]}
{"id": "C86", "title": "A running capacity provisioning service answers every request and stays within three times the optimum", "statement": "A service for a data center which decides by integral lazy capacity provisioning can be started with past loads and then be sent one load after another. Starting it succeeds, no request ends in a fault, every decision uses between zero and all servers, and the cost reported with each answer is the cost of all decisions so far, including those about the past loads, and at most three times the cost of any other schedule for the loads seen so far.", "quantifier": "all models of data centers with one kind of servers and convex costs, all past and future loads that the servers can process, all requests in order", "why_tests_cant": "the number of requests is unbounded, and comparing with the optimum quantifies over all schedules", "anchors": ["implementation/src/streaming/online.rs: prepare, start, run, next", "implementation/src/bindings/data_center/online/uni_dimensional/lazy_capacity_provisioning/integral.rs: start, next", "implementation/src/algorithms/online/uni_dimensional/lazy_capacity_provisioning.rs: lcp", "implementation/src/model/data_center/model.rs: to, update"]}
{"id": "C87", "title": "The cost of a single-type data center is convex in the number of servers", "statement": "For a data center with one location, one server type, one source and one job type, the generated problem charges for the number of servers exactly the price of their energy plus the revenue lost due to the delay of the jobs they share; this cost is not negative, finite if all servers are active and can process the load, infinite if the active servers cannot process it, and convex in the number of servers if energy consumption is convex in the utilisation, which it is for the linear models.", "quantifier": "all such models, all loads, all time slots, all numbers of servers", "why_tests_cant": "convexity relates the costs of all numbers of servers; it must hold for all parameters and loads", "anchors": ["implementation/src/model/data_center/model.rs: objective, to", "implementation/src/model/data_center/loads.rs: apply_loads", "implementation/src/model/data_center/models/energy_consumption.rs: consumption", "implementation/src/model/data_center/models/delay.rs: average_delay", "implementation/src/model/data_center/models/revenue_loss.rs: loss"]}
{"id": "C88", "title": "What is sent over the wire is received, and an interrupted run can be resumed", "statement": "A client of the online service receives exactly the outcomes the service computed for its inputs, in order; an empty or truncated message ends the service. A run of an online algorithm may be interrupted after any slot: if it goes on with the schedule and the memory as serialised and deserialised, its decisions are the same as without interruption.", "quantifier": "all requests, responses and memories, all orders in which the entries of hash maps are written, all points and numbers of interruptions", "why_tests_cant": "interruptions may happen at any point of any history, and the order of the entries of hash maps is not determined", "anchors": ["implementation/src/streaming/online.rs: run, next, stop, OnlineResponse", "implementation/src/cost.rs: Serialize, Deserialize", "implementation/src/model/data_center/loads.rs: Serialize, Deserialize", "implementation/src/algorithms/online/uni_dimensional/probabilistic.rs: Memory, default_p", "implementation/src/algorithms/online/multi_dimensional/lazy_budgeting/smoothed_balanced_load_optimization.rs: Memory, default_hitting_cost", "implementation/src/algorithms/offline/graph_search.rs: Cache, Path"]}
{"id": "C89", "title": "Numeric optimisation and root finding report what the libraries found", "statement": "A minimisation or maximisation returns only if objective and constraints can be evaluated at all points the library probes and the library does not fail; it returns the library's point, rounded to the precision, with the objective at that point or with infinity after a timeout. Root finding asks the library only if the ends of the interval bracket a root; otherwise it returns an end of the interval.", "quantifier": "all objectives, constraints, bounds and initial points, and all answers of the libraries", "why_tests_cant": "the libraries are external and may probe any points and answer anything", "anchors": ["implementation/src/numerics/convex_optimization.rs: minimize, maximize, find_unbounded_maximizer, optimize, evaluate", "implementation/src/numerics/roots.rs: find_root"]}
{"id": "C90", "title": "Offline plans for a data center with one type of servers", "statement": "Solving a model of a data center with one location, server type, source and job type by graph search returns a plan within the number of servers whose reported cost is its energy cost, revenue loss and switching cost, and no plan is cheaper; the search for one dimension does so too. The approximation with parameter gamma > 1 returns a plan at most 2*gamma - 1 times as expensive as any other if a server which is used more does not consume less energy. The static optimum is a cheapest number of servers that is never changed.", "quantifier": "all parameters of the data center in their ranges with convex energy consumption, and all sequences of loads which all servers together can process", "why_tests_cant": "optimality among all plans for all parameters and loads cannot be tested", "anchors": ["implementation/src/bindings/data_center/offline.rs: optimal_graph_search_py, optimal_graph_search_1d_py, approx_graph_search_py, static_integral_py", "implementation/src/streaming/offline.rs: solve", "implementation/src/model/data_center/model.rs: to", "implementation/src/algorithms/offline/multi_dimensional/approx_graph_search.rs", "implementation/src/algorithms/offline/multi_dimensional/static_integral.rs"]}
{"id": "C91", "title": "Numerical integration returns the integral to the precision", "statement": "For every function that is integrable on the interval, integration returns its integral, rounded to the precision of 0.01, whether the interval is finite or has one infinite end; over all numbers it must do so too. An estimate that misses the tolerance is returned without notice.", "quantifier": "all intervals and all integrable real functions, for quadrature rules which compute the integrals they are made for", "why_tests_cant": "the functions and intervals are arbitrary, and a test with a single density does not show a missing weight", "anchors": ["implementation/src/numerics/quadrature/mod.rs: integral, finite_integral, semi_infinite_integral, infinite_integral, handle_integration_result", "implementation/src/numerics/quadrature/piecewise.rs: piecewise_integral"]}
{"id": "C92", "title": "Costs and plans of networks with several kinds of servers", "statement": "The cost charged for a configuration of a network of data centers in a slot is the energy cost plus lost revenue of a best way to split the load of the slot among the active servers. Solving a model with any number of server types by graph search returns the numbers of servers of a cheapest plan: no other numbers of servers and no other splits of the loads are cheaper, and the reported cost is that of the plan. With a single source and job type, a split sends exactly the load to the servers.", "quantifier": "all models with any numbers of locations, server types, sources and job types, all configurations, all non-negative load profiles, and all sequences of loads which all servers together can process", "why_tests_cant": "a best split among all splits and a cheapest plan among all plans cannot be found by tests", "anchors": ["implementation/src/model/data_center/loads.rs: apply_loads, LoadFractions", "implementation/src/model/data_center/model.rs: objective, to", "implementation/src/bindings/data_center/offline.rs: optimal_graph_search_py", "implementation/src/algorithms/offline/multi_dimensional/optimal_graph_search.rs"]}
{"id": "C93", "title": "Runs of randomly biased greedy in one process do not disturb each other", "statement": "If several steps of randomly biased greedy run at the same time in one process, for example because several servers were started, then every step ends with the decision it would make alone, whatever order their threads are scheduled in, whatever the shared cache of the work function contains in the beginning, and whatever entries it forgets.", "quantifier": "all numbers of concurrent steps, their problems, slots and biases, all interleavings of their accesses to the shared cache, all contents of the cache, all choices of entries to forget", "why_tests_cant": "Tests run one server at a time; the interleavings of threads cannot be enumerated, and a wrong entry only matters if another thread reads it between two of its own accesses.", "anchors": ["implementation/src/algorithms/online/uni_dimensional/randomly_biased_greedy.rs: rbg, next, w, WORK", "implementation/src/streaming/online.rs: start, run"]}
{"id": "C94", "title": "Clients of one server are served one after the other, and a patient client gets its own answer", "statement": "Any number of clients use the running service of one server at the same time: each connects, sends its input piece by piece, and waits for a response; connecting, sending, accepting, answering and closing interleave in any way. At any time, the clients that got a response can be put into an order such that everyone got the response to its own input which the service gives if it receives the inputs in this order one after the other; later responses only extend the order. If the service can handle the inputs in every order, no client is silent forever or closes its connection before it has a response, then the server keeps running, and everyone gets a response after finitely many steps. For a data center with one server type and lazy capacity provisioning this is the case, and the costs reported to each client are at most three times those of the best plan for the loads in this order. A client that gives up early, for example because it crashed, or that keeps silent can leave all others without a response.", "quantifier": "all numbers of clients, inputs, messages, models, algorithms and interleavings of the clients and the server", "why_tests_cant": "Tests use one client that behaves well; the claim is about every interleaving of any number of clients, including ones that fail at any point.", "anchors": ["implementation/src/streaming/online.rs: run, next, stop, update, get_panic_message"]}
{"id": "C95", "title": "Fractional plans for a data center with one type of servers are cheapest", "statement": "Started from the model of a data center with one location, type of servers, source and type of jobs, the offline solvers for fractional problems return a plan (a number of servers for every load, possibly with a fractional part) together with exactly what this plan costs in terms of energy, lost revenue and powering up servers. With an exact optimiser, convex optimisation returns a cheapest of all plans that use multiples of the numeric precision, the static solver a cheapest constant plan, and backward-recurrent capacity provisioning a cheapest of all plans whenever cheapest plans exist.", "quantifier": "all data centers with one location, server type, source and job type and parameters in their ranges, all sequences of loads that all servers can process, all optimisers with the stated guarantees, all competing fractional plans", "why_tests_cant": "Tests compare the results for a few loads with recorded schedules; they do not relate the schedule to the cheapest of all plans, and the conversion to a general problem hides part of the switching cost in the last slot.", "anchors": ["implementation/src/bindings/data_center/offline.rs: brcp_py, convex_optimization_py, static_fractional_py", "implementation/src/algorithms/offline/uni_dimensional/capacity_provisioning.rs: brcp", "implementation/src/algorithms/offline/multi_dimensional/convex_optimization.rs: co", "implementation/src/algorithms/offline/multi_dimensional/static_fractional.rs: static_fractional", "implementation/src/model/data_center/model.rs: DataCenterModel::to"]}
{"id": "C96", "title": "A running lazy budgeting service activates what the last loads require and stays within twice the optimum", "statement": "For every data center model with one location and one kind of server that was turned into a load optimisation problem, every list of past loads and every list of later loads, none exceeding the number of servers: starting the lazy budgeting service with the past loads succeeds, and every later load is answered. In every slot the number of active servers is the largest load of the last slots, namely of as many slots as a server can be operated for without exceeding its (randomly scaled) switching cost. The cost reported with an answer is the cost of all decisions up to then, each server paying the average full-load cost computed from the past and its switching cost. Without randomisation it is at most twice the cost of any plan that covers the loads up to then.", "quantifier": "all models of one kind of server, all numbers of servers, positive costs, loads and numbers of past and later slots, randomised or not, every optimiser that handles problems without variables", "why_tests_cant": "the guarantee relates unboundedly long conversations with a service to all other plans", "anchors": ["implementation/src/bindings/data_center/online/multi_dimensional/lazy_budgeting/smoothed_load_optimization.rs: start, next", "implementation/src/streaming/online.rs: start, run, next", "implementation/src/algorithms/online/multi_dimensional/lazy_budgeting/smoothed_load_optimization.rs: lb", "implementation/src/model/data_center/model.rs: OfflineModel/OnlineModel for SmoothedLoadOptimization"]}
{"id": "C97", "title": "Complete models are converted and evaluated without a panic, incomplete ones are not", "statement": "A model of a network of data centers is turned into a convex problem exactly if every location knows the number of its servers of each type and every type has a switching cost; otherwise the conversion panics. For balanced-load problems there must moreover be exactly one location, source and job type, and a load in every slot; for load problems moreover the energy consumption of each type of server and the price of energy at the location. The cost of a slot, for arbitrary numbers of active servers and an arbitrary assignment of jobs to them, is a number or one of the two reported failures, and never a panic, exactly if energy consumption, energy prices, revenue losses, processing times and routing delays are all given.", "quantifier": "all models, numbers of locations, server types (at least one for load problems), sources and job types, all keys, all loads, configurations and assignments", "why_tests_cant": "a test uses a complete model; which entries are looked up depends on the configuration and the assignment, so an incomplete model may pass every test with other configurations", "anchors": ["implementation/src/model/data_center/model.rs: DataCenterModel::to, objective, energy_consumption, overall_revenue_loss, generate_bounds", "implementation/src/model/data_center/models/energy_consumption.rs: consumption", "implementation/src/model/data_center/models/energy_cost.rs: cost", "implementation/src/model/data_center/models/revenue_loss.rs: loss", "implementation/src/model/data_center/models/switching_cost.rs: switching_costs"]}
{"id": "C98", "title": "Static and approximate solvers for load problems", "statement": "Solving a load problem with the static solver returns a configuration which handles every load, together with what keeping it costs, and no other configuration that handles every load is cheaper to keep. Solving it with the approximation scheme returns a schedule which handles every load, together with its cost, at most (2\u03b3-1) times the cost of any other schedule. Both hold if every load divides 100 or there is one type of servers; in general only in comparison with schedules that can hand out the loads in whole hundredths. Solving balanced-load problems has the same guarantees with respect to their cost, for the static solver if the least costs of configurations are quasi-convex in every number of servers.", "quantifier": "all load and balanced-load problems, numbers of types, slots, all \u03b3 > 1, all exact optimisers", "why_tests_cant": "optimality and ratios against all schedules cannot be tested", "anchors": ["implementation/src/bindings/data_center/offline.rs: approx_graph_search_py, static_integral_py (slo and sblo)", "implementation/src/streaming/offline.rs: solve", "implementation/src/convert.rs: SmoothedLoadOptimization::into_sblo, SmoothedBalancedLoadOptimization::into_ssco", "implementation/src/algorithms/offline/multi_dimensional/approx_graph_search.rs: approx_graph_search", "implementation/src/algorithms/offline/multi_dimensional/static_integral.rs: static_integral"]}
{"id": "C99", "title": "Negative entropy is strongly convex and smooth on the simplex", "statement": "The negative entropy offered as distance generating function is defined exactly for configurations whose entries are all positive. Among configurations whose positive entries sum to 1, it is strongly convex with respect to the Manhattan norm, with (at least) the documented parameter 1/(2 ln 2); if all entries are at least \u03b4 it is smooth with the documented parameter 1/(\u03b4 ln 2). On decision spaces that are not simplices, which the algorithms accept as well, neither holds with any parameter.", "quantifier": "all dimensions, all pairs of configurations, all points between them, all \u03b4 > 0", "why_tests_cant": "strong convexity is a statement about all pairs of points of a continuum", "anchors": ["implementation/src/distance.rs: negative_entropy", "implementation/src/algorithms/online/multi_dimensional/online_balanced_descent/primal.rs: Options::negative_entropy", "implementation/src/algorithms/online/multi_dimensional/online_balanced_descent/dual.rs: Options::negative_entropy"]}
{"id": "C100", "title": "Ties of the one-dimensional graph search", "statement": "If a one-dimensional integral problem has several optimal schedules, the graph search returns the lowest of them: in every slot it uses no more servers than any other optimal schedule. This holds for both directions of the switching costs, every weight of them and every starting state, also if the bound is not a power of two.", "quantifier": "all one-dimensional integral problems with convex non-negative costs that are finite with all servers active, all horizons, options, starting states not above the bound, all optimal schedules", "why_tests_cant": "compares the result with every other optimal schedule; the search visits only a sample of the states, so which of the optimal schedules it meets first depends on the instance", "anchors": ["implementation/src/algorithms/offline/uni_dimensional/optimal_graph_search.rs: optimal_graph_search, find_schedule, make_pow_of_2"]}
{"id": "C101", "title": "Lazy capacity provisioning with a prediction window", "statement": "If in every slot the next w slots are predicted perfectly, integral lazy capacity provisioning with a prediction window of w slots never fails; its lower bounds do not exceed its upper bounds, some schedule which is optimal for all slots played together with the last window stays between the bounds, and the cost over the slots played is at most three times the cost of every schedule for the slots played and the last window. Streaming an offline problem of N > w slots with this window ends after N - w decisions, with the same guarantee. In comparison with schedules for the slots played alone the ratio does not hold.", "quantifier": "all one-dimensional integral problems with convex costs, all horizons, all windows, all competing schedules", "why_tests_cant": "a ratio against all schedules, for all windows and horizons, that also depends on how ties between optimal schedules are broken", "anchors": ["implementation/src/algorithms/online/uni_dimensional/lazy_capacity_provisioning.rs: lcp, find_initial_time", "implementation/src/algorithms/capacity_provisioning.rs: Bounded::find_lower_bound, find_upper_bound, find_bound", "implementation/src/problem.rs: Online", "implementation/src/streaming/utils.rs: next, stream"]}
{"id": "C102", "title": "A capacity provisioning service with a prediction window stays within three times the optimum", "statement": "Start the lazy capacity provisioning service for a single-type data center with prediction window w and with the first a loads, and then send per slot the load of that slot together with exact predictions of the next w loads. If a = 0 the service starts with no decision, and if a > w it starts having decided max(1, a - 2w) slots. Every request is answered without failure. Each answer reports the cost of the schedule decided so far, and that cost is at most three times the cost of every schedule for these slots and the next w slots. If 1 <= a <= w, the service starts with an empty schedule at slot 1, and the first request ends it with an inconsistency failure.", "quantifier": "every single-type data center with convex energy consumption, every sequence of loads it can carry, every window, every length of the past and every number of requests", "why_tests_cant": "The interplay of the streamed past, the shortened horizon and the windows of later requests depends on a, w and the number of requests; tests run one combination.", "anchors": ["implementation/src/streaming/online.rs: prepare, run", "implementation/src/model/data_center/model.rs: to, update", "implementation/src/algorithms/online/uni_dimensional/lazy_capacity_provisioning.rs: lcp"]}
{"id": "C103", "title": "A balanced-load service with several server types stays within 2d+1+\u03b5 of the optimum at every request", "statement": "Starting a service for a data center with d kinds of servers (integral balanced-load optimisation decided by lazy budgeting with precision \u03b5 > 0, no prediction window) with past loads and then sending it one load per slot, every request is answered. The cost reported with every answer is finite and is the objective value of all decisions so far in the offline problem of these slots, and it is at most 2d + 1 + \u03b5 times the cost of any other schedule for these slots. Assumed: a positive energy price, convex energy consumption of servers which is least when idle and positive for some kind of idle server, every load fits on all servers in whole percents, and an exact optimiser for the assignment of loads.", "quantifier": "every data center model with one location and one job type, every past and future sequence of loads, every precision, every energy price per slot, every competing schedule", "why_tests_cant": "The guarantee compares the service with every schedule after every request and holds for sequences of requests of any length; tests can only replay single histories.", "anchors": ["implementation/src/bindings/data_center/online/multi_dimensional/lazy_budgeting/smoothed_balanced_load_optimization.rs", "implementation/src/algorithms/online/multi_dimensional/lazy_budgeting/smoothed_balanced_load_optimization.rs: lb", "implementation/src/streaming/online.rs: start, next", "implementation/src/model/data_center/model.rs: to, update"]}
{"id": "C104", "title": "The graph searches look at few configurations", "statement": "The optimal search in one dimension with at most m servers looks, in each slot, at not more than five times the binary logarithm of m configurations (rounded up, minus one, and at least five in total), all of them within the bound; the approximate search in d dimensions looks at not more than (2N + d)^d configurations, the same in every slot, where N is the number of powers of its factor up to the largest bound; the optimal search in several dimensions looks only at configurations within the bounds, in slots after those of its cache. Changing the hitting costs anywhere else changes neither the result nor a failure.", "quantifier": "all instances, bounds, start values, options, caches, factors above 1, and all changes of the costs elsewhere", "why_tests_cant": "The claim compares runs on all pairs of problems which agree on a small set of configurations that itself depends on the problem; a test sees single runs.", "anchors": ["implementation/src/algorithms/offline/uni_dimensional/optimal_graph_search.rs: optimal_graph_search, select_initial_rows, select_next_rows", "implementation/src/algorithms/offline/multi_dimensional/approx_graph_search.rs: approx_graph_search, build_values", "implementation/src/algorithms/offline/multi_dimensional/graph_search.rs: graph_search"]}
{"id": "C105", "title": "Arithmetic on 32-bit integers is exact within stated limits and aborts beyond them", "statement": "With the overflow checks of a debug build: the one-dimensional graph search on 32-bit integers gives the same result as on unbounded integers for every bound up to 2^28 and panics for every larger one (if there is a slot); lazy budgeting does so as long as the total number of servers and the slots until which servers are kept are 32-bit integers, and panics if a server would be kept longer; totals of configurations and shifts of time slots are exact exactly if their intermediate results fit.", "quantifier": "all instances, costs, start values, options, memories and time slots", "why_tests_cant": "Overflows appear only for extreme inputs; that there are none below a limit, and which limit it is, is a statement about all inputs.", "anchors": ["implementation/src/algorithms/offline/uni_dimensional/optimal_graph_search.rs: optimal_graph_search, make_pow_of_2, select_initial_rows, select_next_rows", "implementation/src/algorithms/online/multi_dimensional/lazy_budgeting/smoothed_load_optimization.rs: lb, next_time_horizon", "implementation/src/utils.rs: shift_time, unshift_time", "implementation/src/config.rs: total"]}
{"id": "C106", "title": "Only relative costs matter", "statement": "Giving all hitting and switching costs in another currency, that is multiplying all of them by the same positive number, changes no schedule: the one-dimensional graph search (convex costs) and lazy capacity provisioning in every slot, with or without a prediction window, decide as before, also if every slot in addition charges a fee which does not depend on the configuration; the optimal and the approximate search in several dimensions return the same schedule, or fail in the same way, for arbitrary costs, with and without a cache. Reported costs are converted (plus the fees).", "quantifier": "all problems, positive factors, fees per slot, starts, weights and directions of the switching costs, caches, windows and histories; in one dimension starts are not above the bound and costs non-negative and finite with all servers active", "why_tests_cant": "The claim relates two runs on different costs for every factor; where several schedules are optimal the choice between them must not change either.", "anchors": ["implementation/src/algorithms/offline/uni_dimensional/optimal_graph_search.rs: optimal_graph_search", "implementation/src/algorithms/offline/multi_dimensional/graph_search.rs: graph_search", "implementation/src/algorithms/offline/multi_dimensional/approx_graph_search.rs: approx_graph_search", "implementation/src/algorithms/online/uni_dimensional/lazy_capacity_provisioning.rs: lcp"]}
{"id": "C107", "title": "Slightly wrong costs lead to slightly worse plans", "statement": "If true costs are at most a factor rho and an amount epsilon per slot above the believed costs, and believed costs at most a factor sigma and an amount delta above true costs, then the schedule which an optimal search (in one or several dimensions) finds for the believed costs costs in truth at most rho sigma times the true optimum plus rho delta + epsilon per slot. The schedule of lazy capacity provisioning costs at most 3 rho sigma times the true optimum plus 3 rho delta + epsilon per slot. True costs need not be convex.", "quantifier": "all pairs of problems with the same bounds and horizon, all errors, starts, weights and directions of the switching costs, all schedules compared with; starts are not above the bound and costs non-negative and finite with all servers active", "why_tests_cant": "The loss is bounded for all ways in which costs can be wrong; a test compares single pairs of problems.", "anchors": ["implementation/src/problem.rs: objective_function", "implementation/src/algorithms/offline/uni_dimensional/optimal_graph_search.rs: optimal_graph_search", "implementation/src/algorithms/offline/multi_dimensional/optimal_graph_search.rs: optimal_graph_search", "implementation/src/algorithms/online/uni_dimensional/lazy_capacity_provisioning.rs: lcp"]}
{"id": "C108", "title": "More load never leads to fewer servers", "statement": "If, in every slot, every additional server is worth at least as much as before (its effect on the cost of the slot decreases the cost at least as much), then the optimal schedule found by the one-dimensional graph search (convex costs) uses at least as many servers as before in every slot, also from a larger start; so does lazy capacity provisioning, with every prediction window. In a data center with one type of servers and jobs this is the case if at least as many jobs arrive in every slot.", "quantifier": "all pairs of problems with the same horizon, bound and switching cost, all starts, weights and directions of the switching costs, all windows; all valid parameters of a data center and all pairs of sequences of loads of any length; starts are not above the bound and costs non-negative and finite with all servers active", "why_tests_cant": "The claim relates the results for all pairs of inputs, and where several schedules are optimal it depends on which of them is chosen.", "anchors": ["implementation/src/algorithms/offline/uni_dimensional/optimal_graph_search.rs: optimal_graph_search", "implementation/src/algorithms/online/uni_dimensional/lazy_capacity_provisioning.rs: lcp", "implementation/src/model/data_center/model.rs: apply_loads_over_time", "implementation/src/model/data_center/models/delay.rs", "implementation/src/model/data_center/models/energy_consumption.rs"]}
{"id": "C109", "title": "Dearer switching never leads to more switching", "statement": "The objective with weighted switching costs is the sum of the hitting costs plus the weight times the total movement. If the weight grows, the optimal schedule found by the graph search (convex costs in one dimension, arbitrary costs in several) has a total movement which is not larger, hitting costs which are not smaller, and a reported cost which is not smaller; the same holds for any two schedules that are optimal for their weights, and the optimal cost is a concave function of the weight.", "quantifier": "all problems, pairs of weights, directions of the switching costs and all optimal schedules", "why_tests_cant": "The claim compares the results for all pairs of weights, whichever of several optimal schedules is found.", "anchors": ["implementation/src/problem.rs: objective_function, alpha_unfair_objective_function, total_movement", "implementation/src/algorithms/offline/uni_dimensional/optimal_graph_search.rs: optimal_graph_search", "implementation/src/algorithms/offline/multi_dimensional/optimal_graph_search.rs: optimal_graph_search"]}
{"id": "C110", "title": "Planning again does not change the plan", "statement": "Follow the plan of the one-dimensional graph search (convex costs) for some slots, reset the problem to this time and plan again from the current number of servers: the new plan is exactly the rest of the old one, and the objective of the slots played plus the cost of the new plan is the cost of the old plan. So does planning again any number of times, at any times.", "quantifier": "all problems with convex costs, starts, weights and directions of the switching costs, all times and numbers of times at which one plans again; starts are not above the bound and costs non-negative and finite with all servers active", "why_tests_cant": "Several schedules may be optimal; that the same one is found again for every horizon and every time is a statement about how ties are broken in all instances.", "anchors": ["implementation/src/convert.rs: reset", "implementation/src/algorithms/offline/uni_dimensional/optimal_graph_search.rs: optimal_graph_search", "implementation/src/problem.rs: objective_function"]}
{"id": "C111", "title": "Plans do not depend on the direction of time", "statement": "Reverse the order of the slots of a problem. A schedule read backwards costs on the reversed problem exactly what the schedule costs on the problem (all servers are off before the first slot). The one-dimensional graph search (convex costs) finds for the reversed problem exactly its plan read backwards, at the same cost. In several dimensions the reported costs agree and each plan read backwards is optimal for the other problem.", "quantifier": "all problems, schedules within the bounds and weights of the switching costs; for the searches, hitting costs finite with all servers active", "why_tests_cant": "The claim relates the runs on all pairs of a problem and its reversal, including the choice between several optimal schedules.", "anchors": ["implementation/src/problem.rs: objective_function", "implementation/src/algorithms/offline/uni_dimensional/optimal_graph_search.rs: optimal_graph_search", "implementation/src/algorithms/offline/multi_dimensional/optimal_graph_search.rs: optimal_graph_search"]}
{"id": "C112", "title": "With fewer servers the plan is cut at the number of servers", "statement": "Reduce the number of servers of a one-dimensional problem with convex costs such that each slot can still be served. The graph search plans in every slot the smaller of what it planned before and the new number of servers, and its cost is not lower; so does lazy capacity provisioning with every prediction window. In particular servers that the plan never used do not matter. In a data center with one type of servers and jobs this holds whenever the remaining servers can process all jobs. In several dimensions, additional servers never make the optimum dearer.", "quantifier": "all problems, numbers of servers, starts, weights and directions of the switching costs, windows; all valid parameters of a data center and all sequences of loads; starts are not above the bound and costs finite with all servers active (non-negative in one dimension)", "why_tests_cant": "The claim relates the results for all pairs of bounds, and where several schedules are optimal it depends on which of them is chosen.", "anchors": ["implementation/src/algorithms/offline/uni_dimensional/optimal_graph_search.rs: optimal_graph_search", "implementation/src/algorithms/online/uni_dimensional/lazy_capacity_provisioning.rs: lcp", "implementation/src/algorithms/offline/multi_dimensional/optimal_graph_search.rs: optimal_graph_search", "implementation/src/model/data_center/model.rs: to"]}
{"id": "C113", "title": "Planning period by period costs at most one start of all servers per period", "statement": "Plan an instance with the optimal search in periods: the first s slots as if nothing came after them, then the rest of the instance (reset to time s) as if no server was active, again in periods, and so on. Every search succeeds. The schedule put together from the plans is feasible; it costs at least what the plan for all slots costs and at most the sum of the reported costs; and this sum exceeds the cost of the plan for all slots by at most the price of powering up all servers, times the number of periods minus one. This bound is attained. A plan for the first s slots is never more expensive than the plan for all slots, if hitting costs are not negative.", "quantifier": "every valid instance in any number of dimensions with certain, arbitrary hitting costs that are finite with all servers active, every division into periods, every weight of the switching costs", "why_tests_cant": "It compares the results of searches on different instances for all divisions of all horizons.", "anchors": ["implementation/src/algorithms/offline/multi_dimensional/optimal_graph_search.rs: optimal_graph_search", "implementation/src/problem.rs: SimplifiedSmoothedConvexOptimization::reset, alpha_unfair_objective_function"]}
{"id": "C114", "title": "Independent fleets are planned independently", "statement": "If the hitting costs of an instance are sums of costs of several fleets (groups of its types of servers), then the optimal search reports for the instance exactly the sum of the costs it reports for the fleets; the plans of the fleets side by side are an optimal plan of the instance, and the parts of a plan of the instance are optimal plans of the fleets. If every fleet is a single type of servers with convex costs, the sum is that of the plans of the one-dimensional search.", "quantifier": "every number of fleets with any numbers of types, all hitting costs finite with all servers active (convex and non-negative for the last claim), all horizons and weights of the switching costs", "why_tests_cant": "It relates the results of different searches on infinitely many families of instances.", "anchors": ["implementation/src/algorithms/offline/multi_dimensional/optimal_graph_search.rs: optimal_graph_search", "implementation/src/algorithms/offline/uni_dimensional/optimal_graph_search.rs: optimal_graph_search", "implementation/src/problem.rs: alpha_unfair_objective_function"]}
{"id": "C115", "title": "The order in which types of servers are listed does not matter", "statement": "Listing the types of servers of an instance in another order (bounds, switching costs and the entries of configurations) changes the cost of no schedule. The optimal search reports the same cost for both orders, and its plan for one order, listed in the other order, is an optimal plan for the other order.", "quantifier": "every valid instance, every permutation of its types, all hitting costs (for the search finite with all servers active), schedules and weights of the switching costs", "why_tests_cant": "It compares pairs of instances for all permutations; the search treats its dimensions one after the other, so the symmetry is not built in.", "anchors": ["implementation/src/algorithms/offline/multi_dimensional/graph_search.rs: graph_search", "implementation/src/algorithms/offline/multi_dimensional/optimal_graph_search.rs: optimal_graph_search", "implementation/src/problem.rs: alpha_unfair_objective_function"]}
{"id": "C116", "title": "No online algorithm is better than lazy capacity provisioning", "statement": "Integral lazy capacity provisioning has the best guarantee possible: whatever online algorithm is put behind the interface, however much it memorises and however many slots are predicted to it exactly, if its cost never exceeds c times the cost of any schedule (plus a constant) on one-dimensional integral problems with convex costs, then c is at least three; lazy capacity provisioning attains three with every prediction window. In particular a prediction window does not improve the factor of lazy capacity provisioning: for every window and every factor below three there is a problem on which it costs more than that factor times another schedule.", "quantifier": "all online algorithms for one-dimensional integral problems, all memories, all prediction windows, all factors and additive constants", "why_tests_cant": "ranges over all algorithms and, for each of them, needs problems of growing length that react to its decisions", "anchors": ["implementation/src/algorithms/online/mod.rs: OnlineAlgorithm, next", "implementation/src/algorithms/online/uni_dimensional/lazy_capacity_provisioning.rs: lcp", "implementation/src/problem.rs: Online, SimplifiedSmoothedConvexOptimization"]}
{"id": "C117", "title": "No online algorithm for load problems is better than lazy budgeting", "statement": "Deterministic lazy budgeting with one type of servers has the best guarantee possible for load problems: whatever online algorithm is put behind the interface, if it always handles all jobs and its cost never exceeds c times the cost of any schedule that handles all jobs (plus a constant), then c is at least two; lazy budgeting attains two, without the constant.", "quantifier": "all online algorithms for load problems with one type of servers, all memories, all factors and additive constants", "why_tests_cant": "ranges over all algorithms and, for each of them, needs loads of growing length that react to its decisions", "anchors": ["implementation/src/algorithms/online/mod.rs: OnlineAlgorithm, next", "implementation/src/algorithms/online/multi_dimensional/lazy_budgeting/smoothed_load_optimization.rs: lb", "implementation/src/problem.rs: Online, SmoothedLoadOptimization"]}
{"id": "C118", "title": "Idle servers are kept exactly as long as keeping them is cheaper than switching", "statement": "If every active server costs the same in each slot, an offline plan for one type of servers keeps servers active in a slot in which they are not needed exactly if the slot lies in a gap, between two slots in which they are needed, during which keeping a server active costs less than powering it up again. For a data center with one type of servers and jobs, a constant price of energy, linear energy consumption and no loss of revenue this says: servers are kept exactly in gaps with fewer slots than the normalised switching cost reported by the model; for load problems it holds up to gaps for which both choices cost the same.", "quantifier": "all time horizons, loads, numbers of servers, costs of a server, switching costs, and for data centers all parameters of the model", "why_tests_cant": "describes the whole optimal plan for loads of any length; unit tests compare the cost on a few examples", "anchors": ["implementation/src/model/data_center/models/switching_cost.rs: normalized_switching_cost", "implementation/src/algorithms/offline/uni_dimensional/optimal_graph_search.rs: optimal_graph_search", "implementation/src/algorithms/offline/multi_dimensional/optimal_graph_search.rs: optimal_graph_search", "implementation/src/problem.rs: SmoothedLoadOptimization", "implementation/src/model/data_center/model.rs: to"]}
{"id": "C119", "title": "A crashed service is restored by starting it again with all loads so far", "statement": "A service that was started with some loads and then answered requests can be replaced, after a crash at any request, by a new service started with all loads so far: the initial schedule of the new service consists of exactly the decisions of the old one, and all further requests get the decisions and the reported costs which the old service would have given. So neither the memory of the algorithm nor the schedule has to be stored.", "quantifier": "all data center models with one type of servers, all past loads, all histories of requests, every crash point, integral lazy capacity provisioning and lazy budgeting", "why_tests_cant": "compares two processes for every crash point and every continuation", "anchors": ["implementation/src/streaming/online.rs: start, prepare, run, update", "implementation/src/algorithms/online/uni_dimensional/lazy_capacity_provisioning.rs: lcp", "implementation/src/algorithms/online/multi_dimensional/lazy_budgeting/smoothed_load_optimization.rs: lb", "implementation/src/model/data_center/model.rs: to, update"]}
{"id": "C120", "title": "Rounding errors make plans of the graph search only slightly more expensive", "statement": "The multi-dimensional graph search calculates with floating point numbers. If every sum and product of costs is rounded with a relative error of at most u, the search still returns a schedule of the right length inside the bounds; the cost it reports and the exact cost of the schedule differ at most by factors (1 - u)^N and (1 + u)^N, where N = T (2 m + 2) + 1 for T slots and m servers; and the schedule is optimal up to the same factors. For numbers with 53 binary digits and at most a billion roundings the schedule costs at most a millionth more than any other. It need not be an exact optimum: a cost which is small beside the cost of another slot may be rounded away.", "quantifier": "all integral problems of any dimension and horizon with non-negative costs, both directions of switching costs, all ways of rounding with a relative error below one, in particular rounding to 53 binary digits", "why_tests_cant": "the error accumulates along paths of any length, and which of nearly equal paths is taken depends on the rounding of every operation", "anchors": ["implementation/src/algorithms/offline/multi_dimensional/graph_search.rs: graph_search, find_optimal_predecessor, update_paths", "implementation/src/algorithms/offline/multi_dimensional/optimal_graph_search.rs: optimal_graph_search"]}
{"id": "C121", "title": "Computed costs of schedules are accurate, however the slots are summed in parallel", "statement": "The cost of a schedule is a parallel sum of floating point numbers over the slots. If every operation has a relative error of at most u, then for every way in which the slots are split among threads the computed cost is infinite exactly if the exact cost is, comes with the same output of the model, and otherwise lies between (1 - u)^N and (1 + u)^N times the exact cost, where N = T + d + 3 for T slots and d dimensions. With 53 binary digits it is exact up to a millionth if N is at most a billion. The last digits may depend on how the slots are split.", "quantifier": "all integral problems with non-negative hitting and switching costs, schedules, initial configurations, both directions of switching costs, all ways of splitting the slots, all ways of rounding with a relative error below one", "why_tests_cant": "the scheduler of threads chooses the splitting; a test sees one of them at a time", "anchors": ["implementation/src/problem.rs: objective_function, _objective_function_with_default, sum_over_schedule, scaled_movement", "implementation/src/cost.rs: Sum for Cost"]}
{"id": "C122", "title": "Data centers built from constants do not depend on time", "statement": "If the sources of a data center model are built by from_const, from_cached or default, and its prices of energy by from_const, then a configuration costs the same in all slots with the same loads, within one problem and in different problems generated from the model. So a day and the same day backwards cost the same, and each optimal plan, reversed, is optimal for the other day; for one type of servers the graph search returns exactly the reversed plan. The average cost of a server, which lazy budgeting uses, does not depend on the number of slots, so that a service using lazy budgeting is restored after a crash by starting it again with all loads so far. Normalised switching costs are the switching costs in units of what an idle server costs in a slot.", "quantifier": "all data center models built from constants, all loads, all slots, all configurations, all solvers", "why_tests_cant": "compares costs and plans of different slots, problems and services for all models", "anchors": ["implementation/src/model/data_center/model.rs: Source from_const, Source from_cached, Source default, to, objective", "implementation/src/model/data_center/models/energy_cost.rs: LinearEnergyCostModel from_const", "implementation/src/model/data_center/models/switching_cost.rs: normalized_switching_costs, switching_costs"]}
{"id": "C123", "title": "Rounding errors of the one-dimensional graph search stay small beside the cost of running all servers", "statement": "The one-dimensional graph search refines a coarse plan level by level and calculates with floating point numbers. If sums and products of costs are rounded monotonically with a relative error of at most u (at most a quarter), it returns a schedule of horizon length inside the bounds, and the cost it reports is the exact cost of that schedule up to factors (1 - u)^(T + 4) and (1 + u)^(T + 4). The schedule exceeds the cost of any other one by at most (r - 1) r^n 2^n times the cost of any coarse schedule, where 2^n is the bound extended to a power of two, coarse means that only multiples of a quarter of 2^n are used, and r = ((1 + u) / (1 - u))^(T + 4). With 53 binary digits, at most 100000 slots and 4096 servers this is at most a hundred thousandth of the cost of always using all servers of the extended problem. It may be many times the cost of the best schedule: what is rounded away on a coarse level is not found again on a finer one.", "quantifier": "all one-dimensional integral problems with convex non-negative costs finite at the bound, all bounds and horizons, both directions of switching costs, all monotone ways of rounding with a relative error of at most a quarter, in particular rounding to 53 binary digits", "why_tests_cant": "an early rounding decides which part of the graph later levels see; a test sees single instances and does not know the exact optimum", "anchors": ["implementation/src/algorithms/offline/uni_dimensional/optimal_graph_search.rs: optimal_graph_search, make_pow_of_2, find_schedule, find_shortest_subpath, build_cost"]}
{"id": "C124", "title": "The approximate graph search stays approximate with rounded costs and rounded powers", "statement": "The approximate graph search restricts each number of servers to rounded powers of a factor gamma and calculates with floating point numbers. If sums and products of costs are rounded with a relative error of at most u and the powers of gamma with one of at most d, the search terminates and returns a schedule of horizon length inside the bounds, and the cost it reports is the exact cost of this schedule up to factors (1 - u)^N and (1 + u)^N, where N counts the rounded operations on a path. If hitting costs grow at most proportionally, the exact cost is at most ((1 + u) / (1 - u))^N (2 gamma' - 1) times the cost of any other schedule, where gamma' = gamma (1 + d) / (1 - d). With 53 binary digits and at most 10^9 rounded operations on a path, the additional factor is at most 1 + 10^-6.", "quantifier": "all multi-dimensional integral problems accepted by verify with non-negative hitting costs, finite at the bounds, growing at most proportionally; all gamma > 1, all ways of rounding with the given relative errors", "why_tests_cant": "the set of vertices depends on rounded powers, and the optimum of the unrestricted problem is unknown to a test", "anchors": ["implementation/src/algorithms/offline/multi_dimensional/approx_graph_search.rs: approx_graph_search, build_values", "implementation/src/algorithms/offline/multi_dimensional/graph_search.rs: graph_search"]}
{"id": "C125", "title": "Rounding the time for which idle servers are kept costs next to nothing", "statement": "Lazy budgeting keeps servers for as many slots as the switching cost (times gamma, if randomised), divided by the operating cost, says, rounded down. Product and quotient are floating point numbers. With one server type and a relative error of at most u in both, the schedule is still in every slot the largest load of the last slots, their number being the rounded quotient, rounded down, and at least one. If rounding is monotone and neither the switching cost nor the exact whole number of slots needs rounding, the deterministic algorithm is 2 (1 + u)-competitive, in particular 2 (1 + 2^-53)-competitive with 53 binary digits if the switching cost is below 2^53 times the operating cost. The number of slots itself can be larger by one than without rounding.", "quantifier": "all load problems with one server type shown slot by slot, all positive costs, all loads, all ways of rounding with the given properties, all solvers", "why_tests_cant": "the worst case over all future loads; a quotient just below a whole number is not met by a test", "anchors": ["implementation/src/algorithms/online/multi_dimensional/lazy_budgeting/smoothed_load_optimization.rs: lb, next_time_horizon"]}
{"id": "C126", "title": "Whole costs are computed without rounding errors", "statement": "Assume that all hitting costs, and the switching cost, are whole multiples of a unit (a power of two, such as 1), and that the number of slots times what a slot can cost at most is below 2^53 units. Then the one-dimensional graph search with f64 arithmetic returns exactly what exact arithmetic would return if the number of servers is a power of two, and an optimal schedule for any other number of servers as long as the error term of C123 is below one unit. Lazy capacity provisioning with f64 arithmetic, with or without a prediction window, plays exactly the schedule of exact arithmetic for a power of two of servers, and is therefore 3-competitive. Beyond 2^53 units it can play another schedule. Likewise, the multi-dimensional graph search (for any bounds), and the approximate search with given powers, return exactly what exact arithmetic would return; and the cost computed for a schedule is its exact cost, however its parallel sum is split, if that is infinite or below 2^53 units.", "quantifier": "all problems with whole costs, all schedules, windows and start values, all rounding functions that keep the first multiples of the unit, in particular rounding to 53 binary digits", "why_tests_cant": "Whether rounding changes a comparison depends on the magnitudes of all costs seen so far; runs on small examples never reach them.", "anchors": ["implementation/src/algorithms/offline/uni_dimensional/optimal_graph_search.rs: optimal_graph_search, find_shortest_subpath, build_cost", "implementation/src/algorithms/capacity_provisioning.rs: find_bound", "implementation/src/algorithms/online/uni_dimensional/lazy_capacity_provisioning.rs: lcp", "implementation/src/algorithms/offline/multi_dimensional/graph_search.rs: graph_search", "implementation/src/algorithms/offline/multi_dimensional/approx_graph_search.rs: approx_graph_search", "implementation/src/problem.rs: objective_function_with_default"]}
{"id": "C127", "title": "Limiting switching and charging more for it lead to the same plans", "statement": "The convex optimisation plans with a weight alpha of the movement cost and optionally with a limit of the total movement. For every exact optimiser: raising or dropping the limit never makes the plan dearer; a limit that the unlimited plan meets anyway does not change the cost; the unlimited plan for a weight beta, of total movement L, has at every weight alpha of at most beta the same cost as the plan limited to L; the plan limited to l costs at least the unlimited plan for weight alpha + r, less r l, for every r; a limit that admits the best constant schedule gives a plan at most as dear; and the limit zero keeps all servers off if that is possible and every move costs something.", "quantifier": "all fractional problems with certain hitting costs in any number of dimensions, all weights and limits, all horizons, all optimisers that are exact on the grid of the numeric precision", "why_tests_cant": "compares optimal plans of different problems, whose optima a test does not know", "anchors": ["implementation/src/algorithms/offline/multi_dimensional/convex_optimization.rs: co", "implementation/src/algorithms/offline/multi_dimensional/static_fractional.rs: static_fractional", "implementation/src/algorithms/offline/mod.rs: OfflineOptions alpha_unfair, l_constrained"]}
{"id": "C128", "title": "More choice never makes plans dearer", "statement": "If servers of the types present or further types of servers are added, or powering up or operating servers gets cheaper, the plan of the optimal graph search does not get dearer, and the old plan, leaving the new servers off, costs at most what it did. This does not hold for algorithms that do not know the future: lazy capacity provisioning may pay more if powering up gets cheaper.", "quantifier": "all pairs of integral problems accepted by verify of which one leaves more choice than the other, in any number of dimensions, with any costs finite at the bounds, all weights of switching costs", "why_tests_cant": "compares optima of all pairs of problems", "anchors": ["implementation/src/algorithms/offline/multi_dimensional/optimal_graph_search.rs: optimal_graph_search", "implementation/src/algorithms/offline/multi_dimensional/graph_search.rs: graph_search", "implementation/src/algorithms/online/uni_dimensional/lazy_capacity_provisioning.rs: lcp"]}
{"id": "C129", "title": "Default options mean the plain problem, and give fixed guarantees", "statement": "Leaving the options at their defaults means: the graph searches start from no servers, without cache, without inversion and without limits, and return a schedule of least plain cost; alpha_unfair, inverted and l_constrained change one option each, of which the graph searches refuse the last. The approximate search is then within 6/5 of the optimum (for hitting costs that grow at most proportionally with the servers), lazy budgeting for balanced load within 2d + 5/4 for d server types, and the randomly biased greedy algorithm within twice the optimum on average (with one bias for all slots). The balanced descent algorithms have no default options: asking for them aborts.", "quantifier": "all problems accepted by verify, all schedules, all histories of instances", "why_tests_cant": "guarantees for every problem; the defaults are set in one place and used in another", "anchors": ["implementation/src/algorithms/offline/mod.rs: OfflineOptions, solve_with_default_options", "implementation/src/algorithms/online/mod.rs: next_with_default_options", "implementation/src/algorithms/offline/multi_dimensional/approx_graph_search.rs: Options", "implementation/src/algorithms/online/multi_dimensional/lazy_budgeting/smoothed_balanced_load_optimization.rs: Options", "implementation/src/algorithms/online/multi_dimensional/online_balanced_descent/primal.rs: Options"]}
{"id": "C130", "title": "A wider prediction window narrows the range of decisions", "statement": "If lazy capacity provisioning is played twice on the same requests, once with a window of w and once with a window of w' >= w exactly predicted slots, then in every slot the memorised bounds of the second run lie between those of the first, and the decisions of both runs lie between the bounds of the first run. The total cost may nevertheless be higher with the wider window.", "quantifier": "all one-dimensional integral problems with convex, non-negative hitting costs, revealed slot by slot with exact predictions, all pairs of windows, any number of slots", "why_tests_cant": "compares two whole runs for all futures and windows", "anchors": ["implementation/src/algorithms/online/uni_dimensional/lazy_capacity_provisioning.rs: lcp, Memory", "implementation/src/algorithms/capacity_provisioning.rs: Bounded, find_bound"]}
{"id": "C131", "title": "A resumed search does not depend on the past", "statement": "What the optimal or approximate graph search returns when it is resumed from a cache (schedule, cost, new cache, failures) depends on the cache and on the costs of the slots after it only. A search over a prefix of the horizon followed by a resumed search returns what one search over the whole horizon returns, even if the resumed search is given a problem in which the costs, or the loads, of the prefix are missing or wrong. So a service may forget them.", "quantifier": "all integral problems in any number of dimensions, all balanced-load and load problems, all caches, all prefixes, all options", "why_tests_cant": "ranges over all pairs of problems that differ in the past only", "anchors": ["implementation/src/algorithms/offline/multi_dimensional/graph_search.rs: graph_search", "implementation/src/algorithms/offline/multi_dimensional/optimal_graph_search.rs: optimal_graph_search", "implementation/src/algorithms/offline/multi_dimensional/approx_graph_search.rs: approx_graph_search", "implementation/src/algorithms/offline/graph_search.rs: read_cache", "implementation/src/bindings/data_center/offline.rs: optimal_graph_search_sblo, optimal_graph_search_slo"]}
{"id": "C132", "title": "For factors close to one the approximate search is exact", "statement": "If the factor gamma of the approximate graph search is above 1 and at most 1 + 1/m, where m is the largest number of servers of a type, the search returns exactly what the optimal graph search returns: the same schedule, cost, cache and failures, from scratch or from a cache, for all options. With coarser factors the plans may differ.", "quantifier": "all integral problems accepted by verify in any number of dimensions, all factors in that range, all caches and options", "why_tests_cant": "holds for every problem and every factor of a continuous range; depends on which integers are floors or ceilings of powers", "anchors": ["implementation/src/algorithms/offline/multi_dimensional/approx_graph_search.rs: approx_graph_search, build_values, cache_bound_indices", "implementation/src/algorithms/offline/multi_dimensional/optimal_graph_search.rs: optimal_graph_search"]}
{"id": "C133", "title": "Planning with predicted samples minimises the expected cost", "statement": "If the cost function returns for each future slot one sample per scenario, the cost computed for a schedule is the mean of its costs in the scenarios, infinite if it is infinite in one of them, and the optimal graph search returns a schedule whose expected cost over the scenarios is least. In every scenario, the plan made for that scenario alone costs at most as much.", "quantifier": "all integral problems accepted by verify in any number of dimensions, any number of scenarios and slots, all schedules, all weights of switching costs", "why_tests_cant": "compares expectations over any number of scenarios for all schedules", "anchors": ["implementation/src/cost.rs: SingleCostFn call_mean, CostFn call_mean_within_bounds, Cost mean", "implementation/src/problem.rs: objective functions", "implementation/src/algorithms/offline/multi_dimensional/graph_search.rs: graph_search"]}
{"id": "C134", "title": "Finer slots without new information do not change the cost of plans", "statement": "If every slot of a problem is divided into k slots, each with one k-th of its cost, then keeping every configuration of a plan for k slots costs what the plan cost before, and the optimal graph search finds plans of the same cost for both problems: nothing is gained by changing the number of servers within a slot. If the costs of the parts of a slot differ, the finer plan can be cheaper.", "quantifier": "all integral problems accepted by verify in any number of dimensions and slots, all numbers of parts, all plans, all weights of switching costs", "why_tests_cant": "compares optima over all plans for all problems and all divisions", "anchors": ["implementation/src/problem.rs: objective functions, SmoothedConvexOptimization", "implementation/src/algorithms/offline/multi_dimensional/optimal_graph_search.rs: optimal_graph_search"]}
{"id": "C135", "title": "Two types of identical servers are as good as one", "statement": "If the servers of one type are listed as two types with the same switching cost, and the costs of a slot depend on the number of active servers of both types together only, then using the second type only when all servers of the first are active costs as much as the plan with one type, no other way to divide the servers is cheaper, and the optimal graph search finds plans of the same cost for both problems.", "quantifier": "all integral problems accepted by verify in any number of dimensions and slots, all divisions of the servers of a type, all plans, all non-negative weights of switching costs", "why_tests_cant": "compares optima of two different problems over all plans", "anchors": ["implementation/src/problem.rs: SimplifiedSmoothedConvexOptimization, objective functions", "implementation/src/algorithms/offline/multi_dimensional/optimal_graph_search.rs: optimal_graph_search"]}
{"id": "C136", "title": "Data centers made of default parts have costs in closed form", "statement": "In a data center with default servers at one location, with a job type and a source that are default, constant or given by a table, with linear energy consumption, a constant price of energy and the default loss of revenue, n servers process any load below n * delta / w jobs of duration w per slot of length delta, and no larger one. The cost of a slot is the price of the energy consumed plus for every job its delay, w / (1 - u) + r + w at utilisation u and distance r. With default jobs n servers process exactly the loads below n * delta.", "quantifier": "all lengths of slots, durations, distances, prices, consumptions, numbers of servers and loads; any exact optimiser", "why_tests_cant": "a formula for all parameters; the parts are built in one place and used in another", "anchors": ["implementation/src/model/data_center/model.rs: ServerType default, JobType default from_map from_cached from_const, Source default from_cached from_const, DataCenterModel objective", "implementation/src/model/data_center/models/revenue_loss.rs: MinimalDetectableDelayRevenueLossModel default", "implementation/src/model/data_center/models/energy_cost.rs: LinearEnergyCostModel from_const", "implementation/src/model/data_center/models/delay.rs: average_delay"]}
{"id": "C137", "title": "Better servers are used first, unless they are cheaper to start", "statement": "If two types of servers have the same switching cost and using a server of the first type in place of one of the second makes no slot dearer, then rearranging any plan such that the second type is used only when all servers of the first are active does not make it dearer, and the rearranged plan of the optimal graph search is still cheapest. The switching costs have to be the same: if the better type is also cheaper to start, every plan that uses it first can be dearer than the cheapest plan, which powers the better servers down because they are cheap to start again.", "quantifier": "all integral problems accepted by verify with two or more types of servers, any number of slots, all plans, all non-negative weights of switching costs", "why_tests_cant": "compares all plans of all such problems; intuition fails when switching costs differ", "anchors": ["implementation/src/problem.rs: SimplifiedSmoothedConvexOptimization, objective functions", "implementation/src/algorithms/offline/multi_dimensional/optimal_graph_search.rs: optimal_graph_search"]}
{"id": "C138", "title": "Steady demand is met by a steady number of servers", "statement": "If all time slots of an integral problem have the same hitting costs, then keeping one configuration in all slots is a cheapest plan: there is a configuration whose constant schedule costs exactly what the optimal graph search reports, namely the number of slots times its hitting cost plus the cost of powering it up once. In particular this holds for a data center built from constant prices to which the same loads arrive in every slot.", "quantifier": "every valid problem with slot-independent hitting costs, every number of slots, every alpha >= 0 (without the constraint on the total movement); every data center model built from constants and every load profile", "why_tests_cant": "The optimum is over all schedules of any length and any costs; a test compares only finitely many instances.", "anchors": ["implementation/src/algorithms/offline/multi_dimensional/optimal_graph_search.rs: optimal_graph_search", "implementation/src/problem.rs: SimplifiedSmoothedConvexOptimization, objective functions", "implementation/src/model/data_center/model.rs: DataCenterModel apply_loads_over_time"]}
{"id": "C139", "title": "Optimal costs are concave in the prices", "statement": "If the hitting costs of every slot and the switching costs of a problem are a weighted mean of those of two other problems, every plan costs the weighted mean of its costs in the two problems, and the optimal cost is at least the weighted mean of the two optimal costs. So knowing which of two price lists applies is never worse than planning with their mean.", "quantifier": "all integral problems accepted by verify with any number of types of servers and slots, all natural weights, all plans, all non-negative weights of switching costs", "why_tests_cant": "compares the optima of three problems over all plans, for all costs", "anchors": ["implementation/src/problem.rs: SimplifiedSmoothedConvexOptimization, objective functions", "implementation/src/algorithms/offline/multi_dimensional/optimal_graph_search.rs: optimal_graph_search"]}
{"id": "C140", "title": "Under steady demand capacity provisioning only adds servers and pays at most twice the optimum", "statement": "If all slots have the same convex costs, integral lazy capacity provisioning (with or without a prediction window) runs in every slot the least number of servers that would have been cheapest to keep from the first slot to the end of the window. So it never powers a server down, and its cost is at most twice that of every schedule over the slots seen. The factor two is attained for arbitrarily expensive switching.", "quantifier": "all problems with one type of servers and slot-independent convex costs, all numbers of slots, all lengths of the prediction window, all schedules compared with", "why_tests_cant": "the run is unbounded and the comparison is with all schedules; the ratio is approached only in the worst case", "anchors": ["implementation/src/algorithms/online/uni_dimensional/lazy_capacity_provisioning.rs: lcp", "implementation/src/algorithms/capacity_provisioning.rs: find_lower_bound, find_upper_bound", "implementation/src/problem.rs: objective functions"]}
{"id": "C141", "title": "Servers from which no slot profits are never started", "statement": "If no slot is cheaper with more than certain numbers of servers of the types than with these numbers, the optimal graph search never has more servers active, whatever the switching costs (a number may be zero: then no server of the type is ever started). The same holds for integral lazy capacity provisioning with or without a prediction window and for running services: a service at which no jobs arrive never starts a server, and if delays cost nothing and consumption is affine it never has more servers active than needed for the largest load.", "quantifier": "all integral problems accepted by verify with any number of types of servers and slots, all positive weights of switching costs; all runs of capacity provisioning, all loads of a data center with one type of servers", "why_tests_cant": "every plan of every such problem is claimed to stay below the numbers; ties among plans are decided inside the search", "anchors": ["implementation/src/algorithms/offline/multi_dimensional/optimal_graph_search.rs: optimal_graph_search", "implementation/src/algorithms/online/uni_dimensional/lazy_capacity_provisioning.rs: lcp", "implementation/src/streaming/online.rs: start next", "implementation/src/problem.rs: objective functions"]}
{"id": "C142", "title": "Parts of servers do not help", "statement": "Every fractional schedule of the relaxation of an integral problem with one type of servers can be rounded, each entry up or down, such that the integral schedule costs no more in the integral problem. So the plan of the optimal graph search is also cheapest among all fractional schedules of the relaxed problem, in which it costs the same, and integral lazy capacity provisioning (with or without a prediction window) costs at most three times as much as any fractional schedule. Costs need not be convex for the first two claims.", "quantifier": "all integral problems with one type of servers, finite certain costs and any number of slots, all fractional schedules within the bounds, all lengths of the prediction window", "why_tests_cant": "there are infinitely many fractional schedules, and the rounding that costs no more depends on all slots together", "anchors": ["implementation/src/convert.rs: RelaxableCostFn, RelaxableProblem into_f", "implementation/src/algorithms/offline/multi_dimensional/optimal_graph_search.rs: optimal_graph_search", "implementation/src/algorithms/online/uni_dimensional/lazy_capacity_provisioning.rs: lcp"]}
{"id": "C143", "title": "Servers that are no longer needed are switched off in time, and servers that are needed are started in time", "statement": "If from some slot on every server beyond a number costs at least e per slot more than it saves, integral lazy capacity provisioning has at most this number of servers active as soon as e times the number of slots from there to the end of the prediction window reaches the switching cost. If from some slot on every server lacking to a number costs at least e per slot, it has at least this number active as soon as this product exceeds the switching cost. The same holds for running services; in particular a service at which no more jobs arrive switches off all servers.", "quantifier": "all convex problems with one type of servers, all histories before the slot, all lengths of the prediction window, all loads of data centers with one type of servers", "why_tests_cant": "a bound on the delay of decisions for every history and every later cost, which no finite set of runs establishes", "anchors": ["implementation/src/algorithms/online/uni_dimensional/lazy_capacity_provisioning.rs: lcp", "implementation/src/algorithms/capacity_provisioning.rs: find_lower_bound, find_upper_bound", "implementation/src/streaming/online.rs: start next"]}
{"id": "C144", "title": "Capacity provisioning never switches more than the optimal plan", "statement": "At no time has integral lazy capacity provisioning, with or without a prediction window, started more servers in total, or switched off more servers in total, than the plan which the optimal graph search returns for all slots known in the end has up to then. The same holds for a running service, compared with the plan of an operator who knows all loads. Other equally cheap plans may switch less.", "quantifier": "all convex problems with one type of servers, all numbers of slots, all lengths of the prediction window, all times during the run, all loads of data centers with one type of servers", "why_tests_cant": "relates every prefix of every run to the optimum over a future that the algorithm has not seen; the optimum depends on how ties are resolved", "anchors": ["implementation/src/algorithms/online/uni_dimensional/lazy_capacity_provisioning.rs: lcp", "implementation/src/algorithms/offline/uni_dimensional/optimal_graph_search.rs: optimal_graph_search", "implementation/src/streaming/online.rs: start next"]}
{"id": "C145", "title": "Pooling two data centers never costs more", "statement": "Take two data centers with the same type of servers and jobs and the same prices and delays, and a third one which has the servers of both and receives the loads of both. The cost of the optimal plan returned for the third one is at most the sum of the costs returned for the two; it may be strictly smaller. Likewise a data center with k times the servers and k times the loads costs at most k times as much.", "quantifier": "all numbers of servers, all loads the two data centers can process, all numbers of slots, all convex consumption functions, prices, delays and switching costs", "why_tests_cant": "compares the optima of three generated problems for all loads and all convex consumption functions", "anchors": ["implementation/src/model/data_center/model.rs: DataCenterModel apply_loads_over_time", "implementation/src/model/data_center/models/energy_consumption.rs: EnergyConsumptionModel consumption", "implementation/src/algorithms/offline/uni_dimensional/optimal_graph_search.rs: optimal_graph_search", "implementation/src/bindings/data_center/offline.rs: optimal_graph_search_1d_py"]}
{"id": "C146", "title": "A data center in which nothing is better is not cheaper", "statement": "Compare two data centers with one type of servers and jobs. Let the second have no more servers, let them be used no more, consume no less, and be no cheaper to start, let jobs take no less time and be routed no faster, let energy be no cheaper and lose no less revenue per delayed job, and let at least the loads of the first arrive. If consumption does not fall with the utilisation in the first, the cost of the optimal plan returned for the second is at least that of the first. Without this condition more load may cost less.", "quantifier": "all pairs of such data centers, all loads the second one can process, all numbers of slots", "why_tests_cant": "compares the optima of all pairs of generated problems; all parameters vary at once", "anchors": ["implementation/src/model/data_center/model.rs: DataCenterModel apply_loads_over_time", "implementation/src/model/data_center/models/delay.rs: average_delay", "implementation/src/algorithms/offline/uni_dimensional/optimal_graph_search.rs: optimal_graph_search", "implementation/src/bindings/data_center/offline.rs: optimal_graph_search_1d_py"]}
{"id": "C147", "title": "Fractional costs are convex in the loads", "statement": "In a data center with one type of servers and jobs, the weighted mean of two fractional plans is a plan for the weighted mean of their loads and costs at most the weighted mean of their costs. So the cost returned by backward-recurrent capacity provisioning for averaged loads is at most the average of the costs returned for the loads: evening out demand never costs more on average. For whole servers this is false.", "quantifier": "all data centers with one type of servers, all pairs of loads of any number of slots, all weights between 0 and 1, all fractional plans", "why_tests_cant": "a convexity claim about optima over infinitely many plans, for all loads and weights", "anchors": ["implementation/src/model/data_center/model.rs: DataCenterModel apply_loads_over_time", "implementation/src/algorithms/offline/uni_dimensional/capacity_provisioning.rs: brcp", "implementation/src/bindings/data_center/offline.rs: brcp_py"]}
{"id": "C148", "title": "Even demand is cheapest", "statement": "In a data center with one type of servers and jobs whose prices and delays do not change over time, spreading the jobs evenly over the slots never costs more: to every fractional plan for some loads there is a plan with the same number of servers in all slots, for the evenly spread loads, which costs no more. So the cost returned by backward-recurrent capacity provisioning for the evenly spread loads is at most that for the loads. For whole servers this is false.", "quantifier": "all data centers with one type of servers and constant prices and delays, all loads of any number of slots, all fractional plans", "why_tests_cant": "compares optima over infinitely many plans for all loads of all lengths", "anchors": ["implementation/src/model/data_center/model.rs: DataCenterModel apply_loads_over_time", "implementation/src/algorithms/offline/uni_dimensional/capacity_provisioning.rs: brcp", "implementation/src/bindings/data_center/offline.rs: brcp_py"]}
{"id": "C149", "title": "Additional servers have diminishing returns", "statement": "Of three data centers with one type of servers and convex costs which differ in their numbers of servers only, and of which the second has at least the mean of the numbers of servers of the others, the second has an optimal cost of at most the mean of the optimal costs of the others. In particular an additional server never saves more than the server added before it.", "quantifier": "all one-dimensional problems with convex costs and all data centers with one type of servers and jobs, all triples of numbers of servers, all loads of any number of slots, all initial numbers of servers, inverted or not, all weights of switching", "why_tests_cant": "compares optima of three problems over all plans, for all convex costs and horizons", "anchors": ["implementation/src/algorithms/offline/uni_dimensional/optimal_graph_search.rs: optimal_graph_search", "implementation/src/model/data_center/model.rs: DataCenterModel apply_loads_over_time", "implementation/src/bindings/data_center/offline.rs: optimal_graph_search_1d_py"]}
{"id": "C150", "title": "Rising demand and demand with a single peak are cheapest", "statement": "In a data center with one type of servers and jobs whose prices and delays do not change over time, the optimal cost of loads in rising order is at most the optimal cost of the same loads in any other order: the servers of any plan, in rising order, are a plan for the loads in rising order which costs no more. The same holds for every order with a single peak, in which the loads first rise and then fall, so in particular for falling order. The order matters, so this is not an equality.", "quantifier": "all data centers with one type of servers and constant prices and delays, all lists of loads, all their orders, all plans", "why_tests_cant": "ranges over all permutations of all lists of loads and compares optima over all plans", "anchors": ["implementation/src/algorithms/offline/uni_dimensional/optimal_graph_search.rs: optimal_graph_search", "implementation/src/model/data_center/model.rs: DataCenterModel apply_loads_over_time", "implementation/src/bindings/data_center/offline.rs: optimal_graph_search_1d_py"]}
{"id": "C151", "title": "Slots without jobs before and after a day cost nothing", "statement": "In a data center with one type of servers and jobs whose prices and delays do not change over time, any number of slots without jobs before and after some loads do not change the optimal cost.", "quantifier": "all data centers with one type of servers and constant prices and delays, all lists of loads, all numbers of slots without jobs", "why_tests_cant": "compares optima over all plans of problems of all lengths", "anchors": ["implementation/src/algorithms/offline/uni_dimensional/optimal_graph_search.rs: optimal_graph_search", "implementation/src/model/data_center/model.rs: DataCenterModel apply_loads_over_time", "implementation/src/bindings/data_center/offline.rs: optimal_graph_search_1d_py"]}
