{
 "claims": [
  {
   "property": "C01",
   "status": "proved",
   "theorems": [
    "Soco.C01_plain_vs_inverted_from",
    "Soco.C01_plain_vs_inverted"
   ],
   "note": "Finite and infinite cases; general initial configuration (C01_plain_vs_inverted_from) and zero start."
  },
  {
   "property": "C02",
   "status": "proved",
   "theorems": [
    "Soco.C02_objective_eq_totalCost",
    "Soco.C02_objective_fails",
    "Soco.C02_objective_reads_prefix",
    "Soco.C02_objective_splits"
   ],
   "note": "Any alpha, both directions, any horizon; failure of a slot propagates."
  },
  {
   "property": "C03",
   "status": "proved",
   "theorems": [
    "Soco.C03_alpha_unfair_decomposes",
    "Soco.C03_nonneg",
    "Soco.C03_monotone_in_alpha"
   ],
   "note": "Decomposition into hitting part plus alpha times movement; non-negativity; monotonicity in alpha."
  },
  {
   "property": "C04",
   "status": "proved",
   "theorems": [
    "Soco.C04_into_sco_preserves_objective"
   ],
   "note": "Equality of the whole result (cost, output, panic), on schedules of horizon length with d entries per configuration."
  },
  {
   "property": "C05",
   "status": "proved",
   "theorems": [
    "Soco.C05_version_used",
    "Soco.C05_past_unchanged",
    "Soco.C05_replacement",
    "Soco.C05_order_irrelevant"
   ],
   "note": "Exact characterisation of the registration used; past unchanged, replacement and order independence as corollaries."
  },
  {
   "property": "C06",
   "status": "proved",
   "theorems": [
    "Soco.C06_guarded_evaluation",
    "Soco.C06_guarded_evaluation_pairs",
    "Soco.C06_guarded_evaluation_scalar",
    "Soco.C06_finite_objective_feasible",
    "Soco.C06_slo_ignores_bounds_counterexample",
    "Soco.C06_finite_objective_sco",
    "Soco.C06_finite_objective_ssco",
    "Soco.C06_finite_objective_sblo",
    "Soco.C06_finite_objective_slo"
   ],
   "note": "Guarded evaluation for the three decision spaces; finite objectives imply feasibility for SSCO, SCO and SBLO (Props/FeasibleSpaces.lean). For SLO the claim about bounds is false (C06_slo_ignores_bounds_counterexample), and C06_finite_objective_slo says what holds instead."
  },
  {
   "property": "C07",
   "status": "proved",
   "theorems": [
    "Soco.C07_predictive_exact",
    "Soco.C07_certain_exact",
    "Soco.C07_certain_agree",
    "Soco.C07_mean_exact"
   ],
   "note": "Exact panic conditions for user functions that return a list of samples."
  },
  {
   "property": "C08",
   "status": "proved",
   "theorems": [
    "Soco.C08_reset_slot_any",
    "Soco.C08_reset_slot_exact",
    "Soco.C08_reset_before",
    "Soco.C08_reset_slot",
    "Soco.C08_reset_predicted_counterexample",
    "Soco.C08_reset_zero",
    "Soco.C08_reset_reset",
    "Soco.C08_reset_shape",
    "Soco.C08_reset_objective"
   ],
   "note": "Exact behaviour of reset slots, identity, composition, objective split. Needs the first remaining slot to be certain: resetting into a predicted slot panics (C08_reset_predicted_counterexample)."
  },
  {
   "property": "C09",
   "status": "proved",
   "theorems": [
    "Soco.C09_relaxed_at_integer",
    "Soco.C09_relaxed_between",
    "Soco.C09_discretised_relaxation",
    "Soco.C09_relaxed_hit_cost",
    "Soco.C09_relaxed_convex",
    "Soco.C09_discretised_bounds",
    "Soco.C09_discretised_hit_cost",
    "Soco.C09_discretised_objective",
    "Soco.C09_rounded_up",
    "Soco.C09_rounded_up_integral",
    "Soco.C09_rounded_up_bounds",
    "Soco.C09_rounded_up_counterexample"
   ],
   "note": "Interpolation, agreement at integers, round trip, convexity on the whole interval, lower bound by the best integral cost. Discretised problems have the floors of the bounds and the same costs at integral points; rounding schedules up keeps covering and may leave the bounds (C09_rounded_up_counterexample)."
  },
  {
   "property": "C10",
   "status": "proved",
   "theorems": [
    "Soco.C10_sblo_verify_exact",
    "Soco.C10_sco_verify_exact",
    "Soco.C10_ssco_verify_exact",
    "Soco.C10_slo_verify_exact",
    "Soco.C10_slo_missing_hitting_cost_counterexample",
    "Soco.C10_online_verify_exact",
    "Soco.C10_verified_objective_total",
    "Soco.C10_short_config_counterexample"
   ],
   "note": "Exact acceptance for SCO, SSCO, SLO, Online. SLO needs a hitting cost per dimension, which verify does not check (counterexample: panic). Absence of panics needs configurations with d entries, which Schedule::verify does not check (counterexample)."
  },
  {
   "property": "C11",
   "status": "proved",
   "theorems": [
    "Soco.C11_schedule_verify_exact",
    "Soco.C11_schedule_verify_panics_only",
    "Soco.C11_accepted_in_box"
   ],
   "note": "Exact acceptance, panics only on too long configurations."
  },
  {
   "property": "C12",
   "status": "proved",
   "theorems": [
    "Soco.C12_from_raw_accepts",
    "Soco.C12_from_raw_flatten",
    "Soco.C12_build_raw"
   ],
   "note": "Acceptance, both round trips, build_raw."
  },
  {
   "property": "C13",
   "status": "proved",
   "theorems": [
    "Soco.C13_mean",
    "Soco.C13_lattice",
    "Soco.C13_project",
    "Soco.C13_shift_unshift",
    "Soco.C13_access",
    "Soco.C13_is_pow_of_2",
    "Soco.C13_frac"
   ],
   "note": "All listed contracts; is_pow_of_2 on natural numbers."
  },
  {
   "property": "C14",
   "status": "proved",
   "theorems": [
    "Soco.C14_split_independent",
    "Soco.C14_failure_iff_first",
    "Soco.C14_success_sums",
    "Soco.C14_objective_output",
    "Soco.C14_horizontal_reduce"
   ],
   "note": "Independence of every splitting tree of the parallel sum, first failure, sums and concatenation, tied to the objective. With rounding see C121."
  },
  {
   "property": "C15",
   "status": "partial",
   "theorems": [
    "Soco.C15_first_failure",
    "Soco.C15_failure_source",
    "Soco.C15_cost_is_mean_partial",
    "Soco.C15_two_samples_partial",
    "Soco.C15_three_samples_counterexample",
    "Soco.C15_energy_between_partial"
   ],
   "note": "The cost is the mean of the samples for any number of samples. Energy cost and revenue loss are the means for two samples only: for three the claim is false (C15_three_samples_counterexample), because samples are merged pairwise by halving."
  },
  {
   "property": "C16",
   "status": "proved",
   "theorems": [
    "Soco.C16_feasible_true_cost",
    "Soco.C16_any_costs",
    "Soco.C16_start_above_bound_counterexample"
   ],
   "note": "For costs finite and non-negative at the bound (convex or not): success, original bound respected, true objective. For arbitrary costs: C16_any_costs. A start above the bound breaks the claim (counterexample)."
  },
  {
   "property": "C17",
   "status": "proved",
   "theorems": [
    "Soco.C17_optimal",
    "Soco.C17_infinite_bound_counterexample"
   ],
   "note": "All bounds, horizons (also empty), convex extended-valued costs, alpha >= 0, both directions, starts up to the bound. Finite cost at the bound is needed (counterexample)."
  },
  {
   "property": "C18",
   "status": "proved",
   "theorems": [
    "Soco.C18_make_pow_of_2",
    "Soco.C18_rounding_used"
   ],
   "note": "Exact logarithms: the f64 logarithm of the code is assumed exact."
  },
  {
   "property": "C19",
   "status": "proved",
   "theorems": [
    "Soco.C19_graph_search_optimal"
   ],
   "note": "All dimensions, bounds, horizons >= 1, cost functions, alpha >= 0, both values of the inverted option. Convexity not needed."
  },
  {
   "property": "C20",
   "status": "proved",
   "theorems": [
    "Soco.C20_panics_iff"
   ],
   "note": "Exact panic condition. An empty horizon also panics (the result vertex is missing), which the statement adds."
  },
  {
   "property": "C21",
   "status": "proved",
   "theorems": [
    "Soco.C21_resume",
    "Soco.C21_resume_any_stages"
   ],
   "note": "Equality of the whole result, for any number of stages and for problems that grow."
  },
  {
   "property": "C22",
   "status": "proved",
   "theorems": [
    "Soco.C22_split_independent",
    "Soco.C22_first_minimal"
   ],
   "note": "Every splitting tree; the result is the first minimal predecessor."
  },
  {
   "property": "C23",
   "status": "partial",
   "theorems": [
    "Soco.C23_multi_inverted_minimises_plain_partial",
    "Soco.C23_multi_inverted_counterexample",
    "Soco.C23_uni_inverted_partial"
   ],
   "note": "Holds for the uni-dimensional search with convex costs (C23_uni_inverted_partial). False for the multi-dimensional search (C23_multi_inverted_counterexample): it minimises the plain objective (proved)."
  },
  {
   "property": "C24",
   "status": "proved",
   "theorems": [
    "Soco.C24_grid_exact",
    "Soco.C24_gaps",
    "Soco.C24_one_on_grid",
    "Soco.C24_gamma_le_one_diverges"
   ],
   "note": "Exact description of the grid, gaps, termination; with gamma <= 1 building does not terminate (C24_gamma_le_one_diverges)."
  },
  {
   "property": "C25",
   "status": "proved",
   "theorems": [
    "Soco.C25_approx_optimal_on_grid"
   ],
   "note": "Optimal among all schedules on the grid, for every gamma > 1, alpha >= 0, horizon >= 1."
  },
  {
   "property": "C26",
   "status": "partial",
   "theorems": [
    "Soco.C26_static_partial",
    "Soco.C26_one_dimension_partial",
    "Soco.C26_one_dimension_convex_partial",
    "Soco.C26_separable_marginals",
    "Soco.C26_guards",
    "Soco.C26_two_dimensions_counterexample",
    "Soco.C26_alpha_counterexample"
   ],
   "note": "Proved for quasi-convex marginals, hence in one dimension with convex costs and for separable convex costs in any dimension. False for jointly convex costs in two dimensions (C26_two_dimensions_counterexample), and alpha is ignored (C26_alpha_counterexample)."
  },
  {
   "property": "C27",
   "status": "proved",
   "theorems": [
    "Soco.C27_lazy_projection",
    "Soco.C27_guards"
   ],
   "note": "Integral and fractional, any window, memory, history and bound finder; the failures of lcp are exact."
  },
  {
   "property": "C28",
   "status": "proved",
   "theorems": [
    "Soco.C28_fractional_restart_counterexample",
    "Soco.C28_bounds_end_optima",
    "Soco.C28_bounds_ordered_and_sandwich"
   ],
   "note": "Integral problems without prediction window, certain slots. For fractional problems the bound after a restart is wrong (C28_fractional_restart_counterexample): the objective runs over t_end + w slots."
  },
  {
   "property": "C29",
   "status": "proved",
   "theorems": [
    "Soco.C29_three_competitive"
   ],
   "note": "Full 3-competitiveness of the run through the streaming interface, for every sequence of instances revealed by an adversary; no prediction window, certain slots."
  },
  {
   "property": "C30",
   "status": "proved",
   "theorems": [
    "Soco.C30_floor_or_ceiling"
   ],
   "note": "Any relaxation, memory, history and draw. Casts to i32 are exact in the model."
  },
  {
   "property": "C31",
   "status": "partial",
   "theorems": [
    "Soco.C31_step_unbiased_partial",
    "Soco.C31_run_unbiased_partial",
    "Soco.C31_decrease_counterexample",
    "Soco.C31_algorithm_step"
   ],
   "note": "Proved for runs whose steps are gentle: increases, decreases that stay below the ceiling of the new value, and arrivals at integers. For all other decreases to a fractional value the code always rounds down (C31_decrease_counterexample), so the full claim is false."
  },
  {
   "property": "C32",
   "status": "partial",
   "theorems": [
    "Soco.Lb.C32_covers_demand_partial",
    "Soco.Lb.C32_zero_cost_counterexample",
    "Soco.Lb.C32_rounding_counterexample"
   ],
   "note": "Proved for every history of verified instances with positive hitting costs whose balanced-load costs are defined and finite with all servers active, deterministic and randomised variant, any non-negative gamma. On the remaining verified instances the algorithm aborts (C32_zero_cost_counterexample, C32_rounding_counterexample)."
  },
  {
   "property": "C33",
   "status": "proved",
   "theorems": [
    "Soco.Lb.C33_lanes_round_trip"
   ],
   "note": "All sizes; lanes ordered, counts exact, round trip."
  },
  {
   "property": "C34",
   "status": "proved",
   "theorems": [
    "Soco.Bb.C34_lazy_budgeting",
    "Soco.Bb.C34_zero_idle_cost_counterexample"
   ],
   "note": "Every history of verified instances with finite idle costs, not all zero, whose costs are defined within the bounds and finite with all servers on; the division into sub slots and the choice among them are part of the theorem. With idle costs all zero the code aborts (C34_zero_idle_cost_counterexample)."
  },
  {
   "property": "C35",
   "status": "proved",
   "theorems": [
    "Soco.C35_next_exact",
    "Soco.C35_one_decision_per_slot"
   ],
   "note": "All algorithms, problem types, instances, histories and memories."
  },
  {
   "property": "C36",
   "status": "proved",
   "theorems": [
    "Soco.C36_stream_exact",
    "Soco.C36_first_error",
    "Soco.C36_split_resume",
    "Soco.C36_offline_resume"
   ],
   "note": "Streaming equals the run over the instances it shows (both directions), runs split at every point, resuming to a later horizon, first error."
  },
  {
   "property": "C37",
   "status": "partial",
   "theorems": [
    "Soco.C37_offline_stream_length",
    "Soco.C37_prepare_partial",
    "Soco.C37_window_twice_counterexample",
    "Soco.C37_short_horizon_counterexample"
   ],
   "note": "offline_stream: proved. Preparing the server subtracts the window twice (C37_window_twice_counterexample) and breaks if the horizon does not exceed the window (C37_short_horizon_counterexample); C37_prepare_partial gives the exact lengths."
  },
  {
   "property": "C38",
   "status": "proved",
   "theorems": [
    "Soco.C38_server_follows_run",
    "Soco.C38_server_sound",
    "Soco.C38_stops"
   ],
   "note": "Sockets and threads are not modelled; a malformed message is a request without input. For the messages see C88."
  },
  {
   "property": "C39",
   "status": "partial",
   "theorems": [
    "Soco.Horizon.C39_rhc_step_partial",
    "Soco.Horizon.C39_rhc_history",
    "Soco.Horizon.C39_afhc_step_partial",
    "Soco.Horizon.C39_afhc_history",
    "Soco.Horizon.C39_predictions_ignored",
    "Soco.Horizon.C39_window_counterexample",
    "Soco.Horizon.C39_rounding_counterexample"
   ],
   "note": "Feasibility proved for every history and every optimiser that respects its bounds (bounds multiples of 0.01; otherwise rounding can leave the box, C39_rounding_counterexample), and AFHC is the mean of its w+1 plans. The window claim is false of the code: plans are charged up to the current slot only and predictions are never read (C39_predictions_ignored, C39_window_counterexample). The _partial theorems state what the plans do minimise."
  },
  {
   "property": "C40",
   "status": "partial",
   "theorems": [
    "Soco.C40_balanced",
    "Soco.C40_no_active_servers",
    "Soco.C40_initial",
    "Soco.C40_initial_idle",
    "Soco.C40_initial_counterexample",
    "Soco.C40_assigned_partial",
    "Soco.C40_conservation_single",
    "Soco.C40_conserved_iff",
    "Soco.C40_two_types_counterexample",
    "Soco.C40_nonneg_single",
    "Soco.C40_solver_counterexamples"
   ],
   "note": "Proved for one load type: conservation, non-negativity (for solver answers within bounds and tolerance), and for balanced-load costs in full, including that no load goes to inactive servers. With two or more types part of the load is lost (C40_two_types_counterexample, exact condition C40_conserved_iff), and solver probes can abort (C40_solver_counterexamples). The search for an assignment starts with fractions that give nothing to idle types and distribute no load twice (C40_initial), though not always with a feasible point (C40_initial_counterexample)."
  },
  {
   "property": "C41",
   "status": "partial",
   "theorems": [
    "Soco.C41_sampling_partial",
    "Soco.C41_transposed_counterexample",
    "Soco.C41_certain_partial"
   ],
   "note": "Sampling aborts for uneven predictions and returns one vector per job type in place of one per sample (C41_transposed_counterexample). C41_sampling_partial is the exact behaviour; a certain single type is sampled correctly."
  },
  {
   "property": "C42",
   "status": "partial",
   "theorems": [
    "Soco.C42_encode_bijective",
    "Soco.C42_bounds",
    "Soco.C42_switching_costs_partial",
    "Soco.C42_two_locations_counterexample"
   ],
   "note": "Encoding and bounds proved for all sizes. Switching costs have one entry per server type, so the claim fails for two or more locations (C42_two_locations_counterexample)."
  },
  {
   "property": "C43",
   "status": "proved",
   "theorems": [
    "Soco.C43_history_sco",
    "Soco.C43_history_slo",
    "Soco.C43_history_sblo",
    "Soco.C43_history_loads_past",
    "Soco.C43_update_ssco",
    "Soco.C43_update_sco",
    "Soco.C43_history_ssco",
    "Soco.C43_update_slo",
    "Soco.C43_update_sblo",
    "Soco.C43_loads_past"
   ],
   "note": "All four problem types: exact success condition, frame, and unchanged earlier costs; whole histories for all four."
  },
  {
   "property": "C44",
   "status": "partial",
   "theorems": [
    "Soco.C44_linear",
    "Soco.C44_quotas_value_partial",
    "Soco.C44_quotas_unit_price_partial",
    "Soco.C44_quotas_monotone_partial",
    "Soco.C44_sources_sorted",
    "Soco.C44_price_counterexample",
    "Soco.C44_infinite_consumption_counterexample"
   ],
   "note": "Linear model proved. For quotas the code adds the price in place of multiplying it (C44_price_counterexample) and makes infinite consumption finite; the partial theorems give the exact charge and its monotonicity."
  },
  {
   "property": "C45",
   "status": "proved",
   "theorems": [
    "Soco.C45_delay_nonneg",
    "Soco.C45_delay_infinite_iff",
    "Soco.C45_delay_value",
    "Soco.C45_delay_mono",
    "Soco.C45_revenue_loss",
    "Soco.C45_linear_consumption",
    "Soco.C45_switching_cost_roundtrip",
    "Soco.C45_switching_cost_nonneg",
    "Soco.C45_switching_cost_parts",
    "Soco.C45_normalized_idle"
   ],
   "note": "All listed facts, for all real (rational) parameters."
  },
  {
   "property": "C46",
   "status": "partial",
   "theorems": [
    "Soco.C46_add",
    "Soco.C46_grid_progress_partial",
    "Soco.C46_unit_grid",
    "Soco.C46_grid_counterexample",
    "Soco.C46_from"
   ],
   "note": "Lists: proved for new points without duplicates, as the documentation demands. Grids make progress exactly for widths of at least 1 (C46_grid_progress_partial) and are grids of multiples only for width 1 (C46_unit_grid, C46_grid_counterexample)."
  },
  {
   "property": "C47",
   "status": "partial",
   "theorems": [
    "Soco.Num.C47_piecewise_partial",
    "Soco.Num.C47_few_breakpoints_partial",
    "Soco.Num.C47_unit_grid_ends",
    "Soco.Num.C47_rounding_counterexample",
    "Soco.Num.C47_truncation_counterexample",
    "Soco.Num.C47_nonconsecutive_counterexample"
   ],
   "note": "Every piece is rounded to 0.01, and ten small pieces on one side, consecutive or not, end the integration there, so the claim is false (three counterexamples). C47_piecewise_partial gives the exact stopping points and error bound; with fewer than ten fixed breakpoints the result is the integral up to rounding."
  },
  {
   "property": "C48",
   "status": "proved",
   "theorems": [
    "Soco.Num.C48_apply_precision",
    "Soco.Num.C48_box"
   ],
   "note": "Precision 0.01 and rounding away from zero as in the code, exact rationals."
  },
  {
   "property": "C49",
   "status": "proved",
   "theorems": [
    "Soco.C49_manhattan",
    "Soco.C49_manhattan_scaled",
    "Soco.C49_manhattan_scaled_panics",
    "Soco.Distance.C49_euclidean",
    "Soco.Distance.C49_norm_squared"
   ],
   "note": "Manhattan and scaled Manhattan for integral and fractional configurations, in exact arithmetic; the Euclidean norm over the reals, and the Bregman identity of half its square. Panics of the scaled norm are characterised."
  },
  {
   "property": "C50",
   "status": "proved",
   "theorems": [
    "Soco.Descent.C50_obd",
    "Soco.Descent.C50_pobd",
    "Soco.Descent.C50_dobd",
    "Soco.Descent.C50_gobd",
    "Soco.Descent.C50_robd",
    "Soco.Descent.C50_ogd",
    "Soco.Descent.C50_ogd_stays",
    "Soco.Descent.C50_ogd_boundary",
    "Soco.Descent.C50_memoryless",
    "Soco.Descent.C50_memoryless_history",
    "Soco.Descent.C50_ogd_counterexample",
    "Soco.Descent.C50_negative_entropy",
    "Soco.Descent.C50_robd_weights",
    "Soco.Descent.C50_dobd_infinite",
    "Soco.Descent.C50_pobd_infinite"
   ],
   "note": "All six descent algorithms, for every optimiser that stays within its bounds, every root finder that answers on brackets, bounds on the 0.01 grid; with exact optimisers also what the result minimises. Limits shown beside: at the boundary gradient descent minimises the constant infinity (C50_ogd_boundary, C50_ogd_counterexample), negative entropy fails in the first slot, and the regulariser has weight zero. Where no configuration has a finite cost, the dual balanced algorithm aborts and the primal one goes to the point the optimiser names (C50_dobd_infinite, C50_pobd_infinite)."
  },
  {
   "property": "C51",
   "status": "proved",
   "theorems": [
    "Soco.Rbg.C51_cache",
    "Soco.Rbg.C51_step_without_cache",
    "Soco.Rbg.C51_work_function",
    "Soco.Rbg.C51_decision",
    "Soco.Rbg.C51_history",
    "Soco.Rbg.C51_shared_cache_counterexample"
   ],
   "note": "Any exact optimiser and any eviction of the cache, whatever the cache held before the run. Two interleaved runs that share the cache are not covered: the keys do not identify the instance (C51_shared_cache_counterexample)."
  },
  {
   "property": "C52",
   "status": "proved",
   "theorems": [
    "Soco.Descent.C52_obd",
    "Soco.Descent.C52_pobd",
    "Soco.Descent.C52_gobd",
    "Soco.Descent.C52_dobd",
    "Soco.Descent.C52_robd",
    "Soco.Descent.C52_ogd",
    "Soco.Descent.C52_memoryless",
    "Soco.Rbg.C52_rbg",
    "Soco.Probabilistic.C52_probabilistic",
    "Soco.Rand.C52_randomized",
    "Soco.OfflineFrac.C52_co",
    "Soco.OfflineFrac.C52_static_fractional",
    "Soco.Static.C52_static_integral",
    "Soco.Uni.C52_optimal_graph_search",
    "Soco.Multi.C52_graph_search",
    "Soco.Multi.C52_optimal_graph_search",
    "Soco.Multi.C52_approx_graph_search",
    "Soco.Lcp.C52_lcp_int",
    "Soco.Lcp.C52_lcp_frac",
    "Soco.Lcp.C52_brcp",
    "Soco.Horizon.C52_rhc",
    "Soco.Horizon.C52_afhc",
    "Soco.Lb.C52_lazy_budgeting",
    "Soco.Bb.C52_lazy_budgeting"
   ],
   "note": "Checked r checks: a failure is returned exactly when a requirement is violated, and it is that of the first violated one. One theorem per algorithm; the user given cost functions return costs or panic (UserCosts), which their Rust type enforces. SBLO lazy budgeting: the prediction window failure exactly for w != 0, and no other unsupported-failure. The multi-dimensional optimal graph search is stated for problems with at least one dimension (it panics without). The approximate graph search is stated for runs whose grid computation terminates."
  },
  {
   "property": "C53",
   "status": "proved",
   "theorems": [
    "Soco.C53_brcp_optimal",
    "Soco.C53_brcp_guards"
   ],
   "note": "Relative to an optimiser that solves the prefix problems exactly (hypothesis only on the calls made)."
  },
  {
   "property": "C54",
   "status": "partial",
   "theorems": [
    "Soco.C54_replay_ssco_partial",
    "Soco.C54_two_types_counterexample",
    "Soco.C54_replay_sblo"
   ],
   "note": "Balanced-load instances: exact equality (C54_replay_sblo). Convex instances: proved for one load type; with two the online evaluation panics (C54_two_types_counterexample)."
  },
  {
   "property": "C55",
   "status": "partial",
   "theorems": [
    "Soco.C55_hundredths",
    "Soco.C55_divisors",
    "Soco.C55_slack",
    "Soco.C55_same_cost",
    "Soco.C55_finite_cost_partial",
    "Soco.C55_rounding_counterexample"
   ],
   "note": "Finite balanced costs equal the load cost and respect capacity. They are finite exactly if the load can be handed out in whole hundredths (C55_hundredths), which is the case for every sufficient number of servers if the load divides 100 (C55_divisors), or with one percent slack per type (C55_slack); then both costs agree (C55_same_cost). In general they do not, because fractions are rounded to two digits (C55_rounding_counterexample)."
  },
  {
   "property": "C56",
   "status": "proved",
   "theorems": [
    "Soco.C56_output_consistent"
   ],
   "note": "Any solver that returns vectors of the right length."
  },
  {
   "property": "C57",
   "status": "partial",
   "theorems": [
    "Soco.C57_average_partial",
    "Soco.C57_rising_prices_counterexample"
   ],
   "note": "The code averages over the slots 0 to T-1 (C57_rising_prices_counterexample); C57_average_partial gives the exact difference, which vanishes if the prices of slots 0 and T agree."
  },
  {
   "property": "C58",
   "status": "partial",
   "theorems": [
    "Soco.Descent.C58_level_partial",
    "Soco.Descent.C58_pobd_balance_partial",
    "Soco.Descent.C58_pobd_counterexample"
   ],
   "note": "False of the code: the root finder accepts any imbalance below 10 (C58_pobd_counterexample). Proved when a minimiser of the hitting cost already keeps the balance (C58_pobd_balance_partial), and when the imbalance exceeds 10 at both ends of the search and a balanced level exists: then the movement costs exactly beta times the level chosen (C58_level_partial)."
  },
  {
   "property": "C59",
   "status": "partial",
   "theorems": [
    "Soco.Rbg.C59_same_draw_partial",
    "Soco.Rbg.C59_counterexample"
   ],
   "note": "False of the code: the memory is never returned, so the bias is drawn anew in every slot (C59_counterexample). Holds when the draws agree."
  },
  {
   "property": "C60",
   "status": "proved",
   "theorems": [
    "Soco.OfflineFrac.C60_convex_optimization",
    "Soco.OfflineFrac.C60_infeasible"
   ],
   "note": "Given an exact optimiser. If no schedule meets the bound, a violating schedule is returned without error (C60_infeasible)."
  },
  {
   "property": "C61",
   "status": "proved",
   "theorems": [
    "Soco.OfflineFrac.C61_static_fractional",
    "Soco.OfflineFrac.C61_zero_movement_counterexample"
   ],
   "note": "Given an exact optimiser. A movement bound of 0 is accepted although the result moves (C61_zero_movement_counterexample)."
  },
  {
   "property": "C62",
   "status": "proved",
   "theorems": [
    "Soco.Probabilistic.C62_derivative",
    "Soco.Probabilistic.C62_second_derivative",
    "Soco.Probabilistic.C62_infinite_costs",
    "Soco.Probabilistic.C62_probabilistic",
    "Soco.Probabilistic.C62_history"
   ],
   "note": "Any optimiser that stays within its bounds, any root finder that answers on brackets, any derivative and integration routine that returns. C62_derivative, C62_second_derivative and C62_infinite_costs: what the numeric derivatives are, also where costs are infinite."
  },
  {
   "property": "C63",
   "status": "partial",
   "theorems": [
    "Soco.Probabilistic.C63_left_bound_partial",
    "Soco.Probabilistic.C63_initial",
    "Soco.Probabilistic.C63_mass_counterexample"
   ],
   "note": "False of the code even with exact routines: the mass is 2 after the first slot of a simple instance (C63_mass_counterexample). The initial density has mass 1, and C63_left_bound_partial shows that the left bound is always an end of the interval searched, because of a wrong sign."
  },
  {
   "property": "C64",
   "status": "proved",
   "theorems": [
    "Soco.C64_approximation_ratio",
    "Soco.C64_convex_counterexample",
    "Soco.C64_balanced_growth",
    "Soco.C64_balanced_ratio"
   ],
   "note": "Ratio proved for all hitting costs that grow at most proportionally (C64_approximation_ratio), and that balanced-load problems with increasing costs are such (exact load balancer that evaluates feasible points only: C64_balanced_ratio). Without the assumption the ratio is unbounded (C64_convex_counterexample)."
  },
  {
   "property": "C65",
   "status": "partial",
   "theorems": [
    "Soco.Descent.C65_competitive_partial",
    "Soco.Descent.C65_precision_counterexample",
    "Soco.Descent.C65_balance_counterexample",
    "Soco.Descent.C65_five_counterexample"
   ],
   "note": "False of the code: the numeric precision of 0.01 makes the ratio unbounded (C65_precision_counterexample), and even when the precision has no effect, the balance chosen yields 18/5 on seven slots (C65_balance_counterexample). Proved instead: 5 times the cost of any schedule plus a precision term per slot, for convex Lipschitz costs and an exact optimiser (C65_competitive_partial); the factor 5 is best possible: every smaller factor fails with any error allowed per slot (C65_five_counterexample)."
  },
  {
   "property": "C66",
   "status": "partial",
   "theorems": [
    "Soco.Descent.C66_regret_partial",
    "Soco.Descent.C66_regret_counterexample"
   ],
   "note": "False of the code: at a bound, where the algorithm begins, the difference quotient is infinite and the algorithm may never move, so that regret is linear (C66_regret_counterexample). Proved instead: the classical regret bound plus errors of the difference quotient and of the numeric precision, for runs that keep the distance of the difference quotient from the bounds (C66_regret_partial)."
  },
  {
   "property": "C67",
   "status": "proved",
   "theorems": [
    "Soco.Offline.C67_solve_ok_iff",
    "Soco.Offline.C67_invalid_rejected",
    "Soco.Offline.C67_optimal",
    "Soco.Offline.C67_unfair_counterexample",
    "Soco.Offline.C67_sblo_optimal"
   ],
   "note": "solve: exact contract, rejection, end-to-end optimality for SSCO and SBLO; with alpha other than one the reported cost is the plain objective, not the minimised one (C67_unfair_counterexample). Running time and logging are not modelled."
  },
  {
   "property": "C68",
   "status": "partial",
   "theorems": [
    "Soco.Offline.C68_hundredths",
    "Soco.Offline.C68_divisors_optimal",
    "Soco.Offline.C68_slo_optimal_partial",
    "Soco.Offline.C68_rounding_counterexample",
    "Soco.Offline.C68_one_type_optimal"
   ],
   "note": "One server type: optimal (C68_one_type_optimal). Several types: optimal if every load divides 100 (C68_divisors_optimal), and always optimal among schedules that hand out the loads in whole hundredths (C68_hundredths); in general false because load fractions are rounded to hundredths (C68_rounding_counterexample)."
  },
  {
   "property": "C69",
   "status": "partial",
   "theorems": [
    "Soco.Lb.C69_window",
    "Soco.Lb.C69_two_competitive_partial",
    "Soco.Lb.C69_two_types_counterexample"
   ],
   "note": "One server type: the number of servers kept is described exactly (C69_window, both variants) and the deterministic variant is 2-competitive. For two types the documented ratio 2d is false of the code: load fractions are rounded to hundredths and the ratio is unbounded (C69_two_types_counterexample)."
  },
  {
   "property": "C70",
   "status": "proved",
   "theorems": [
    "Soco.DataCenterModel.C70_objective"
   ],
   "note": "Value and failures of the objective for every assignment."
  },
  {
   "property": "C71",
   "status": "partial",
   "theorems": [
    "Soco.DataCenterModel.C71_utilisation_partial",
    "Soco.DataCenterModel.C71_server_cost",
    "Soco.DataCenterModel.C71_quotas_counterexample"
   ],
   "note": "Linear energy costs: exact. With quotas an infinite consumption has finite cost (C71_quotas_counterexample). A price of zero gives NaN (a panic) in the code and is excluded."
  },
  {
   "property": "C72",
   "status": "partial",
   "theorems": [
    "Soco.Lb.C72_distribution",
    "Soco.Lb.C72_randomized_partial",
    "Soco.Lb.C72_two_types_counterexample"
   ],
   "note": "Distribution of the factor proved; one server type: expected cost at most e/(e-1) times the cost of any schedule. The draw is a real number; the algorithm uses any number with the same number of slots. For two types the ratio is unbounded for every draw (C72_two_types_counterexample), because load fractions are rounded to hundredths."
  },
  {
   "property": "C73",
   "status": "partial",
   "theorems": [
    "Soco.C73_expected_cost_partial",
    "Soco.C73_ratio_partial",
    "Soco.C73_run",
    "Soco.C73_decrease_counterexample"
   ],
   "note": "Equality for schedules of gentle steps (as in C31). When coming down from an integer to a fractional value the code always rounds down, and the ratio is unbounded even for fractional schedules of cost at most twice the optimum (C73_decrease_counterexample)."
  },
  {
   "property": "C74",
   "status": "partial",
   "theorems": [
    "Soco.C74_three_competitive_partial",
    "Soco.C74_unbounded_counterexample"
   ],
   "note": "False of the code: once the two bounds have met, later bound computations also charge for returning to the reference state after the last slot, and the ratio is unbounded for every exact optimiser (C74_unbounded_counterexample). Proved: ratio 3 for all runs in which the bounds never tighten right after meeting (C74_three_competitive_partial)."
  },
  {
   "property": "C75",
   "status": "partial",
   "theorems": [
    "Soco.C75_convex",
    "Soco.C75_balanced_partial",
    "Soco.C75_load_partial",
    "Soco.C75_exact_loads",
    "Soco.C75_truncated_counterexample"
   ],
   "note": "Proved for convex problems and for fractional load problems (C75_convex, C75_balanced_partial, C75_load_partial, C75_exact_loads); integral load problems lose the fractional part of each load (C75_truncated_counterexample)."
  },
  {
   "property": "C76",
   "status": "partial",
   "theorems": [
    "Soco.Horizon.C76_rhc_partial",
    "Soco.Horizon.C76_afhc_partial",
    "Soco.Horizon.C76_rhc_counterexample",
    "Soco.Horizon.C76_afhc_counterexample"
   ],
   "note": "False of the code, which ignores predictions (C39_predictions_ignored): for every window there are histories with ratio close to 16 for receding horizon control and at least 16/9 for averaging fixed horizon control, at a fixed ratio of switching and operating cost (C76_rhc_counterexample, C76_afhc_counterexample). Proved: ratios 1+rho and (1+rho)^2 for every window, where rho bounds switching cost by operating cost (C76_rhc_partial, C76_afhc_partial)."
  },
  {
   "property": "C77",
   "status": "partial",
   "theorems": [
    "Soco.Rbg.C77_same_draw_partial",
    "Soco.Rbg.C77_redrawn_counterexample"
   ],
   "note": "False of the code, which never returns the memory holding the bias and so draws it anew in every slot (C59_counterexample): with independent draws the mean cost grows linearly although a schedule of cost 1 exists (C77_redrawn_counterexample). Proved: with one draw for all slots, uniform over N equally spaced values, the mean cost is at most twice the cost of every schedule on the grid plus a term of order 1/N (C77_same_draw_partial). Real draws and inexact optimisers are missing."
  },
  {
   "property": "C78",
   "status": "partial",
   "theorems": [
    "Soco.Descent.C78_dimensions_partial",
    "Soco.Descent.C78_robd_partial",
    "Soco.Descent.C78_weights",
    "Soco.Descent.C78_precision_counterexample"
   ],
   "note": "The numeric precision of 0.01 makes the ratio unbounded (C78_precision_counterexample). Proved: for every R above the documented ratio, and the weights of the code (C78_weights), R times the cost of every schedule on the grid plus a precision term per slot, in one dimension for all strongly convex costs (C78_robd_partial) and in all dimensions for sums of a smooth strongly convex part and convex parts for each dimension (C78_dimensions_partial)."
  },
  {
   "property": "C79",
   "status": "partial",
   "theorems": [
    "Soco.Descent.C79_polyhedral_partial",
    "Soco.Descent.C79_distance_counterexample",
    "Soco.Descent.C79_constant_counterexample"
   ],
   "note": "False of the code, whose root finder accepts an imbalance below 10: with 2/5-polyhedral costs it never moves and no ratio holds (C79_distance_counterexample), and in one dimension no constant ratio holds (C79_constant_counterexample). Proved, in all dimensions: ratio max(1, 2/alpha) if no move in the decision space costs 10 or more (C79_polyhedral_partial)."
  },
  {
   "property": "C80",
   "status": "partial",
   "theorems": [
    "Soco.Descent.C80_quasiconvex_partial",
    "Soco.Descent.C80_ratio_counterexample"
   ],
   "note": "False of the code, which follows the minimisers whenever moves cost less than 10, so that the ratio is of order 1/m (C80_ratio_counterexample). Proved, in all dimensions: ratio max(3, 6/m) in that case (C80_quasiconvex_partial)."
  },
  {
   "property": "C81",
   "status": "partial",
   "theorems": [
    "Soco.Descent.C81_path_partial",
    "Soco.Descent.C81_regret_counterexample",
    "Soco.Descent.C81_level_partial"
   ],
   "note": "False of the code: with alternating minimisers the regret is linear for every balance parameter (C81_regret_counterexample). Proved in one dimension: if the dual imbalance at the minimisers is below 10, the regret is at most the movement along the minimisers (C81_path_partial); if the imbalance exceeds 10 at both ends of the search and a balanced level exists, the chosen level is balanced exactly (C81_level_partial)."
  },
  {
   "property": "C82",
   "status": "proved",
   "theorems": [
    "Soco.Bb.C82_exact",
    "Soco.Bb.C82_one_type",
    "Soco.Bb.C82_ratio"
   ],
   "note": "C82_exact for any number of types, with an optimiser that assigns loads optimally; C82_one_type for one type, without that assumption; C82_ratio is the general statement about costs of slots."
  },
  {
   "property": "C83",
   "status": "partial",
   "theorems": [
    "Soco.Probabilistic.C83_ratio_counterexample",
    "Soco.Probabilistic.C83_zero_partial"
   ],
   "note": "False of the code, with any ratio: with hitting cost 1 - x the algorithm stays near 0 forever (C83_ratio_counterexample). Proved: it is optimal if hitting costs are least at 0 and slopes and switching cost are within the tolerance of the root finder (C83_zero_partial)."
  },
  {
   "property": "C84",
   "status": "partial",
   "theorems": [
    "Soco.Distance.C84_value",
    "Soco.Distance.C84_seminorm",
    "Soco.Distance.C84_inner",
    "Soco.Distance.C84_manhattan",
    "Soco.Distance.C84_line",
    "Soco.Distance.C84_definite_counterexample",
    "Soco.Distance.C84_infinite",
    "Soco.Distance.C84_scaled"
   ],
   "note": "False of the code in one respect: all values are rounded to the grid of the numeric precision, so that the dual of a large norm vanishes everywhere (C84_definite_counterexample). Proved for exact maximisers on the grid: value, seminorm, inner products, the line, scaling, infinite arguments."
  },
  {
   "property": "C85",
   "status": "partial",
   "theorems": [
    "Soco.Distance.C85_invertible",
    "Soco.Distance.C85_value",
    "Soco.Distance.C85_dimension",
    "Soco.Distance.C85_definite",
    "Soco.Distance.C85_convex",
    "Soco.Distance.C85_triangle",
    "Soco.Distance.C85_smooth_counterexample"
   ],
   "note": "Proved over the rationals: value, definiteness, symmetry, triangle inequality for the roots, exact strong convexity and smoothness constant 2. False of the code: singular semi-definite matrices are rejected (C85_invertible), and the function is the squared distance, which does not scale like a norm and is not 1-smooth, while half of its square is not strongly convex (C85_smooth_counterexample)."
  },
  {
   "property": "C86",
   "status": "proved",
   "theorems": [
    "Soco.C86_service",
    "Soco.C86_single_type"
   ],
   "note": "C86_service for all models with convex offline costs, C86_single_type in terms of the parameters of a data center. One load type (with several types updating fails, C54_two_types_counterexample) and no prediction window (with a window the server fails, C37_window_twice_counterexample)."
  },
  {
   "property": "C87",
   "status": "proved",
   "theorems": [
    "Soco.C87_problem",
    "Soco.C87_convex",
    "Soco.C87_problem_fractional",
    "Soco.C87_convex_fractional",
    "Soco.C87_power"
   ],
   "note": "C87_problem, C87_convex, C87_power, and the same for fractional problems."
  },
  {
   "property": "C88",
   "status": "partial",
   "theorems": [
    "Soco.C88_memories",
    "Soco.C88_responses",
    "Soco.C88_session",
    "Soco.C88_resume",
    "Soco.C88_balanced_counterexample",
    "Soco.C88_sendable",
    "Soco.C88_probabilistic_counterexample",
    "Soco.C88_probabilistic_stuck"
   ],
   "note": "False of two memories, which skip fields: after reloading, lazy budgeting for balanced load (C88_balanced_counterexample) and the probabilistic algorithm (C88_probabilistic_counterexample, C88_probabilistic_stuck) always fail. Proved for all requests, responses and other memories, for sessions and for runs interrupted any number of times. Messages are lists of primitive values, not bytes."
  },
  {
   "property": "C89",
   "status": "proved",
   "theorems": [
    "Soco.Num.C89_minimize",
    "Soco.Num.C89_minimize_panics",
    "Soco.Num.C89_maximize",
    "Soco.Descent.C89_root_narrow",
    "Soco.Descent.C89_root_panics",
    "Soco.Descent.C89_root_ends",
    "Soco.Descent.C89_root_brackets",
    "Soco.Descent.C89_root_inner"
   ],
   "note": "C89_minimize and C89_maximize characterise when a result is returned; C89_root_narrow, C89_root_ends, C89_root_brackets and C89_root_inner cover root finding. The value reported by the library is taken to be the objective at the point it returns."
  },
  {
   "property": "C90",
   "status": "proved",
   "theorems": [
    "Soco.C90_optimal",
    "Soco.C90_optimal_one_dimension",
    "Soco.C90_approximation",
    "Soco.C90_static",
    "Soco.C90_rising"
   ],
   "note": "C90_optimal and C90_optimal_one_dimension: graph search; C90_approximation: ratio; C90_static: best fixed number of servers; C90_rising: the energy models meet the requirement of the approximation. The optimiser is only assumed to return the empty point when there are no variables."
  },
  {
   "property": "C91",
   "status": "partial",
   "theorems": [
    "Soco.C91_finite",
    "Soco.C91_failed_estimate",
    "Soco.C91_above",
    "Soco.C91_below",
    "Soco.C91_whole_partial",
    "Soco.C91_whole_counterexample",
    "Soco.C91_piecewise"
   ],
   "note": "C91_finite, C91_above, C91_below: finite and half-infinite intervals. Over all numbers the claim is false of the code: Gauss-Hermite quadrature integrates with the weight exp(-x^2), for which the code does not compensate (C91_whole_partial says what is computed, C91_whole_counterexample shows the difference). C91_piecewise: piecewise integration, the only caller, never integrates over all numbers. The accuracy of the rules is a hypothesis (Spec.GaussRules)."
  },
  {
   "property": "C92",
   "status": "proved",
   "theorems": [
    "Soco.C92_slot_cost",
    "Soco.C92_everything_sent",
    "Soco.C92_cheapest_plan"
   ],
   "note": "C92_slot_cost: any network; C92_everything_sent; C92_cheapest_plan: the generated problem is assumed to be accepted, which by C42 requires a single location. NLopt is assumed to be exact on the grid of the numeric precision and to evaluate feasible points only. With several sources or job types the splits are those of the code, in which the shares of a load do not sum up to one (C40)."
  },
  {
   "property": "C93",
   "status": "partial",
   "theorems": [
    "Soco.Rbg.C93_same_problem_partial",
    "Soco.Rbg.C93_counterexample"
   ],
   "note": "C93_same_problem_partial: any number of steps for the same problem, in any slots and with any biases, under every schedule; every schedule ends and no thread gets stuck. C93_counterexample: false for different problems, as the keys of the cache do not tell problems apart: a step that is interrupted after it cleared the cache decides by the costs of the other problem. The access to the cache is atomic (it is behind a mutex); all else in a thread is local."
  },
  {
   "property": "C94",
   "status": "partial",
   "theorems": [
    "Soco.Clients.C94_in_order",
    "Soco.Clients.C94_everyone_partial",
    "Soco.Clients.C94_give_up_counterexample",
    "Soco.Clients.C94_silent_counterexample",
    "Soco.C94_data_center_partial",
    "Soco.Clients.C94_first_come",
    "Soco.Clients.C94_reaches_partial"
   ],
   "note": "C94_in_order: every interleaving, also with clients that give up or keep silent. C94_everyone_partial and C94_data_center_partial: patient clients. False otherwise: C94_give_up_counterexample (a connection closed without a message stops the server, as `stop` does on purpose) and C94_silent_counterexample. One connection per client; messages arrive piece by piece in order; connections are accepted in the order in which they were made. C94_first_come: no client is overtaken by one that connects later, for all interleavings. C94_reaches_partial: with patient clients a state in which everyone is answered can always be reached."
  },
  {
   "property": "C95",
   "status": "proved",
   "theorems": [
    "Soco.C95_backward",
    "Soco.C95_convex",
    "Soco.C95_static"
   ],
   "note": "Numeric optimisers are parameters with stated guarantees; for backward-recurrent capacity provisioning the existence of rational cheapest plans of all prefixes is a hypothesis (a sufficient condition is proved beside it)"
  },
  {
   "property": "C96",
   "status": "proved",
   "theorems": [
    "Soco.C96_lazy_service",
    "Soco.C96_later_prices_counterexample"
   ],
   "note": "C96_lazy_service. Integral loads. C96_later_prices_counterexample: the cost of a server stays the one computed from the past when prices change later, so the optimum meant is that for the prices of the past. For several kinds of servers the ratio is false (C69)."
  },
  {
   "property": "C97",
   "status": "proved",
   "theorems": [
    "Soco.C97_convex_iff",
    "Soco.C97_smoothed_iff",
    "Soco.C97_balanced_iff",
    "Soco.C97_load_iff",
    "Soco.C97_evaluable_iff"
   ],
   "note": "C97_convex_iff, C97_smoothed_iff, C97_balanced_iff, C97_load_iff for the conversions, C97_evaluable_iff for the cost of a slot (at least one location, type, source and job type, slots of positive length, processing times not negative). Closures given in Python are total"
  },
  {
   "property": "C98",
   "status": "partial",
   "theorems": [
    "Soco.Offline.C98_static_balanced_partial",
    "Soco.Offline.C98_static_load",
    "Soco.Offline.C98_static_rounding_counterexample",
    "Soco.Offline.C98_static_balanced_counterexample",
    "Soco.Offline.C98_balanced_approximation",
    "Soco.Offline.C98_load_approximation_partial",
    "Soco.Offline.C98_divisors_approximation",
    "Soco.Offline.C98_approximation_rounding_counterexample"
   ],
   "note": "Static solver: C98_static_load for load problems whose loads divide 100 (or one type), C98_static_balanced_partial for balanced-load problems with quasi-convex least costs. Approximation: C98_balanced_approximation for balanced load, C98_divisors_approximation for load problems whose loads divide 100 (or one type), C98_load_approximation_partial otherwise, compared with schedules that hand out loads in hundredths. False in general: C98_static_rounding_counterexample, C98_static_balanced_counterexample, C98_approximation_rounding_counterexample"
  },
  {
   "property": "C99",
   "status": "proved",
   "theorems": [
    "Soco.Distance.C99_defined",
    "Soco.Distance.C99_strongly_convex",
    "Soco.Distance.C99_smooth",
    "Soco.Distance.C99_positive_counterexample"
   ],
   "note": "C99_defined, C99_strongly_convex (the parameter is twice the documented one if strong convexity is defined with the factor 1/2), C99_smooth; C99_positive_counterexample for other decision spaces. Over the real numbers"
  },
  {
   "property": "C100",
   "status": "proved",
   "theorems": [
    "Soco.C100_lowest_optimum"
   ],
   "note": "C100_lowest_optimum."
  },
  {
   "property": "C101",
   "status": "proved",
   "theorems": [
    "Soco.C101_window_bounds",
    "Soco.C101_window_bound_values",
    "Soco.C101_window_three_competitive",
    "Soco.C101_short_horizon_counterexample",
    "Soco.C101_offline_stream"
   ],
   "note": "C101_window_bounds, C101_window_bound_values, C101_window_three_competitive, and C101_offline_stream for a whole offline problem streamed with a window. The same window in every slot and perfect predictions (predicted mean costs equal the costs that occur). C101_short_horizon_counterexample: the slots of the last window have to be taken into account."
  },
  {
   "property": "C102",
   "status": "proved",
   "theorems": [
    "Soco.C102_window_service",
    "Soco.C102_single_type",
    "Soco.C102_short_past_counterexample"
   ],
   "note": "C102_window_service for any data center model whose problem is one-dimensional with convex costs, C102_single_type in terms of the parameters of a data center. C102_short_past_counterexample: with at least one but not more loads than the window the service starts and ends with a failure at the first request. Predictions are exact; the same window in every request."
  },
  {
   "property": "C103",
   "status": "proved",
   "theorems": [
    "Soco.C103_balanced_service",
    "Soco.C103_park"
   ],
   "note": "C103_balanced_service for any model whose server costs are convex and least when idle, C103_park in terms of the parameters of a data center. Optimiser for the assignment of loads exact on hundredths."
  },
  {
   "property": "C104",
   "status": "proved",
   "theorems": [
    "Soco.C104_one_dimension",
    "Soco.C104_approximation",
    "Soco.C104_feasible"
   ],
   "note": "C104_one_dimension, C104_approximation, C104_feasible. Counts distinct configurations; repeated evaluations of the same configuration within a slot are not counted."
  },
  {
   "property": "C105",
   "status": "proved",
   "theorems": [
    "Soco.C105_total",
    "Soco.C105_time",
    "Soco.C105_search",
    "Soco.C105_search_overflow",
    "Soco.C105_lazy_budgeting",
    "Soco.C105_horizon_overflow"
   ],
   "note": "C105_search, C105_search_overflow, C105_lazy_budgeting, C105_horizon_overflow, C105_total, C105_time. Other arithmetic on i32 (dimensions, lengths, sub time slots) stays unbounded in the model."
  },
  {
   "property": "C106",
   "status": "proved",
   "theorems": [
    "Soco.C106_service",
    "Soco.C106_one_dimension",
    "Soco.C106_lazy",
    "Soco.C106_several_dimensions",
    "Soco.C106_approximation"
   ],
   "note": "C106_one_dimension, C106_lazy, C106_several_dimensions, C106_approximation. Exact arithmetic: rounding of floating point numbers may break ties differently after a change of currency. C106_service for running services priced in another currency."
  },
  {
   "property": "C107",
   "status": "proved",
   "theorems": [
    "Soco.C107_costs",
    "Soco.C107_plans",
    "Soco.C107_one_dimension",
    "Soco.C107_several_dimensions",
    "Soco.C107_lazy"
   ],
   "note": "C107_costs, C107_plans (any plan within a factor of the believed optimum), C107_one_dimension, C107_several_dimensions, C107_lazy."
  },
  {
   "property": "C108",
   "status": "proved",
   "theorems": [
    "Soco.C108_one_dimension",
    "Soco.C108_lazy",
    "Soco.C108_single_type",
    "Soco.C108_single_type_lazy",
    "Soco.C108_service",
    "Soco.C108_several_types_counterexample"
   ],
   "note": "C108_one_dimension, C108_lazy for any costs; C108_single_type and C108_single_type_lazy for the data center model. C108_several_types_counterexample shows that the restriction to one type of server is needed. C108_service for running services with or without a prediction window."
  },
  {
   "property": "C109",
   "status": "proved",
   "theorems": [
    "Soco.C109_parts",
    "Soco.C109_plans",
    "Soco.C109_concave",
    "Soco.C109_one_dimension",
    "Soco.C109_several_dimensions"
   ],
   "note": "C109_parts (any problem, also failures), C109_plans and C109_concave (any optimal schedules), C109_one_dimension, C109_several_dimensions."
  },
  {
   "property": "C110",
   "status": "proved",
   "theorems": [
    "Soco.C110_replan",
    "Soco.C110_replanned"
   ],
   "note": "C110_replan, C110_replanned. Certain (not sampled) hitting costs."
  },
  {
   "property": "C111",
   "status": "proved",
   "theorems": [
    "Soco.C111_objective",
    "Soco.C111_one_dimension",
    "Soco.C111_several_dimensions"
   ],
   "note": "C111_objective, C111_one_dimension, C111_several_dimensions. Switching costs paid when powering up."
  },
  {
   "property": "C112",
   "status": "proved",
   "theorems": [
    "Soco.C112_one_dimension",
    "Soco.C112_lazy",
    "Soco.C112_several_dimensions",
    "Soco.C112_single_type",
    "Soco.C112_service"
   ],
   "note": "C112_one_dimension, C112_lazy, C112_single_type, C112_several_dimensions. C112_service for running services with or without a prediction window."
  },
  {
   "property": "C113",
   "status": "proved",
   "theorems": [
    "Soco.C113_periods",
    "Soco.C113_longer",
    "Soco.C113_attained"
   ],
   "note": "C113_periods, C113_longer, C113_attained."
  },
  {
   "property": "C114",
   "status": "proved",
   "theorems": [
    "Soco.C114_joint",
    "Soco.C114_fleets",
    "Soco.C114_types"
   ],
   "note": "C114_joint, C114_fleets, C114_types."
  },
  {
   "property": "C115",
   "status": "proved",
   "theorems": [
    "Soco.C115_objective",
    "Soco.C115_plan"
   ],
   "note": "C115_objective, C115_plan."
  },
  {
   "property": "C116",
   "status": "proved",
   "theorems": [
    "Soco.C116_best",
    "Soco.C116_lcp",
    "Soco.C116_window"
   ],
   "note": "C116_best, C116_lcp, C116_window."
  },
  {
   "property": "C117",
   "status": "proved",
   "theorems": [
    "Soco.C117_best",
    "Soco.C117_lazy_budgeting"
   ],
   "note": "C117_best, C117_lazy_budgeting."
  },
  {
   "property": "C118",
   "status": "proved",
   "theorems": [
    "Soco.C118_plan",
    "Soco.C118_load",
    "Soco.C118_data_center"
   ],
   "note": "C118_plan, C118_load, C118_data_center."
  },
  {
   "property": "C119",
   "status": "partial",
   "theorems": [
    "Soco.C119_capacity_provisioning",
    "Soco.C119_single_type",
    "Soco.C119_lazy_budgeting_partial",
    "Soco.C119_prices_counterexample"
   ],
   "note": "C119_capacity_provisioning (any model whose problem is one-dimensional with convex costs), C119_single_type. Lazy budgeting: C119_lazy_budgeting_partial if both services compute the same average cost of a server; false otherwise (C119_prices_counterexample: with rising prices the restarted service keeps servers for a shorter time, so its initial schedule differs from what was decided). C122_restart gives the same average cost for a data center whose costs do not depend on time."
  },
  {
   "property": "C120",
   "status": "proved",
   "theorems": [
    "Soco.C120_graph_search",
    "Soco.C120_double_rounds",
    "Soco.C120_double",
    "Soco.C120_exact",
    "Soco.C120_optimal_counterexample"
   ],
   "note": "C120_graph_search (all ways of rounding), C120_double (53 binary digits), C120_double_rounds, C120_exact (without rounding this model of the search is the one of C19). C120_optimal_counterexample shows that the plan need not be an exact optimum. Overflow and subnormal numbers are not modelled; costs of single slots are taken as given."
  },
  {
   "property": "C121",
   "status": "proved",
   "theorems": [
    "Soco.C121_objective",
    "Soco.C121_double",
    "Soco.C121_split_counterexample"
   ],
   "note": "C121_objective (all ways of rounding and splitting), C121_double (53 binary digits). C121_split_counterexample shows that the last digits depend on the splitting. Costs of single slots are taken as given; overflow and subnormal numbers are not modelled."
  },
  {
   "property": "C122",
   "status": "proved",
   "theorems": [
    "Soco.C122_objective",
    "Soco.C122_hitting",
    "Soco.C122_backwards",
    "Soco.C122_single_type",
    "Soco.C122_average",
    "Soco.C122_restart",
    "Soco.C122_normalized"
   ],
   "note": "C122_objective, C122_hitting, C122_backwards, C122_single_type, C122_average, C122_restart, C122_normalized."
  },
  {
   "property": "C123",
   "status": "proved",
   "theorems": [
    "Soco.C123_graph_search",
    "Soco.C123_double_mono",
    "Soco.C123_double",
    "Soco.C123_exact",
    "Soco.C123_optimal_counterexample"
   ],
   "note": "C123_graph_search (all monotone ways of rounding, all bounds), C123_double_mono and C123_double (53 binary digits), C123_exact (without rounding this model of the search is the one of C16). C123_optimal_counterexample shows a plan of cost 6291459 where the best one costs 8. Costs of single slots are taken as given; overflow and subnormal numbers are not modelled."
  },
  {
   "property": "C124",
   "status": "proved",
   "theorems": [
    "Soco.C124_approx_search",
    "Soco.C124_double",
    "Soco.C124_exact",
    "Soco.C124_powers"
   ],
   "note": "C124_approx_search, C124_double, C124_powers (powers rounded to 53 digits satisfy the assumption), C124_exact (without rounding this is the search of C25). Costs of single slots are taken as given; overflow and subnormal numbers are not modelled."
  },
  {
   "property": "C125",
   "status": "proved",
   "theorems": [
    "Soco.Lb.Rounded.C125_window",
    "Soco.Lb.Rounded.C125_two_competitive",
    "Soco.Lb.Rounded.C125_double_nat",
    "Soco.Lb.Rounded.C125_double",
    "Soco.Lb.Rounded.C125_exact",
    "Soco.Lb.Rounded.C125_slots_counterexample"
   ],
   "note": "C125_window, C125_two_competitive, C125_double_nat, C125_double, C125_exact; C125_slots_counterexample shows servers kept for three slots where the exact quotient is below three. The search for an optimal plan inside the algorithm is exact in this model."
  },
  {
   "property": "C126",
   "status": "proved",
   "theorems": [
    "Soco.C126_double",
    "Soco.C126_one_dimension",
    "Soco.C126_lazy_provisioning",
    "Soco.C126_three_competitive",
    "Soco.C126_any_bound",
    "Soco.C126_size_counterexample",
    "Soco.C126_graph_search",
    "Soco.C126_graph_search_optimal",
    "Soco.C126_approx_search",
    "Soco.C126_objective",
    "Soco.C126_split_independent"
   ],
   "note": "Run equality of the rounded and the exact searches (one and several dimensions, full and approximate grids) and of lazy capacity provisioning by an invariant on all stored path costs; exact cost of a schedule for every split of the parallel sum; optimality for any bound from C123 and the gap of one unit; a counterexample beyond 2^53 units."
  },
  {
   "property": "C127",
   "status": "proved",
   "theorems": [
    "Soco.OfflineFrac.C127_higher_limit",
    "Soco.OfflineFrac.C127_slack",
    "Soco.OfflineFrac.C127_price_as_limit",
    "Soco.OfflineFrac.C127_duality",
    "Soco.OfflineFrac.C127_static",
    "Soco.OfflineFrac.C127_standstill"
   ],
   "note": "Exact optimisers (as in C60): comparison of optimal plans for different weights and limits. The optimiser is an oracle; exact means optimal on the grid of the numeric precision."
  },
  {
   "property": "C128",
   "status": "proved",
   "theorems": [
    "Soco.C128_more_choice",
    "Soco.C128_online_counterexample"
   ],
   "note": "C128_more_choice for the optimal graph search, with the old plan as witness; C128_online_counterexample shows that the claim does not extend to lazy capacity provisioning."
  },
  {
   "property": "C129",
   "status": "proved",
   "theorems": [
    "Soco.C129_search",
    "Soco.C129_alpha",
    "Soco.C129_one",
    "Soco.C129_constrained",
    "Soco.C129_approx",
    "Soco.C129_descent",
    "Soco.C129_rbg",
    "Soco.C129_budgeting",
    "Soco.C129_explicit"
   ],
   "note": "C129_search, C129_alpha, C129_one, C129_constrained, C129_approx, C129_budgeting, C129_rbg, C129_descent. The decimal 1.1 is taken as 11/10; the default step sizes of gradient descent (1 over a square root) are not included."
  },
  {
   "property": "C130",
   "status": "proved",
   "theorems": [
    "Soco.C130_wider_window",
    "Soco.C130_cost_counterexample"
   ],
   "note": "C130_wider_window (all windows, all histories); C130_cost_counterexample: window 1 costs 5 where window 0 costs 4."
  },
  {
   "property": "C131",
   "status": "proved",
   "theorems": [
    "Soco.C131_past",
    "Soco.C131_past_approx",
    "Soco.C131_resume",
    "Soco.C131_loads",
    "Soco.C131_linear_loads",
    "Soco.C131_loads_resume"
   ],
   "note": "C131_past, C131_past_approx (any cache); C131_resume, C131_loads_resume (two stages); C131_loads, C131_linear_loads. Concrete: a resumed search succeeds where the costs of the past abort."
  },
  {
   "property": "C132",
   "status": "proved",
   "theorems": [
    "Soco.C132_dense",
    "Soco.C132_coarse_counterexample"
   ],
   "note": "C132_dense; C132_coarse_counterexample shows that the claim needs the bound on the factor. Powers are exact (see C124 for rounded powers)."
  },
  {
   "property": "C133",
   "status": "proved",
   "theorems": [
    "Soco.C133_costs",
    "Soco.C133_expected",
    "Soco.C133_samples"
   ],
   "note": "C133_costs and C133_expected for any scenarios described by samples, C133_samples: cost functions that return samples are of this form. Concrete: expected cost 6, best plans of the scenarios 0 and 6."
  },
  {
   "property": "C134",
   "status": "proved",
   "theorems": [
    "Soco.C134_finer",
    "Soco.C134_plans",
    "Soco.C134_uneven_counterexample"
   ],
   "note": "C134_plans for all plans, C134_finer for the optimum; C134_uneven_counterexample shows that equal costs are needed."
  },
  {
   "property": "C135",
   "status": "proved",
   "theorems": [
    "Soco.C135_plans",
    "Soco.C135_optimum"
   ],
   "note": "C135_plans for all plans, C135_optimum for the search. The divided type is the first one; by C115 the order of types does not matter."
  },
  {
   "property": "C136",
   "status": "proved",
   "theorems": [
    "Soco.C136_cost",
    "Soco.C136_capacity"
   ],
   "note": "C136_cost, C136_capacity, for exact optimisers (as for C92)."
  },
  {
   "property": "C137",
   "status": "proved",
   "theorems": [
    "Soco.C137_plans",
    "Soco.C137_optimum",
    "Soco.C137_switching_counterexample"
   ],
   "note": "C137_plans, C137_optimum, C137_switching_counterexample (for the last part of the claim). The two types are the first two; by C115 the order of types does not matter."
  },
  {
   "property": "C138",
   "status": "proved",
   "theorems": [
    "Soco.C138_steady",
    "Soco.C138_data_center"
   ],
   "note": "For every valid problem with slot-independent costs, and for data centers built from constants with constant loads."
  },
  {
   "property": "C139",
   "status": "proved",
   "theorems": [
    "Soco.C139_plans",
    "Soco.C139_optimum",
    "Soco.C139_farm_plans",
    "Soco.C139_single_type"
   ],
   "note": "C139_plans for all plans, C139_optimum for the search. C139_farm_plans and C139_single_type say the same of data centers with one type of servers whose prices of energy are mixed with any weights."
  },
  {
   "property": "C140",
   "status": "proved",
   "theorems": [
    "Soco.C140_service",
    "Soco.C140_decisions",
    "Soco.C140_cost",
    "Soco.C140_tight"
   ],
   "note": "C140_decisions, C140_cost (integral algorithm, exact predictions within the window), C140_tight for the factor. C140_service for running services of data centers with one type of servers."
  },
  {
   "property": "C141",
   "status": "proved",
   "theorems": [
    "Soco.C141_plans",
    "Soco.C141_lazy",
    "Soco.C141_service",
    "Soco.C141_idle",
    "Soco.C141_peak",
    "Soco.C141_alpha_needed"
   ],
   "note": "C141_plans for the graph search, C141_lazy for capacity provisioning, C141_service, C141_idle and C141_peak for running services; C141_alpha_needed shows that the weight has to be positive."
  },
  {
   "property": "C142",
   "status": "proved",
   "theorems": [
    "Soco.C142_round",
    "Soco.C142_optimum",
    "Soco.C142_lazy"
   ],
   "note": "C142_round, C142_optimum and C142_lazy. The relaxation is the one of the code (linear interpolation between integers); fractional problems generated directly from a data center model have other costs."
  },
  {
   "property": "C143",
   "status": "proved",
   "theorems": [
    "Soco.C143_off",
    "Soco.C143_on",
    "Soco.C143_service_off",
    "Soco.C143_service_on",
    "Soco.C143_no_more_jobs",
    "Soco.C143_off_tight"
   ],
   "note": "C143_off and C143_on for problems, C143_service_off, C143_service_on and C143_no_more_jobs for services. C143_off_tight: a run that keeps its server exactly as long as allowed."
  },
  {
   "property": "C144",
   "status": "proved",
   "theorems": [
    "Soco.C144_starts",
    "Soco.C144_service",
    "Soco.C144_other_plans"
   ],
   "note": "C144_starts for problems, C144_service for services, at every time of the run. C144_other_plans: another cheapest plan with fewer starts, so the claim is about the plan returned by the search."
  },
  {
   "property": "C145",
   "status": "proved",
   "theorems": [
    "Soco.C145_pooling",
    "Soco.C145_saves",
    "Soco.C145_scaled"
   ],
   "note": "C145_pooling compares what the solver returns for the three generated problems. C145_scaled for k equal data centers. C145_saves: a case in which pooling is strictly cheaper."
  },
  {
   "property": "C146",
   "status": "proved",
   "theorems": [
    "Soco.C146_worse",
    "Soco.C146_rising_needed"
   ],
   "note": "C146_worse compares what the solver returns for the two generated problems. C146_rising_needed: more load costs less if consumption falls with the utilisation."
  },
  {
   "property": "C147",
   "status": "proved",
   "theorems": [
    "Soco.C147_plans",
    "Soco.C147_backward",
    "Soco.C147_integral_counterexample"
   ],
   "note": "C147_plans for all plans, C147_backward for the solver, given an exact optimiser and loads with cheapest plans (as for C95). C147_integral_counterexample is the last sentence of the claim."
  },
  {
   "property": "C148",
   "status": "proved",
   "theorems": [
    "Soco.C148_plans",
    "Soco.C148_backward",
    "Soco.C148_integral_counterexample"
   ],
   "note": "C148_plans for all plans, C148_backward for the solver, given an exact optimiser and loads with cheapest plans (as for C95). C148_integral_counterexample is the last sentence of the claim."
  },
  {
   "property": "C149",
   "status": "proved",
   "theorems": [
    "Soco.C149_one_dimension",
    "Soco.C149_single_type"
   ],
   "note": "C149_one_dimension for the search, C149_single_type for generated problems of data centers."
  },
  {
   "property": "C150",
   "status": "proved",
   "theorems": [
    "Soco.C150_peak",
    "Soco.C150_plans",
    "Soco.C150_order",
    "Soco.C150_order_matters"
   ],
   "note": "C150_plans for all plans, C150_order and C150_peak for the search. C150_order_matters is the last sentence of the claim."
  },
  {
   "property": "C151",
   "status": "proved",
   "theorems": [
    "Soco.C151_idle_ends"
   ],
   "note": "C151_idle_ends compares what the solver returns for both problems."
  }
 ]
}