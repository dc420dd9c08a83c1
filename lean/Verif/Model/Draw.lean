import Mathlib.Analysis.SpecialFunctions.Log.Basic

/-! # The random factor of randomised lazy budgeting, in exact real arithmetic -/

namespace Soco.Lb

/-- `lazy_budgeting/smoothed_load_optimization.rs:55-61` `sample_gamma`, where `r` is the uniform value drawn from the
unit interval (`utils.rs:77-80` `sample_uniform`). -/
noncomputable def sampleGamma (r : ℝ) : ℝ := Real.log (r * (Real.exp 1 - 1) + 1)

end Soco.Lb
