import Verif.Model.Build

/-! # Models of data centers built from constants -/

namespace Soco.Spec

/-- A source built by one of the constructors without a Python function. -/
def ConstSource (s : Source) : Prop :=
  s = Source.dflt ∨ (∃ key delays, s = Source.fromCached key delays) ∨ ∃ key delay, s = Source.fromConst key delay

/-- All prices of energy are constants. -/
def ConstPrices (e : EnergyModel) : Prop :=
  ∃ prices : String → Option ℚ, e = .linear fun loc => (prices loc).map linearFromConst

/-- A model whose sources and prices are built from constants. (Only these may depend on time.) -/
def Timeless (m : DataCenterModel) : Prop :=
  (∀ s ∈ m.sources, ConstSource s) ∧ ConstPrices m.energyModel

end Soco.Spec
