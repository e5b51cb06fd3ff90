import Verif.Spec.CmvReport

/-! # Independent specifications: cloud motion from inexact delays -/

namespace SST.Spec
open SST

/-- Time in which something that moves with the speed `s` in the direction `θ` travels the vector `d`. -/
noncomputable def travelTime (s θ : ℝ) (d : Vec) : ℝ := (d.1 * Real.cos θ + d.2 * Real.sin θ) / s

end SST.Spec
