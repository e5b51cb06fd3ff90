import Verif.Spec.NoisePredict

/-! # What the windows of the complete procedure record -/

namespace SST.Spec
open SST SST.Tf SST.Field

/-- `c` is what `compute_delays_tf` finds in the data set of a window for the reference `ref`, with the cloud vector of the window. -/
def FromWindow (win : ℕ → List ℝ) (navgs : ℕ) (cohLim freqLim : Option ℝ) (method : String) (d : DataSet) (V : Vec) (ref : String) (c : CloudCase) : Prop :=
  ∃ r, fieldComputeDelays win d.dt d.cols ref navgs cohLim freqLim method = .ok r ∧ c = ⟨V, r.1, r.2.map finVal⟩

end SST.Spec
