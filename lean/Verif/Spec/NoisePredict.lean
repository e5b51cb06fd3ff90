import Verif.Spec.PredictTf
import Verif.Spec.Noise

/-! # Data sets recorded with noise -/

namespace SST.Spec
open SST SST.Tf SST.Field

/-- Every column of the data set with its own disturbance. -/
def withNoise (d : DataSet) (e : String → ℕ → ℝ) : DataSet := ⟨d.dt, d.cols.map fun c => (c.1, c.2.zipIdx.map fun q => q.1 + e c.1 q.2)⟩

/-- Power of a record in bin `k`, summed over the `S` segments of `L` samples that overlap by half. -/
noncomputable def binPower (w : List ℝ) (a : ℤ → ℝ) (L S k : ℕ) : ℝ := ∑ i ∈ Finset.range S, ‖patternSpec w a L (i * (L - L / 2)) k‖ ^ 2

/-- The disturbances have at most the part `η²` of the power `p k`, in every bin up to `K` and at every sensor. -/
def Quiet (w : List ℝ) (L S K : ℕ) (η : ℝ) (p : ℕ → ℝ) (d : DataSet) (e : String → ℕ → ℝ) : Prop :=
  ∀ c ∈ d.cols, ∀ k ≤ K, binPower w (fun t => e c.1 t.toNat) L S k ≤ η ^ 2 * p k

/-- Part of the spectrum that edge effects (part `ρ`) and the disturbances of both records (part `η` each) make up together. -/
noncomputable def jointPart (ρ η : ℝ) : ℝ := (ρ + 2 * η) / (1 - η)

end SST.Spec
