import Verif.Spec.CmvTf
import Verif.Spec.NoisePredict

/-! # Time series recorded with noise -/

namespace SST.Spec
open SST SST.Tf

/-- Every series with its own disturbance; missing samples stay missing. -/
def disturbedSeries {ι : Type} (ts : List (ι × List (Option ℝ))) (e : ι → ℕ → ℝ) : List (ι × List (Option ℝ)) :=
  ts.map fun r => (r.1, r.2.zipIdx.map fun v => v.1.map (· + e r.1 v.2))

/-- The bound of the velocity's error in terms of the error `ε` of the delays: with `N` good pairs, for any two good pairs. -/
def VelocityWithin {ι : Type} (out : Cmv.Out ι) (s₀ θ₀ ε : ℝ) : Prop :=
  ∀ s θ, out.speed = some s → out.angle = some θ → ∀ r ∈ out.rows, r.2 = .good → ∀ p ∈ out.rows, p.2 = .good →
    |r.1.vec.1 * p.1.vec.2 - r.1.vec.2 * p.1.vec.1| *
        pdist (s * Real.cos θ, s * Real.sin θ) (s₀ * Real.cos θ₀, s₀ * Real.sin θ₀) ≤
      s * s₀ * (ε * Real.sqrt (countFlag .good out.rows)) * (Spatial.magnitude r.1.vec + Spatial.magnitude p.1.vec)

end SST.Spec
