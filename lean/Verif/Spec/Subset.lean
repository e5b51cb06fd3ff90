import Verif.Model.Spatial
import Mathlib.Analysis.SpecialFunctions.Trigonometric.Basic
import Mathlib.Topology.Order.Compact

/-! # Directions of cloud vectors without sign, and minimisers with a tolerance -/

namespace SST.Spec
open SST SST.Spatial

/-- |cos| of the angle between the vector `v` and the direction `θ`: 1 for parallel and for opposite vectors. -/
noncomputable def axisCos (v : Vec) (θ : ℝ) : ℝ := |v.1 * Real.cos θ + v.2 * Real.sin θ| / Real.sqrt (v.1 ^ 2 + v.2 ^ 2)

/-- The vectors contain one for each of `n` directions spaced by π/n from `a` on, up to the factor `1 - ε` in |cos|. -/
def HasFan (vs : List Vec) (n : ℕ) (a ε : ℝ) : Prop :=
  ∃ g : ℕ → ℕ, (∀ k < n, ∀ l < n, g k = g l → k = l) ∧ ∀ k < n, ∃ v, vs[g k]? = some v ∧ 1 - ε ≤ axisCos v (k / n * Real.pi + a)

/-- A minimiser on an interval that comes within `tol` of the least value of continuous functions. -/
def MinimizerWithin (tol : ℝ) (shgo : (ℝ → ℝ) → ℝ → ℝ → ℝ) : Prop :=
  ∀ f lo hi, Continuous f → lo ≤ hi → ∀ x, lo ≤ x → x ≤ hi → f (shgo f lo hi) ≤ f x + tol

end SST.Spec
