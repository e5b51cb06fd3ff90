import Verif.Num
import Mathlib.Analysis.SpecialFunctions.Complex.Log

/-! # Specification: what a plant does to a passing cloud pattern -/

namespace SST.Filters
open SST

/-- Frequency response of a plant with production density `plant` at the points `xs` to a pattern
`s(t - x/V)` moving with speed `V`, relative to the point x = 0: the normalised sum of the delays
`exp(-2πi f x/V)`. -/
noncomputable def response (plant xs : List ℝ) (V f : ℝ) : ℂ :=
  (List.zipWith (fun (p x : ℝ) => (p : ℂ) * Complex.exp (-(2 * Real.pi * f * x / V : ℝ) * Complex.I)) plant xs).sum / (plant.sum : ℝ)

/-- `N` points with step `dx`, the interval `[-N dx/2, N dx/2)`. -/
noncomputable def centredGrid (N : ℕ) (dx : ℝ) : List ℝ := (List.range N).map fun (j : ℕ) => -((N : ℝ) * dx / 2) + j * dx

end SST.Filters
