import Mathlib.MeasureTheory.Function.L2Space
import Mathlib.Analysis.Complex.Trigonometric
import Mathlib.Analysis.Real.Pi.Bounds

/-! # Independent specification: measurement noise -/

namespace SST.Spec
open MeasureTheory

/-- White noise of standard deviation `σ`: finite variance, mean zero, no correlation between different samples. -/
structure WhiteNoise {Ω : Type} [MeasurableSpace Ω] (P : Measure Ω) (e : ℕ → Ω → ℝ) (σ : ℝ) : Prop where
  square : ∀ i, MemLp (e i) 2 P
  mean : ∀ i, ∫ ω, e i ω ∂P = 0
  corr : ∀ i j, ∫ ω, e i ω * e j ω ∂P = if i = j then σ ^ 2 else 0

/-- One-sided spectral density of white noise sampled every `dt` at bin `k` of a segment of length `L`:
all power `σ²` spread over frequencies `0 .. 1/(2 dt)`, and half of it at the two ends. -/
noncomputable def noiseLevel (dt σ : ℝ) (L k : ℕ) : ℝ := (if k = 0 ∨ 2 * k = L then 1 else 2) * (dt * σ ^ 2)

/-- Power of the window at `k` cycles per segment. -/
noncomputable def windowPower (w : List ℝ) (k : ℕ) : ℝ :=
  Complex.normSq (∑ j : Fin w.length, ((w[j] : ℝ) : ℂ) * Complex.exp (-(2 * Real.pi * Complex.I * (j * k) / w.length)))

end SST.Spec
