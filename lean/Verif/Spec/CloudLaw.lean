import Mathlib.Probability.Independence.Basic
import Mathlib.MeasureTheory.Measure.Lebesgue.Basic

/-! # Independent specification: the numbers `numpy.random.rand` draws -/

namespace SST.Spec
open MeasureTheory ProbabilityTheory

/-- The uniform law on `[0, 1)`. -/
noncomputable def uniform01 : Measure ℝ := volume.restrict (Set.Ico 0 1)

instance : IsProbabilityMeasure uniform01 := ⟨by simp [uniform01]⟩

/-- The entries `R ω k a b` (grid `k`, row `a`, column `b`) are independent and uniform on `[0, 1)`. -/
structure UniformDraws {Ω : Type} [MeasurableSpace Ω] (P : Measure Ω) (R : Ω → ℕ → ℕ → ℕ → ℝ) : Prop where
  measurable : ∀ k a b, Measurable fun ω => R ω k a b
  indep : iIndepFun (fun (p : ℕ × ℕ × ℕ) ω => R ω p.1 p.2.1 p.2.2) P
  law : ∀ k a b, P.map (fun ω => R ω k a b) = uniform01

end SST.Spec
