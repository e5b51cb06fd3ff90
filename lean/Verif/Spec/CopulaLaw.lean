import Verif.Spec.Copula
import Mathlib.Probability.Distributions.Gaussian.Real
import Mathlib.Probability.Independence.Basic

/-! # Independent specification: random multivariate normal draws -/

namespace SST.Spec
open SST MeasureTheory ProbabilityTheory

/-- What is assumed of `numpy.random.default_rng(seed).multivariate_normal(0, C, 1)` as a random object: the outcome `ω`
of the generator enters only through independent standard normal numbers, which are multiplied by a fixed factor of `C`. -/
def MvnLaw {Ω : Type} [MeasurableSpace Ω] (P : Measure Ω) (mvn : Ω → Option ℕ → ℕ → List (List ℝ) → ℕ → List (List ℝ))
    (seed : Option ℕ) (call : ℕ) : Prop :=
  ∀ C d, IsCov C d → ∃ (A : ℕ → ℕ → ℝ) (z : ℕ → Ω → ℝ),
    (∀ i < d, ∀ j < d, ∑ k ∈ Finset.range d, A k i * A k j = mat C i j) ∧
    (∀ k, Measurable (z k)) ∧ iIndepFun z P ∧ (∀ k, P.map (z k) = gaussianReal 0 1) ∧
    ∀ ω, mvn ω seed call C 1 = [(List.range d).map fun i => ∑ k ∈ Finset.range d, z k ω * A k i]

end SST.Spec
