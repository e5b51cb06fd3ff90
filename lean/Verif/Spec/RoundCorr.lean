import Verif.Spec.Corr
import Verif.Spec.Round

/-! # Independent specification: correlations with errors relative to the sizes of the records -/

namespace SST.Round
open SST SST.Spec

/-- Root of the sum of squares of a record. -/
noncomputable def rss (x : List ℝ) : ℝ := Real.sqrt (x.map fun v => v ^ 2).sum

/-- For records of `n` samples `correl` lists the correlations for all lags from `-(n-1)` to `n-1`, with errors at most `η` times the sizes of the records. -/
def CorrNear (n : ℕ) (η : ℝ) (correl : List ℝ → List ℝ → List ℝ) : Prop :=
  ∀ x y : List ℝ, x.length = n → y.length = n → (correl x y).length = 2 * n - 1 ∧
    ∀ k < 2 * n - 1, ∃ v, (correl x y)[k]? = some v ∧ |v - xcorrAt x y ((k : ℤ) - (n - 1))| ≤ η * (rss x * rss y)

end SST.Round
