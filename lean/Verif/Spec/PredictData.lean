import Verif.Num
import Verif.Spec.CmvXcorr
import Verif.Model.Predict
import Mathlib.Analysis.SpecialFunctions.Trigonometric.Basic

/-! # Notions for `compute_predicted_position` from data -/

namespace SST.Spec
open SST

/-- Turn by `θ` and stretch by `k`. -/
noncomputable def turn (k θ : ℝ) (v : Vec) : Vec :=
  (k * (Real.cos θ * v.1 - Real.sin θ * v.2), k * (Real.sin θ * v.1 + Real.cos θ * v.2))

/-- Turn, stretch and shift. -/
noncomputable def similar (k θ : ℝ) (t : Vec) (p : Vec) : Vec := turn k θ p + t

/-- The same measurements with other gains: the columns are multiplied by positive factors. -/
def Rescaled (d d' : Field.DataSet) : Prop :=
  d'.dt = d.dt ∧ ∃ g : String → ℝ, (∀ n, 0 < g n) ∧ d'.cols = d.cols.map fun c => (c.1, c.2.map fun v => g c.1 * v)

/-- A data set in which method jamaly (with default options) can see the wind `V`: a frozen pattern on a background, bright and
strong enough everywhere, and two pairs of sites in different directions that see it at different times with an apparent speed between
0 and 70 m/s. -/
structure WindSeen (V : Vec) (pts : List (String × Vec)) (d : Field.DataSet) : Prop where
  pattern : ∃ (n : ℕ) (q : ℤ → ℝ) (m : String → ℤ) (c : String → ℝ), 0 < n ∧
    FrozenPattern n d.dt V q m c pts (d.cols.map fun c => (c.1, c.2.map some)) ∧
    (∀ r ∈ d.cols, ∃ k : ℕ, k < n ∧ 0.4 ≤ c r.1 + q (k - m r.1) ∧ c r.1 ≤ 0.95 * (c r.1 + q (k - m r.1))) ∧
    ∃ p ∈ pts, ∃ p' ∈ pts, ∃ r ∈ pts, ∃ r' ∈ pts, m p.1 ≠ m p'.1 ∧ m r.1 ≠ m r'.1 ∧
      (p'.2.1 - p.2.1) * (r'.2.2 - r.2.2) - (p'.2.2 - p.2.2) * (r'.2.1 - r.2.1) ≠ 0 ∧
      Spatial.magnitude (p'.2 - p.2) < 70 * |((m p'.1 - m p.1 : ℤ) : ℝ) * d.dt| ∧
      Spatial.magnitude (r'.2 - r.2) < 70 * |((m r'.1 - m r.1 : ℤ) : ℝ) * d.dt|

end SST.Spec
