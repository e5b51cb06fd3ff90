import Verif.Num
import Mathlib.Analysis.SpecialFunctions.Trigonometric.Basic

/-! # Independent specifications: distances along and across the motion of the clouds -/

namespace SST.Spec
open SST

/-- Distance of a position in the direction `dir`. -/
noncomputable def downstream (dir : ℝ) (v : ℝ × ℝ) : ℝ := v.1 * Real.cos dir + v.2 * Real.sin dir

/-- Distance of a position to the left of the direction `dir`. -/
noncomputable def across (dir : ℝ) (v : ℝ × ℝ) : ℝ := v.2 * Real.cos dir - v.1 * Real.sin dir

/-- `e` is the largest difference of the coordinate `g` between two sensors. -/
def Extent {ι : Type} (g : ℝ × ℝ → ℝ) (pos : List (ι × (ℝ × ℝ))) (e : ℝ) : Prop :=
  (∃ p ∈ pos, ∃ q ∈ pos, g q.2 - g p.2 = e) ∧ ∀ p ∈ pos, ∀ q ∈ pos, g q.2 - g p.2 ≤ e

/-- The distance is a whole number of seconds of cloud motion. -/
def WholeSeconds (e spd : ℝ) : Prop := ∃ k : ℤ, e = k * spd

end SST.Spec
