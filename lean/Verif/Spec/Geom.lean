import Verif.Num
import Mathlib.Analysis.SpecialFunctions.Trigonometric.Basic

/-! # Independent specifications: plane geometry -/

namespace SST.Spec
open SST

/-- Euclidean distance in the plane. -/
noncomputable def pdist (p q : Vec) : ℝ := Real.sqrt ((p.1 - q.1) ^ 2 + (p.2 - q.2) ^ 2)

/-- Position of a fixed point `(x, y)` at time `t` in the frame moving with the velocity of
speed `cs` and direction `cd`. -/
noncomputable def driftPos (cs cd x y t : ℝ) : Vec := (x - cs * t * Real.cos cd, y - cs * t * Real.sin cd)

/-- Entry of a matrix given as list of rows. -/
def entry (D : List (List ℝ)) (r c : ℕ) : Option ℝ := D[r]?.bind (·[c]?)

/-- A square matrix with `n` rows. -/
def IsSquare (D : List (List ℝ)) (n : ℕ) : Prop := D.length = n ∧ ∀ row ∈ D, row.length = n

end SST.Spec
