import Verif.Spec.Predict
import Verif.Spec.Geom
import Verif.Spec.Round

/-! # Independent specification: delays of a straight front at sites around a reference -/

namespace SST.Round
open SST SST.Spec

/-- Length of a vector. -/
noncomputable def vlen (V : Vec) : ℝ := Real.sqrt (V.1 ^ 2 + V.2 ^ 2)

/-- Distance of `p` from `ref` in the direction of `V`. -/
noncomputable def along (p ref V : Vec) : ℝ := ((p.1 - ref.1) * V.1 + (p.2 - ref.2) * V.2) / vlen V

/-- At most `n` sites at most `R` from `ref`, not all with delay NaN.  Each delay is, up to `τ`, that of a straight front with velocity `V` which passes `p` at time 0, and in the
time of the delay the front moves at most `D`. -/
structure WaveRows (ref p V : Vec) (R D τ : ℝ) (n : ℕ) (rows : List (Vec × Option ℝ)) : Prop where
  count : rows.length ≤ n
  present : ∃ r ∈ rows, r.2 ≠ none
  near : ∀ r ∈ rows, pdist r.1 ref ≤ R
  move : ∀ r ∈ rows, ∀ d, r.2 = some d → |d| * vlen V ≤ D
  wave : ∀ r ∈ rows, ∀ d, r.2 = some d → |d - planeDelay r.1 p V| ≤ τ

/-- Cosine and sine of the angle of a vector, each with error at most `ε`. -/
def Directs (ε : ℝ) (dir : Vec → Vec) : Prop := ∀ V : Vec, V ≠ 0 → |(dir V).1 - V.1 / vlen V| ≤ ε ∧ |(dir V).2 - V.2 / vlen V| ≤ ε

end SST.Round
