import Verif.Model.RoundVec
import Verif.Model.Cmv

/-!
# The cloud motion vector with rounding

`at2` is `np.arctan2`.
-/

namespace SST.Round
open SST SST.Spatial

variable (A : Arith)

/-- `np.pi`. -/
noncomputable def piF : ℝ := 884279719003555 / 2 ^ 48

/-- Remainder of a division rounded towards 0; the C function `fmod` is exact. -/
noncomputable def fmod (x m : ℝ) : ℝ := x - m * (if 0 ≤ x then ⌊x / m⌋ else ⌈x / m⌉ : ℤ)

/-- Python `x % m` for floats and `m > 0`: `m` is added to a negative remainder. -/
noncomputable def pyModF (x m : ℝ) : ℝ := if fmod x m < 0 then A.fl (fmod x m + m) else fmod x m

/-- Speed and direction of Gagne's method from the slowness that the least squares fit found, cmv.py:364-369. -/
noncomputable def gagneF (at2 : ℝ → ℝ → ℝ) (a : Vec) : Option ℝ × Option ℝ :=
  let s := A.fl (A.fl (a.1 ^ 2) + A.fl (a.2 ^ 2))
  if s = 0 then (none, none)
  else
    let vx := A.fl (A.fl (1 / s) * a.1)
    let vy := A.fl (A.fl (1 / s) * a.2)
    (some (magnitudeF A (vx, vy)), some (at2 vy vx))

/-- cmv.py:373-377: make the velocity nonnegative, reduce the angle. -/
noncomputable def normaliseF (vel θ : Option ℝ) : Option ℝ × Option ℝ :=
  match vel with
  | some v =>
    if v < 0 then (some (v * -1), θ.map fun t => pyModF A (A.fl (t + piF)) (2 * piF))
    else (some v, θ.map fun t => pyModF A t (2 * piF))
  | none => (none, θ.map fun t => pyModF A t (2 * piF))

end SST.Round
