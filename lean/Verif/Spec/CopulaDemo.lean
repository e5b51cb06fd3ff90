import Verif.Spec.Copula
import Verif.Spec.Geom

/-! # Independent specification: settings of a simulated irradiance field -/

namespace SST.Spec
open SST

/-- Sample times, positions of the sites, speed and direction of the clouds. -/
structure Setting where
  times : List ℝ
  ePos : List ℝ
  nPos : List ℝ
  cs : ℝ
  cd : ℝ

/-- There are times and sites, with both coordinates for each site. -/
structure Setting.Good (σ : Setting) : Prop where
  times : σ.times ≠ []
  sites : σ.ePos ≠ []
  coords : σ.ePos.length = σ.nPos.length

/-- Where the clouds seen at time `t` by site `s` are in the frame that moves with the clouds. -/
noncomputable def Setting.point (σ : Setting) (t s : ℕ) : Vec :=
  driftPos σ.cs σ.cd (σ.ePos.getD s 0) (σ.nPos.getD s 0) (σ.times.getD t 0)

/-- Position of a site. -/
noncomputable def Setting.site (σ : Setting) (s : ℕ) : Vec := (σ.ePos.getD s 0, σ.nPos.getD s 0)

/-- The number in row `t` and column `s` of a result (`0` if the call failed, or if the entry does not exist or is not finite). -/
def cellValue (r : Except PyErr (List (List XR))) (t s : ℕ) : ℝ :=
  match r with
  | .error _ => 0
  | .ok cm =>
    match cm[t]?.bind (·[s]?) with
    | some (.fin v) => v
    | _ => 0

end SST.Spec
