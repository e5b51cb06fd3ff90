import Verif.Model.Tf

/-! # Specification: gain, offset and drift of a sensor -/

namespace SST.Spec
open SST SST.Tf

/-- A record seen through a sensor with gain `g`, offset `c` and a drift of `e` per sample. -/
noncomputable def sensor (g c e : ℝ) (x : List ℝ) : List ℝ := List.zipWith (fun v (j : ℕ) => g * v + (c + e * j)) x (List.range x.length)

/-- Offsets and drifts the detrending option is meant to remove: none, offsets, or both. -/
def Removed : Detrend → ℝ → ℝ → Prop
  | .none, c, e => c = 0 ∧ e = 0
  | .constant, _, e => e = 0
  | .linear, _, _ => True

end SST.Spec
