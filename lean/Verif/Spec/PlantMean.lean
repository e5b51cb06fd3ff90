import Verif.Num
import Mathlib.Analysis.SpecialFunctions.Sqrt

/-! # Specification: a repeating cloud pattern passing over a plant -/

namespace SST.PlantMean
open SST

/-- The pattern reaches each site a whole number `m` of samples after the reference (before it, if negative): the distance
of the site from the reference along the direction `dir` is `m` times the way `V dt` made in one sampling interval. -/
def ReachedAfter (sites : List (ℝ × ℝ)) (ms : List ℤ) (ref dir : ℝ × ℝ) (V dt : ℝ) : Prop :=
  List.Forall₂ (fun (s : ℝ × ℝ) (m : ℤ) =>
    (s.1 - ref.1) * dir.1 + (s.2 - ref.2) * dir.2 = V * dt * m * Real.sqrt (dir.1 ^ 2 + dir.2 ^ 2)) sites ms

/-- Sample `t` of the series at a site that sees the pattern `m` samples after the reference; the record `x` of the
reference repeats. -/
noncomputable def later (x : List ℝ) (m : ℤ) (t : ℕ) : ℝ := (x[(((t : ℤ) - m) % (x.length : ℤ)).toNat]?).getD 0

/-- The mean of the series of all sites. -/
noncomputable def plantMean (x : List ℝ) (ms : List ℤ) : List ℝ :=
  (List.range x.length).map fun (t : ℕ) => (ms.map fun m => later x m t).sum / ms.length

end SST.PlantMean
