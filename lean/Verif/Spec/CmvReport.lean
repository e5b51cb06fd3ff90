import Verif.Spec.CmvGeom

/-! # Independent specifications: what `compute_cmv` reports -/

namespace SST.Spec
open SST SST.Cmv

/-- `v` is the `100 q` percentile of the numbers `l`: the value at position `(n - 1) q` of the sorted numbers, counted from 0, by linear
interpolation. -/
def IsPercentile (q : ℝ) (l : List ℝ) (v : ℝ) : Prop :=
  ∃ s : List ℝ, s.Perm l ∧ s.Pairwise (· ≤ ·) ∧ ∃ (i : ℕ) (t a b : ℝ), ((l.length : ℝ) - 1) * q = i + t ∧ 0 ≤ t ∧ t < 1 ∧
    s[i]? = some a ∧ (s[i + 1]? = some b ∨ t = 0 ∧ b = a) ∧ v = a + t * (b - a)

/-- Apparent speeds of the GOOD pairs in the direction `θ`. -/
noncomputable def goodSpeeds {ι : Type} (rows : List (PairStat ι × Flag)) (θ : ℝ) : List ℝ := (goodMoves rows).map fun p => apparentSpeed p θ

/-- Number of pairs flagged GOOD. -/
def countFlag {ι : Type} (f : Flag) (rows : List (PairStat ι × Flag)) : ℕ := rows.countP fun r => r.2 = f

/-- Squared differences between the delays of the GOOD pairs and those of a motion with speed `s` in the direction `θ`. -/
noncomputable def misfit {ι : Type} (rows : List (PairStat ι × Flag)) (s θ : ℝ) : ℝ :=
  ((goodMoves rows).map fun p => (p.1 - (p.2.1 * Real.cos θ + p.2.2 * Real.sin θ) / s) ^ 2).sum

/-- The same for an infinitely fast motion: no delays at all. -/
noncomputable def misfitFast {ι : Type} (rows : List (PairStat ι × Flag)) : ℝ := ((goodMoves rows).map fun p => p.1 ^ 2).sum

end SST.Spec
