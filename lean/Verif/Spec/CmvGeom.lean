import Verif.Spec.Cmv
import Verif.Spec.Corr
import Mathlib.Analysis.SpecialFunctions.Trigonometric.Basic

/-! # Independent specifications: cloud motion in another system of coordinates -/

namespace SST.Spec
open SST SST.Cmv

/-- A vector turned by the angle `α` and stretched by the factor `k`. -/
noncomputable def turnVec (k α : ℝ) (v : Vec) : Vec :=
  (k * (Real.cos α * v.1 - Real.sin α * v.2), k * (Real.sin α * v.1 + Real.cos α * v.2))

/-- The motion `r'` (speed and direction) is the motion `r`, turned by `α` and stretched by `k`; or both are undefined. -/
def TurnedMotion (k α : ℝ) (r r' : Option ℝ × Option ℝ) : Prop :=
  (r = (none, none) ∧ r' = (none, none)) ∨
  ∃ s t s' t', r = (some s, some t) ∧ r' = (some s', some t') ∧ s' = |k| * s ∧
    (s' * Real.cos t', s' * Real.sin t') = turnVec k α (s * Real.cos t, s * Real.sin t)

/-- Speed at which something that needs the time `p.1` for the vector `p.2` seems to move in the direction `θ`. -/
noncomputable def apparentSpeed (p : ℝ × Vec) (θ : ℝ) : ℝ := (p.2.1 * Real.cos θ + p.2.2 * Real.sin θ) / p.1

/-- The apparent speeds do not scatter equally in all directions. -/
def Directional (pairs : List (ℝ × Vec)) : Prop :=
  ∃ θ θ', variance (pairs.map fun p => apparentSpeed p θ) ≠ variance (pairs.map fun p => apparentSpeed p θ')

/-- Delays and vectors of the pairs flagged GOOD. -/
def goodMoves {ι : Type} (rows : List (PairStat ι × Flag)) : List (ℝ × Vec) :=
  rows.filterMap fun r => if r.2 = .good then r.1.delay.map fun t => (t, r.1.vec) else none

/-- The table contains the pair `a`, `b` with the flag `f`. -/
def Flagged {ι : Type} (rows : List (PairStat ι × Flag)) (a b : ι) (f : Flag) : Prop := ∃ r ∈ rows, r.1.a = a ∧ r.1.b = b ∧ r.2 = f

/-- The pairs determine the motion and the optimisers are exact: for gagne an exact least squares solver and two GOOD pairs in different
directions; for jamaly a minimiser and a scatter of the apparent speeds that depends on the direction. -/
def Determined (x : Ext) (method : String) (pairs : List (ℝ × Vec)) : Prop :=
  (method = "gagne" → ExactLsq x.leastsq ∧ ∃ p ∈ pairs, ∃ q ∈ pairs, Independent p.2 q.2) ∧
  (method = "jamaly" → LocalMinimizer x.minimizeScalar ∧ Directional pairs)

/-- The correlation of the two series (minus their means) has one largest value. -/
def UniquePeak (x y : List ℝ) : Prop :=
  ∃ lag, IsLag x.length lag ∧ ∀ l, IsLag x.length l → l ≠ lag → xcorrAt (demean x) (demean y) l < xcorrAt (demean x) (demean y) lag

/-- One of the series does not vary, or the correlation has one largest value. -/
def ClearPeak (x y : List ℝ) : Prop := IsConst x ∨ IsConst y ∨ UniquePeak x y

/-- The row of a pair of sites after the sites got the names `f`. -/
def renamePair {ι κ : Type} (f : ι → κ) (p : PairStat ι) : PairStat κ := { p with a := f p.a, b := f p.b }

/-- The result of `compute_cmv` after the sites got the names `f`. -/
def renameOut {ι κ : Type} (f : ι → κ) (out : Out ι) : Out κ :=
  ⟨out.speed, out.angle, out.flag, out.rows.map fun r => (renamePair f r.1, r.2), out.dists⟩

/-- The references after the sites got the names `f`. -/
def renameRef {ι κ : Type} (f : ι → κ) : RefArg ι → RefArg κ
  | .none => .none
  | .one r => .one (f r)
  | .many rs => .many (rs.map f)

end SST.Spec
