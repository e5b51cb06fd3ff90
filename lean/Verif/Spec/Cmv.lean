import Verif.Model.Cmv
import Mathlib.Topology.Order.LocalExtr

/-! # Independent specifications for `cmv.py` -/

namespace SST.Spec
open SST SST.Cmv

/-- Lexicographic order on index pairs. -/
def LexLt (p q : ℕ × ℕ) : Prop := p.1 < q.1 ∨ (p.1 = q.1 ∧ p.2 < q.2)

/-- The site `i` is a reference: all sites are if none is named. -/
def IsRef {ι : Type} (ref : RefArg ι) (i : ι) : Prop := ref = .none ∨ ref = .one i ∨ ∃ rs, ref = .many rs ∧ i ∈ rs

/-! ## Pairwise QC -/

/-- `m` is the largest non-NaN sample. -/
def IsMaxOf (m : ℝ) (s : List (Option ℝ)) : Prop := some m ∈ s ∧ ∀ x, some x ∈ s → x ≤ m

/-- Mean of the non-NaN samples. -/
noncomputable def avgOf (s : List (Option ℝ)) : ℝ := (s.filterMap id).sum / (s.filterMap id).length

/-- The standard deviation of the non-NaN samples (there is one) is below `c`. -/
def StdBelow (s : List (Option ℝ)) (c : ℝ) : Prop :=
  (∃ x, some x ∈ s) ∧
    Real.sqrt (((s.filterMap id).map fun x => (x - avgOf s) ^ 2).sum / (s.filterMap id).length) < c

/-- The signal never reaches `c`. -/
def MaxBelow (s : List (Option ℝ)) (c : ℝ) : Prop := ∃ m, IsMaxOf m s ∧ m < c

/-- Variation ratio 1 - mean/max below `lim`; a zero maximum gives an infinite or undefined ratio
and never fails this check. -/
def LowVariation (s : List (Option ℝ)) (lim : ℝ) : Prop := ∃ m, IsMaxOf m s ∧ m ≠ 0 ∧ 1 - avgOf s / m < lim

/-- Peak correlation or correlation ratio 1 - mean/peak below `c`. -/
def LowCorrelation (peak mean : Option ℝ) (c : ℝ) : Prop :=
  ∃ k, peak = some k ∧ (k < c ∨ ∃ m, mean = some m ∧ ((k ≠ 0 ∧ 1 - m / k < c) ∨ (k = 0 ∧ 0 < m)))

/-- The pair has a nonzero delay and its velocity lies strictly between the limits. -/
def VelocityInside (dist : ℝ) (delay : Option ℝ) (lo hi : ℝ) : Prop :=
  ∃ t, delay = some t ∧ t ≠ 0 ∧ lo < dist / |t| ∧ dist / |t| < hi

/-- Value of an option. -/
noncomputable def opt (o : Dict) (k : String) : ℝ := (dictGet? o k).getD 0

/-- The checks in the order of the code: flag and failure condition. -/
def checks {ι : Type} (method : String) (o : Dict) (p : PairStat ι) : List (Flag × Prop) :=
  [(.same, p.a = p.b),
   (.nosignal, StdBelow p.sigA 0.001 ∨ StdBelow p.sigB 0.001),
   (.nolag, p.delay = some 0),
   (.lowcorr, p.peak = none ∨ p.meanCorr = none),
   (.overcast, MaxBelow p.sigA (opt o "ktlim") ∨ MaxBelow p.sigB (opt o "ktlim"))] ++
  if method = "jamaly" then
    [(.lowvarS, LowVariation p.sigA (opt o "var_s_lim") ∨ LowVariation p.sigB (opt o "var_s_lim")),
     (.lowcorr, LowCorrelation p.peak p.meanCorr (opt o "mincorr")),
     (.vellimit, ¬ VelocityInside (Spatial.magnitude p.vec) p.delay (opt o "minvelocity") (opt o "maxvelocity"))]
  else []

/-- `f` is the flag of the last failing check, GOOD if none fails. -/
def IsLastFailing (l : List (Flag × Prop)) (f : Flag) : Prop :=
  (f = .good ∧ ∀ c ∈ l, ¬ c.2) ∨ ∃ l1 c l2, l = l1 ++ c :: l2 ∧ c.2 ∧ c.1 = f ∧ ∀ d ∈ l2, ¬ d.2

/-! ## Options -/

/-- The documented options of a method with their defaults. -/
noncomputable def documented : String → List (String × ℝ)
  | "jamaly" => [("ktlim", 0.4), ("minvelocity", 0), ("maxvelocity", 70), ("var_s_lim", 0.05), ("mincorr", 0.8)]
  | "gagne" => [("ktlim", 0.4)]
  | _ => []

end SST.Spec

namespace SST.Spec
open SST SST.Cmv

/-! ## Optimisers -/

/-- Sum of squared residuals of the Gagne model `delay = d · a`. -/
noncomputable def sqResid (pairs : List (ℝ × Vec)) (a : Vec) : ℝ :=
  (pairs.map fun p => (p.1 - (p.2.1 * a.1 + p.2.2 * a.2)) ^ 2).sum

/-- An exact least-squares solver (NaN-free data). -/
def ExactLsq (f : List (Option ℝ × Vec) → Vec) : Prop :=
  ∀ (pairs : List (ℝ × Vec)) (a : Vec),
    sqResid pairs (f (pairs.map fun p => (some p.1, p.2))) ≤ sqResid pairs a

/-- An exact local minimiser: for a function that has a local minimum somewhere the result is one
(not necessarily the global one). -/
def LocalMinimizer (f : (ℝ → Option ℝ) → ℝ) : Prop :=
  ∀ g : ℝ → ℝ, (∃ x, IsLocalMin g x) → IsLocalMin g (f fun t => some (g t))

/-- The pair is a plane wave moving with velocity `V`: delay = d·V/|V|². -/
def PlaneWave {ι : Type} (V : Vec) (p : PairStat ι) : Prop :=
  p.delay = some ((p.vec.1 * V.1 + p.vec.2 * V.2) / (V.1 ^ 2 + V.2 ^ 2))

/-- Two vectors span the plane. -/
def Independent (u v : Vec) : Prop := u.1 * v.2 - u.2 * v.1 ≠ 0

end SST.Spec
