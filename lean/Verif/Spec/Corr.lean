import Verif.Num
import Mathlib.Algebra.BigOperators.Group.Finset.Basic

/-! # Independent specifications: cross-correlation -/

namespace SST.Spec
open SST

/-- A finite record extended by zeros to all integer times. -/
def ext (x : List ℝ) (i : ℤ) : ℝ := if h : 0 ≤ i ∧ i.toNat < x.length then x[i.toNat]'h.2 else 0

/-- Cross-correlation at a lag: `Σ_i x[i + lag] y[i]`. -/
def xcorrAt (x y : List ℝ) (lag : ℤ) : ℝ := ∑ i ∈ Finset.range y.length, ext x (i + lag) * ext y i

/-- A constant signal. -/
def IsConst (x : List ℝ) : Prop := ∀ a ∈ x, ∀ b ∈ x, a = b

/-- `y` is `x` delayed by `m` samples (advanced if `m < 0`), both records being the same window of
one finitely supported signal. -/
def Delayed (x y : List ℝ) (m : ℤ) : Prop := x.length = y.length ∧ ∀ i : ℤ, ext y i = ext x (i - m)

/-- Signal energy. -/
def energyOf (x : List ℝ) : ℝ := (x.map fun v => v ^ 2).sum

end SST.Spec

namespace SST.Spec
open SST

/-- The signal minus its mean. -/
noncomputable def demean (x : List ℝ) : List ℝ := x.map fun v => v - x.sum / x.length

/-- What `compute_delays` correlates: demeaned signals for 'coeff', the signals themselves otherwise. -/
noncomputable def conditioned (scaling : String) (x : List ℝ) : List ℝ := if scaling = "coeff" then demean x else x

/-- `lag` is a lag of two records of length `n`. -/
def IsLag (n : ℕ) (lag : ℤ) : Prop := -(n : ℤ) < lag ∧ lag < n

/-- `lag` maximises `f` over the lags of records of length `n`. -/
def IsPeak (n : ℕ) (f : ℤ → ℝ) (lag : ℤ) : Prop := IsLag n lag ∧ ∀ l, IsLag n l → f l ≤ f lag

end SST.Spec

namespace SST.Spec
open SST

/-- Normalisation of `compute_delays`: the geometric mean of the energies of the demeaned signals for
'coeff', 1 otherwise. -/
noncomputable def normOf (scaling : String) (x y : List ℝ) : ℝ :=
  if scaling = "coeff" then Real.sqrt (energyOf (demean x)) * Real.sqrt (energyOf (demean y)) else 1

/-- `x'` is `x` times a positive factor plus an offset. -/
def PosAffine (x x' : List ℝ) : Prop := ∃ a b : ℝ, 0 < a ∧ x' = x.map fun v => a * v + b

end SST.Spec
