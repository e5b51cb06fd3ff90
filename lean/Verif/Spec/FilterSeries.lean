import Mathlib.Data.Complex.Basic
import Mathlib.Data.Real.Basic

/-! # Specification for C246–C249: convolution, filters of real systems, measured transfer functions as filters -/

namespace SST.Spec.FilterSeries

/-- One at the first of `n` samples, zero afterwards. -/
def impulse (n : ℕ) : List ℝ := (List.range n).map fun (j : ℕ) => if j = 0 then 1 else 0

/-- Circular convolution of two records of the same length. -/
noncomputable def convolve (x r : List ℝ) : List ℝ :=
  (List.range x.length).map fun (m : ℕ) =>
    ((List.range x.length).map fun (j : ℕ) => (x[j]?).getD 0 * (r[(((m : ℤ) - j) % x.length).toNat]?).getD 0).sum

/-- `A` is the filter of a real system at the frequencies `fs`: conjugate values at opposite frequencies, a real value
at a frequency whose opposite is not in the list. -/
def RealAt (fs : List ℝ) (A : ℝ → ℂ) : Prop := ∀ f ∈ fs, (-f ∈ fs → A (-f) = (starRingEnd ℂ) (A f)) ∧ (-f ∉ fs → (A f).im = 0)

/-- A filter given at the frequencies of a list. -/
def table (fs : List ℝ) (A : ℝ → ℂ) : List (ℝ × ℂ) := fs.map fun f => (f, A f)

/-- A one-sided table continued to negative frequencies with the conjugate values. -/
noncomputable def twoSided (rows : List (ℝ × ℂ)) : List (ℝ × ℂ) :=
  rows ++ (rows.filter fun p => p.1 ≠ 0).map fun p => (-p.1, (starRingEnd ℂ) p.2)

end SST.Spec.FilterSeries
