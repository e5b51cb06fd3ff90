import Verif.Num
import Mathlib.Analysis.SpecialFunctions.Complex.Log
import Mathlib.Analysis.SpecialFunctions.Trigonometric.Basic

/-!
# Discrete Fourier transforms (numpy.fft / scipy.fft), exact arithmetic

The transforms are external; they are modelled by their documented defining sums.
-/

namespace SST.Dft
open SST

/-- Entry `j` of a list, zero beyond the end. -/
def at0 {α : Type} [Zero α] (x : List α) (j : ℕ) : α := (x[j]?).getD 0

/-- `exp(-2πi jk/n)`. -/
noncomputable def twiddle (n : ℕ) (m : ℤ) : ℂ := Complex.exp (-2 * Real.pi * Complex.I * m / n)

/-- `np.fft.fft(x)[k] = Σ_j x[j] exp(-2πi jk/n)`. -/
noncomputable def fft (x : List ℂ) : List ℂ :=
  (List.range x.length).map fun (k : ℕ) => ∑ j ∈ Finset.range x.length, at0 x j * twiddle x.length (j * k)

/-- `np.fft.ifft(X)[m] = (1/n) Σ_k X[k] exp(2πi km/n)`. -/
noncomputable def ifft (X : List ℂ) : List ℂ :=
  (List.range X.length).map fun (m : ℕ) =>
    (∑ k ∈ Finset.range X.length, at0 X k * twiddle X.length (-(k * m))) / X.length

/-- Signed frequency number of bin `k` in `np.fft.fftfreq(n)`: 0, 1, ..., then the negative ones. -/
def binNumber (n k : ℕ) : ℤ := if 2 * k < n then k else (k : ℤ) - n

/-- `np.fft.fftfreq(n, d)`. -/
noncomputable def fftfreq (n : ℕ) (d : ℝ) : List ℝ := (List.range n).map fun (k : ℕ) => (binNumber n k : ℝ) / (n * d)

/-- `np.roll(l, s)` for any integer shift: entry `i` of the result is entry `i - s mod n`. -/
def roll {α : Type} (l : List α) (s : ℤ) : List α :=
  let k := ((-s) % l.length).toNat
  l.drop k ++ l.take k

end SST.Dft
