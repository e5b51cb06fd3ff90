import Verif.Model.Tf

/-! # Specification: usable bins and linear phase -/

namespace SST.Tf
open SST

/-- The bin lies below the frequency limit (if there is one). -/
def Below (freqLim : Option ℝ) (r : Row) : Prop := ∀ l, freqLim = some l → r.f < l

/-- The coherence of the bin is known to exceed the limit (if there is one). -/
def Coherent (cohLim : Option ℝ) (r : Row) : Prop := ∀ l, cohLim = some l → ∃ v, r.coh = some v ∧ l < v

/-- A bin with the phase of a pure delay `τ`: a positive magnitude times exp(-2πi f τ). -/
def PureDelay (τ : ℝ) (r : Row) : Prop :=
  ∃ m : ℝ, 0 < m ∧ r.tf = some (m * Complex.exp (-(2 * Real.pi * r.f * τ : ℝ) * Complex.I))

/-- The phase of a delay `τ` changes by less than half a turn between two bins. -/
def SmallStep (τ : ℝ) (a b : Row) : Prop := |2 * Real.pi * (b.f - a.f) * τ| < Real.pi

end SST.Tf

namespace SST.Tf
open SST

/-- Spectrum of the segment `x[s], …, x[s+L-1]` at bin `k`: detrended, weighted, Fourier transformed. -/
noncomputable def segSpec (w : List ℝ) (d : Detrend) (x : List ℝ) (L s k : ℕ) : ℂ :=
  ∑ j ∈ Finset.range ((x.drop s).take L).length,
    (((((detrend d ((x.drop s).take L))[j]?).getD 0) * (w[j]?).getD 0 : ℝ) : ℂ) *
      Complex.exp (-2 * Real.pi * Complex.I * ((j * k : ℤ) : ℂ) / (((x.drop s).take L).length : ℕ))

end SST.Tf
