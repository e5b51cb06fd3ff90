import Verif.Model.Tf

/-! # Specification: averages over segments of a record -/

namespace SST.Tf
open SST

/-- `S` segments of length `L`, one every `h` samples, fit into `n` samples and one more does not. -/
def AsManyAsFit (n L h S : ℕ) : Prop := 0 < h ∧ 0 < S ∧ (S - 1) * h + L ≤ n ∧ n < S * h + L

/-- The spectrum `rows` of the record `x` is, frequency by frequency, the mean of the spectra that the same call
with one average gives for the segments `x[s h], …, x[s h + L - 1]`, `s = 0, …, S - 1`. -/
def PsdIsMean (o : Opts) (isSeries : Bool) (nm scaling : String) (x : List ℝ) (L h S : ℕ) (rows : List (ℝ × ℝ)) : Prop :=
  ∃ seg : ℕ → ℕ → ℝ,
    (∀ s, s < S → averagedPsd { o with navgs := 1 } isSeries [(nm, (x.drop (s * h)).take L)] scaling =
      .ok [(nm, (List.range (L / 2 + 1)).map fun (k : ℕ) => ((k : ℝ) / (L * o.dt), seg s k))]) ∧
    rows = (List.range (L / 2 + 1)).map fun (k : ℕ) => ((k : ℝ) / (L * o.dt), (∑ s ∈ Finset.range S, seg s k) / S)

end SST.Tf
