import Verif.Spec.Tf

/-! # Specification: phases and records close to a pure delay -/

namespace SST.Tf
open SST

/-- A bin whose phase differs from that of a pure delay `τ` by at most `ε`. -/
def NearDelay (τ ε : ℝ) (r : Row) : Prop :=
  ∃ m e : ℝ, 0 < m ∧ |e| ≤ ε ∧ r.tf = some (m * Complex.exp ((-(2 * Real.pi * r.f * τ) + e : ℝ) * Complex.I))

/-- The phase of a delay `τ`, known up to `ε`, changes by less than half a turn between two bins. -/
def SafeStep (τ ε : ℝ) (a b : Row) : Prop := |2 * Real.pi * (b.f - a.f) * τ| + 2 * ε < Real.pi

open Classical in
/-- The bins with enough coherence and a low enough frequency. -/
noncomputable def usable (cohLim freqLim : Option ℝ) (rows : List Row) : List Row :=
  rows.filter fun r => decide (Coherent cohLim r ∧ Below freqLim r)

/-- Weight of sample `i` in a segment of length `L`; samples outside have weight 0. -/
noncomputable def tap (w : List ℝ) (L : ℕ) (i : ℤ) : ℝ := if 0 ≤ i ∧ i < L then (w[i.toNat]?).getD 0 else 0

/-- How much the segment of length `L` beginning at sample `s` of the pattern `a` differs from the same stretch of the
pattern seen through the window `m` samples later: only samples where the two windows differ count.  (For a window
of ones these are the `|m|` samples at either end.) -/
noncomputable def edgeEffect (w : List ℝ) (a : ℤ → ℝ) (L s : ℕ) (m : ℤ) : ℝ :=
  ∑ i ∈ Finset.Ico (-|m|) (L + |m|), |tap w L (i + m) - tap w L i| * |a (s + i)|

/-- Fourier transform of the weighted segment of length `L` beginning at sample `s` of the pattern, at bin `k`. -/
noncomputable def patternSpec (w : List ℝ) (a : ℤ → ℝ) (L s k : ℕ) : ℂ :=
  ∑ j ∈ Finset.range L, ((a (s + j) * (w[j]?).getD 0 : ℝ) : ℂ) * Complex.exp (-2 * Real.pi * Complex.I * ((j * k : ℤ) : ℂ) / L)

/-- `n` samples of a pattern, delayed by `m` samples. -/
def recordOf (a : ℤ → ℝ) (n : ℕ) (m : ℤ) : List ℝ := (List.range n).map fun (j : ℕ) => a (j - m)

end SST.Tf
