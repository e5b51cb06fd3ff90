import Verif.Model.Spatial
import Mathlib.Algebra.BigOperators.Group.Finset.Basic
import Mathlib.Analysis.Real.Sqrt

/-! # A pattern that passes a set of sites, recorded with noise -/

namespace SST.Spec
open SST SST.Spatial

/-- `n` samples of the pattern `q`, passing `m` samples after time 0, on the background `c`, with the disturbance `u`. -/
def noisyRecord (n : ℕ) (q : ℤ → ℝ) (c : ℝ) (m : ℤ) (u : ℕ → ℝ) : List (Option ℝ) := (List.range n).map fun k : ℕ => some (c + q (k - m) + u k)

/-- The series of all sites. -/
def noisySeries {ι : Type} (ids : List ι) (n : ℕ) (q : ℤ → ℝ) (c : ι → ℝ) (m : ι → ℤ) (u : ι → ℕ → ℝ) : List (ι × List (Option ℝ)) :=
  ids.map fun i => (i, noisyRecord n q (c i) (m i) (u i))

/-- Energy of the pattern in the record of a site it reaches after `m` samples. -/
noncomputable def patternEnergy (n : ℕ) (q : ℤ → ℝ) (m : ℤ) : ℝ := ∑ k ∈ Finset.range n, q (k - m) ^ 2

/-- The mean-free pattern `q` moves with velocity `V` over the sites `pos`: it reaches site `i` after `m i` samples of `dt` seconds and passes completely within the `n` samples of
the record; its autocorrelation at every other lag falls short of its energy `E` by more than `2 η (2 √E + η)`, twice the largest correlation with disturbances of size `η` in both records. -/
structure DistinctPattern {ι : Type} (n : ℕ) (dt : ℝ) (V : Vec) (q : ℤ → ℝ) (m : ι → ℤ) (η : ℝ) (pos : List (ι × Vec)) (ids : List ι) : Prop where
  arrival : ∃ t0, ∀ p ∈ pos, (m p.1 : ℝ) * dt = t0 + (p.2.1 * V.1 + p.2.2 * V.2) / (V.1 ^ 2 + V.2 ^ 2)
  inside : ∀ i ∈ ids, ∀ k : ℤ, q (k - m i) ≠ 0 → 0 ≤ k ∧ k < n
  balanced : ∀ i ∈ ids, ∑ k ∈ Finset.range n, q (k - m i) = 0
  margin : ∀ i ∈ ids, ∀ l : ℤ, l ≠ 0 →
    ∑ k ∈ Finset.range n, q (k + l - m i) * q (k - m i) + 2 * η * (2 * Real.sqrt (patternEnergy n q (m i)) + η) < patternEnergy n q (m i)

end SST.Spec
