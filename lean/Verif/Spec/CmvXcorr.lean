import Verif.Model.Spatial
import Mathlib.Algebra.BigOperators.Group.Finset.Basic

/-! # A frozen pattern that passes a set of sites -/

namespace SST.Spec
open SST SST.Spatial

/-- `n` samples of the pattern `q`, passing `m` samples after time 0, on the background `c`. -/
def record (n : ℕ) (q : ℤ → ℝ) (c : ℝ) (m : ℤ) : List (Option ℝ) := (List.range n).map fun k : ℕ => some (c + q (k - m))

/-- The pattern `q` moves with velocity `V` over the sites `pos`: it reaches site `i` after `m i` samples of `dt` seconds,
passes completely within the `n` samples of the record, has mean zero and standard deviation at least 0.001; the background level of
site `i` is `c i`. -/
structure FrozenPattern {ι : Type} (n : ℕ) (dt : ℝ) (V : Vec) (q : ℤ → ℝ) (m : ι → ℤ) (c : ι → ℝ)
    (pos : List (ι × Vec)) (ts : List (ι × List (Option ℝ))) : Prop where
  series : ∀ i ∈ pos.map Prod.fst, i ∈ ts.map Prod.fst
  recorded : ∀ r ∈ ts, r.2 = record n q (c r.1) (m r.1)
  arrival : ∃ t0, ∀ p ∈ pos, (m p.1 : ℝ) * dt = t0 + (p.2.1 * V.1 + p.2.2 * V.2) / (V.1 ^ 2 + V.2 ^ 2)
  inside : ∀ r ∈ ts, ∀ k : ℤ, q (k - m r.1) ≠ 0 → 0 ≤ k ∧ k < n
  balanced : ∀ r ∈ ts, ∑ k ∈ Finset.range n, q (k - m r.1) = 0
  strong : ∀ r ∈ ts, 0.001 ^ 2 * n ≤ ∑ k ∈ Finset.range n, q (k - m r.1) ^ 2

end SST.Spec
