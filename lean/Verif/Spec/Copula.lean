import Verif.Spec.Geom
import Mathlib.Algebra.BigOperators.Group.Finset.Basic

/-! # Independent specifications: covariance matrices and multivariate normal draws -/

namespace SST.Spec
open SST

/-- Matrix entry (0 outside). -/
noncomputable def mat (C : List (List ℝ)) (i j : ℕ) : ℝ := (entry C i j).getD 0

/-- A `d × d` covariance matrix: square, symmetric, nonnegative quadratic form. -/
structure IsCov (C : List (List ℝ)) (d : ℕ) : Prop where
  square : IsSquare C d
  symm : ∀ i < d, ∀ j < d, mat C i j = mat C j i
  psd : ∀ c : ℕ → ℝ, 0 ≤ ∑ i ∈ Finset.range d, ∑ j ∈ Finset.range d, c i * c j * mat C i j

/-- What is assumed of `numpy.random.default_rng(seed).multivariate_normal(0, C, n)` for a covariance matrix `C`:
it multiplies some numbers `z` by some factor `A` with `Aᵀ A = C` (numpy: from the singular value decomposition).
With an integer seed the outcome does not depend on the call. The arguments are the seed, the number of
the call, the covariance and the number of rows. -/
structure MvnSpec (mvn : Option ℕ → ℕ → List (List ℝ) → ℕ → List (List ℝ)) : Prop where
  factor : ∀ seed call C d n, IsCov C d → ∃ A z : ℕ → ℕ → ℝ,
    (∀ i < d, ∀ j < d, ∑ k ∈ Finset.range d, A k i * A k j = mat C i j) ∧
    mvn seed call C n = (List.range n).map fun m => (List.range d).map fun i => ∑ k ∈ Finset.range d, z m k * A k i
  seeded : ∀ (s call call' : ℕ), mvn (some s) call = mvn (some s) call'

end SST.Spec
