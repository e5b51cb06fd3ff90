import Verif.Spec.RobustTf
import Verif.Spec.RobustCmv
import Verif.Spec.Segments

/-! # A pattern that passes a set of sites, seen through the windows of `compute_delays_tf` -/

namespace SST.Spec
open SST SST.Spatial SST.Tf

/-- Every series is a record of `n` samples of the pattern `q`, which reaches site `i` after `m i` samples.  The records
are analysed in `S` segments of a fifth of the record, overlapping by half.  In all bins below 0.02 Hz the edge effect of the
window between any two sites is at most the part `ρ` of the spectrum (root mean squares over the segments). -/
structure SeenPattern {ι : Type} (win : ℕ → List ℝ) (n S : ℕ) (dt ρ : ℝ) (q : ℤ → ℝ) (m : ι → ℤ) (ts : List (ι × List (Option ℝ))) : Prop where
  recorded : ∀ r ∈ ts, r.2 = (recordOf q n (m r.1)).map some
  segments : AsManyAsFit n (n / 5) (n / 5 - n / 5 / 2) S
  short : ∀ r ∈ ts, ∀ r' ∈ ts, 2 * |((m r'.1 - m r.1 : ℤ) : ℝ)| < (1 - ρ) * (n / 5 : ℕ)
  edges : ∀ r ∈ ts, ∀ r' ∈ ts, ∀ k : ℕ, k ≤ n / 5 / 2 → (k : ℝ) / ((n / 5 : ℕ) * dt) < 0.02 →
    0 < ∑ i ∈ Finset.range S, ‖patternSpec (win (n / 5)) (fun t => q (t - m r.1)) (n / 5) (i * (n / 5 - n / 5 / 2)) k‖ ^ 2 ∧
    ∑ i ∈ Finset.range S, edgeEffect (win (n / 5)) (fun t => q (t - m r.1)) (n / 5) (i * (n / 5 - n / 5 / 2)) (m r'.1 - m r.1) ^ 2 ≤
      ρ ^ 2 * ∑ i ∈ Finset.range S, ‖patternSpec (win (n / 5)) (fun t => q (t - m r.1)) (n / 5) (i * (n / 5 - n / 5 / 2)) k‖ ^ 2

/-- `K` is the last bin below 0.02 Hz of segments of `L` samples, other than bin 0. -/
def LastBin (L K : ℕ) (dt : ℝ) : Prop :=
  1 ≤ K ∧ K ≤ L / 2 ∧ (K : ℝ) / (L * dt) < 0.02 ∧ (K < L / 2 → 0.02 ≤ ((K : ℝ) + 1) / (L * dt))

end SST.Spec
