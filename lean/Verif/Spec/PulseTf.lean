import Verif.Spec.RobustTf
import Verif.Spec.Segments

/-! # Specification: isolated pulses seen by two sensors -/

namespace SST.Tf
open SST

/-- The second sensor sees every pulse of the first `m` samples later, higher or lower by a positive factor, and nothing else. -/
def Echo (a b : ℤ → ℝ) (m : ℤ) : Prop := ∀ t, ∃ g > 0, b (t + m) = g * a t

/-- Sample `t` lies in the segment of length `L` that begins at sample `s`. -/
def InSegment (L s : ℕ) (t : ℤ) : Prop := (s : ℤ) ≤ t ∧ t < s + L

/-- In the segment no two different pulses can be seen, be it by the first sensor or `m` samples later by the second. -/
def OnePulse (a : ℤ → ℝ) (m : ℤ) (L s : ℕ) : Prop :=
  ∀ t t', a t ≠ 0 → a t' ≠ 0 → InSegment L s t ∨ InSegment L s (t + m) → InSegment L s t' ∨ InSegment L s (t' + m) → t = t'

/-- What the window `w` lets through of the segment that begins at sample `s`: the heights of the pulses times their weights. -/
noncomputable def through (w : List ℝ) (a : ℤ → ℝ) (L s : ℕ) : ℝ := ∑ j ∈ Finset.range L, |a (s + j)| * (w[j]?).getD 0

/-- Every pulse has its own half segment (of `h` samples, not the first nor one after the last segment but one), in which all
sensors see it (they are late by the `ms`); the half segments of two pulses do not touch. -/
def OwnHalf (q : ℤ → ℝ) (h S : ℕ) (ms : List ℤ) : Prop :=
  ∃ home : ℤ → ℕ, ∀ t, q t ≠ 0 → 1 ≤ home t ∧ home t < S ∧
    (∀ m ∈ ms, (home t * h : ℤ) ≤ t + m ∧ t + m < home t * h + h) ∧
    ∀ t', q t' ≠ 0 → t ≠ t' → home t + 2 ≤ home t' ∨ home t' + 2 ≤ home t

end SST.Tf
