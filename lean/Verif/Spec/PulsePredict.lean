import Verif.Spec.PredictTf
import Verif.Spec.PulseTf

/-! # Isolated pulses passing the sensors of a plant -/

namespace SST.Spec
open SST SST.Tf SST.Field

/-- The columns of the data set are records of `n` samples of the pulses `q`, which move with velocity `V` over the true places `P`; sensor `l` measures them with
the gain `g l`.  The records are analysed in `S` segments of `2 h` samples, overlapping by half; `K` is the last bin below the frequency limit `fl`.  Every pulse
has a half segment of its own, and no sensor sees it more than a quarter of this later or earlier than another. -/
structure PassingPulses (navgs n h S K : ℕ) (fl : ℝ) (V : Vec) (P : String → Vec) (q : ℤ → ℝ) (g : String → ℝ) (m : String → ℤ) (d : DataSet) : Prop where
  recorded : ∀ c ∈ d.cols, 0 < g c.1 ∧ c.2 = recordOf (fun t => g c.1 * q t) n (m c.1)
  arrival : ∀ c ∈ d.cols, ∀ c' ∈ d.cols, ((m c.1 - m c'.1 : ℤ) : ℝ) * d.dt = planeDelay (P c.1) (P c'.1) V
  segments : 2 * h = n / navgs ∧ AsManyAsFit n (2 * h) h S
  band : 1 ≤ K ∧ K ≤ h ∧ (K : ℝ) / ((2 * h : ℕ) * d.dt) < fl ∧ (K < h → fl ≤ ((K : ℝ) + 1) / ((2 * h : ℕ) * d.dt))
  short : ∀ c ∈ d.cols, ∀ c' ∈ d.cols, 4 * |m c.1 - m c'.1| ≤ h
  pulse : ∃ t, q t ≠ 0
  own : OwnHalf q h S (d.cols.map fun c => m c.1)

end SST.Spec
