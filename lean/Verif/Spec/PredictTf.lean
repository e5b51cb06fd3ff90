import Verif.Spec.RobustTf
import Verif.Spec.Segments
import Verif.Spec.Robust
import Verif.Spec.PredictData

/-! # A pattern that passes the sensors of a plant, seen from one of them -/

namespace SST.Spec
open SST SST.Tf SST.Field

/-- The columns of the data set are records of `n` samples of one pattern `q`, which moves with velocity `V` over the true places `P`.  They are analysed
in `S` segments of `L` samples, overlapping by half; `K` is the last bin below the frequency limit `fl`.  In all these bins the edge effect of the
window between the reference and any other sensor is at most the part `ρ` of the spectrum (root mean squares over the segments). -/
structure PassingPattern (win : ℕ → List ℝ) (navgs n L S K : ℕ) (fl ρ : ℝ) (V : Vec) (P : String → Vec) (q : ℤ → ℝ) (m : String → ℤ) (ref : String) (d : DataSet) :
    Prop where
  recorded : ∀ c ∈ d.cols, c.2 = recordOf q n (m c.1)
  arrival : ∀ c ∈ d.cols, ((m c.1 - m ref : ℤ) : ℝ) * d.dt = planeDelay (P c.1) (P ref) V
  segments : L = n / navgs ∧ AsManyAsFit n L (L - L / 2) S
  band : 1 ≤ K ∧ K ≤ L / 2 ∧ (K : ℝ) / (L * d.dt) < fl ∧ (K < L / 2 → fl ≤ ((K : ℝ) + 1) / (L * d.dt))
  short : ∀ c ∈ d.cols, 2 * |((m c.1 - m ref : ℤ) : ℝ)| < (1 - ρ) * L
  edges : ∀ c ∈ d.cols, ∀ k : ℕ, k ≤ L / 2 → (k : ℝ) / (L * d.dt) < fl →
    0 < ∑ i ∈ Finset.range S, ‖patternSpec (win L) (fun t => q (t - m ref)) L (i * (L - L / 2)) k‖ ^ 2 ∧
    ∑ i ∈ Finset.range S, edgeEffect (win L) (fun t => q (t - m ref)) L (i * (L - L / 2)) (m c.1 - m ref) ^ 2 ≤
      ρ ^ 2 * ∑ i ∈ Finset.range S, ‖patternSpec (win L) (fun t => q (t - m ref)) L (i * (L - L / 2)) k‖ ^ 2

/-- Largest error of a delay when the edge effects are the part `ρ` of the spectrum: `T` is the length of a segment in seconds, `K` the last bin used. -/
noncomputable def edgeError (method : String) (ρ T : ℝ) (K : ℕ) : ℝ := if method = "fit" then 3 * ρ * T / (4 * (2 * K + 1)) else ρ * T / (2 * K)

/-- `data ref` is what `compute_delays_tf` finds in the two data sets for the reference `ref`, with their cloud vectors. -/
def FromDataSets (win : ℕ → List ℝ) (navgs : ℕ) (cohLim freqLim : Option ℝ) (method : String) (d1 d2 : DataSet) (V1 V2 : Vec) (ref : String)
    (c : CloudCase × CloudCase) : Prop :=
  ∃ r1 r2, fieldComputeDelays win d1.dt d1.cols ref navgs cohLim freqLim method = .ok r1 ∧
    fieldComputeDelays win d2.dt d2.cols ref navgs cohLim freqLim method = .ok r2 ∧
    c = (⟨V1, r1.1, r1.2.map finVal⟩, ⟨V2, r2.1, r2.2.map finVal⟩)

end SST.Spec
