import Verif.Model.Round
import Verif.Model.Cloud

/-!
# Broadened edges with rounding
-/

namespace SST.Round
open SST SST.Stats SST.Cloud

variable (A : Arith)

/-- `scipy.ndimage.uniform_filter1d` with size `s` along one line: the first mean from a sum, the others by adding what enters the
window less what leaves it, over the size. -/
noncomputable def runF (x : ℤ → ℝ) (s : ℕ) : ℕ → ℝ
  | 0 => A.fl (A.sum ((List.range s).map fun (c : ℕ) => x (-(s / 2 : ℕ) + (c : ℤ))) / s)
  | j + 1 => A.fl (runF x s j + A.fl (A.fl (x ((j : ℤ) - (s / 2 : ℕ) + (s : ℤ)) - x ((j : ℤ) - (s / 2 : ℕ))) / s))

/-- `scipy.ndimage.uniform_filter(f, size=s)` for a size of at least 2, as `uniformFilter`: along axis 0, then along axis 1. -/
noncomputable def uniformFilterF (f : ℕ → ℕ → ℝ) (m n s i j : ℕ) : ℝ :=
  runF A (fun k => runF A (fun l => f (reflect m l) (reflect n k)) s i) s j

/-- Filtered edges with small values set to 0, cloudfield.py:243-247; the edges are exact, being whole numbers up to 32. -/
noncomputable def smoothedF (mask : ℕ → ℕ → Bool) (m n s i j : ℕ) : ℝ :=
  if uniformFilterF A (edges mask m n) m n s i j < A.fl 1e-5 then 0 else uniformFilterF A (edges mask m n) m n s i j

/-- `smoothed_binary` of `_find_edges`, cloudfield.py:249, as `smoothedBinary`; 0/0 is NaN, which is not above the threshold. -/
noncomputable def smoothedBinaryF (mask : ℕ → ℕ → Bool) (m n s : ℕ) (thr : ℝ) (i j : ℕ) : Prop :=
  match fmax (smoothedF A mask m n s) m n with
  | none => False
  | some mx => mx ≠ 0 ∧ thr < A.fl (smoothedF A mask m n s i j / mx)

end SST.Round
