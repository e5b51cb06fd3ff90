import Mathlib.Analysis.SpecialFunctions.Trigonometric.Basic

/-!
# The default window of the spectral functions
-/

namespace SST.Tf

/-- `scipy.signal.get_window('hamming', L)`, what `window='hamming'` (signalproc.py:165, 219, 714; cmv.py:260) means to
`scipy.signal.csd`: the periodic form `0.54 - 0.46 cos(2π j / L)`; windows of at most one sample are ones. -/
noncomputable def hamming (L : ℕ) : List ℝ :=
  if L ≤ 1 then List.replicate L 1 else (List.range L).map fun (j : ℕ) => 0.54 - 0.46 * Real.cos (2 * Real.pi * j / L)

end SST.Tf
