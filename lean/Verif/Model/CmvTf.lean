import Verif.Model.CmvXcorr
import Verif.Model.Tf

/-!
# The delays `compute_cmv` works with (backend 'tf')

The delays parameter of `Model/Cmv.lean` filled with the model of `signalproc.compute_delays_tf`.
-/

namespace SST.Cmv
open SST SST.Tf

/-- Delay, peak and mean correlation of a pair of columns, cmv.py:257-263: `compute_delays_tf(A, B, navgs=5, coh_limit=0.6,
freq_limit=0.02, method='multi', overlap=0.5, window='hamming', compute_xcorr=True)`, which with 'multi' treats every pair of
columns on its own.  `ham L` is the Hamming window of length `L`.  A column with NaN gives NaN correlations and a delay that is not
modelled (parameter `nanDelay`).  Records are assumed to have at least 5 samples, otherwise scipy raises `ValueError`
(the `Except` results of the two models, which `Ext` has no place for). -/
noncomputable def tfDelays (ham : ℕ → List ℝ) (nanDelay : List (Option ℝ) → List (Option ℝ) → Option ℝ) (dt : ℝ)
    (a b : List (Option ℝ)) : Option ℝ × Option ℝ × Option ℝ :=
  if none ∈ a ∨ none ∈ b then (nanDelay a b, none, none)
  else
    match computeDelaysTf ⟨dt, 5, 0.5, ham, .none⟩ [("A", a.filterMap id)] [("B", b.filterMap id)] (some 0.6) (some 0.02) "multi" with
    | .ok (r :: _) =>
      match xcorrExtras dt (a.filterMap id) (b.filterMap id) r.1 with
      | .ok e => (r.1, finiteOf e.1, finiteOf e.2.1)
      | .error _ => (none, none, none)
    | _ => (none, none, none)

end SST.Cmv
