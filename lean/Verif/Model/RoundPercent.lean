import Verif.Model.RoundScore

/-!
# Variability in percent with rounding
-/

namespace SST.Round
open SST SST.Stats

variable (A : Arith)

/-- `darr(series * 100 / 1000, …)`, stats.py:301-304. -/
noncomputable def darrPctF (s : List (Option ℝ)) (tau : ℕ) : ℝ :=
  darrRawF A (s.map (Option.map fun (v : ℝ) => A.fl (A.fl (v * 100) / 1000))) tau

/-- `100./1000 * variability_score(…)`, stats.py:194-196. -/
noncomputable def scorePctF (s : List (Option ℝ)) (tau : ℕ) : Option ℝ :=
  (scoreRawF A s tau).map fun (v : ℝ) => A.fl (A.fl (100 / 1000) * v)

end SST.Round
