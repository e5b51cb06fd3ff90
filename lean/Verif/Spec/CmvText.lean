import Verif.Spec.Cmv

/-! # Independent specification: what the descriptions of the flags say -/

namespace SST.Spec
open SST SST.Cmv

/-- All valid samples are equal. -/
def NoVariance (s : List (Option ℝ)) : Prop := ∀ x y, some x ∈ s → some y ∈ s → x = y

/-- The descriptions of cmv.py:29-41 read literally, for a pair and the options in force. -/
def TextHolds {ι : Type} (o : Dict) (p : PairStat ι) : Flag → Prop
  | .good => True
  | .nosignal => NoVariance p.sigA ∨ NoVariance p.sigB                                                  -- one signal has zero variance
  | .lowvarS => LowVariation p.sigA (opt o "var_s_lim") ∨ LowVariation p.sigB (opt o "var_s_lim")       -- low variation ratio in a signal
  | .overcast => MaxBelow p.sigA (opt o "ktlim") ∧ MaxBelow p.sigB (opt o "ktlim")                      -- low overall kt in both signals
  | .nolag => p.delay = some 0                                                                          -- infinite velocity
  | .lowcorr => ∃ k, p.peak = some k ∧ k < 0.8                                                          -- low lagging correlation (<0.8)
  | .vellimit => ∃ t, p.delay = some t ∧ t ≠ 0 ∧ Spatial.magnitude p.vec / |t| ≤ opt o "minvelocity"    -- low velocity limit
  | .same => p.a = p.b                                                                                  -- pair is same site
  | _ => False

end SST.Spec
