import Verif.Model.RoundCorr
import Verif.Model.RoundVec
import Verif.Model.Cmv

/-!
# The pairwise quality control of `compute_cmv` with rounding
-/

namespace SST.Round
open SST SST.Cmv SST.Spatial

variable (A : Arith)

/-- Rounding of a quotient or difference. -/
noncomputable def flX : XR → XR
  | .fin v => .fin (A.fl v)
  | v => v

/-- Division of floats; a zero divisor counts as positive. -/
noncomputable def divXF (a b : XR) : XR := match a, b with
  | .fin x, .fin y => flX A (XR.div x y)
  | .fin _, .pinf => .fin 0
  | .fin _, .ninf => .fin 0
  | .pinf, .fin y => open Classical in if y < 0 then .ninf else .pinf
  | .ninf, .fin y => open Classical in if y < 0 then .pinf else .ninf
  | _, _ => .nan

/-- Everything `_pairwise_qc` uses about one pair of sites; correlations may be infinite (C281). -/
structure PairStatF (ι : Type) where
  a : ι
  b : ι
  vec : Vec
  sigA : List (Option ℝ)
  sigB : List (Option ℝ)
  delay : Option ℝ
  peak : XR
  meanCorr : XR

/-- `np.nanstd`. -/
noncomputable def nanstdF (s : List (Option ℝ)) : Option ℝ := if valid s = [] then none else some (stdF A (valid s))

/-- `1 - np.nanmean(s) / np.nanmax(s)`, cmv.py:553-554. -/
noncomputable def varRatioF (s : List (Option ℝ)) : XR :=
  flX A (XR.oneSub (divXF A (XR.ofOption (if valid s = [] then none else some (meanF A (valid s)))) (XR.ofOption (nanmax s))))

open Classical in
/-- `_pairwise_qc`, cmv.py:514-588, for one pair, as `pairFlag`. -/
noncomputable def pairFlagF {ι : Type} [DecidableEq ι] (method : String) (o : Dict) (p : PairStatF ι) : Flag :=
  let f := if p.a = p.b then Flag.same else Flag.good
  let f := if ltO (nanstdF A p.sigA) (A.fl 0.001) ∨ ltO (nanstdF A p.sigB) (A.fl 0.001) then .nosignal else f
  let f := if p.delay = some 0 then .nolag else f
  let f := if p.peak = .nan then .lowcorr else f
  let f := if p.meanCorr = .nan then .lowcorr else f
  let ktlim := optVal o "ktlim"
  let f := if ltO (nanmax p.sigA) ktlim ∨ ltO (nanmax p.sigB) ktlim then .overcast else f
  if method = "jamaly" then
    let lim := XR.fin (optVal o "var_s_lim")
    let f := if XR.lt (varRatioF A p.sigA) lim ∨ XR.lt (varRatioF A p.sigB) lim then .lowvarS else f
    let rqc := flX A (XR.oneSub (divXF A p.meanCorr p.peak))
    let corrMin := optVal o "mincorr"
    let f := if XR.lt p.peak (.fin corrMin) ∨ XR.lt rqc (.fin corrMin) then .lowcorr else f
    let v := divXF A (.fin (magnitudeF A p.vec)) (XR.ofOption p.delay)
    let f := if ¬ (XR.lt (.fin (optVal o "minvelocity")) v.abs ∧ XR.lt v.abs (.fin (optVal o "maxvelocity")))
      then .vellimit else f
    f
  else f

end SST.Round
