import Verif.Model.Cmv

/-! # Model: the data object returned by `compute_cmv`, cmv.py:43-80 and 287-395

`corr_raw` and `pair_coh` (copied from the backend), `pcov` of gagne and the stored ratios `var_s`, `r_qc` are not modelled. -/

namespace SST.Cmv
open SST SST.Spatial

variable {ι : Type}

/-- Population covariance of two lists of equal length (`np.cov(x, y, bias=1)`). -/
noncomputable def covB (u v : List ℝ) : ℝ := mean (List.zipWith (fun a b => (a - mean u) * (b - mean v)) u v)

/-- `scipy.stats.linregress`: correlation coefficient and standard error of the slope; ValueError if all `u` are equal. -/
noncomputable def linregress (u v : List ℝ) : Except PyErr (ℝ × ℝ) :=
  if ∀ a ∈ u, ∀ b ∈ u, a = b then .error .valueError
  else
    let r := if covB u u = 0 ∨ covB v v = 0 then 0 else covB u v / Real.sqrt (covB u u * covB v v)
    let e := if u.length = 2 then 0 else Real.sqrt ((1 - r ^ 2) * covB v v / covB u u / ((u.length : ℝ) - 2))
    .ok (r, e)

/-- `method_data` of the method jamaly, cmv.py:328-350. -/
structure MethodData where
  v60 : Option ℝ
  v40 : Option ℝ
  errorIndex : XR
  velocity : List (Option ℝ)
  rCorr : ℝ
  stderr : ℝ
  ngood : ℕ

/-- cmv.py:320-350.  The delays of GOOD pairs are numbers (not NaN), so are their distances. -/
noncomputable def jamalyData (x : Ext) (pairs : List (Option ℝ × Vec)) : MethodData :=
  let θ := x.minimizeScalar fun t => nanvar (velocities pairs t)
  let dist := projectVectors (pairs.map Prod.snd) (pol2rect 1 θ)
  let v := velocities pairs θ
  let vel := nanmedian v
  let v60 := nanquantile v 0.6
  let v40 := nanquantile v 0.4
  let reg := match linregress (valid (pairs.map Prod.fst)) (valid dist) with
    | .ok r => r
    | .error _ => (0, 0)
  ⟨v60, v40, XR.divO (v60.bind fun a => v40.map fun b => a - b) vel, v, |reg.1|, reg.2, pairs.length⟩

/-- `WindspeedData`, cmv.py:43-60; the outer `none` is Python's `None`, the inner one NaN. -/
structure WindspeedData (ι : Type) where
  corrLag : Option (List (Option ℝ))
  allpairs : Option (List (ι × ι))
  pairLag : Option (List (Option ℝ))
  pairDists : Option (List (Option ℝ))
  windSpeed : Option (Option ℝ)
  windAngle : Option (Option ℝ)
  pairFlag : Option (List Flag)
  flag : Option Flag
  methodData : Option MethodData

/-- The data object: cmv.py:288-294 with at most one GOOD pair, cmv.py:381-393 otherwise.  `method_data` is modelled for jamaly. -/
noncomputable def dataOf (x : Ext) (method : String) (out : Out ι) : WindspeedData ι :=
  if (goodPairs out.rows).length ≤ 1 then
    { corrLag := none, allpairs := some (out.rows.map fun r => (r.1.a, r.1.b)), pairLag := none, pairDists := none, windSpeed := none, windAngle := none,
      pairFlag := some (out.rows.map Prod.snd), flag := some out.flag, methodData := none }
  else
    { corrLag := some (out.rows.map fun r => r.1.peak), allpairs := some (out.rows.map fun r => (r.1.a, r.1.b)),
      pairLag := some (out.rows.map fun r => r.1.delay), pairDists := out.dists, windSpeed := some out.speed, windAngle := some out.angle,
      pairFlag := some (out.rows.map Prod.snd), flag := some out.flag,
      methodData := if method = "jamaly" then some (jamalyData x (goodPairs out.rows)) else none }

/-- `compute_cmv` with all three results: speed, direction and the data object. -/
noncomputable def computeCmvFull [DecidableEq ι] (x : Ext) (ts : List (ι × List (Option ℝ))) (pos : List (ι × Vec)) (ref : RefArg ι) (method backend : String)
    (options : Option Dict) : Except PyErr (Option ℝ × Option ℝ × WindspeedData ι) :=
  (computeCmv x ts pos ref method backend options).1.map fun out => (out.speed, out.angle, dataOf x method.toLower out)

end SST.Cmv
