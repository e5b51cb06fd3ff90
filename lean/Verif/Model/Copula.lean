import Verif.Model.Spatial
import Mathlib.Probability.CDF
import Mathlib.Probability.Distributions.Gaussian.Real
import Mathlib.Data.List.Sort
import Mathlib.Data.List.GetD

/-!
# Model of `src/solarspatialtools/synthirrad/copula.py`

Exact arithmetic over ℝ.  The external pieces are

* `sklearn.mixture.GaussianMixture` with given parameters: `exp(score_samples)` is the mixture density,
  written out here (`mixPdf`);
* `scipy.stats.norm.cdf`: the distribution function of the standard normal law, from Mathlib (`Phi`);
* `numpy.random.Generator.multivariate_normal`: a parameter (`Mvn`).
-/

namespace SST.Copula
open SST

/-- The `params` dictionary: `comp`, `mean`, `sdevClear`, `sdevCloud` (three numbers each) and `corr_quadr`.
Simplification: a dictionary with missing keys or short lists (`KeyError`, `IndexError`) is not represented. -/
structure Params where
  comp0 : ℝ
  comp1 : ℝ
  comp2 : ℝ
  mean0 : ℝ
  mean1 : ℝ
  mean2 : ℝ
  clear0 : ℝ
  clear1 : ℝ
  clear2 : ℝ
  cloud0 : ℝ
  cloud1 : ℝ
  cloud2 : ℝ
  corrQuadr : ℝ

/-- `DEFAULT_PARAMS`, copula.py:15-21. -/
noncomputable def defaultParams : Params where
  comp0 := 0.8051
  comp1 := 7.3605
  comp2 := 0.7092
  mean0 := 2.2928
  mean1 := 1.0801
  mean2 := 0.4532
  clear0 := 0.3512
  clear1 := 4.8414
  clear2 := 0.6442
  cloud0 := 0.1997
  cloud1 := 5.0919
  cloud2 := 0.3863
  corrQuadr := 0.0043

/-- `_sigmoid`, copula.py:42. -/
noncomputable def sigmoid (x a c : ℝ) : ℝ := 1 / (1 + Real.exp (-a * (x - c)))

/-- Density of the normal law with mean `mu` and variance `v`. -/
noncomputable def normPdf (mu v x : ℝ) : ℝ := Real.exp (-(x - mu) ^ 2 / (2 * v)) / Real.sqrt (2 * Real.pi * v)

/-- `np.exp(gm.score_samples(x))` for one `x`, copula.py:90: the weighted sum of the component densities. -/
noncomputable def mixPdf (comps : List (ℝ × ℝ × ℝ)) (x : ℝ) : ℝ :=
  (comps.map fun c => c.2.2 * normPdf c.1 c.2.1 x).sum

/-- `np.cumsum` continuing from an accumulated value. -/
def cumsumFrom : ℝ → List ℝ → List ℝ
  | _, [] => []
  | s, a :: l => (s + a) :: cumsumFrom (s + a) l

/-- `np.max` of a nonempty list with given first element. -/
noncomputable def maxFrom (a : ℝ) (l : List ℝ) : ℝ := l.foldl max a

open Classical in
/-- `_gmdistribution` on an array, copula.py:76-91.  A variance that is not positive makes
`_compute_precision_cholesky` raise `ValueError`; an empty `x` is rejected by sklearn with `ValueError`.
Simplifications: `mu`, `variances` and `p` of different lengths raise `ValueError`; a negative weight
(whose logarithm is NaN) and a vanishing total (NaN by 0/0) are outside the model (`PyErr.other`). -/
noncomputable def gmdistribution (xs mu vars p : List ℝ) : Except PyErr (List ℝ × List ℝ) :=
  if mu.length ≠ p.length ∨ vars.length ≠ p.length then .error .valueError
  else if ∃ v ∈ vars, v ≤ 0 then .error .valueError
  else if ∃ w ∈ p, w < 0 then .error .other
  else
    let pdf := xs.map (mixPdf (mu.zip (vars.zip p)))
    match cumsumFrom 0 pdf with
    | [] => .error .valueError
    | c :: cs =>
      let m := maxFrom c cs
      if m = 0 then .error .other
      else .ok (pdf, (c :: cs).map fun v => v / m)

/-- `_gmdistribution` on a scalar, copula.py:77 and 94-96: the array code on a one-point grid, then element 0. -/
noncomputable def gmdistributionScalar (x : ℝ) (mu vars p : List ℝ) : Except PyErr (ℝ × ℝ) :=
  match gmdistribution [x] mu vars p with
  | .error e => .error e
  | .ok r => .ok (r.1.headD 0, r.2.headD 0)

/-! ## Inverse sampling -/

open Classical in
/-- Keep the first entry of each run of equal first components. -/
noncomputable def dedupFst : List (ℝ × ℕ) → List (ℝ × ℕ)
  | [] => []
  | [p] => [p]
  | p :: q :: l => if p.1 = q.1 then dedupFst (p :: l) else p :: dedupFst (q :: l)
termination_by l => l.length

open Classical in
/-- `np.unique(cdf, return_index=True)`, copula.py:137: sorted distinct values, each with the index of
its first occurrence (stable sort, then the first of each run). -/
noncomputable def uniqueIdx (cdf : List ℝ) : List (ℝ × ℕ) :=
  dedupFst (cdf.zipIdx.insertionSort fun p q => p.1 ≤ q.1)

open Classical in
/-- The padded interpolation nodes `(Fxu, xu)`, copula.py:137-142.  `x[inds]` raises `IndexError` when
`cdf` is longer than `x` and a late value is needed. -/
noncomputable def knots (x cdf : List ℝ) : Except PyErr (List (ℝ × ℝ)) :=
  let u := uniqueIdx cdf
  if ∀ p ∈ u, p.2 < x.length then .ok ((0, -2) :: u.map (fun p => (p.1, x.getD p.2 0)) ++ [(1, 2)])
  else .error .indexError

open Classical in
/-- `np.interp` for one abscissa and nodes sorted by abscissa: the left value before the first node, the
right value after the last, otherwise linear interpolation from the last node not after `r`.
(For unsorted nodes numpy documents the result as meaningless.) -/
noncomputable def interp : List (ℝ × ℝ) → ℝ → ℝ
  | [], _ => 0
  | [p], _ => p.2
  | p :: q :: l, r =>
    if r < p.1 then p.2
    else if r < q.1 then (q.2 - p.2) / (q.1 - p.1) * (r - p.1) + p.2
    else interp (q :: l) r

/-- `_inverse_sample`, copula.py:133-151, for a scalar `r` (arrays elementwise). -/
noncomputable def inverseSample (x cdf : List ℝ) (r : ℝ) : Except PyErr ℝ :=
  match knots x cdf with
  | .error e => .error e
  | .ok k => .ok (interp k r)

/-! ## Parameters of the mixture -/

open Classical in
/-- `_exponential_decay_parameter` for a scalar, copula.py:285-291. -/
noncomputable def decay (K p : ℝ) : ℝ :=
  let k := p * K * (1 - K)
  if k < 1 / 100000 then 1 / 100000 else k

/-- A number or a list/array of numbers. -/
inductive SArg
  | scalar (v : ℝ)
  | list (l : List ℝ)

open Classical in
/-- `_exponential_decay_parameter` for an array `K`, copula.py:285-291.  With two or more elements the
comparison in `if` raises `ValueError` and the masked assignment runs; with one element the `if` works and
replaces the array by the number `10**-5` when it is below.  Simplification: the empty array (whose truth
value recent numpy versions reject) is returned as it is. -/
noncomputable def decayArr (K : List ℝ) (p : ℝ) : SArg :=
  match K with
  | [K0] => if p * K0 * (1 - K0) < 1 / 100000 then .scalar (1 / 100000) else .list [p * K0 * (1 - K0)]
  | Ks => .list (Ks.map fun K0 : ℝ => decay K0 p)

/-- Result of `_process_params`: means, weights, variances of the (cloudy, clear) components and the decay. -/
structure Mixture where
  mu1 : ℝ
  mu2 : ℝ
  w1 : ℝ
  w2 : ℝ
  var1 : ℝ
  var2 : ℝ
  k : ℝ

open Classical in
/-- `_process_params`, copula.py:199-217.  `w1 = 0` makes line 207 a division by zero (infinite or NaN mean);
outside the model (`PyErr.other`). -/
noncomputable def processParams (meanCSI : ℝ) (P : Params) : Except PyErr Mixture :=
  let w1 := 1 - P.comp0 * sigmoid meanCSI P.comp1 P.comp2
  let w2 := 1 - w1
  let mu2 := P.mean0 * w1 * meanCSI + P.mean1 * (1 - w1) * (meanCSI - P.mean2)
  let sig2 := P.clear0 * (1 - sigmoid meanCSI P.clear1 P.clear2)
  let sig1 := P.cloud0 * sigmoid meanCSI P.cloud1 P.cloud2
  if w1 = 0 then .error .other
  else .ok ⟨(meanCSI - w2 * mu2) / w1, mu2, w1, w2, sig1 ^ 2, sig2 ^ 2, decay meanCSI P.corrQuadr⟩

/-- `_solar_gmm`, copula.py:255-259: density, distribution function, decay. -/
noncomputable def solarGmm (csi : List ℝ) (meanCSI : ℝ) (P : Params) : Except PyErr (List ℝ × List ℝ × ℝ) :=
  match processParams meanCSI P with
  | .error e => .error e
  | .ok m =>
    match gmdistribution csi [m.mu1, m.mu2] [m.var1, m.var2] [m.w1, m.w2] with
    | .error e => .error e
    | .ok r => .ok (r.1, r.2, m.k)

/-! ## The copula -/

/-- `scipy.stats.norm.cdf`. -/
noncomputable def Phi (z : ℝ) : ℝ := ProbabilityTheory.cdf (ProbabilityTheory.gaussianReal 0 1) z

/-- `np.random.default_rng(seed).multivariate_normal(zeros, cov, size=n)`: `n` rows.  The second argument
numbers the call: with `seed=None` every call uses fresh entropy. -/
abbrev Mvn := Option ℕ → ℕ → List (List ℝ) → ℕ → List (List ℝ)

/-- `_copularnd_gaussian`, copula.py:372-379.  `cov_matrix[0]` of an empty matrix raises `IndexError`. -/
noncomputable def copularnd (mvn : Mvn) (n : ℕ) (cov : List (List ℝ)) (seed : Option ℕ) (call : ℕ) :
    Except PyErr (List (List ℝ)) :=
  match cov with
  | [] => .error .indexError
  | _ => .ok ((mvn seed call cov n).map fun row => row.map Phi)

/-- `np.exp(-p * spacetime_dist)`, copula.py:332. -/
noncomputable def covMatrix (p : ℝ) (dist : List (List ℝ)) : List (List ℝ) :=
  dist.map fun row => row.map fun d : ℝ => Real.exp (-p * d)

/-- `_space_time_copula`, copula.py:331-341. -/
noncomputable def spaceTimeCopula (mvn : Mvn) (n : ℕ) (dist : List (List ℝ)) (cdfX cdf : List ℝ) (p : ℝ)
    (seed : Option ℕ) (call : ℕ) : Except PyErr (List (List ℝ)) :=
  match copularnd mvn n (covMatrix p dist) seed call with
  | .error e => .error e
  | .ok u =>
    match knots cdfX cdf with
    | .error e => .error e
    | .ok k => .ok (u.map fun row => row.map (interp k))

/-! ## Downscaling -/

/-- numpy product of a one-dimensional array with a number or an array, with broadcasting. -/
noncomputable def bmul (l : List ℝ) : SArg → Except PyErr (List ℝ)
  | .scalar v => .ok (l.map (· * v))
  | .list vs =>
    if vs.length = l.length then .ok (List.zipWith (· * ·) l vs)
    else if vs.length = 1 then .ok (l.map (· * vs.headD 0))
    else if l.length = 1 then .ok (vs.map (l.headD 0 * ·))
    else .error .valueError

/-- Elementwise function on a numeric argument. -/
def SArg.map (f : ℝ → ℝ) : SArg → SArg
  | .scalar v => .scalar (f v)
  | .list l => .list (l.map f)

/-- `spatial.spacetime_distances` as `downscale` may reach it, with `cs` and `cd` numbers or arrays
(spatial.py:589-613: `np.asarray(cs) * dur * np.cos(np.asarray(cd))` broadcasts). For numbers it is
`SST.Spatial.spacetimeDistances` (`spacetimeArg_scalar`). -/
noncomputable def spacetimeArg (x y times : List ℝ) (cs cd : SArg) : Except PyErr (List (List ℝ)) :=
  match times with
  | [] => .error .indexError
  | t0 :: _ =>
    match bmul (times.map fun t => t - t0) cs with
    | .error e => .error e
    | .ok d =>
      match bmul d (cd.map Real.cos), bmul d (cd.map Real.sin) with
      | .ok xDrift, .ok yDrift =>
        if x.length ≠ y.length then .error .valueError
        else
          let xf := Spatial.flattenF xDrift.length x.length (fun a i => x.getD i 0 - xDrift.getD a 0)
          let yf := Spatial.flattenF yDrift.length y.length (fun a i => y.getD i 0 - yDrift.getD a 0)
          .ok (Spatial.pairDist xf yf)
      | _, _ => .error .valueError

/-- `np.arange(-2, 2, 0.01)`, copula.py:447. -/
noncomputable def csiGrid : List ℝ := (List.range 400).map fun i : ℕ => -2 + (i : ℝ) / 100

open Classical in
/-- A float times a number. -/
noncomputable def mulX (a : XR) (b : ℝ) : XR :=
  match a with
  | .nan => .nan
  | .fin x => .fin (x * b)
  | .pinf => if b = 0 then .nan else if 0 < b then .pinf else .ninf
  | .ninf => if b = 0 then .nan else if 0 < b then .ninf else .pinf

open Classical in
/-- `samples.reshape(n, n_sites, n_times).transpose([0, 2, 1])[0]`, copula.py:456-459, for `n = 1`:
row `t`, column `s` is the flat element `s * n_times + t`.  A wrong number of elements raises `ValueError`. -/
noncomputable def reshapeFirst (samples : List (List ℝ)) (nS nT : ℕ) : Except PyErr (List (List ℝ)) :=
  if samples.flatten.length = nS * nT then
    .ok ((List.range nT).map fun t => (List.range nS).map fun s => samples.flatten.getD (s * nT + t) 0)
  else .error .valueError

open Classical in
/-- `cm[cm < 0] = 0`, copula.py:461-462. -/
noncomputable def clip (cm : List (List ℝ)) : List (List ℝ) := cm.map fun row => row.map fun v : ℝ => if v < 0 then 0 else v

/-- `cm *= mean_csi / np.mean(cm)`, copula.py:464-465. -/
noncomputable def rescale (meanCSI : ℝ) (cm : List (List ℝ)) : List (List XR) :=
  cm.map fun row => row.map fun v : ℝ => mulX (XR.div meanCSI (mean cm.flatten)) v

/-- The unscaled part of `downscale`, copula.py:447-462. -/
noncomputable def rawField (mvn : Mvn) (call : ℕ) (times ePos nPos : List ℝ) (cs cd : SArg) (meanCSI : ℝ) (P : Params)
    (seed : Option ℕ) (noneg : Bool) : Except PyErr (List (List ℝ)) :=
  match solarGmm csiGrid meanCSI P with
  | .error e => .error e
  | .ok g =>
    match spacetimeArg ePos nPos times cs cd with
    | .error e => .error e
    | .ok dist =>
      match spaceTimeCopula mvn 1 dist csiGrid g.2.1 g.2.2 seed call with
      | .error e => .error e
      | .ok samples =>
        match reshapeFirst samples ePos.length times.length with
        | .error e => .error e
        | .ok cm => .ok (if noneg then clip cm else cm)

/-- `downscale`, copula.py:447-466.  `times` in seconds. -/
noncomputable def downscale (mvn : Mvn) (call : ℕ) (times ePos nPos : List ℝ) (cs cd : SArg) (meanCSI : ℝ) (P : Params)
    (seed : Option ℕ) (scale noneg : Bool) : Except PyErr (List (List XR)) :=
  match rawField mvn call times ePos nPos cs cd meanCSI P seed noneg with
  | .error e => .error e
  | .ok cm => .ok (if scale then rescale meanCSI cm else cm.map fun row => row.map XR.fin)

/-! ## Several hours -/

/-- `times`: a `DatetimeIndex`, or a list whose entries are a `DatetimeIndex` or something else (`none`). -/
inductive TArg
  | index (ts : List ℝ)
  | list (l : List (Option (List ℝ)))

/-- `params`: a dictionary, or a list whose entries are dictionaries or something else (`none`). -/
inductive PArg
  | dict (P : Params)
  | list (l : List (Option Params))

/-- The check on `times`, copula.py:547-554. -/
def checkTimes (n : ℕ) : TArg → Except PyErr Unit
  | .index _ => .ok ()
  | .list l => if l.length ≠ n then .error .valueError else if l.all Option.isSome then .ok () else .error .valueError

/-- The check on `params`, copula.py:556-562. -/
def checkParams (n : ℕ) : PArg → Except PyErr Unit
  | .dict _ => .ok ()
  | .list l => if l.length ≠ n then .error .valueError else if l.all Option.isSome then .ok () else .error .valueError

/-- The check on `cloud_dir`, copula.py:564-569; the result is `multi_cloud_dir_mode`. -/
def checkDir (n : ℕ) : SArg → Except PyErr Bool
  | .scalar _ => .ok false
  | .list l => if l.length ≠ 1 then (if l.length ≠ n then .error .valueError else .ok true) else .ok false

/-- The check on `cloud_spd`, copula.py:571-576, which looks at the type of `cloud_dir`; the result is
`multi_cloud_spd_mode`.  `len` of a number raises `TypeError`. -/
def checkSpd (n : ℕ) (cloudDir cloudSpd : SArg) : Except PyErr Bool :=
  match cloudDir with
  | .scalar _ => .ok false
  | .list _ =>
    match cloudSpd with
    | .scalar _ => .error .typeError
    | .list l => if l.length ≠ 1 then (if l.length ≠ n then .error .valueError else .ok true) else .ok false

/-- `times[i] if multi_times_mode else times`, copula.py:583. -/
def timesAt (i : ℕ) : TArg → List ℝ
  | .index ts => ts
  | .list l => (l.getD i none).getD []

/-- `params[i] if multi_params_mode else params`, copula.py:584 (`d` is never used after `checkParams`). -/
def paramsAt (d : Params) (i : ℕ) : PArg → Params
  | .dict P => P
  | .list l => (l.getD i none).getD d

/-- `cloud_spd[i] if multi_cloud_spd_mode else cloud_spd`, copula.py:585-586. -/
def argAt (multi : Bool) (i : ℕ) (a : SArg) : SArg :=
  match a with
  | .scalar v => .scalar v
  | .list l => if multi then .scalar (l.getD i 0) else .list l

/-- Run the hours one after the other, stopping at the first exception, copula.py:582-591. -/
def runHours {β : Type} (f : ℕ → Except PyErr β) : List ℕ → Except PyErr (List β)
  | [] => .ok []
  | i :: l =>
    match f i with
    | .error e => .error e
    | .ok b =>
      match runHours f l with
      | .error e => .error e
      | .ok bs => .ok (b :: bs)

/-- `downscale_multihour`, copula.py:540-595.  `np.concatenate([])` raises `ValueError`.  Every hour gets the
same `seed` (line 589). -/
noncomputable def downscaleMultihour (mvn : Mvn) (times : TArg) (ePos nPos : List ℝ) (cloudSpd cloudDir : SArg)
    (meanCSI : List ℝ) (params : PArg) (seed : Option ℕ) (scale noneg : Bool) : Except PyErr (List (List XR)) :=
  match checkTimes meanCSI.length times with
  | .error e => .error e
  | .ok _ =>
    match checkParams meanCSI.length params with
    | .error e => .error e
    | .ok _ =>
      match checkDir meanCSI.length cloudDir with
      | .error e => .error e
      | .ok multiDir =>
        match checkSpd meanCSI.length cloudDir cloudSpd with
        | .error e => .error e
        | .ok multiSpd =>
          match runHours (fun i => downscale mvn i (timesAt i times) ePos nPos (argAt multiSpd i cloudSpd)
              (argAt multiDir i cloudDir) (meanCSI.getD i 0) (paramsAt defaultParams i params) seed scale noneg)
              (List.range meanCSI.length) with
          | .error e => .error e
          | .ok [] => .error .valueError
          | .ok (h :: hs) => .ok (h :: hs).flatten

end SST.Copula
