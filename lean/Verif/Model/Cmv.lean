import Verif.Py
import Verif.Quantile
import Verif.Model.Field

/-!
# Model of `cmv.py` (cloud motion vectors)

Time series are lists of samples, `none` = NaN (infinite samples are not modelled).  Delays and
correlations per pair come from an external function (`Ext.delays`, standing for
`signalproc.compute_delays` / `compute_delays_tf`, which treat every pair of columns separately);
the optimisers of scipy are parameters.
-/

namespace SST.Cmv
open SST SST.Spatial

variable {ι : Type}

/-- `Flag`, cmv.py:15-41. -/
inductive Flag
  | good | nosignal | lowvarS | lowccf | overcast | nolag | lowcorr | stats | vellimit | allbad
  | trend | same
  deriving DecidableEq, Repr

/-! ## Pairs -/

/-- `itertools.combinations(l, 2)`. -/
def combos : List ι → List (ι × ι)
  | [] => []
  | x :: xs => xs.map (fun y => (x, y)) ++ combos xs

/-- `itertools.combinations_with_replacement(l, 2)`. -/
def combosRepl : List ι → List (ι × ι)
  | [] => []
  | x :: xs => (x :: xs).map (fun y => (x, y)) ++ combosRepl xs

/-- `_get_pairs`, cmv.py:82-130.  (The result is a numpy array; ids are assumed to be of one
type, otherwise numpy would convert them.) -/
def getPairs [DecidableEq ι] (all : List ι) (must : Option (List ι)) (repl : Bool) : List (ι × ι) :=
  let pairsAll := if repl then combosRepl all else combos all
  match must with
  | some m => pairsAll.filter fun p => decide (p.1 ∈ m ∨ p.2 ∈ m)
  | none => pairsAll

/-! ## Options -/

/-- The options dictionary (insertion ordered). -/
abbrev Dict := List (String × ℝ)

/-- `defaults` of `_validate_method_options`, cmv.py:616-643. -/
noncomputable def defaults (method : String) : Option Dict :=
  if method = "jamaly" then
    some [("minvelocity", 0), ("maxvelocity", 70), ("var_s_lim", 0.05), ("ktlim", 0.4), ("mincorr", 0.8)]
  else if method = "gagne" then some [("ktlim", 0.4)]
  else none

/-- `options[key] = defaults[key]` unless present, cmv.py:651-653 (one key). -/
noncomputable def fillStep (d : Dict) (kv : String × ℝ) : Dict :=
  if kv.1 ∈ d.map Prod.fst then d else d ++ [kv]

/-- `_validate_method_options`, cmv.py:591-655: the returned options, and the dictionary the
caller's variable refers to afterwards (`none` = the caller passed `None`).  The returned
dictionary IS the caller's object, so both are the same when a dictionary was passed. -/
noncomputable def validateOptions (method : String) (options : Option Dict) : Except PyErr Dict × Option Dict :=
  match defaults method with
  | none => (.error .valueError, options)
  | some dfl =>
    let o := options.getD []
    if o.all fun kv => decide (kv.1 ∈ dfl.map Prod.fst) then
      let o' := dfl.foldl fillStep o
      (.ok o', options.map fun _ => o')
    else (.error .valueError, options)

/-- `options[key]`; after validation the key is always present. -/
noncomputable def optVal (d : Dict) (k : String) : ℝ := (dictGet? d k).getD 0

/-! ## Pairwise QC -/

/-- Everything `_pairwise_qc` and the methods use about one pair of sites. -/
structure PairStat (ι : Type) where
  a : ι
  b : ι
  vec : Vec
  sigA : List (Option ℝ)
  sigB : List (Option ℝ)
  delay : Option ℝ
  peak : Option ℝ
  meanCorr : Option ℝ

/-- `x < c` for a possibly-NaN `x`. -/
def ltO (x : Option ℝ) (c : ℝ) : Prop := ∃ v, x = some v ∧ v < c

/-- `1 - np.nanmean(s) / np.nanmax(s)`, cmv.py:553-554. -/
noncomputable def varRatio (s : List (Option ℝ)) : XR := XR.oneSub (XR.divO (nanmean s) (nanmax s))

open Classical in
/-- `_pairwise_qc`, cmv.py:514-588, for one pair: every array statement
`pair_flags[condition] = flag` becomes one conditional overwrite. -/
noncomputable def pairFlag [DecidableEq ι] (method : String) (o : Dict) (p : PairStat ι) : Flag :=
  let f := if p.a = p.b then Flag.same else Flag.good
  let f := if ltO (nanstd p.sigA) 0.001 ∨ ltO (nanstd p.sigB) 0.001 then .nosignal else f
  let f := if p.delay = some 0 then .nolag else f
  let f := if p.peak = none then .lowcorr else f
  let f := if p.meanCorr = none then .lowcorr else f
  let ktlim := optVal o "ktlim"
  let f := if ltO (nanmax p.sigA) ktlim ∨ ltO (nanmax p.sigB) ktlim then .overcast else f
  if method = "jamaly" then
    let lim := XR.fin (optVal o "var_s_lim")
    let f := if XR.lt (varRatio p.sigA) lim ∨ XR.lt (varRatio p.sigB) lim then .lowvarS else f
    let rqc := XR.oneSub (XR.divO p.meanCorr p.peak)
    let corrMin := optVal o "mincorr"
    let f := if ltO p.peak corrMin ∨ XR.lt rqc (.fin corrMin) then .lowcorr else f
    let v := XR.divO (some (magnitude p.vec)) p.delay
    let f := if ¬ (XR.lt (.fin (optVal o "minvelocity")) v.abs ∧ XR.lt v.abs (.fin (optVal o "maxvelocity")))
      then .vellimit else f
    f
  else f

/-! ## The two methods -/

open Classical in
/-- `corr_lag >= t` -/
noncomputable def reaches (t : ℝ) (p : PairStat ι) : Bool := decide (∃ v, p.peak = some v ∧ t ≤ v)

/-- `sum(corr_inds[pair_flags == Flag.GOOD])`. -/
noncomputable def countGood (t : ℝ) (rows : List (PairStat ι × Flag)) : ℕ :=
  rows.countP fun r => r.2 = .good && reaches t r.1

/-- The Gagne selection, cmv.py:276-285: the overall flag and the new pair flags. -/
noncomputable def gagneSelect (rows : List (PairStat ι × Flag)) : Flag × List (PairStat ι × Flag) :=
  let t := (0.99 : ℝ)
  let t := if countGood t rows < 12 then (0.95 : ℝ) else t
  let t := if countGood t rows < 12 then (0.9 : ℝ) else t
  let overall := if countGood t rows < 12 then Flag.allbad else Flag.good
  (overall, rows.map fun r => (r.1, if reaches t r.1 then r.2 else .lowcorr))

/-- `dir_dist / lag` with infinities replaced by NaN, cmv.py:307-309 and 324-326. -/
noncomputable def velocity1 (dist lag : Option ℝ) : Option ℝ :=
  match XR.divO dist lag with
  | .fin x => some x
  | _ => none

/-- Velocities of the given pairs along direction `θ`, cmv.py:304-309 (also 322-326). -/
noncomputable def velocities (pairs : List (Option ℝ × Vec)) (θ : ℝ) : List (Option ℝ) :=
  List.zipWith velocity1 (projectVectors (pairs.map Prod.snd) (pol2rect 1 θ)) (pairs.map Prod.fst)

/-- External functions. `delays backend a b` = (delay, peak correlation, mean correlation). -/
structure Ext where
  delays : String → List (Option ℝ) → List (Option ℝ) → Option ℝ × Option ℝ × Option ℝ
  minimizeScalar : (ℝ → Option ℝ) → ℝ
  leastsq : List (Option ℝ × Vec) → Vec

/-- `|err| > 0.4`, cmv.py:332-334. -/
noncomputable def trendErr (v60 v40 vel : Option ℝ) : Prop :=
  match v60, v40 with
  | some a, some b => XR.lt (.fin 0.4) (XR.divO (some (a - b)) vel).abs
  | _, _ => False

open Classical in
/-- Jamaly's method, cmv.py:300-334: velocity, direction and whether the TREND flag is set.  The
statistics of cmv.py:341-350 (`linregress`) are only stored, not modelled. -/
noncomputable def jamaly (x : Ext) (pairs : List (Option ℝ × Vec)) : Option ℝ × Option ℝ × Bool :=
  let θ := x.minimizeScalar fun t => nanvar (velocities pairs t)
  let v := velocities pairs θ
  let vel := nanmedian v
  (vel, some θ, decide (trendErr (nanquantile v 0.6) (nanquantile v 0.4) vel))

/-- Gagne's method, cmv.py:352-369.  A zero least-squares solution gives `inf * 0 = NaN`. -/
noncomputable def gagne (x : Ext) (pairs : List (Option ℝ × Vec)) : Option ℝ × Option ℝ :=
  let a := x.leastsq pairs
  let s := a.1 ^ 2 + a.2 ^ 2
  if s = 0 then (none, none)
  else
    let vx := 1 / s * a.1
    let vy := 1 / s * a.2
    (some (magnitude (vx, vy)), some (arctan2 vy vx))

/-- Python `x % m` for `m > 0`. -/
noncomputable def pyMod (x m : ℝ) : ℝ := x - m * ⌊x / m⌋

/-- cmv.py:373-377: make the velocity nonnegative, reduce the angle. -/
noncomputable def normalise (vel θ : Option ℝ) : Option ℝ × Option ℝ :=
  match vel with
  | some v =>
    if v < 0 then (some (v * -1), θ.map fun t => pyMod (t + Real.pi) (2 * Real.pi))
    else (some v, θ.map fun t => pyMod t (2 * Real.pi))
  | none => (none, θ.map fun t => pyMod t (2 * Real.pi))

/-- The returned triple; `dists = none` in the early-exit object. -/
structure Out (ι : Type) where
  speed : Option ℝ
  angle : Option ℝ
  flag : Flag
  rows : List (PairStat ι × Flag)
  dists : Option (List (Option ℝ))

/-- Delay and vector of the GOOD pairs, cmv.py:296-298. -/
def goodPairs (rows : List (PairStat ι × Flag)) : List (Option ℝ × Vec) :=
  (rows.filter fun r => r.2 = .good).map fun r => (r.1.delay, r.1.vec)

/-- `compute_cmv` from the pair statistics on, cmv.py:269-395. -/
noncomputable def finish [DecidableEq ι] (x : Ext) (method : String) (o : Dict) (stats : List (PairStat ι)) : Out ι :=
  let rows0 := stats.map fun p => (p, pairFlag method o p)
  let sel := if method = "gagne" then gagneSelect rows0 else (Flag.good, rows0)
  let rows := sel.2
  if (goodPairs rows).length ≤ 1 then ⟨some 0, some 0, .allbad, rows, none⟩
  else
    let j := jamaly x (goodPairs rows)
    let raw := if method = "jamaly" then (j.1, j.2.1) else gagne x (goodPairs rows)
    let flag := if method = "jamaly" ∧ j.2.2 then Flag.trend else sel.1
    let r := normalise raw.1 raw.2
    ⟨r.1, r.2, flag, rows,
      some (rows.map fun p => r.2.bind fun t => (unit (pol2rect 1 t)).map fun u => p.1.vec.1 * u.1 + p.1.vec.2 * u.2)⟩

/-- The reference argument of `compute_cmv`: absent, one id, or an iterable of ids. -/
inductive RefArg (ι : Type)
  | none | one (r : ι) | many (rs : List ι)

/-- cmv.py:232-242. -/
def RefArg.ids : RefArg ι → List ι → List ι
  | .none, all => all
  | .one r, _ => [r]
  | .many rs, _ => rs

/-- The data of one pair, cmv.py:247-267: a site without time series raises `KeyError`. -/
def statOf [DecidableEq ι] (x : Ext) (ts : List (ι × List (Option ℝ))) (pos : List (ι × Vec))
    (backend : String) (p : ι × ι) : Except PyErr (PairStat ι) :=
  match dictGet? ts p.1, dictGet? ts p.2, dictGet? pos p.1, dictGet? pos p.2 with
  | some sa, some sb, some pa, some pb =>
    let d := x.delays backend sa sb
    .ok ⟨p.1, p.2, (pb.1 - pa.1, pb.2 - pa.2), sa, sb, d.1, d.2.1, d.2.2⟩
  | _, _, _, _ => .error .keyError

/-- `compute_cmv` up to the QC, cmv.py:215-267.  With no pair at all `pairs[:, 0]` indexes a 1-D
array with two indices: `IndexError`. -/
def prepare [DecidableEq ι] (x : Ext) (ts : List (ι × List (Option ℝ))) (pos : List (ι × Vec))
    (ref : RefArg ι) (method backend : String) : Except PyErr (List (PairStat ι)) :=
  if method.toLower ∉ ["jamaly", "gagne"] then .error .valueError
  else if backend.toLower ∉ ["xcorr", "tf"] then .error .valueError
  else
    let ids := pos.map Prod.fst
    let pairs := getPairs ids (some (ref.ids ids)) true
    if pairs = [] then .error .indexError
    else pairs.mapM (statOf x ts pos backend.toLower)

/-- `compute_cmv`, cmv.py:133-395: the result and the caller's options dictionary afterwards.
(`String.toLower` lowers ASCII letters only; no non-ASCII character lowers to a letter of the four
accepted names.) -/
noncomputable def computeCmv [DecidableEq ι] (x : Ext) (ts : List (ι × List (Option ℝ))) (pos : List (ι × Vec))
    (ref : RefArg ι) (method backend : String) (options : Option Dict) : Except PyErr (Out ι) × Option Dict :=
  match prepare x ts pos ref method backend with
  | .error e => (.error e, options)
  | .ok stats =>
    let v := validateOptions method.toLower options
    (v.1.map fun o => finish x method.toLower o stats, v.2)

/-! ## optimum_subset -/

/-- `dots` of `calc_cost`, cmv.py:452-460: entry for ideal vector `i` and CMV `j`. -/
noncomputable def subsetCost (vs : List Vec) (n : ℕ) (ang0 : ℝ) (i j : ℕ) : ℝ :=
  let ideal := (i : ℝ) / n * Real.pi + ang0
  let v := (vs[j]?).getD (0, 0)
  (-|dot (v.1 / magnitude v, v.2 / magnitude v) (Real.cos ideal, Real.sin ideal)|)

/-- `calc_cost`, cmv.py:438-467: total cost and the column indices. -/
noncomputable def calcCost (lsa : Field.LSA) (vs : List Vec) (n : ℕ) (ang0 : ℝ) : ℝ × List ℕ :=
  let rc := lsa n vs.length (subsetCost vs n ang0)
  ((List.zipWith (subsetCost vs n ang0) rc.1 rc.2).sum, rc.2)

/-- `optimum_subset`, cmv.py:398-485.  `shgo` is the external global minimiser on an interval.  A
zero vector makes its column NaN and `linear_sum_assignment` raises `ValueError`; `n = 0` divides
by zero. -/
noncomputable def optimumSubset (lsa : Field.LSA) (shgo : (ℝ → ℝ) → ℝ → ℝ → ℝ) (vs : List Vec) (n : ℕ) :
    Except PyErr (List ℕ) :=
  if n = 0 then .error .other
  else if (0, 0) ∈ vs then .error .valueError
  else
    let ang := shgo (fun a => (calcCost lsa vs n a).1) 0 (Real.pi / n)
    .ok (calcCost lsa vs n ang).2

end SST.Cmv
