import Verif.Num
import Mathlib.Data.List.Sort

/-!
# Model of `src/solarspatialtools/stats.py`

Exact arithmetic; NaN is `none`.  A series is a list of values with a list of time stamps in seconds
counted from midnight of its first day (increasing, as the callers' DatetimeIndex is).
-/

namespace SST.Stats
open SST

/-- NaN-propagating difference `a - b`. -/
noncomputable def osub (a b : Option ℝ) : Option ℝ := a.bind fun (x : ℝ) => b.map fun (y : ℝ) => x - y

/-- `np.mean` of an array: NaN if an entry is NaN or there is none. -/
noncomputable def npMean (l : List (Option ℝ)) : Option ℝ := if none ∈ l then none else meanO (l.filterMap id)

/-- `Series.mean()` (also what `np.mean` does to a Series): NaN entries are left out. -/
noncomputable def pdMean (l : List (Option ℝ)) : Option ℝ := meanO (l.filterMap id)

/-- `np.mean` on an array or on a Series. -/
noncomputable def meanOf (isSeries : Bool) (l : List (Option ℝ)) : Option ℝ := if isSeries then pdMean l else npMean l

/-- `bias_error`, stats.py:131-149, for two arrays of equal length, or two Series with one index. -/
noncomputable def biasError (b e : List (Option ℝ)) : List (Option ℝ) := List.zipWith osub e b

/-- `squared_error`, stats.py:48-65. -/
noncomputable def squaredError (b e : List (Option ℝ)) : List (Option ℝ) := (biasError b e).map (Option.map fun (d : ℝ) => d ^ 2)

/-- `absolute_error`, stats.py:89-107. -/
noncomputable def absoluteError (b e : List (Option ℝ)) : List (Option ℝ) := (biasError b e).map (Option.map fun (d : ℝ) => |d|)

/-- `mse`, stats.py:27-45. -/
noncomputable def mse (isSeries : Bool) (b e : List (Option ℝ)) : Option ℝ := meanOf isSeries (squaredError b e)

/-- `rmse`, stats.py:5-24. -/
noncomputable def rmse (isSeries : Bool) (b e : List (Option ℝ)) : Option ℝ := (mse isSeries b e).map Real.sqrt

/-- `mae`, stats.py:68-86. -/
noncomputable def mae (isSeries : Bool) (b e : List (Option ℝ)) : Option ℝ := meanOf isSeries (absoluteError b e)

/-- `mbe`, stats.py:110-128. -/
noncomputable def mbe (isSeries : Bool) (b e : List (Option ℝ)) : Option ℝ := meanOf isSeries (biasError b e)

/-- `estimation - baseline` for two Series with distinct labels each: rows of the labels of either
side, NaN where one side lacks the label (the order of the rows does not matter for the means taken of
them). -/
noncomputable def alignSub {L : Type} [DecidableEq L] (b e : List (L × Option ℝ)) : List (Option ℝ) :=
  (e.map fun p => osub p.2 ((b.lookup p.1).getD none)) ++
    (b.filter fun p => p.1 ∉ e.map Prod.fst).map fun _ => none

/-- `mse`, `mae`, `mbe`, `rmse` of two Series with their own labels, stats.py:5-149. -/
noncomputable def mseL {L : Type} [DecidableEq L] (b e : List (L × Option ℝ)) : Option ℝ :=
  pdMean ((alignSub b e).map (Option.map fun (d : ℝ) => d ^ 2))
@[inherit_doc mseL] noncomputable def maeL {L : Type} [DecidableEq L] (b e : List (L × Option ℝ)) : Option ℝ :=
  pdMean ((alignSub b e).map (Option.map fun (d : ℝ) => |d|))
@[inherit_doc mseL] noncomputable def mbeL {L : Type} [DecidableEq L] (b e : List (L × Option ℝ)) : Option ℝ :=
  pdMean (alignSub b e)
@[inherit_doc mseL] noncomputable def rmseL {L : Type} [DecidableEq L] (b e : List (L × Option ℝ)) : Option ℝ :=
  (mseL b e).map Real.sqrt

/-! ## Ramps -/

/-- `series.diff(tau)`. -/
noncomputable def diffs (s : List (Option ℝ)) (tau : ℕ) : List (Option ℝ) :=
  List.replicate (min tau s.length) none ++ List.zipWith osub (s.drop tau) s

open Classical in
/-- `rank(pct=True)` of the value `r` in the column `rows`: average rank among the values present,
divided by their number. -/
noncomputable def rankPct (rows : List (Option ℝ)) (r : ℝ) : ℝ :=
  (((rows.filterMap id).filter fun v => v < r).length + ((((rows.filterMap id).filter fun v => v = r).length : ℝ) + 1) / 2) /
    (rows.filterMap id).length

/-- `max(axis=0)`: NaN entries are left out, NaN if nothing is left. -/
noncomputable def omax (l : List (Option ℝ)) : Option ℝ :=
  match l.filterMap id with
  | [] => none
  | a :: rest => some (rest.foldl max a)

/-- stats.py:198-199. -/
noncomputable def scoreRaw (s : List (Option ℝ)) (tau : ℕ) : Option ℝ :=
  let x := (diffs s tau).map (Option.map fun (v : ℝ) => |v|)
  omax (x.map (Option.map fun (r : ℝ) => r * (1 - rankPct x r)))

/-- `np.nanmedian(index.diff().total_seconds())`: NaN for fewer than two stamps. -/
noncomputable def medianStep (t : List ℝ) : Option ℝ :=
  let d := (List.zipWith (fun (a b : ℝ) => a - b) t.tail t).insertionSort (· ≤ ·)
  if d = [] then none else some ((d.getD ((d.length - 1) / 2) 0 + d.getD (d.length / 2) 0) / 2)

/-- `series.resample(bin).mean()`: bins `[k bin, (k+1) bin)` counted from midnight of the first day, from
the first to the last occupied one; NaN for a bin without values. -/
noncomputable def resampleMean (bin : ℝ) (t : List ℝ) (s : List (Option ℝ)) : List (Option ℝ) :=
  match t.head?, t.getLast? with
  | some a, some b =>
    (List.range (⌊b / bin⌋ - ⌊a / bin⌋ + 1).toNat).map fun (j : ℕ) =>
      pdMean (((t.zip s).filter fun p => ⌊p.1 / bin⌋ = ⌊a / bin⌋ + j).map Prod.snd)
  | _, _ => []

/-- `series.resample(str(int(tau*dt)) + 's').mean()`: a NaN step cannot be converted to int
(`ValueError`), a bin of 0 seconds is refused (`other`: the class of the exception is pandas' choice). -/
noncomputable def resampleTau (t : List ℝ) (s : List (Option ℝ)) (tau : ℕ) : Except PyErr (List (Option ℝ)) :=
  match medianStep t with
  | none => .error .valueError
  | some dt => if pyInt (tau * dt) = 0 then .error .other else .ok (resampleMean (pyInt (tau * dt)) t s)

/-- `variability_score`, stats.py:152-201, for one column. -/
noncomputable def variabilityScore (t : List ℝ) (s : List (Option ℝ)) (tau : ℕ) (movingAvg pct : Bool) : Except PyErr (Option ℝ) :=
  let fin (s : List (Option ℝ)) (tau : ℕ) : Option ℝ :=
    if pct then (scoreRaw s tau).map fun (v : ℝ) => 100 / 1000 * v else scoreRaw s tau
  if movingAvg = true ∧ 1 < tau then (resampleTau t s tau).map fun rs => fin rs 1 else .ok (fin s tau)

/-- stats.py:304. -/
noncomputable def darrRaw (s : List (Option ℝ)) (tau : ℕ) : ℝ := (((diffs s tau).filterMap id).map fun (v : ℝ) => |v|).sum

/-- `darr`, stats.py:256-306, for one column; `isPandas` tells whether the argument is a Series or DataFrame. -/
noncomputable def darr (isPandas : Bool) (t : List ℝ) (s : List (Option ℝ)) (tau : ℕ) (movingAvg pct : Bool) : Except PyErr ℝ :=
  let fin (s : List (Option ℝ)) (tau : ℕ) : ℝ :=
    if pct then darrRaw (s.map (Option.map fun (v : ℝ) => v * 100 / 1000)) tau else darrRaw s tau
  if isPandas = false then .error .typeError
  else if movingAvg = true ∧ 1 < tau then (resampleTau t s tau).map fun rs => fin rs 1 else .ok (fin s tau)

/-- `np.sqrt(series.diff()**2 + dt**2).sum(axis=0)`, stats.py:247-248. -/
noncomputable def pathLength (s : List (Option ℝ)) (dt : ℝ) : ℝ :=
  (((diffs s 1).filterMap id).map fun (v : ℝ) => Real.sqrt (v ^ 2 + dt ^ 2)).sum

/-- The number part of `variability_index`, stats.py:246-252: `dt` in minutes from the GHI index.  A NaN
step makes every term NaN, both sums 0 and the quotient NaN. -/
noncomputable def viRaw (t : List ℝ) (g c : List (Option ℝ)) (norm : Bool) : XR :=
  match medianStep t with
  | none => .nan
  | some step =>
    let dt := step / 60
    match XR.div (pathLength g dt) (pathLength c dt), norm with
    | .fin v, true => .fin (v * Real.sqrt dt)
    | v, _ => v

/-- Stamps of the bins of `resampleMean`. -/
noncomputable def resampleTimes (bin : ℝ) (t : List ℝ) : List ℝ :=
  match t.head?, t.getLast? with
  | some a, some b => (List.range (⌊b / bin⌋ - ⌊a / bin⌋ + 1).toNat).map fun (j : ℕ) => (⌊a / bin⌋ + j) * bin
  | _, _ => []

/-- `variability_index`, stats.py:204-254, for two Series (each with its own stamps). -/
noncomputable def variabilityIndex (isPandas : Bool) (t : List ℝ) (g : List (Option ℝ)) (tc : List ℝ) (c : List (Option ℝ)) (tau : ℕ) (norm : Bool) :
    Except PyErr XR :=
  if isPandas = false then .error .typeError
  else if 1 < tau then
    match medianStep t with
    | none => .error .valueError
    | some dt =>
      if pyInt (tau * dt) = 0 then .error .other
      else .ok (viRaw (resampleTimes (pyInt (tau * dt)) t) (resampleMean (pyInt (tau * dt)) t g) (resampleMean (pyInt (tau * dt)) tc c) norm)
  else .ok (viRaw t g c norm)

/-- `variability_index` for two one-column DataFrames with column names `ng`, `nc`: the quotient of the
two sums is taken per column name, `NaN` where a name is missing on one side. -/
noncomputable def viFrames (ng nc : String) (t : List ℝ) (g c : List (Option ℝ)) (norm : Bool) : List (String × XR) :=
  if ng = nc then [(ng, viRaw t g c norm)] else [(ng, .nan), (nc, .nan)]

/-! ## Quantiles by time of day -/

/-- `quantile(q)` of the values present, linear interpolation between order statistics. -/
noncomputable def quantileLin (q : ℝ) (l : List ℝ) : Option ℝ :=
  let v := l.insertionSort (· ≤ ·)
  let pos := q * ((v.length : ℝ) - 1)
  if v = [] then none
  else some (v.getD ⌊pos⌋.toNat 0 + (v.getD ⌈pos⌉.toNat 0 - v.getD ⌊pos⌋.toNat 0) * (pos - ⌊pos⌋))

/-- Seconds of a day. -/
def day : ℤ := 86400

/-- `statdata = ts[date_start:date_end]`: dates are compared as midnights, both ends included. -/
def windowOf {α : Type} (n : ℤ) (d : ℤ) (ts : List (ℤ × α)) : List (ℤ × α) :=
  ts.filter fun p => d * day ≤ p.1 ∧ p.1 ≤ (d + n) * day

/-- One window: a value for every time of day that occurs in the window, labelled with the end date,
stats.py:362-383. -/
noncomputable def windowRows (q : ℝ) (n d : ℤ) (ts : List (ℤ × Option ℝ)) : List (ℤ × Option ℝ) :=
  (((windowOf n d ts).map fun p => p.1 % day).dedup).map fun tod =>
    ((d + n) * day + tod, quantileLin q (((windowOf n d ts).filter fun p => p.1 % day = tod).filterMap fun p => p.2))

/-- Days of the series in order of appearance, up to the first whose window reaches beyond the last day,
stats.py:353-360. -/
def startDays {α : Type} (n : ℤ) (ts : List (ℤ × α)) : List ℤ :=
  let days := (ts.map fun p => p.1 / day)
  days.dedup.takeWhile fun d => d + n ≤ days.getLastD 0

/-- How the column of the input is named: a Series without name, a string, something else. -/
inductive ColName
  | none | str (s : String) | other

/-- Naming of the result, stats.py:391-402: a DataFrame needs a string name (`TypeError` otherwise), a
Series without string name gives 'quantile'. -/
def quantName (isFrame : Bool) : ColName → Except PyErr String
  | .str s => .ok (s ++ "_quant")
  | _ => if isFrame then .error .typeError else .ok "quantile"

/-- `calc_quantile`, stats.py:309-404, for one column over tz-naive stamps in whole seconds (increasing),
`n` whole days (`date + Timedelta` drops fractions of a day), `0 ≤ q ≤ 1`; an empty series has no last day
(`IndexError`). -/
noncomputable def calcQuantile (isFrame : Bool) (name : ColName) (ts : List (ℤ × Option ℝ)) (n : ℤ) (q : ℝ) :
    Except PyErr (String × List (ℤ × Option ℝ)) :=
  if ts = [] then .error .indexError
  else
    let rows := (startDays n ts).flatMap fun d => windowRows q n d ts
    (quantName isFrame name).map fun nm => (nm, ts.map fun p => (p.1, (rows.lookup p.1).getD none))

end SST.Stats

namespace SST.Irradiance
open SST

/-- `pvlib.irradiance.clearsky_index` for one sample (external; as documented: quotient, non-finite
quotients become 0, NaN inputs stay NaN, then clipped to `[0, max]`). -/
noncomputable def pvlibClearsky (ghi cs : Option ℝ) (mx : ℝ) : Option ℝ :=
  ghi.bind fun (g : ℝ) => cs.map fun (c : ℝ) => min (max (if c = 0 then 0 else g / c) 0) mx

/-- `clearsky_index`, irradiance.py:6-38: a Series (or number) uses the maximum given, a DataFrame always 2. -/
noncomputable def clearskyIndex (isFrame : Bool) (ghi : List (List (Option ℝ))) (cs : List (Option ℝ)) (mx : ℝ) : List (List (Option ℝ)) :=
  ghi.map fun col => List.zipWith (fun g c => pvlibClearsky g c (if isFrame then 2 else mx)) col cs

end SST.Irradiance
