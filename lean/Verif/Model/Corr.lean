import Verif.Model.Dft
import Verif.Quantile

/-!
# Model of the cross-correlation part of `src/solarspatialtools/signalproc.py` (lines 11-161, 535-710)

Exact arithmetic, NaN-free real signals of length at least 2 (`index[1]` is read).  A frame is the
list of its columns.  `scipy.signal.correlate` is modelled by its defining sum, whichever method
scipy chooses.
-/

namespace SST.Corr
open SST SST.Dft

/-- Sample `i` of a signal extended by zeros. -/
def atZ (x : List ℝ) (i : ℤ) : ℝ := if 0 ≤ i then at0 x i.toNat else 0

/-- `scipy.signal.correlate(x, y)` (mode 'full', real data):
`z[k] = Σ_l x[l] y[l - k + len(y) - 1]`, `k = 0 .. len(x)+len(y)-2`. -/
noncomputable def correlate (x y : List ℝ) : List ℝ :=
  (List.range (x.length + y.length - 1)).map fun (k : ℕ) =>
    ∑ l ∈ Finset.range x.length, at0 x l * atZ y ((l : ℤ) - k + (y.length - 1))

/-- `scipy.signal.correlation_lags(n, m)` = `arange(-m + 1, n)`. -/
def lagsOf (n m : ℕ) : List ℤ := (List.range (n + m - 1)).map fun (k : ℕ) => (k : ℤ) - (m - 1)

/-- `x - np.mean(x)`. -/
noncomputable def center (x : List ℝ) : List ℝ := x.map fun v => v - mean x

/-- `np.std`. -/
noncomputable def std (x : List ℝ) : ℝ := Real.sqrt (variance x)

/-- `corr /= scale` of the unbiased scalings, signalproc.py:73-74 and 80-81. -/
noncomputable def unbias (n : ℕ) (corr : List XR) (lags : List ℤ) : List XR :=
  List.zipWith (fun c lag =>
    match c with
    | .fin v => XR.div v (((n : ℝ) - |(lag : ℝ)|) / n)
    | o => o) corr lags

/-- `correlation`, signalproc.py:11-87.  Simplification: an infinite entry divided by the unbiasing
scale keeps its sign (the scale is positive for equal lengths). -/
noncomputable def correlation (x y : List ℝ) (scaling : String) : Except PyErr (List XR × List ℤ) :=
  let lags := lagsOf x.length y.length
  let energy := ((correlate x x).max?).getD 0
  let den := x.length * (std x * std y)
  if scaling.toLower = "energy" then .ok ((correlate x y).map fun v => XR.div v energy, lags)
  else if scaling.toLower = "coeff" then .ok ((correlate (center x) (center y)).map fun v => XR.div v den, lags)
  else if scaling.toLower = "unbiased_energy" then
    .ok (unbias x.length ((correlate x y).map fun v => XR.div v energy) lags, lags)
  else if scaling.toLower = "unbiased_coeff" then
    .ok (unbias x.length ((correlate (center x) (center y)).map fun v => XR.div v den) lags, lags)
  else if scaling.toLower = "none" then .ok ((correlate x y).map .fin, lags)
  else .error .valueError

/-- Index of the first largest entry (`argmax` of NaN-free data). -/
noncomputable def argmax : List ℝ → ℕ
  | [] => 0
  | x :: xs => if ∀ y ∈ xs, y ≤ x then 0 else argmax xs + 1

/-- `a ≤ b` for non-NaN floats. -/
def leX (a b : XR) : Prop := a.lt b ∨ a = b

open Classical in
/-- `argmax` of floats: the first NaN if there is one, else the first largest entry. -/
noncomputable def argmaxX : List XR → ℕ
  | [] => 0
  | x :: xs =>
    if XR.nan ∈ x :: xs then (x :: xs).idxOf XR.nan
    else if ∀ y ∈ xs, leX y x then 0 else argmaxX xs + 1

/-- `xcorr_delay`, signalproc.py:535-578: the delay and the peak value. -/
noncomputable def xcorrDelay (dt : ℝ) (x y : List ℝ) (scaling : String) : Except PyErr (ℝ × XR) :=
  (correlation x y scaling).map fun r =>
    let k := argmaxX r.1
    (-(((r.2[k]?).getD 0 : ℤ) * dt), (r.1[k]?).getD .nan)

/-- Zero padding to length `2n - 1`, signalproc.py:148-152 and 681-685. -/
def pad (x : List ℝ) : List ℝ := x ++ List.replicate (2 * x.length - 1 - x.length) 0

/-- `np.real(ifft(fft(a) * conj(fft(b))))`, signalproc.py:155-157 and 692-694. -/
noncomputable def fftXcorr (a b : List ℝ) : List ℝ :=
  (ifft (List.zipWith (fun u v => u * (starRingEnd ℂ) v) (fft (a.map fun (v : ℝ) => (v : ℂ))) (fft (b.map fun (v : ℝ) => (v : ℂ))))).map
    Complex.re

/-- Results of `compute_delays` for one pair of columns; numbers scaled by `inf` are NaN or infinite. -/
structure PairDelay where
  delay : ℝ
  peak : XR
  meanCorr : XR
  zeroCorr : XR

/-- `corr_scale` for one pair, as the divisor: signalproc.py:642-653 (`(n·σ·σ)**-1` is `inf` for a
constant signal, and `0*inf` is NaN: the same as dividing by zero). -/
noncomputable def divisor (scaling : String) (x y : List ℝ) : ℝ :=
  if scaling = "coeff" then x.length * std x * std y else 1

/-- Mean removal for one column. -/
noncomputable def cond (scaling : String) (x : List ℝ) : List ℝ := if scaling = "coeff" then center x else x

/-- Last step of `compute_delays`: `delay[peak_corr < 1e-10] = 0`, signalproc.py:708. -/
noncomputable def dropWeak (r : PairDelay) : PairDelay :=
  open Classical in if r.peak.lt (.fin (1e-10)) then { r with delay := 0 } else r

/-- Body of the loop for one pair of columns, signalproc.py:663-677. -/
noncomputable def loopPair (dt : ℝ) (scaling : String) (x y : List ℝ) : PairDelay :=
  let c := correlate (cond scaling x) (cond scaling y)
  let d := divisor scaling x y
  let lags := (lagsOf x.length x.length).map fun (k : ℤ) => (k : ℝ) * dt
  let k := argmax c
  ⟨-((lags[k]?).getD 0), XR.div ((c[k]?).getD 0) d, XR.div (mean c) d,
    XR.div ((c[(lagsOf x.length x.length).idxOf 0]?).getD 0) d⟩

/-- The same for mode 'fft', signalproc.py:679-703, for one pair of columns.  (With several
columns `zero_corr` has the wrong shape, see `computeDelays`.) -/
noncomputable def fftPair (dt : ℝ) (scaling : String) (x y : List ℝ) : PairDelay :=
  let c := fftXcorr (pad (cond scaling x)) (pad (cond scaling y))
  let d := divisor scaling x y
  let nl : ℤ := 2 * x.length - 1
  let ilags := roll (lagsOf x.length x.length) (Int.fdiv (-nl) 2 + 1)
  let lags := ilags.map fun (k : ℤ) => (k : ℝ) * dt
  let k := argmax c
  ⟨-((lags[k]?).getD 0), XR.div ((c[k]?).getD 0) d, XR.div (mean c) d,
    XR.div ((c[ilags.idxOf 0]?).getD 0) d⟩

/-- A column beyond those of `ts_out` in mode 'loop': the preallocated zeros (scaled). -/
noncomputable def untouched (d : ℝ) : PairDelay := ⟨0, XR.div 0 d, XR.div 0 d, XR.div 0 d⟩

/-- `compute_delays`, signalproc.py:581-710, for frames with columns `ins`, `outs` (all of the same
length, at least one column each).  `'coeff'` scaling broadcasts the column counts (`ValueError`
unless equal or one of them is 1); mode 'loop' runs over the columns of `outs`
(`IndexError` when `ins` has fewer) and leaves the remaining results at their initial zeros, scaled
by `corr_scale`; mode 'fft' needs equal counts.  Results in order of the columns of `ins`. -/
noncomputable def computeDelays (dt : ℝ) (ins outs : List (List ℝ)) (mode scaling : String) :
    Except PyErr (List PairDelay) :=
  if scaling ≠ "coeff" ∧ scaling ≠ "none" then .error .valueError
  else if scaling = "coeff" ∧ ins.length ≠ outs.length ∧ ins.length ≠ 1 ∧ outs.length ≠ 1 then .error .valueError
  else if mode = "loop" then
    if ins.length < outs.length then .error .indexError
    else
      .ok ((List.zipWith (fun x y => dropWeak (loopPair dt scaling x y)) ins outs) ++
        (ins.drop outs.length).map fun x => dropWeak (untouched (divisor scaling x (outs.headD []))))
  else if mode = "fft" then
    if ins.length ≠ outs.length then .error .valueError
    else .ok (List.zipWith (fun x y => dropWeak (fftPair dt scaling x y)) ins outs)
  else .error .valueError

/-- `_fftcorrelate`, signalproc.py:90-161.  `corrxy * corr_scale` multiplies an `m × (2n-1)` array
by a vector of length `m`: `ValueError` unless `m = 1` or `m = 2n-1`; in the latter case entry
`(i, j)` is scaled by the factor of column `j`. -/
noncomputable def fftCorrelate (ins outs : List (List ℝ)) (scaling : String) : Except PyErr (List (List XR) × List ℤ) :=
  let n := (ins.headD []).length
  let lags := lagsOf n (outs.headD []).length
  if scaling ≠ "coeff" ∧ scaling ≠ "none" then .error .valueError
  else if ins.length ≠ outs.length then .error .valueError
  else
    let c := List.zipWith (fun x y => fftXcorr (pad (cond scaling x)) (pad (cond scaling y))) ins outs
    if scaling = "none" then .ok (c.map fun r => roll (r.map .fin) (Int.fdiv (2 * n - 1) 2), lags)
    else
      let ds := List.zipWith (divisor scaling) ins outs
      if ins.length = 1 then .ok (c.map fun r => roll (r.map fun v => XR.div v (ds.headD 0)) (Int.fdiv (2 * n - 1) 2), lags)
      else if ins.length = 2 * n - 1 then
        .ok (c.map fun r => roll (List.zipWith XR.div r ds) (Int.fdiv (2 * n - 1) 2), lags)
      else .error .valueError

end SST.Corr
