import Verif.Model.Corr

/-!
# Model of the transfer-function part of `src/solarspatialtools/signalproc.py`
(lines 164-532, 713-880)

Exact arithmetic.  Frames are lists of named columns, all columns of one length; the sampling period
`dt` is positive.  NaN is `none`.  External: `scipy.signal.welch`/`csd` (modelled by the documented
segment averages), `np.unwrap` (modelled line by line), `curve_fit`/`leastsq` on residuals that are
linear in the delay (modelled by the exact minimiser; a parameter the residual does not depend on
keeps its start value, 1 for `curve_fit` and 0 for the `leastsq` call).
-/

namespace SST.Tf
open SST SST.Dft SST.Corr

/-! ## Spectral averages -/

/-- The `detrend` argument of `welch`/`csd`. -/
inductive Detrend
  | none | constant | linear

/-- Slope of the least-squares line through a record sampled at 0, 1, ... -/
noncomputable def slope (x : List ℝ) : ℝ :=
  (∑ j ∈ Finset.range x.length, ((j : ℝ) - (x.length - 1) / 2) * at0 x j) /
    (∑ j ∈ Finset.range x.length, ((j : ℝ) - (x.length - 1) / 2) ^ 2)

/-- `scipy.signal.detrend` of one segment: subtract nothing, the mean, or the least-squares line. -/
noncomputable def detrend : Detrend → List ℝ → List ℝ
  | .none, x => x
  | .constant, x => x.map fun v => v - mean x
  | .linear, x => (List.range x.length).map fun (j : ℕ) => at0 x j - (mean x + slope x * ((j : ℝ) - (x.length - 1) / 2))

/-- Start indices of the segments of a record of length `n`: length `L`, overlap `ov`. -/
def segStarts (n L ov : ℕ) : List ℕ := (List.range ((n - ov) / (L - ov))).map fun (s : ℕ) => s * (L - ov)

/-- One segment. -/
def segment (x : List ℝ) (L s : ℕ) : List ℝ := (x.drop s).take L

/-- Windowed, detrended spectrum of one segment at bin `k`. -/
noncomputable def spectrum (w : List ℝ) (d : Detrend) (seg : List ℝ) (k : ℕ) : ℂ :=
  ∑ j ∈ Finset.range seg.length, ((at0 (detrend d seg) j * at0 w j : ℝ) : ℂ) * twiddle seg.length (j * k)

/-- Spectra of all segments at bin `k`. -/
noncomputable def spectra (w : List ℝ) (d : Detrend) (L ov : ℕ) (x : List ℝ) (k : ℕ) : List ℂ :=
  (segStarts x.length L ov).map fun (s : ℕ) => spectrum w d (segment x L s) k

/-- Density scaling `1/(fs Σ w²)`, doubled except at DC and Nyquist. -/
noncomputable def psdScale (w : List ℝ) (dt : ℝ) (L k : ℕ) : ℝ :=
  (if k = 0 ∨ 2 * k = L then 1 else 2) * (dt / (w.map fun v => v ^ 2).sum)

/-- `welch` at one bin: average of |X|². -/
noncomputable def psd (c : ℝ) (X : List ℂ) : ℝ := c * ((X.map Complex.normSq).sum / X.length)

/-- `csd` at one bin: average of conj(X) Y. -/
noncomputable def csd (c : ℝ) (X Y : List ℂ) : ℂ :=
  c * ((List.zipWith (fun x y => (starRingEnd ℂ) x * y) X Y).sum / X.length)

/-- `tf = csdxy / psdxx`, signalproc.py:315: 0/0 is NaN (no power means no cross power). -/
noncomputable def tfBin (c : ℝ) (X Y : List ℂ) : Option ℂ :=
  if psd c X = 0 then none else some (csd c X Y / psd c X)

/-- `coh = |csdxy|² / (psdxx psdyy)`, signalproc.py:316. -/
noncomputable def cohBin (c : ℝ) (X Y : List ℂ) : Option ℝ :=
  if psd c X * psd c Y = 0 then none else some (Complex.normSq (csd c X Y) / (psd c X * psd c Y))

/-- Arguments shared by the spectral functions; `win L` is the window of length `L`. -/
structure Opts where
  dt : ℝ
  navgs : ℕ
  overlap : ℝ
  win : ℕ → List ℝ
  detr : Detrend

/-- One row of a transfer function: frequency, value, coherence. -/
structure Row where
  f : ℝ
  tf : Option ℂ
  coh : Option ℝ

/-- Transfer function and coherence of one pair for given segment length and overlap,
signalproc.py:299-316. -/
noncomputable def pairTf (o : Opts) (L ov : ℕ) (x y : List ℝ) : List Row :=
  (List.range (L / 2 + 1)).map fun (k : ℕ) =>
    let X := spectra (o.win L) o.detr L ov x k
    let Y := spectra (o.win L) o.detr L ov y k
    let c := psdScale (o.win L) o.dt L k
    ⟨k / (L * o.dt), tfBin c X Y, cohBin c X Y⟩

/-- The column pairing of `averaged_tf`, signalproc.py:289-297: equal numbers of columns pair up, a
single column is broadcast, anything else is a `ValueError`.  Names are `<in>_<out>`. -/
def pairCols {α : Type} (ins outs : List (String × α)) : Except PyErr (List (String × α × α)) :=
  if outs.length = ins.length then
    .ok (List.zipWith (fun a b => (a.1 ++ "_" ++ b.1, a.2, b.2)) ins outs)
  else if outs.length = 1 then
    .ok (ins.flatMap fun a => outs.map fun b => (a.1 ++ "_" ++ b.1, a.2, b.2))
  else if ins.length = 1 then
    .ok (ins.flatMap fun a => outs.map fun b => (a.1 ++ "_" ++ b.1, a.2, b.2))
  else .error .valueError

/-- `averaged_tf`, signalproc.py:218-326.  `nperseg = n // navgs` (`ZeroDivisionError` as `other`),
`noverlap = int(nperseg * overlap)`; scipy raises `ValueError` for an empty segment and for an overlap
that is not smaller than the segment.  Simplification: a negative overlap counts as none. -/
noncomputable def averagedTf (o : Opts) (ins outs : List (String × List ℝ)) : Except PyErr (List (String × List Row)) :=
  match pairCols ins outs with
  | .error e => .error e
  | .ok ps =>
    let n := (ins.headD ("", [])).2.length
    if o.navgs = 0 then .error .other
    else
      let L := n / o.navgs
      let ov := pyInt (L * o.overlap)
      if L = 0 ∨ (L : ℤ) ≤ ov then .error .valueError
      else .ok (ps.map fun p => (p.1, pairTf o L ov.toNat p.2.1 p.2.2))

/-! ## Phase unwrapping -/

/-- `np.mod(x, p)` for positive `p`. -/
noncomputable def pmod (x p : ℝ) : ℝ := x - p * ⌊x / p⌋

/-- The wrapped step of `np.unwrap`: `mod(dd + π, 2π) - π`, with -π replaced by π for rising steps. -/
noncomputable def wrapStep (dd : ℝ) : ℝ :=
  let m := pmod (dd + Real.pi) (2 * Real.pi) - Real.pi
  if m = -Real.pi ∧ 0 < dd then Real.pi else m

/-- Correction added from one sample on: none for steps below π. -/
noncomputable def corrStep (dd : ℝ) : ℝ := if |dd| < Real.pi then 0 else wrapStep dd - dd

/-- NaN-propagating addition. -/
noncomputable def oadd (a b : Option ℝ) : Option ℝ := a.bind fun x => b.map fun y => x + y

/-- Correction of a possibly-NaN step. -/
noncomputable def ostep (a b : Option ℝ) : Option ℝ := a.bind fun x => b.map fun y => corrStep (y - x)

/-- Running sum of corrections along the array. -/
noncomputable def unwrapFrom : Option ℝ → Option ℝ → List (Option ℝ) → List (Option ℝ)
  | _, _, [] => []
  | prev, c, q :: qs => oadd q (oadd c (ostep prev q)) :: unwrapFrom q (oadd c (ostep prev q)) qs

/-- `np.unwrap(p)`: `p[1:] + cumsum(corrections)`. -/
noncomputable def unwrap : List (Option ℝ) → List (Option ℝ)
  | [] => []
  | p :: ps => p :: unwrapFrom p (some 0) ps

/-- `np.angle`. -/
noncomputable def angle (z : Option ℂ) : Option ℝ := z.map Complex.arg

/-! ## Delay from the phase -/

/-- `coh > coh_limit` (false for NaN); no limit accepts every bin.  signalproc.py:468-471. -/
def CohOk (lim : Option ℝ) (c : Option ℝ) : Prop := lim = none ∨ ∃ l v, lim = some l ∧ c = some v ∧ l < v

/-- `index < freq_limit`; no limit accepts every bin.  signalproc.py:472-476. -/
def FreqOk (lim : Option ℝ) (f : ℝ) : Prop := lim = none ∨ ∃ l, lim = some l ∧ f < l

open Classical in
/-- `ix`, signalproc.py:477. -/
noncomputable def maskOf (cohLim freqLim : Option ℝ) (rows : List Row) : List Bool :=
  rows.map fun r => decide (CohOk cohLim r.coh ∧ FreqOk freqLim r.f)

open Classical in
/-- Frequencies and phases used by method 'multi' for one column: the phase is unwrapped over the bins
below the frequency limit, then bins with low coherence and NaN phases are left out
(`nansum` of the masked difference), signalproc.py:515-525 and 459-461. -/
noncomputable def multiUsed (cohLim freqLim : Option ℝ) (rows : List Row) : List (ℝ × ℝ) :=
  let sub := rows.filter fun r => decide (FreqOk freqLim r.f)
  (sub.zip (unwrap (sub.map fun r => angle r.tf))).filterMap fun p =>
    if CohOk cohLim p.1.coh then p.2.map fun φ => (p.1.f, φ) else none

open Classical in
/-- Method 'multi' for one column, signalproc.py:509-530: the residual `Σ (φ + 2π f τ)` is brought to
zero; with no dependence on τ the start value 0 stays.  A column of NaNs gives NaN. -/
noncomputable def multiDelay (cohLim freqLim : Option ℝ) (rows : List Row) : Option ℝ :=
  if ∀ r ∈ rows, r.tf = none then none
  else
    let u := multiUsed cohLim freqLim rows
    let b := (u.map Prod.fst).sum
    if b = 0 then some 0 else some (-(u.map Prod.snd).sum / (2 * Real.pi * b))

open Classical in
/-- Method 'fit' for one column, signalproc.py:491-508: least squares of the phase (unwrapped over the
masked bins) by `-2π f τ`.  Nothing masked, or a NaN among the masked bins, gives NaN (`ValueError`
caught); if every masked frequency is 0 the start value 1 of `curve_fit` is returned. -/
noncomputable def fitDelay (cohLim freqLim : Option ℝ) (rows : List Row) : Option ℝ :=
  let sub := rows.filter fun r => decide (CohOk cohLim r.coh ∧ FreqOk freqLim r.f)
  let ph := unwrap (sub.map fun r => angle r.tf)
  if sub = [] ∨ none ∈ ph then none
  else
    let u := (sub.map Row.f).zip (ph.filterMap id)
    let b := (u.map fun p => p.1 ^ 2).sum
    if b = 0 then some 1 else some (-(u.map fun p => p.1 * p.2).sum / (2 * Real.pi * b))

/-- `-np.diff(phase) / np.diff(f)` for consecutive bins (frequencies increasing). -/
noncomputable def groupDelays : List (ℝ × Option ℝ) → List (Option ℝ)
  | a :: b :: rest => (a.2.bind fun p => b.2.map fun q => -(q - p) / (b.1 - a.1)) :: groupDelays (b :: rest)
  | _ => []

open Classical in
/-- Method 'diff' for one column, signalproc.py:479-489: the mean over the masked bins of the group
delay, the last of which is repeated; a NaN anywhere, or an empty mask, gives NaN. -/
noncomputable def diffDelay (cohLim freqLim : Option ℝ) (rows : List Row) : Except PyErr (Option ℝ) :=
  let gd := groupDelays ((rows.map Row.f).zip (unwrap (rows.map fun r => angle r.tf)))
  match gd.getLast? with
  | none => .error .indexError
  | some last =>
    let gd := gd ++ [last]
    let ix := maskOf cohLim freqLim rows
    let cnt := (ix.filter id).length
    if none ∈ gd ∨ cnt = 0 then .ok none
    else .ok (some (((gd.filterMap id).zip ix).map fun p => p.1 / (2 * Real.pi) * (if p.2 then 1 else 0) / cnt).sum)

/-- `tf_delay`, signalproc.py:382-532, on the columns of a transfer function: delays and masks.  'diff'
and 'fit' need a single column; a single row passes the check as well and then fails because the frequencies do not match the columns
(lines 485-486 and 497).  Frames have at least one column. -/
noncomputable def tfDelay (cols : List (List Row)) (cohLim freqLim : Option ℝ) (method : String) :
    Except PyErr (List (Option ℝ) × List (List Bool)) :=
  let ix := cols.map (maskOf cohLim freqLim)
  if method = "diff" then
    match cols with
    | [c] => (diffDelay cohLim freqLim c).map fun d => ([d], ix)
    | [[_], [_]] => .error .indexError
    | _ => .error .valueError
  else if method = "fit" then
    match cols with
    | [c] => .ok ([fitDelay cohLim freqLim c], ix)
    | [_] :: _ :: _ => .error .indexError
    | _ => .error .valueError
  else if method = "multi" then .ok (cols.map (multiDelay cohLim freqLim), ix)
  else .error .valueError

/-! ## `compute_delays_tf` -/

open Classical in
/-- `mean_coh` of one column, signalproc.py:813-815. -/
noncomputable def meanCoh (freqLim : ℝ) (rows : List Row) : XR :=
  let sub := rows.filter fun r => decide (r.f < freqLim)
  XR.div (sub.filterMap Row.coh).sum sub.length

/-- `compute_delays_tf` without `compute_xcorr`, signalproc.py:713-819: one `(delay, mask, mean_coh)`
per pair.  Method 'fit' looks columns up by name: a repeated pair name selects several columns and
raises `ValueError`.  `freq_limit = None` fails in line 813 with `TypeError`. -/
noncomputable def computeDelaysTf (o : Opts) (ins outs : List (String × List ℝ)) (cohLim freqLim : Option ℝ)
    (method : String) : Except PyErr (List (Option ℝ × List Bool × XR)) :=
  if 1 < ins.length ∧ 1 < outs.length ∧ ins.length ≠ outs.length then .error .valueError
  else
    match averagedTf { o with detr := .none } ins outs with
    | .error e => .error e
    | .ok tf =>
      if method = "fit" ∧ ¬ (tf.map Prod.fst).Nodup then .error .valueError
      else if method ≠ "fit" ∧ method ≠ "multi" then .error .valueError
      else
        match freqLim with
        | none => .error .typeError
        | some fl =>
          .ok (tf.map fun p =>
            (if method = "fit" then fitDelay cohLim freqLim p.2 else multiDelay cohLim freqLim p.2,
              maskOf cohLim freqLim p.2, meanCoh fl p.2))

/-- Linear interpolation between two floats. -/
noncomputable def lin (a : ℝ) (v : XR) (b : ℝ) (w : XR) (x : ℝ) : XR :=
  match v, w with
  | .fin v, .fin w => .fin ((w - v) / (b - a) * (x - a) + v)
  | _, _ => .nan

open Classical in
/-- `np.interp(x, xp, fp, left=nan, right=nan)`. -/
noncomputable def npInterp : List (ℝ × XR) → ℝ → XR
  | [], _ => .nan
  | [a], x => if x = a.1 then a.2 else .nan
  | a :: b :: rest, x =>
    if x < a.1 then .nan
    else if x = a.1 then a.2
    else if x < b.1 then lin a.1 a.2 b.1 b.2 x
    else npInterp (b :: rest) x

/-- A finite float as a real. -/
def finVal : XR → Option ℝ
  | .fin a => some a
  | _ => none

/-- `np.interp(-delay, lags, corr, left=nan, right=nan)` for a possibly-NaN delay. -/
noncomputable def peakAt (pts : List (ℝ × XR)) : Option ℝ → XR
  | none => .nan
  | some d => npInterp pts (-d)

/-- `peak_corr`, `mean_corr` and `zero_corr` of one pair with `compute_xcorr=True`,
signalproc.py:821-847 (`mean` of NaNs is NaN). -/
noncomputable def xcorrExtras (dt : ℝ) (x y : List ℝ) (delay : Option ℝ) : Except PyErr (XR × XR × XR) :=
  (correlation x y "coeff").map fun r =>
    let vals := r.1.filterMap finVal
    (peakAt ((r.2.map fun (l : ℤ) => (l : ℝ) * dt).zip r.1) delay,
      if vals.length = r.1.length then XR.div vals.sum r.1.length else .nan,
      (r.1[r.2.idxOf 0]?).getD .nan)

/-! ## Applying a delay and interpolating -/

/-- `apply_delay`, signalproc.py:852-880. -/
noncomputable def applyDelay (tf : List (ℝ × ℂ)) (delay : ℝ) : List ℂ :=
  tf.map fun p => p.2 * Complex.exp (2 * Real.pi * Complex.I * p.1 * (-delay))

open Classical in
/-- Insertion into a list sorted by frequency. -/
noncomputable def insertF {α : Type} (p : ℝ × α) : List (ℝ × α) → List (ℝ × α)
  | [] => [p]
  | q :: qs => if p.1 ≤ q.1 then p :: q :: qs else q :: insertF p qs

/-- Rows in order of `index.argsort()` (frequencies are distinct). -/
noncomputable def sortF {α : Type} (l : List (ℝ × α)) : List (ℝ × α) := l.foldr insertF []

open Classical in
/-- `interp1d(x, y)(x0)`: `ValueError` outside the range, else the straight line of the first interval
whose right end is at least `x0`. -/
noncomputable def interp1 : List (ℝ × ℝ) → ℝ → Except PyErr ℝ
  | a :: b :: rest, x =>
    if x < a.1 then .error .valueError
    else if x ≤ b.1 then .ok ((b.2 - a.2) / (b.1 - a.1) * (x - a.1) + a.2)
    else interp1 (b :: rest) x
  | _, _ => .error .valueError

/-- One interpolated value from magnitude and phase. -/
noncomputable def polarAt (mag ph : List (ℝ × ℝ)) (f : ℝ) : Except PyErr ℂ :=
  (interp1 mag f).bind fun (m : ℝ) => (interp1 ph f).map fun (φ : ℝ) => (m : ℂ) * Complex.exp (Complex.I * (φ : ℂ))

/-- `interp_tf`, signalproc.py:329-379, for one column without NaN and at least two rows: magnitude and
unwrapped phase are interpolated separately. -/
noncomputable def interpTf (newFreq : List ℝ) (tf : List (ℝ × ℂ)) : Except PyErr (List ℂ) :=
  let s := sortF tf
  let mag := s.map fun p => (p.1, ‖p.2‖)
  let ph := (s.map Prod.fst).zip ((unwrap (s.map fun p => some (Complex.arg p.2))).filterMap id)
  newFreq.mapM (polarAt mag ph)

/-! ## Power spectral density -/

/-- `averaged_psd`, signalproc.py:164-215: one column of averaged power per input column.  A Series is
converted and the call repeated *without* the `scaling` argument (line 202). -/
noncomputable def averagedPsd (o : Opts) (isSeries : Bool) (cols : List (String × List ℝ)) (scaling : String) :
    Except PyErr (List (String × List (ℝ × ℝ))) :=
  let scaling := if isSeries then "density" else scaling
  let n := (cols.headD ("", [])).2.length
  if o.navgs = 0 then .error .other
  else
    let L := n / o.navgs
    let ov := pyInt (L * o.overlap)
    if L = 0 ∨ (L : ℤ) ≤ ov then .error .valueError
    else if scaling ≠ "density" ∧ scaling ≠ "spectrum" then .error .valueError
    else
      let w := o.win L
      let c (k : ℕ) : ℝ := (if k = 0 ∨ 2 * k = L then 1 else 2) *
        (if scaling = "density" then o.dt / (w.map fun v => v ^ 2).sum else 1 / w.sum ^ 2)
      .ok (cols.map fun p => (p.1, (List.range (L / 2 + 1)).map fun (k : ℕ) =>
        ((k : ℝ) / (L * o.dt), psd (c k) (spectra w o.detr L ov.toNat p.2 k))))

/-! ## Deprecated wrapper in `field.py` -/

/-- `field.compute_delays`, field.py:173-216: transfer functions between one column and every column
of the frame; `df[ref]` raises `KeyError` for an unknown name (column names are distinct).  `ham L` is
the Hamming window. -/
noncomputable def fieldComputeDelays (ham : ℕ → List ℝ) (dt : ℝ) (df : List (String × List ℝ)) (ref : String) (navgs : ℕ)
    (cohLim freqLim : Option ℝ) (method : String) : Except PyErr (List (Option ℝ) × List XR) :=
  match df.find? fun p => decide (p.1 = ref) with
  | none => .error .keyError
  | some p =>
    (computeDelaysTf ⟨dt, navgs, 0.5, ham, .none⟩ [p] df cohLim freqLim method).map fun r =>
      (r.map Prod.fst, r.map fun t => t.2.2)

end SST.Tf
