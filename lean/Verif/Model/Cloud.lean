import Verif.Model.Stats
import Mathlib.Analysis.SpecialFunctions.Pow.Real
import Mathlib.Data.Fintype.BigOperators
import Mathlib.Data.Finset.Max

/-!
# Model of `src/solarspatialtools/synthirrad/cloudfield.py`

Exact arithmetic.  Random grids (`np.random.rand`) are inputs.  A field of `m × n` cells is a function
`ℕ → ℕ → ℝ` used at `i < m`, `j < n`; functions that look at single cells and totals only take an
arbitrary finite set `ι` of cells.  Plotting is left out.
-/

namespace SST.Cloud
open SST SST.Stats

/-! ## Random fields -/

/-- The generated grid after singleton dimensions have been repeated, cloudfield.py:36-41: its size in
one dimension for a requested size `r`. -/
def gridSize (r : ℤ) : ℕ := if r ≤ 1 then 2 else r.toNat

/-- Entry of that grid: `R` is the array drawn (of size `max r 1`), a repeated dimension has index 0 only. -/
def gridAt (R : ℕ → ℕ → ℝ) (r0 r1 : ℤ) (a b : ℕ) : ℝ := R (if r0 ≤ 1 then 0 else a) (if r1 ≤ 1 then 0 else b)

/-- `np.linspace(0, 1, F)[i]`. -/
noncomputable def linspace01 (F i : ℕ) : ℝ := if F = 1 then 0 else (i : ℝ) / ((F : ℝ) - 1)

/-- Cell of the coordinate `x ∈ [0, 1]` among `k ≥ 2` equally spaced nodes. -/
noncomputable def cell (k : ℕ) (x : ℝ) : ℕ := min ⌊x * ((k : ℝ) - 1)⌋₊ (k - 2)

/-- Position of `x` within its cell. -/
noncomputable def inCell (k : ℕ) (x : ℝ) : ℝ := x * ((k : ℝ) - 1) - cell k x

/-- `RegularGridInterpolator(method='linear')` on equally spaced nodes of `[0, 1]` (external; bilinear in
the cell of the point; on a cell boundary both cells give the same value). -/
noncomputable def bilinear (G : ℕ → ℕ → ℝ) (k0 k1 : ℕ) (x y : ℝ) : ℝ :=
  let a := cell k0 x
  let b := cell k1 y
  let s := inCell k0 x
  let t := inCell k1 y
  (1 - s) * ((1 - t) * G a b + t * G a (b + 1)) + s * ((1 - t) * G (a + 1) b + t * G (a + 1) (b + 1))

/-- `_random_at_scale`, cloudfield.py:12-75: value of cell `(i, j)` of the interpolated field of size
`F0 × F1`. -/
noncomputable def randomAtScale (R : ℕ → ℕ → ℝ) (r0 r1 : ℤ) (F0 F1 i j : ℕ) : ℝ :=
  bilinear (gridAt R r0 r1) (gridSize r0) (gridSize r1) (linspace01 F0 i) (linspace01 F1 j)

/-- `_calc_vs_weights`, cloudfield.py:78-100, for positive scales: `ValueError` below 0; `none` is NaN
(`vs > 180`: logarithm of a negative number).  At `vs = 0` the code computes `1 / -0.0 = -inf` and
`scale ** -inf`, which is 1 for scale 1 and 0 above (scales of at least 1); at `vs = 180` the exponent
`1 / inf` is 0. -/
noncomputable def vsWeights (scales : List ℝ) (vs : ℝ) : Except PyErr (Option (List ℝ)) :=
  if vs < 0 then .error .valueError
  else if 180 < vs then .ok none
  else
    let w := if vs = 0 then scales.map fun (s : ℝ) => if s = 1 then (1 : ℝ) else 0
      else if vs = 180 then scales.map fun (_ : ℝ) => (1 : ℝ)
      else scales.map fun (s : ℝ) => s ^ (1 / (-Real.log (1 - vs / 180) / 0.6))
    if w.sum = 0 then .ok none else .ok (some (w.map fun (x : ℝ) => x / w.sum))

/-- `_calc_wavelet_weights`, cloudfield.py:103-119: mean square of each mode (NaN left out; a mode of NaN
only has mean NaN, which makes every weight NaN), divided by their sum (0/0 is NaN). -/
noncomputable def waveletWeights (waves : List (List (Option ℝ))) : Option (List ℝ) :=
  match waves.mapM fun row => pdMean (row.map (Option.map fun (v : ℝ) => v ^ 2)) with
  | none => none
  | some s => if s.sum = 0 then none else some (s.map fun (x : ℝ) => x / s.sum)

/-- `int(size * 2.0 ** (-scale + 1))`, cloudfield.py:154-156. -/
noncomputable def scaledSize (size : ℕ) (scale : ℤ) : ℤ := pyInt (size * (2 : ℝ) ^ (-scale + 1))

/-- Sum over the scales, cloudfield.py:150-158; `R k` is the grid drawn for the `k`-th scale. -/
noncomputable def stackSum (R : ℕ → ℕ → ℕ → ℝ) (weights : List ℝ) (scales : List ℤ) (m n : ℕ) (i j : ℕ) : ℝ :=
  ((List.range scales.length).map fun (k : ℕ) =>
    randomAtScale (R k) (scaledSize m (scales.getD k 0)) (scaledSize n (scales.getD k 0)) m n i j * weights.getD k 0).sum

/-- Cells of an `m × n` array. -/
def cells (m n : ℕ) : List (ℕ × ℕ) := (List.range m).flatMap fun i => (List.range n).map fun j => (i, j)

/-- `np.max` of an array (`none` when empty, where numpy raises `ValueError`). -/
noncomputable def fmax (f : ℕ → ℕ → ℝ) (m n : ℕ) : Option ℝ := omax ((cells m n).map fun c => some (f c.1 c.2))

/-- `np.min`. -/
noncomputable def fmin (f : ℕ → ℕ → ℝ) (m n : ℕ) : Option ℝ := (fmax (fun i j => -f i j) m n).map fun (v : ℝ) => -v

/-- `_stack_random_field`, cloudfield.py:122-172.  With `normalize` a constant field gives 0/0 and fails the
assertion; otherwise the assertions hold in exact arithmetic. -/
noncomputable def stackField (R : ℕ → ℕ → ℕ → ℝ) (weights : List ℝ) (scales : List ℤ) (m n : ℕ) (normalize : Bool) :
    Except PyErr (ℕ → ℕ → ℝ) :=
  if weights.length ≠ scales.length then .error .valueError
  else
    let f := stackSum R weights scales m n
    if normalize = false then .ok f
    else match fmin f m n, fmax f m n with
      | some lo, some hi => if hi = lo then .error .assertionError else .ok fun i j => (f i j - lo) / (hi - lo)
      | _, _ => .error .valueError

/-! ## Masks -/

section mask
variable {ι : Type} [Fintype ι]

/-- All values of a field, `field.flatten()` (the order does not matter where this is used). -/
noncomputable def vals (f : ι → ℝ) : List ℝ := (Finset.univ.toList).map f

open Classical in
/-- Number of cells that satisfy `p`. -/
noncomputable def count (p : ι → Prop) : ℕ := (Finset.univ.filter p).card

/-- `np.isclose(a, b, rtol=1e-3)`. -/
def isclose (a b : ℝ) : Prop := |a - b| ≤ 1e-8 + 1e-3 * |b|

open Classical in
/-- `_calc_clear_mask`, cloudfield.py:174-217, for a nonempty field (`other` stands for numpy's error on an
empty one): true is clear. -/
noncomputable def clearMask (f : ι → ℝ) (frac : ℝ) : Except PyErr (ι → Bool) :=
  if frac > 1 ∨ frac < 0 then .error .valueError
  else
    match (if frac = 0 then some fun _ => false
      else (quantileLin frac (vals f)).map fun (q : ℝ) (i : ι) => if f i > q then false else true : Option (ι → Bool)) with
    | none => .error .other
    | some mask => if isclose frac ((count fun i => mask i = true : ℕ) / (Fintype.card ι : ℝ)) then .ok mask else .error .assertionError

end mask

/-! ## Edges -/

/-- `scipy.ndimage` index with `mode='reflect'`: `d c b a | a b c d | d c b a`. -/
def reflect (n : ℕ) (i : ℤ) : ℕ :=
  let p := (i % (2 * n)).toNat
  if p < n then p else 2 * n - 1 - p

/-- A cell of the reflected array. -/
def ext (f : ℕ → ℕ → ℝ) (m n : ℕ) (i j : ℤ) : ℝ := f (reflect m i) (reflect n j)

/-- `scipy.ndimage.sobel(f, 0)`: difference along axis 0, weights 1, 2, 1 along axis 1. -/
noncomputable def sobel0 (f : ℕ → ℕ → ℝ) (m n : ℕ) (i j : ℤ) : ℝ :=
  (ext f m n (i + 1) (j - 1) - ext f m n (i - 1) (j - 1)) + 2 * (ext f m n (i + 1) j - ext f m n (i - 1) j) +
    (ext f m n (i + 1) (j + 1) - ext f m n (i - 1) (j + 1))

/-- `scipy.ndimage.sobel(f, 1)`. -/
noncomputable def sobel1 (f : ℕ → ℕ → ℝ) (m n : ℕ) (i j : ℤ) : ℝ :=
  (ext f m n (i - 1) (j + 1) - ext f m n (i - 1) (j - 1)) + 2 * (ext f m n i (j + 1) - ext f m n i (j - 1)) +
    (ext f m n (i + 1) (j + 1) - ext f m n (i + 1) (j - 1))

/-- The mask as numbers, 1 where clear. -/
def maskVal (mask : ℕ → ℕ → Bool) (i j : ℕ) : ℝ := if mask i j then 1 else 0

/-- `edges` of `_find_edges`, cloudfield.py:243. -/
noncomputable def edges (mask : ℕ → ℕ → Bool) (m n : ℕ) (i j : ℕ) : ℝ :=
  |sobel0 (maskVal mask) m n i j ^ 2 + sobel1 (maskVal mask) m n i j ^ 2|

/-- `scipy.ndimage.uniform_filter(f, size=s)`: mean over `s × s` cells starting `s // 2` before the cell; the
filter passes over the axes with a size of 1 or less, so that a size of 0 changes nothing. -/
noncomputable def uniformFilter (f : ℕ → ℕ → ℝ) (m n s : ℕ) (i j : ℕ) : ℝ :=
  if s = 0 then f i j
  else ((cells s s).map fun c => ext f m n ((i : ℤ) - (s / 2 : ℕ) + c.1) ((j : ℤ) - (s / 2 : ℕ) + c.2)).sum / (s : ℝ) ^ 2

/-- Filtered edges with small values set to 0, cloudfield.py:244-247. -/
noncomputable def smoothed (mask : ℕ → ℕ → Bool) (m n s : ℕ) (i j : ℕ) : ℝ :=
  if uniformFilter (edges mask m n) m n s i j < 1e-5 then 0 else uniformFilter (edges mask m n) m n s i j

/-- `smoothed_binary` of `_find_edges`, cloudfield.py:249: without any edge `0/0` is NaN, which is not above
the threshold. -/
noncomputable def smoothedBinary (mask : ℕ → ℕ → Bool) (m n s : ℕ) (thr : ℝ) (i j : ℕ) : Prop :=
  match fmax (smoothed mask m n s) m n with
  | none => False
  | some mx => XR.lt (.fin thr) (XR.div (smoothed mask m n s i j) mx)

/-! ## Scaling -/

section scale
variable {ι : Type} [Fintype ι]

open Classical in
/-- Values in the cells that satisfy `p`. -/
noncomputable def valsOn (f : ι → ℝ) (p : ι → Prop) : List ℝ := ((Finset.univ.filter p).toList).map f

open Classical in
/-- Sum over the cells that satisfy `p`. -/
noncomputable def sumOn (f : ι → ℝ) (p : ι → Prop) : ℝ := ∑ i ∈ Finset.univ.filter p, f i

/-- `clouds3` of `_scale_field_lave`, cloudfield.py:305-309. -/
noncomputable def clouds3 (f : ι → ℝ) (fm kt1 : ℝ) (i : ι) : ℝ := max 0 (min 1 (1 - f i * (1 - kt1) / fm))

/-- `ce`, cloudfield.py:312, for `lo`, `hi` the extremes of `clouds3`: 0/0 is NaN if they agree. -/
noncomputable def laveCe (c3 : ι → ℝ) (lo hi ktmax : ℝ) (i : ι) : Option ℝ :=
  if hi = lo then none else some (1 + (c3 i - lo) / (hi - lo) * (ktmax - 1))

/-- A sum of possibly-NaN values. -/
noncomputable def osum {α : Type} (s : Finset α) (f : α → Option ℝ) : Option ℝ :=
  if ∀ i ∈ s, (f i).isSome then some (∑ i ∈ s, (f i).getD 0) else none

open Classical in
/-- `_scale_field_lave`, cloudfield.py:266-372, for a field with at least one cloudy cell whose `field_max`
is not 0 (`other` stands for numpy's error on the quantile of nothing, and for the inf/NaN field that a
division by `field_max = 0` gives); `none` is NaN.  `lo`/`hi` are
`np.min`/`np.max` of `clouds3`.  Where the quotient `tgt_cloud_mean / current_cloud_mean` is not finite,
all cells that keep it have `clouds3 = 0`, so that the product is NaN. -/
noncomputable def scaleLave (f : ι → ℝ) (clear edge : ι → Bool) (ktmean ktmax kt1 maxQuant : ℝ) : Except PyErr (ι → Option ℝ) :=
  match quantileLin maxQuant (valsOn f fun i => clear i = false) with
  | none => .error .other
  | some fm =>
    if fm = 0 then .error .other else
    let c3 := clouds3 f fm kt1
    match omax ((vals c3).map some), (omax ((vals fun i => -c3 i).map some)).map fun (v : ℝ) => -v with
    | some hi, some lo =>
      let ce := laveCe c3 lo hi ktmax
      let cloud := fun i => clear i = false ∧ edge i = false
      let diffSum : Option ℝ := (osum (Finset.univ.filter fun i => edge i = true ∧ clear i = false) ce).map fun (e : ℝ) =>
        (Fintype.card ι : ℝ) * ktmean - (count fun i => clear i = true : ℕ) - e
      let tgt (d : ℝ) := d / (count cloud : ℕ)
      let cur := sumOn c3 cloud / (count cloud : ℕ)
      let c4 (i : ι) : Option ℝ :=
        match diffSum with
        | none => some (c3 i)
        | some d => if 0 < d then (if cur = 0 then none else some (tgt d / cur * c3 i)) else some (c3 i)
      .ok fun i => if clear i then some 1 else if edge i then ce i else c4 i
    | _, _ => .error .other

/-- `clouds_fr` of `_scale_field_basic`, cloudfield.py:414-423. -/
noncomputable def cloudsFr (f : ι → ℝ) (lo hi : ℝ) (flip : Bool) (i : ι) : ℝ :=
  let a := (f i - lo) / (hi - lo)
  let b := if a > 1 then 2 - a else a
  let c := if b < 0 then -b else b
  if flip then 1 - c else c

/-- Value of a clear cell, cloudfield.py:435-439. -/
noncomputable def clearVal (cs : Option ℝ) (x : ℝ) : ℝ :=
  match cs with
  | none => 1
  | some c => x * (1 - c) + c

/-- `clouds5` before the cloudy cells are filled in, cloudfield.py:425-439. -/
noncomputable def basicBase (fr : ι → ℝ) (clear edge : ι → Bool) (ktmax : ℝ) (cs : Option ℝ) (i : ι) : ℝ :=
  if clear i then clearVal cs (fr i) else if edge i then fr i * (ktmax - 1) + 1 else 0

open Classical in
/-- `_scale_field_basic`, cloudfield.py:374-476, for a field with cloudy cells whose two quantiles differ
(`other` otherwise: numpy's error on the quantile of nothing, or a field of NaN).  The second component
tells whether the warning was printed. -/
noncomputable def scaleBasic (f : ι → ℝ) (clear edge : ι → Bool) (ktmean ktmax kt1 quant : ℝ) (flip : Bool) (cs : Option ℝ) : Except PyErr ((ι → ℝ) × Bool) :=
  match quantileLin quant (valsOn f fun i => clear i = false), quantileLin (1 - quant) (valsOn f fun i => clear i = false) with
  | some hi, some lo =>
    if hi = lo then .error .other
    else
      let fr := cloudsFr f lo hi flip
      let cloud := fun i => clear i = false ∧ edge i = false
      let base := basicBase fr clear edge ktmax cs
      let baseline := kt1 * (count cloud : ℕ)
      let tgt := (Fintype.card ι : ℝ) * ktmean - (∑ i, base i) - baseline
      let cur := sumOn fr cloud
      if 0 < tgt ∧ tgt < cur ∧ baseline < cur then
        .ok (fun i => if clear i = false ∧ edge i = false then fr i * tgt / cur + kt1 else base i, false)
      else .ok (fun i => if clear i = false ∧ edge i = false then fr i * (1 - kt1) + kt1 else base i, true)
  | _, _ => .error .other

end scale

/-! ## Reading the field -/

/-- Python slice bound: negative counts from the end, then clipped to `[0, n]`. -/
def sliceIdx (n : ℕ) (i : ℤ) : ℕ := (min (max (if i < 0 then i + n else i) 0) n).toNat

/-- `get_positional_ts`, cloudfield.py:541-569, on an `m × n` field: rows `x .. x + int(duration)` of column
`y`; `IndexError` for a column outside `-n .. n-1`, `ZeroDivisionError` (`other`) for speed 0. -/
noncomputable def positionalTs (f : ℕ → ℕ → ℝ) (m n : ℕ) (pos : ℝ × ℝ) (speed duration : ℝ) : Except PyErr (List ℝ) :=
  if speed = 0 then .error .other
  else
    let x := pyInt (pos.1 / speed)
    let y := pyInt (pos.2 / speed)
    if y < -n ∨ n ≤ y then .error .indexError
    else
      let a := sliceIdx m x
      let b := sliceIdx m (x + pyInt duration + 1)
      let c := (if y < 0 then y + n else y).toNat
      .ok ((List.range (b - a)).map fun (k : ℕ) => f (a + k) c)

/-- `get_positional_ts` with all its arguments, cloudfield.py:541-569: `pixres`, documented as the resolution of the field in seconds, does
not occur in the body. -/
noncomputable def getPositionalTs (pos : ℝ × ℝ) (f : ℕ → ℕ → ℝ) (m n : ℕ) (speed : ℝ) (duration : ℝ := 3600) (pixres : ℝ := 1) : Except PyErr (List ℝ) :=
  let _ := pixres
  positionalTs f m n pos speed duration

/-! ## The whole generator -/

/-- `cloudfield_timeseries`, cloudfield.py:573-622; `R1`, `R2` are the grids drawn for the two stacked
fields.  The field is read as a function on `Fin m × Fin n`. -/
noncomputable def cloudfield (R1 R2 : ℕ → ℕ → ℕ → ℝ) (weights : List ℝ) (scales : List ℤ) (m n : ℕ) (fracClear ktmean ktmax kt1 : ℝ)
    (scaling : String) (edgesmoothing : ℕ) : Except PyErr (Fin m × Fin n → Option ℝ) := do
  let cf ← stackField R1 weights scales m n false
  let cm ← stackField R2 weights scales m n false
  let mask ← clearMask (fun p : Fin m × Fin n => cm p.1 p.2) fracClear
  let mask2 : ℕ → ℕ → Bool := fun i j => if h : i < m ∧ j < n then mask (⟨i, h.1⟩, ⟨j, h.2⟩) else false
  if scaling = "original" then
    scaleLave (fun p => cf p.1 p.2) mask (fun p => open Classical in decide (0 < edges mask2 m n p.1 p.2)) ktmean ktmax kt1 0.99
  else if scaling = "basic" then
    (scaleBasic (fun p => cf p.1 p.2) mask (fun p => open Classical in decide (smoothedBinary mask2 m n edgesmoothing 0 p.1 p.2)) ktmean ktmax kt1 0.999 false none).map
      fun r p => some (r.1 p)
  else .error .valueError

/-! ## Statistics of a series -/

open Classical in
/-- `get_timeseries_stats`, cloudfield.py:478-538, without the wavelets: mean, 1st percentile, maximum, clear
fraction (samples above the threshold over all samples) and variability score times 1e4. -/
noncomputable def tsStats (kt : List (Option ℝ)) (thr : ℝ) : Option ℝ × Option ℝ × Option ℝ × ℝ × Option ℝ :=
  (pdMean kt, quantileLin 0.01 (kt.filterMap id), omax kt, ((kt.filter fun o => ∃ v, o = some v ∧ thr < v).length : ℝ) / kt.length,
    (scoreRaw kt 1).map fun (v : ℝ) => v * 1e4)

end SST.Cloud
