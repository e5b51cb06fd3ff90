import Verif.Model.Tf
import Verif.Model.Spatial

/-!
# Model of the filter part of `src/solarspatialtools/signalproc.py` (lines 883-1150)

Exact arithmetic.  `dx`, the time step and the plant size are positive, the cloud speed is nonzero,
the width of a gaussian site is nonzero (otherwise numpy produces inf/NaN).  NaN is `none`.
-/

namespace SST.Filters
open SST SST.Dft SST.Tf SST.Spatial

/-- `np.arange(a, b, d)` for positive `d`. -/
noncomputable def arange (a b d : ℝ) : List ℝ := (List.range ⌈(b - a) / d⌉.toNat).map fun (i : ℕ) => a + i * d

/-- `x_vec = np.arange(-xmax//2, xmax//2, dx)`, signalproc.py:933. -/
noncomputable def xVec (xmax dx : ℝ) : List ℝ := arange ⌊-xmax / 2⌋ ⌊xmax / 2⌋ dx

/-- `plant[inds] = 1`, signalproc.py:944-946. -/
noncomputable def markSquare (w : ℝ) (xs plant : List ℝ) (c : ℝ) : List ℝ :=
  List.zipWith (fun x p => if c - w / 2 ≤ x ∧ x < c + w / 2 then 1 else p) xs plant

/-- `plant[inds] = x_vec[inds] - center + w/2`, signalproc.py:949-951. -/
noncomputable def markTriangle (w : ℝ) (xs plant : List ℝ) (c : ℝ) : List ℝ :=
  List.zipWith (fun x p => if c - w / 2 ≤ x ∧ x < c + w / 2 then x - c + w / 2 else p) xs plant

/-- `plant += exp(-(x-center)²/(2 (w/2.355)²))`, signalproc.py:955. -/
noncomputable def addGaussian (w : ℝ) (xs plant : List ℝ) (c : ℝ) : List ℝ :=
  List.zipWith (fun x p => p + Real.exp (-(x - c) ^ 2 / (2 * (w / 2.355) ^ 2))) xs plant

/-- `get_1d_plant`, signalproc.py:883-959. -/
noncomputable def get1dPlant (centers : List ℝ) (refCenter : ℝ) (width : Option ℝ) (shape : String) (dx xmax : ℝ) :
    Except PyErr (List ℝ × List ℝ) :=
  let w := width.getD dx
  let cs := centers.map fun c => c - refCenter
  let xs := xVec xmax dx
  let zeros := xs.map fun _ => (0 : ℝ)
  if shape.toLower = "square" then .ok (cs.foldl (markSquare w xs) zeros, xs)
  else if shape.toLower = "triangle" then .ok (cs.foldl (markTriangle w xs) zeros, xs)
  else if shape.toLower = "gaussian" then .ok (cs.foldl (addGaussian w xs) zeros, xs)
  else .error .valueError

/-- Phase shift of one filter value, signalproc.py:996-1002. -/
noncomputable def shiftPhase (V tmin f : ℝ) (z : ℂ) : ℂ :=
  if 0 < V then z * Complex.exp (Complex.I * f * (2 * Real.pi) * tmin)
  else (starRingEnd ℂ) (z * Complex.exp (Complex.I * f * (2 * Real.pi) * -tmin))

/-- `plant1d_to_camfilter`, signalproc.py:962-1003: frequencies and values; a plant that adds up to 0
gives NaN everywhere. -/
noncomputable def camfilter (plant xs : List ℝ) (V : ℝ) : Except PyErr (List (ℝ × Option ℂ)) :=
  match xs with
  | x0 :: x1 :: rest =>
    let dx := x1 - x0
    let s := plant.sum
    let F := fft (plant.map fun (v : ℝ) => ((v / s : ℝ) : ℂ))
    let f := fftfreq plant.length (dx / |V|)
    let tmin := ((x1 :: rest).foldl min x0) / V
    .ok (List.zipWith (fun f z => (f, if s = 0 then none else some (shiftPhase V tmin f z))) f F)
  | _ => .error .indexError

/-- `get_camfilter`, signalproc.py:1047-1104, for positions in UTM coordinates: easting/northing per
site and a reference.  A zero cloud direction projects everything to NaN: square and triangle sites
are then never matched, gaussians make the whole plant NaN.  Without any site the empty array of vectors has one dimension, from
which pandas makes no frame of two columns (spatial.py:501, `ValueError`). -/
noncomputable def getCamfilter (es ns : List ℝ) (speed : ℝ) (dir ref : ℝ × ℝ) (width : Option ℝ) (shape : String) (dx xmax : ℝ) :
    Except PyErr (List (ℝ × Option ℂ)) :=
  if es = [] then .error .valueError else
  let dists := projectVectors (computeVectors es ns ref []) dir
  (get1dPlant (dists.filterMap id) 0 width shape dx xmax).bind fun p =>
    (camfilter p.1 p.2 speed).map fun r =>
      if shape.toLower = "gaussian" ∧ none ∈ dists then r.map fun q => (q.1, none) else r

/-- `apply_filter`, signalproc.py:1006-1044, for one series of at least two samples (`IndexError`
otherwise) and a filter without NaN. -/
noncomputable def applyFilter (dt : ℝ) (x : List ℝ) (filt : List (ℝ × ℂ)) : Except PyErr (List ℝ) :=
  if x.length < 2 then .error .indexError
  else
    let X := (fft (x.map fun (v : ℝ) => (v : ℂ))).map fun (z : ℂ) => z * 2 / (x.length : ℂ)
    let fv := fftfreq x.length dt
    if ∃ f ∈ fv, ∀ p ∈ filt, p.1 < f then .error .valueError
    else
      (interpTf fv filt).map fun (H : List ℂ) =>
        (ifft (List.zipWith (fun (a b : ℂ) => a * b * (x.length : ℂ) / 2) X H)).map Complex.re

/-- `get_marcosfilter`, signalproc.py:1107-1131; `freq = None` is 100 points from 0 to 0.5. -/
noncomputable def marcosFilter (s : ℝ) (freq : Option (List ℝ)) : List (ℝ × ℂ) :=
  let fs := freq.getD ((List.range 100).map fun (i : ℕ) => (i : ℝ) * (0.5 / 99))
  let fc := 0.02 / Real.sqrt s
  fs.map fun f => (f, 1 / (Complex.I * f / fc + 1))

/-- `cleanfreq`, signalproc.py:1134-1150: the new index of the argument (labels, `none` for a missing
label), which is changed in place; the function itself returns None.  `IndexError` for an empty
signal. -/
def cleanfreq {α : Type} (index : List (Option α)) : Except PyErr (List (Option α) × Unit) :=
  if index.length = 0 then .error .indexError else .ok (index.set (index.length / 2) none, ())

end SST.Filters
