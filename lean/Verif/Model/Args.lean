import Verif.Model.Cmv
import Verif.Model.Filters
import Verif.Model.Cloud

/-!
# Kinds of arguments the documentation allows

The other models take arguments of one kind (lists of numbers, single columns).  Here the functions are modelled for the
further kinds of arguments named in their documentation, and for the process-wide state they touch.
-/

namespace SST.Args
open SST SST.Spatial SST.Dft SST.Tf SST.Filters SST.Cmv

/-! ## `reference_id` of `compute_cmv`: "numeric, str, iterable, or None" -/

section refs
variable {ι : Type} [DecidableEq ι]

/-- An iterable of site ids: a list, tuple, array or set (`in` looks for an equal element); an iterator or generator (`in` takes
elements from it until one is equal); a pandas Series with its labels (`in` looks at the labels). -/
inductive Refs (ι : Type)
  | sized (l : List ι)
  | once (l : List ι)
  | series (l : List (ι × ι))

/-- What is left of an iterator after looking for `x`. -/
def dropThrough (x : ι) : List ι → List ι
  | [] => []
  | y :: l => if y = x then l else dropThrough x l

/-- `x in refs`: the answer, and the iterable afterwards. -/
def Refs.contains (x : ι) : Refs ι → Bool × Refs ι
  | .sized l => (decide (x ∈ l), .sized l)
  | .once l => (decide (x ∈ l), .once (dropThrough x l))
  | .series l => (decide (x ∈ l.map Prod.fst), .series l)

/-- The loop of `_get_pairs`, cmv.py:122-125: `pair[0] in must_contain or pair[1] in must_contain`. -/
def selectPairs : Refs ι → List (ι × ι) → List (ι × ι)
  | _, [] => []
  | r, p :: ps =>
    let a := r.contains p.1
    if a.1 then p :: selectPairs a.2 ps
    else
      let b := a.2.contains p.2
      if b.1 then p :: selectPairs b.2 ps else selectPairs b.2 ps

/-- `compute_cmv`, cmv.py:133-395, for a `reference_id` that is an iterable of any kind. -/
noncomputable def computeCmvRefs (x : Ext) (ts : List (ι × List (Option ℝ))) (pos : List (ι × Vec)) (ref : Refs ι)
    (method backend : String) (options : Option Dict) : Except PyErr (Cmv.Out ι) × Option Dict :=
  if method.toLower ∉ ["jamaly", "gagne"] then (.error .valueError, options)
  else if backend.toLower ∉ ["xcorr", "tf"] then (.error .valueError, options)
  else
    let pairs := selectPairs ref (combosRepl (pos.map Prod.fst))
    if pairs = [] then (.error .indexError, options)
    else match pairs.mapM (statOf x ts pos backend.toLower) with
      | .error e => (.error e, options)
      | .ok stats =>
        let v := validateOptions method.toLower options
        (v.1.map fun o => finish x method.toLower o stats, v.2)

/-! ## numpy's error state -/

/-- Reactions to floating point errors that numpy knows. -/
inductive ErrMode
  | ignore | warn | raise | call | print | log
  deriving DecidableEq

/-- The process-wide state read by `np.geterr()`. -/
structure NpErr where
  divide : ErrMode
  over : ErrMode
  under : ErrMode
  invalid : ErrMode

/-- `compute_cmv` with the error state: cmv.py:224-226, after the names have been checked, before anything else. -/
noncomputable def computeCmvErr (x : Ext) (ts : List (ι × List (Option ℝ))) (pos : List (ι × Vec)) (ref : RefArg ι)
    (method backend : String) (options : Option Dict) (s : NpErr) : (Except PyErr (Cmv.Out ι) × Option Dict) × NpErr :=
  (computeCmv x ts pos ref method backend options,
    if method.toLower ∉ ["jamaly", "gagne"] then s
    else if backend.toLower ∉ ["xcorr", "tf"] then s
    else { s with divide := .ignore, invalid := .ignore })

end refs

/-! ## `apply_delay` on the frames made by `averaged_tf` -/

/-- numpy's product of two 1-D arrays: equal lengths, or one of them of length 1. -/
def bmul (a b : List ℂ) : Except PyErr (List ℂ) :=
  if a.length = b.length then .ok (List.zipWith (· * ·) a b)
  else match a, b with
    | [x], b => .ok (b.map (x * ·))
    | a, [y] => .ok (a.map (· * y))
    | _, _ => .error .valueError

/-- `apply_delay`, signalproc.py:852-880, on a frame: one row of values per frequency.  The result is a one-dimensional
sequence (`values.flatten()` goes row by row). -/
noncomputable def applyDelayFrame (rows : List (ℝ × List ℂ)) (delay : ℝ) : Except PyErr (List ℂ) :=
  bmul (rows.flatMap Prod.snd) (rows.map fun r => Complex.exp (2 * Real.pi * Complex.I * r.1 * (-delay)))

/-! ## `get_1d_plant` with integers -/

/-- A numpy array of integers or of floats. -/
inductive NArr
  | ints (l : List ℤ)
  | floats (l : List ℝ)

/-- An integer or a float. -/
inductive NNum
  | int (k : ℤ)
  | float (v : ℝ)

/-- The numbers in an array. -/
def NArr.vals : NArr → List ℝ
  | .ints l => l.map fun (k : ℤ) => (k : ℝ)
  | .floats l => l

/-- The number. -/
def NNum.val : NNum → ℝ
  | .int k => k
  | .float v => v

/-- `a -= b`: an array of integers cannot hold the difference to a float (`UFuncTypeError`, a `TypeError`). -/
def NArr.isub : NArr → NNum → Except PyErr NArr
  | .ints l, .int k => .ok (.ints (l.map fun (c : ℤ) => c - k))
  | .ints _, .float _ => .error .typeError
  | .floats l, b => .ok (.floats (l.map fun (c : ℝ) => c - b.val))

/-- `get_1d_plant`, signalproc.py:883-959, by the type of its arguments: `centers -= ref_center` (line 930) works in place. -/
noncomputable def get1dPlantTyped (centers : NArr) (ref : NNum) (width : Option ℝ) (shape : String) (dx xmax : ℝ) :
    Except PyErr (List ℝ × List ℝ) :=
  match centers.isub ref with
  | .error e => .error e
  | .ok cs => get1dPlant cs.vals 0 width shape dx xmax

/-! ## `get_camfilter` with latitude and longitude -/

/-- `get_camfilter`, signalproc.py:1088-1104, for sites and a reference given by latitude and longitude: every row is converted in
the UTM zone of its own longitude (`latlon2utm` without `zone`). -/
noncomputable def getCamfilterLL (P : Projector) (sites : List (ℝ × ℝ)) (speed : ℝ) (dir : ℝ × ℝ) (ref : ℝ × ℝ) (width : Option ℝ)
    (shape : String) (dx xmax : ℝ) : Except PyErr (List (ℝ × Option ℂ)) :=
  let en := sites.map fun s => latlon2utm1 P s.1 s.2 none
  let r := latlon2utm1 P ref.1 ref.2 none
  getCamfilter (en.map fun q => q.1) (en.map fun q => q.2.1) speed dir (r.1, r.2.1) width shape dx xmax

/-- The reference passed to `get_camfilter`: one row (a pandas Series), or a frame of rows ("a subset of positions"). -/
inductive RefPos
  | row (e n : ℝ)
  | frame (rows : List (ℝ × ℝ))

/-- Shape of the array of vectors made by `compute_vectors`, spatial.py:489-498: each of the `n` sites minus `refpt[0:2]`, which for
a row is the pair of coordinates and for a frame its first two rows. -/
def vectorsShape (n : ℕ) : RefPos → List ℕ
  | .row _ _ => [n, 2]
  | .frame rows => [n, min rows.length 2, 2]

/-- `get_camfilter`, signalproc.py:1047-1104, for sites in UTM coordinates by the kind of reference: a DataFrame can only be made
from an array of two dimensions (spatial.py:501, `ValueError`). -/
noncomputable def getCamfilterRef (es ns : List ℝ) (speed : ℝ) (dir : ℝ × ℝ) (ref : RefPos) (width : Option ℝ) (shape : String)
    (dx xmax : ℝ) : Except PyErr (List (ℝ × Option ℂ)) :=
  if (vectorsShape es.length ref).length ≠ 2 then .error .valueError
  else
    let r := match ref with
      | .row e n => (e, n)
      | .frame rows => rows.headD (0, 0)
    getCamfilter es ns speed dir r width shape dx xmax

/-! ## `apply_filter` on frames -/

/-- A numpy array of one or two dimensions. -/
inductive Nd (α : Type)
  | d1 (l : List α)
  | d2 (rows : List (List α))

/-- A function along the last axis. -/
def Nd.lastAxis {α β : Type} (g : List α → List β) : Nd α → Nd β
  | .d1 l => .d1 (g l)
  | .d2 rows => .d2 (rows.map g)

/-- `len(a)`. -/
def Nd.len {α : Type} : Nd α → ℕ
  | .d1 l => l.length
  | .d2 rows => rows.length

/-- `a.shape[-1]`. -/
def Nd.lastDim {α : Type} : Nd α → ℕ
  | .d1 l => l.length
  | .d2 rows => (rows.headD []).length

/-- `pd.Series(a, index=...)`: one dimension only. -/
def Nd.toSeries {α : Type} : Nd α → Except PyErr (List α)
  | .d1 l => .ok l
  | .d2 _ => .error .valueError

/-- A filter: a Series, or a DataFrame given by its columns. -/
inductive Filt
  | series (l : List (ℝ × ℂ))
  | frame (cols : List (List (ℝ × ℂ)))

/-- The frequencies in the index. -/
def Filt.freqs : Filt → List ℝ
  | .series l => l.map Prod.fst
  | .frame cols => (cols.headD []).map Prod.fst

/-- `input_fft * interp_filt`, signalproc.py:1039: with a Series of filter values the values of each row are multiplied one by one
(lengths agree by construction; an array of two dimensions stays one); with a frame a one-dimensional array is matched with the
columns, so its length must be their number (`ValueError`), and the result has two dimensions. -/
noncomputable def mulFilt (X : Nd ℂ) (fv : List ℝ) : Filt → Except PyErr (Nd ℂ)
  | .series l => (interpTf fv l).map fun (H : List ℂ) => X.lastAxis fun r => List.zipWith (· * ·) r H
  | .frame cols => (cols.mapM (interpTf fv)).bind fun Hs =>
      if X.lastDim ≠ Hs.length then .error .valueError
      else match X with
        | .d1 l => .ok (.d2 ((List.range fv.length).map fun i => List.zipWith (fun a (H : List ℂ) => a * H.getD i 0) l Hs))
        | .d2 rows => .ok (.d2 rows)

/-- `apply_filter`, signalproc.py:1006-1044, for a Series or DataFrame as signal and as filter: the transforms run along the last
axis, which for a frame are its rows. Frames have at least one column.  (What a frame times a frame holds is left out; it has two
dimensions.) -/
noncomputable def applyFilterAny (dt : ℝ) (x : Nd ℝ) (filt : Filt) : Except PyErr (List ℝ) :=
  if x.len < 2 then .error .indexError
  else
    let X := x.lastAxis fun r => (fft (r.map fun (v : ℝ) => (v : ℂ))).map fun (z : ℂ) => z * 2 / (x.len : ℂ)
    let fv := fftfreq x.lastDim dt
    if ∃ f ∈ fv, ∀ g ∈ filt.freqs, g < f then .error .valueError
    else (mulFilt X fv filt).bind fun Y =>
      (Y.lastAxis fun r => (ifft (r.map fun (z : ℂ) => z * (x.len : ℂ) / 2)).map Complex.re).toSeries

end SST.Args
