import Verif.Model.Spatial
import Mathlib.Data.List.Lex
import Mathlib.Data.Char
import Mathlib.Data.List.GetD

/-!
# Model of `src/solarspatialtools/dataio/` and of the histogram in `visualization/vis_tools.py`

Strings are lists of characters.  File systems and HDF files are values; a function that writes is modelled by the list of
elementary effects it performs, in order, together with the exception that ends it, so that a crash is a prefix of that list.
-/

namespace SST.DataIO
open SST

abbrev Str := List Char

/-! ## iotools.py -/

/-- Position of the last dot of a name. -/
def lastDot : Str → Option ℕ
  | [] => none
  | c :: cs => match lastDot cs with
    | some d => some (d + 1)
    | none => if c = '.' then some 0 else none

/-- `os.path.splitext` for a name without path separators (used at iotools.py:104 and nrcan_data.py:150): split at the last dot,
unless only dots precede it. -/
def splitext (p : Str) : Str × Str :=
  match lastDot p with
  | none => (p, [])
  | some d => if (p.take d).any (· ≠ '.') then (p.take d, p.drop d) else (p, [])

/-- The loop at iotools.py:101-107. -/
def selected (ext : Option Str) (baselist : List Str) : List Str :=
  match ext with
  | some x => baselist.filter fun fn => (splitext fn).2 = x
  | none => baselist

/-- `getfiles`, iotools.py:80-113.  The directory is the result of `os.listdir` (in some order), with a mark telling directories
from files; `none` stands for a path that cannot be listed.  Python compares strings by code points, as the order on `List Char`. -/
def getfiles (dir : Option (List (Str × Bool))) (ext : Option Str) (sort : Bool) : Except PyErr (List Str) :=
  match dir with
  | none => .error .osError
  | some entries =>
    let files := selected ext (entries.map fun e : Str × Bool => e.1)
    .ok (if sort then files.mergeSort (fun a b => decide (a ≤ b)) else files)

/-- Regular files and their contents. -/
abbrev FS := Str → Option (List UInt8)

/-- Elementary effects of a download. -/
inductive Act where
  | request (url : Str)
  | create (path : Str)
  | append (path : Str) (block : List UInt8)

def Act.apply (fs : FS) : Act → FS
  | .request _ => fs
  | .create p => fun q => if q = p then some [] else fs q
  | .append p b => fun q => if q = p then (fs q).map (· ++ b) else fs q

def run (fs : FS) (acts : List Act) : FS := acts.foldl Act.apply fs

/-- The server: the blocks in which the content of a URL arrives, or `none` if it cannot be opened. -/
abbrev Web := Str → Option (List (List UInt8))

/-- `os.path.join`. Simplification: the directory does not end with a separator and the name does not start with one. -/
def join (dir fn : Str) : Str := dir ++ '/' :: fn

/-- `os.path.split(u)[-1]`, iotools.py:53: what follows the last slash. -/
def basename (u : Str) : Str := (u.reverse.takeWhile (· ≠ '/')).reverse

/-- White space of `str.split` (the ASCII part). -/
def isWs (c : Char) : Bool := c = ' ' || c = '\t' || c = '\n' || c = '\r' || c = '\x0b' || c = '\x0c'

/-- `row.split()[-1].strip()`, iotools.py:51; `none` is the `IndexError` of a blank row.
Simplification: rows are already decoded from UTF-8. -/
def lastWord (row : Str) : Option Str :=
  let body := row.reverse.dropWhile isWs
  if body = [] then none else some (body.takeWhile fun c => !isWs c).reverse

/-- `download`, iotools.py:6-23: `urllib.request.urlretrieve` opens the URL, then the target file for writing (which empties it, and
which fails when the path has no file name, that is, when it names the directory), then copies block by block. -/
def download (web : Web) (u p fn : Str) : List Act × Option PyErr :=
  match web u with
  | none => ([.request u], some .osError)
  | some blocks =>
    if fn = [] then ([.request u], some .osError)
    else (.request u :: .create p :: blocks.map (Act.append p), none)

/-- The loop of `wget_fromurl`, iotools.py:47-61. -/
def wgetRows (web : Web) (dir : Str) : List Str → FS → List Act × Option PyErr
  | [], _ => ([], none)
  | row :: rows, fs =>
    match lastWord row with
    | none => ([], some .indexError)
    | some u =>
      let fn := basename u
      let p := join dir fn
      if (fs p).isSome then wgetRows web dir rows fs
      else
        match download web u p fn with
        | (acts, some e) => (acts, some e)
        | (acts, none) =>
          let r := wgetRows web dir rows (run fs acts)
          (acts ++ r.1, r.2)

/-! ## hope_campaign.py: quality control -/

/-- A data frame with unique row and column labels; `none` is NaN. -/
structure Frame (τ κ : Type) where
  rows : List τ
  cols : List κ
  val : τ → κ → Option ℝ

open Classical in
/-- `flag_qc`, hope_campaign.py:116-137: the mask is aligned with the data; cells without a flag, or whose flag is NaN, are kept. -/
noncomputable def flagQc {τ κ : Type} (data flag : Frame τ κ) (level : ℝ) : Frame τ κ :=
  { data with val := fun t c =>
      if t ∈ flag.rows ∧ c ∈ flag.cols ∧ (∃ f, flag.val t c = some f ∧ level ≤ f) then none else data.val t c }

open Classical in
/-- `null_qc`, hope_campaign.py:140-157. -/
noncomputable def nullQc {τ κ : Type} (data : Frame τ κ) : Frame τ κ :=
  { data with val := fun t c => if ∃ v, data.val t c = some v ∧ v < -100 then none else data.val t c }

/-- Is there a value at position `k`? -/
def validAt (s : List (Option ℝ)) (k : ℕ) : Bool := (s.getD k none).isSome

/-- The last position before `k` with a value. -/
def prevValid (s : List (Option ℝ)) : ℕ → Option ℕ
  | 0 => none
  | k + 1 => if validAt s k then some k else prevValid s k

/-- The first position after `k` with a value. -/
def nextValid (s : List (Option ℝ)) (k : ℕ) : Option ℕ :=
  ((List.range (s.length - (k + 1))).map fun i => k + 1 + i).find? fun j => validAt s j

/-- The number at position `k`. -/
noncomputable def numAt (s : List (Option ℝ)) (k : ℕ) : ℝ := (s.getD k none).getD 0

/-- One sample of `Series.interpolate(limit=limit, limit_area='inside')`, hope_campaign.py:184: linear between the neighbouring values
by position, at most `limit` samples after the last value, and nothing before the first or after the last value. -/
noncomputable def interpAt (limit : ℕ) (s : List (Option ℝ)) (k : ℕ) : Option ℝ :=
  match s.getD k none with
  | some v => some v
  | none =>
    match prevValid s k, nextValid s k with
    | some i, some j =>
      if k - i ≤ limit then some (numAt s i + (numAt s j - numAt s i) * ((k - i : ℕ) : ℝ) / ((j - i : ℕ) : ℝ)) else none
    | _, _ => none

noncomputable def interpolate (limit : ℕ) (s : List (Option ℝ)) : List (Option ℝ) :=
  (List.range s.length).map (interpAt limit s)

open Classical in
/-- The positions in the time window of `limit` seconds, open at the far end, that ends at position `k` (for a decreasing index it reaches
into the future). -/
noncomputable def window (limit : ℕ) (times : List ℝ) (k : ℕ) : List ℕ :=
  (List.range (k + 1)).filter fun j => |times.getD k 0 - times.getD j 0| < limit

open Classical in
/-- `np.isnan(..).rolling(f'{limit}s').mean() > (limit-1)/limit` at position `k`, hope_campaign.py:188-189. -/
noncomputable def blankAt (limit : ℕ) (times : List ℝ) (s : List (Option ℝ)) (k : ℕ) : Bool :=
  decide (((limit : ℝ) - 1) / limit <
    (((window limit times k).filter fun j => !validAt s j).length : ℝ) / ((window limit times k).length : ℝ))

/-- `is_monotonic_increasing or is_monotonic_decreasing`, required of the index by pandas' rolling time windows. -/
def Monotonic (times : List ℝ) : Prop := times.Pairwise (· ≤ ·) ∨ times.Pairwise (· ≥ ·)

open Classical in
/-- The body of the loop of `interp_nan`, hope_campaign.py:181-196, for one column: pandas rejects a limit below 1 and a time index that
is neither increasing nor decreasing; `blanks_front.values | blanks_back.values` padded by `limit` must have the length of the series. -/
noncomputable def interpCol (limit : ℕ) (times : List ℝ) (s : List (Option ℝ)) : Except PyErr (List (Option ℝ)) :=
  if limit = 0 then .error .valueError
  else if ¬ Monotonic times then .error .valueError
  else
    let a := interpolate limit s
    let blanks := (List.range s.length).map (blankAt limit times a)
    let front := blanks.take (s.length - 2 * limit)
    let back := blanks.drop (2 * limit)
    let padded := List.replicate limit false ++ List.zipWith or front back ++ List.replicate limit false
    if padded.length ≠ s.length then .error .valueError
    else .ok (List.zipWith (fun (v : Option ℝ) (b : Bool) => if b then none else v) a padded)

/-- `interp_nan`, hope_campaign.py:160-198, column by column. -/
noncomputable def interpNan {κ : Type} (limit : ℕ) (times : List ℝ) : List (κ × List (Option ℝ)) → Except PyErr (List (κ × List (Option ℝ)))
  | [] => .ok []
  | (c, s) :: rest =>
    match interpCol limit times s with
    | .error e => .error e
    | .ok s' =>
      match interpNan limit times rest with
      | .error e => .error e
      | .ok rest' => .ok ((c, s') :: rest')

/-! ## HDF files -/

/-- A stored table. -/
structure Tbl (κ ρ : Type) where
  cols : List κ
  rows : List ρ

/-- The keys used by the two converters. -/
inductive Key where
  | latlon | data | flag | tilt
deriving DecidableEq

/-- An HDF file, or no file. -/
abbrev HFile (κ ρ : Type) := Option (Key → Option (Tbl κ ρ))

/-- Elementary effects on the target file. -/
inductive HAct (κ ρ : Type) where
  | remove
  | put (k : Key) (t : Tbl κ ρ)
  | append (k : Key) (t : Tbl κ ρ)

/-- How a row is brought from one order of the columns (the second list) into another. -/
class Rearrange (κ ρ : Type) where
  rearrange : List κ → List κ → ρ → ρ

instance {κ τ : Type} [DecidableEq κ] : Rearrange κ (τ × List (Option ℝ)) :=
  ⟨fun new old r => (r.1, new.map fun c => r.2.getD (old.idxOf c) none)⟩

/-- `os.remove`, `DataFrame.to_hdf(mode='a')` and `DataFrame.to_hdf(mode='a', append=True)`: the former replaces the key, the latter
adds rows at the end; columns in another order are brought into the stored order; other columns raise `ValueError`.  A frame without rows
or without columns is not appended at all (only the file is created). -/
def HAct.apply {κ ρ : Type} [DecidableEq κ] [Rearrange κ ρ] (h : HFile κ ρ) : HAct κ ρ → Except PyErr (HFile κ ρ)
  | .remove => match h with
    | none => .error .osError
    | some _ => .ok none
  | .put k t => .ok (some fun q => if q = k then some t else h.elim none (fun s => s q))
  | .append k t =>
    if t.rows = [] ∨ t.cols = [] then .ok (some (h.getD fun _ => none))
    else match h.elim none (fun s => s k) with
    | none => .ok (some fun q => if q = k then some t else h.elim none (fun s => s q))
    | some t' =>
      if t'.cols = t.cols then .ok (some fun q => if q = k then some ⟨t'.cols, t'.rows ++ t.rows⟩ else h.elim none (fun s => s q))
      else if t'.cols.Perm t.cols ∧ t.cols.Nodup then
        .ok (some fun q => if q = k then some ⟨t'.cols, t'.rows ++ t.rows.map (Rearrange.rearrange t'.cols t.cols)⟩ else h.elim none (fun s => s q))
      else .error .valueError

/-- Runs a program, a list of effects and raised exceptions, up to the first exception. -/
def exec {κ ρ : Type} [DecidableEq κ] [Rearrange κ ρ] (h : HFile κ ρ) : List (Except PyErr (HAct κ ρ)) → HFile κ ρ × Option PyErr
  | [] => (h, none)
  | .error e :: _ => (h, some e)
  | .ok a :: rest =>
    match a.apply h with
    | .error e => (h, some e)
    | .ok h' => exec h' rest

/-- The parts of one netCDF file: `data`, `flag`, `stationdat`. -/
structure Parsed (κ ρ : Type) where
  data : Tbl κ ρ
  flag : Tbl κ ρ
  latlon : Tbl κ ρ

/-- The loop of `dataset_to_h5`, hope_campaign.py:313-323; `i` is the loop counter. -/
def convertLoop {κ ρ : Type} (parse : Str → Except PyErr (Parsed κ ρ)) : ℕ → List Str → List (Except PyErr (HAct κ ρ))
  | _, [] => []
  | i, fn :: files =>
    match parse fn with
    | .error e => [.error e]
    | .ok p => (if i = 0 then [.ok (.put .latlon p.latlon)] else []) ++
        [.ok (.append .data p.data), .ok (.append .flag p.flag)] ++ convertLoop parse (i + 1) files

/-- `dataset_to_h5`, hope_campaign.py:267-323. `parse_file` is a parameter. -/
def datasetToH5 {κ ρ : Type} (dir : Option (List (Str × Bool))) (parse : Str → Except PyErr (Parsed κ ρ)) (h : HFile κ ρ) (overwrite : Bool) :
    List (Except PyErr (HAct κ ρ)) :=
  match getfiles dir (some ['.', 'n', 'c']) true with
  | .error e => [.error e]
  | .ok files =>
    if h.isSome then
      if overwrite then .ok .remove :: convertLoop parse 0 files else [.error .valueError]
    else convertLoop parse 0 files

/-! ## nrcan_data.py -/

/-- One sensor file: time stamps in nanoseconds, `G1` and `G2`. -/
abbrev Raw := List (ℤ × Option ℝ × Option ℝ)

/-- The labels of `resample("10ms")`: the multiples of the step from the one at or before the first to the one at or before the last
time stamp. -/
def grid (step : ℤ) (ts : List ℤ) : List ℤ :=
  match ts.head?, ts.getLast? with
  | some a, some b => (List.range ((b / step - a / step).toNat + 1)).map fun i : ℕ => (a / step + (i : ℤ)) * step
  | _, _ => []

/-- The value of the last record at or before `g` in a list sorted by time; `none` inside is NaN, and also when there is no record. -/
def lastAt (l : List (ℤ × Option ℝ)) (g : ℤ) : Option ℝ := ((l.filter fun r : ℤ × Option ℝ => r.1 ≤ g).getLast?).elim none fun r => r.2

/-- `resample(step).ffill()`, nrcan_data.py:158 and 173: pandas sorts by time, raises `ValueError` for repeated time stamps, and, when the
records (three or more) already are `step` apart, replaces the time stamps by the labels one to one instead of looking back. -/
def resampleFfill (step : ℤ) (l : List (ℤ × Option ℝ)) : Except PyErr (List (ℤ × Option ℝ)) :=
  let s := l.mergeSort (fun a b : ℤ × Option ℝ => decide (a.1 ≤ b.1))
  let ts := s.map fun r : ℤ × Option ℝ => r.1
  let g := grid step ts
  if 3 ≤ ts.length ∧ ts.IsChain (fun a b : ℤ => b = a + step) ∧ ts.length = g.length then
    .ok (List.zipWith (fun (t : ℤ) (r : ℤ × Option ℝ) => (t, r.2)) g s)
  else if ts.Nodup then .ok (g.map fun t : ℤ => (t, lastAt s t))
  else .error .valueError

/-- Series alignment: the value at label `t`, or NaN. -/
def lookup (l : List (ℤ × Option ℝ)) (t : ℤ) : Option ℝ := (l.find? fun r : ℤ × Option ℝ => r.1 = t).elim none fun r => r.2

/-- A frame under construction: the labels of the first file and the columns so far. -/
structure Wide where
  index : List ℤ
  cols : List (Str × List (Option ℝ))

/-- nrcan_data.py:160-165 and 175-180: the first sensor sets the index; later ones are aligned with it, as a column `tmp` that is then
renamed (`DataFrame.assign` adds the column at the end, or replaces the values of a column that already has the name `tmp`).
Simplification: the first sensor file has at least one record (pandas takes over the index of the next one otherwise). -/
def addCol (w : Option Wide) (col : Str) (s : List (ℤ × Option ℝ)) : Wide :=
  match w with
  | none => ⟨s.map fun r : ℤ × Option ℝ => r.1, [(col, s.map fun r : ℤ × Option ℝ => r.2)]⟩
  | some w => ⟨w.index,
      if ['t', 'm', 'p'] ∈ w.cols.map (fun c : Str × List (Option ℝ) => c.1) then
        w.cols.map fun c : Str × List (Option ℝ) => if c.1 = ['t', 'm', 'p'] then (col, w.index.map (lookup s)) else c
      else w.cols ++ [(col, w.index.map (lookup s))]⟩

/-- `str.split('_')`. -/
def splitUnderscore : Str → List Str
  | [] => [[]]
  | c :: cs => if c = '_' then [] :: splitUnderscore cs else
      match splitUnderscore cs with
      | [] => [[c]]
      | w :: ws => (c :: w) :: ws

/-- `os.path.splitext(file)[0].split('_')[1]`, nrcan_data.py:150. -/
def siteName (file : Str) : Option Str := (splitUnderscore (splitext file).1)[1]?

/-- `"latlon" in file and ".csv" in file`, nrcan_data.py:137. -/
def isLatlonFile (file : Str) : Bool := decide (['l', 'a', 't', 'l', 'o', 'n'] <:+: file) && decide (['.', 'c', 's', 'v'] <:+: file)

/-- The loop of `process_files`, nrcan_data.py:136-181. -/
def processLoop (step : ℤ) (read : Str → Except PyErr Raw) : List Str → Option (Wide × Wide) → Except PyErr (Option (Wide × Wide))
  | [], acc => .ok acc
  | file :: files, acc =>
    if isLatlonFile file then processLoop step read files acc
    else
      match read file with
      | .error e => .error e
      | .ok raw =>
        match siteName file with
        | none => .error .indexError
        | some col =>
          match resampleFfill step (raw.map fun r : ℤ × Option ℝ × Option ℝ => (r.1, r.2.1)),
              resampleFfill step (raw.map fun r : ℤ × Option ℝ × Option ℝ => (r.1, r.2.2)) with
          | .ok ghi, .ok gti => processLoop step read files
              (some (addCol (acc.map fun w : Wide × Wide => w.1) col ghi, addCol (acc.map fun w : Wide × Wide => w.2) col gti))
          | .error e, _ => .error e
          | .ok _, .error e => .error e

/-- A row of a stored frame: its label and its values. -/
abbrev Row := ℤ × List (Option ℝ)

/-- The table of a frame. -/
def Wide.tbl (w : Wide) : Tbl Str Row :=
  ⟨w.cols.map fun c : Str × List (Option ℝ) => c.1,
   (List.range w.index.length).map fun i => (w.index.getD i 0, w.cols.map fun c : Str × List (Option ℝ) => c.2.getD i none)⟩

/-- `process_files`, nrcan_data.py:106-185. `latlon` is the table read from `latlon_file`; with no sensor file the name `data_ghi` is
unbound when it is to be saved, after `latlon` has been written. -/
def processFiles (step : ℤ) (dir : Option (List (Str × Bool))) (read : Str → Except PyErr Raw) (latlon : Except PyErr (Tbl Str Row)) :
    List (Except PyErr (HAct Str Row)) :=
  match getfiles dir (some ['.', 'c', 's', 'v']) true with
  | .error e => [.error e]
  | .ok files =>
    match latlon with
    | .error e => [.error e]
    | .ok ll =>
      match processLoop step read files none with
      | .error e => [.error e]
      | .ok none => [.ok (.put .latlon ll), .error .nameError]
      | .ok (some (ghi, gti)) => [.ok (.put .latlon ll), .ok (.append .data ghi.tbl), .ok (.append .tilt gti.tbl)]

/-! ## vis_tools.py -/

/-- `lim` of `scatter_hist`, vis_tools.py:77-79, in units of the bin width: `int(xymax/binwidth) + 1`. -/
noncomputable def histLim (xymax : ℝ) : ℤ := ⌊xymax / 0.25⌋ + 1

/-- `np.arange(-lim, lim + binwidth, binwidth)`, vis_tools.py:81: `ceil((2 lim + binwidth) / binwidth)` edges. -/
noncomputable def histBins (lim : ℝ) : List ℝ :=
  (List.range (⌈(lim + 0.25 - -lim) / 0.25⌉).toNat).map fun i : ℕ => -lim + (i : ℝ) * 0.25

/-- The largest absolute value of a list. -/
noncomputable def absMax : List ℝ → ℝ
  | [] => 0
  | v :: l => max |v| (absMax l)

open Classical in
/-- `np.histogram(x, bins)`: counts per bin `[e_i, e_(i+1))`, the last one closed. -/
noncomputable def histogram (x bins : List ℝ) : List ℕ :=
  (List.range (bins.length - 1)).map fun i => (x.filter fun v : ℝ =>
    decide (bins.getD i 0 ≤ v ∧ (v < bins.getD (i + 1) 0 ∨ (i + 2 = bins.length ∧ v = bins.getD (i + 1) 0)))).length

/-- The two histograms of `scatter_hist`, vis_tools.py:54-84: `np.max` of an empty array raises `ValueError`, points of different
numbers raise `ValueError` in `scatter`. -/
noncomputable def scatterHist (x y : List ℝ) : Except PyErr (List ℝ × List ℕ × List ℕ) :=
  if x.length ≠ y.length then .error .valueError
  else if x = [] then .error .valueError
  else
    let lim := (histLim (max (absMax x) (absMax y)) : ℝ) * 0.25
    let bins := histBins lim
    .ok (bins, histogram x bins, histogram y bins)

end SST.DataIO
