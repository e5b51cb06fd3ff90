import Verif.Model.DataIO

/-!
# Model of the command line program in `src/solarspatialtools/dataio/hope_campaign.py`

The state is the downloaded files, the HDF files of the target directory by name, and the answers the user will type.  Every step gives the
state it leaves, also when it ends with an exception.
-/

namespace SST.HopeMain
open SST SST.DataIO

/-- Column labels: station ids, and the names `lat` and `lon`. -/
inductive Lab where
  | station (n : ℤ)
  | lat
  | lon
deriving DecidableEq

/-- A row of a stored frame: its label (a time in seconds, or a station id) and its values; `none` is NaN. -/
abbrev HRow := ℝ × List (Option ℝ)

abbrev HTbl := Tbl Lab HRow

/-- The variables of one netCDF file, as read with `set_auto_mask(False)`, hope_campaign.py:237-258. -/
structure Nc where
  ids : List ℤ
  lat : List (Option ℝ)
  lon : List (Option ℝ)
  time : List ℝ
  rsds : List (List (Option ℝ))
  flag : List (List (Option ℝ))

/-- Does the array have the shape (n, m)? -/
def Shaped (n m : ℕ) (a : List (List (Option ℝ))) : Prop := a.length = n ∧ ∀ r ∈ a, r.length = m

instance (n m : ℕ) (a : List (List (Option ℝ))) : Decidable (Shaped n m a) := by unfold Shaped; infer_instance

/-- `pd.DataFrame(values, columns=ids, index=time)`, hope_campaign.py:261-262. -/
def frameOf (time : List ℝ) (ids : List ℤ) (a : List (List (Option ℝ))) : HTbl := ⟨ids.map .station, time.zip a⟩

/-- `parse_file`, hope_campaign.py:201-264, from the contents of the file: arrays that do not fit raise `ValueError`.
Simplification: times are exact numbers of seconds. -/
def parseFile (nc : Nc) : Except PyErr (Parsed Lab HRow) :=
  if nc.lat.length = nc.ids.length ∧ nc.lon.length = nc.ids.length then
    if Shaped nc.time.length nc.ids.length nc.rsds ∧ Shaped nc.time.length nc.ids.length nc.flag then
      .ok ⟨frameOf nc.time nc.ids nc.rsds, frameOf nc.time nc.ids nc.flag,
        ⟨[.lat, .lon], (nc.ids.map fun n : ℤ => (n : ℝ)).zip (List.zipWith (fun a b : Option ℝ => [a, b]) nc.lat nc.lon)⟩⟩
    else .error .valueError
  else .error .valueError

/-! ## Quality control of stored tables -/

open Classical in
/-- One cell of `flag_qc`, hope_campaign.py:136. -/
noncomputable def flagCell (level : ℝ) (v f : Option ℝ) : Option ℝ := if ∃ x, f = some x ∧ level ≤ x then none else v

open Classical in
/-- One cell of `null_qc`, hope_campaign.py:156. -/
noncomputable def nullCell (v : Option ℝ) : Option ℝ := if ∃ x, v = some x ∧ x < -100 then none else v

open Classical in
/-- The cell of a table by its labels. -/
noncomputable def cellAt (t : HTbl) (r : ℝ) (c : Lab) : Option ℝ :=
  match t.rows.find? fun x : HRow => decide (x.1 = r) with
  | none => none
  | some x => if c ∈ t.cols then x.2.getD (t.cols.idxOf c) none else none

/-- The row labels. -/
def labels (t : HTbl) : List ℝ := t.rows.map fun r : HRow => r.1

open Classical in
/-- `flag_qc(data, flag, 2)`, hope_campaign.py:116-137, called at line 390: tables with the same labels are combined cell by cell, others
are aligned.  Simplification: aligning tables with repeated labels raises. -/
noncomputable def flagTbl (data flag : HTbl) : Except PyErr HTbl :=
  if data.cols = flag.cols ∧ labels data = labels flag then
    .ok ⟨data.cols, List.zipWith (fun r f : HRow => (r.1, List.zipWith (flagCell 2) r.2 f.2)) data.rows flag.rows⟩
  else if data.cols.Nodup ∧ flag.cols.Nodup ∧ (labels data).Nodup ∧ (labels flag).Nodup then
    .ok ⟨data.cols, data.rows.map fun r : HRow => (r.1, List.zipWith (fun c v => flagCell 2 v (cellAt flag r.1 c)) data.cols r.2)⟩
  else .error .valueError

/-- `null_qc(data)`, hope_campaign.py:140-157. -/
noncomputable def nullTbl (data : HTbl) : HTbl := ⟨data.cols, data.rows.map fun r : HRow => (r.1, r.2.map nullCell)⟩

/-- Column `j` of a table. -/
def column (t : HTbl) (j : ℕ) : List (Option ℝ) := t.rows.map fun r : HRow => r.2.getD j none

/-- The columns with their labels. -/
def columns (t : HTbl) : List (Lab × List (Option ℝ)) := (List.range t.cols.length).map fun j => (t.cols.getD j .lat, column t j)

/-- `interp_nan(data)`, hope_campaign.py:160-198, with the default limit. Simplification: station ids are pairwise different. -/
noncomputable def interpTbl (data : HTbl) : Except PyErr HTbl :=
  match interpNan 5 (labels data) (columns data) with
  | .error e => .error e
  | .ok out => .ok ⟨data.cols, (List.range data.rows.length).map fun i =>
      ((labels data).getD i 0, out.map fun c : Lab × List (Option ℝ) => c.2.getD i none)⟩

/-- The chain at hope_campaign.py:384-392. -/
noncomputable def qcTable (q : Str) (data flag : HTbl) : Except PyErr HTbl :=
  if q = "interp".toList then interpTbl (nullTbl data)
  else if q = "null".toList then .ok (nullTbl data)
  else if q = "flag".toList then flagTbl data flag
  else .error .valueError

/-! ## The program -/

/-- The arguments, hope_campaign.py:330-340. `silent` only affects what is printed. -/
structure Args where
  dataset : Str
  target : Str
  getMeta : Bool
  makeh5 : Bool
  qc : Option Str

/-- `str.upper` and `str.lower`. Simplification: only the ASCII letters change. -/
def upper (s : Str) : Str := s.map Char.toUpper
def lower (s : Str) : Str := s.map Char.toLower

/-- The common part of the addresses, hope_campaign.py:94-111. -/
def base : Str := "https://icdc.cen.uni-hamburg.de/thredds/fileServer/ftpthredds/samd/".toList

/-- `URLS`, hope_campaign.py:93-113: the list of downloads and the metadata of a dataset. -/
def urls (d : Str) : Option (Str × Str) :=
  if d = "HOPE".toList then some (base ++ "data/pyrnet/00/rsds/l1/hope/trop/2013/wget.sh".toList,
    base ++ "metadata/icdc/hope_trop_pyrnet00_l1_rsds_v00.xml".toList)
  else if d = "HOPE-MELPITZ".toList then some (base ++ "data/pyrnet/00/rsds/l1/hopm/trop/2013/wget.sh".toList,
    base ++ "metadata/icdc/hopm_trop_pyrnet00_l1_rsds_v00.xml".toList)
  else if d = "LINDENBERG".toList then some (base ++ "data/pyrnet/00/rsds/l1/ioprao/trop/2014/wget.sh".toList,
    base ++ "metadata/icdc/ioprao_trop_pyrnet00_l1_rsds_v00.xml".toList)
  else none

/-- The surroundings: the server, the rows of a script it serves (`none` if it cannot be opened), whether the target directory exists or can
be created, the listing of the target directory and the netCDF files in it, given what has been downloaded. -/
structure Env where
  web : Web
  script : Str → Option (List Str)
  mkdir : Bool
  ls : FS → Option (List (Str × Bool))
  read : FS → Str → Except PyErr Nc

structure World where
  fs : FS
  h5 : Str → HFile Lab HRow
  answers : List Str

def World.setH5 (w : World) (name : Str) (h : HFile Lab HRow) : World := { w with h5 := fun q => if q = name then h else w.h5 q }

/-- The file names at hope_campaign.py:361, 377 and 379. -/
def srcName (a : Args) : Str := lower a.dataset ++ ".h5".toList
def qcName (a : Args) (q : Str) : Str := lower a.dataset ++ "-qc".toList ++ lower q ++ ".h5".toList

/-- hope_campaign.py:349-353. -/
def fetchMeta (env : Env) (a : Args) (u : Str) (w : World) : World × Option PyErr :=
  if a.getMeta then
    let fn := a.dataset ++ "_metadata.xml".toList
    let r := download env.web u (join a.target fn) fn
    ({ w with fs := run w.fs r.1 }, r.2)
  else (w, none)

/-- hope_campaign.py:354-355. -/
def fetchData (env : Env) (a : Args) (u : Str) (w : World) : World × Option PyErr :=
  match env.script u with
  | none => (w, some .osError)
  | some rows =>
    let r := wgetRows env.web a.target rows w.fs
    ({ w with fs := run w.fs r.1 }, r.2)

/-- One call of `dataset_to_h5` on the target directory. -/
def convertOnce (env : Env) (a : Args) (overwrite : Bool) (w : World) : World × Option PyErr :=
  let h := w.h5 (srcName a)
  let r := exec h (datasetToH5 (env.ls w.fs) (fun fn => (env.read w.fs fn).bind parseFile) h overwrite)
  (w.setH5 (srcName a) r.1, r.2)

/-- hope_campaign.py:357-373: every `ValueError` of the first call is taken for an existing file; without further input `input` raises
`EOFError`. -/
def convert (env : Env) (a : Args) (w : World) : World × Option PyErr :=
  if a.makeh5 then
    match convertOnce env a false w with
    | (w1, some .valueError) =>
      match w1.answers with
      | [] => (w1, some .other)
      | ans :: rest =>
        if lower ans = ['y'] then convertOnce env a true { w1 with answers := rest }
        else ({ w1 with answers := rest }, none)
    | r => r
  else (w, none)

/-- `pd.read_hdf(fn, key=key)`. -/
def readKey (h : HFile Lab HRow) (k : Key) : Except PyErr HTbl :=
  match h with
  | none => .error .osError
  | some st => match st k with
    | none => .error .keyError
    | some t => .ok t

/-- The three writes at hope_campaign.py:399-401. -/
def writeQc (h : HFile Lab HRow) (data flag latlon : HTbl) : HFile Lab HRow × Option PyErr :=
  exec h [.ok (.put .data data), .ok (.put .flag flag), .ok (.put .latlon latlon)]

/-- hope_campaign.py:375-401. -/
noncomputable def quality (a : Args) (w : World) : World × Option PyErr :=
  match a.qc with
  | none => (w, none)
  | some q =>
    match readKey (w.h5 (srcName a)) .data, readKey (w.h5 (srcName a)) .flag, readKey (w.h5 (srcName a)) .latlon with
    | .ok data, .ok flag, .ok latlon =>
      match qcTable q data flag with
      | .error e => (w, some e)
      | .ok out =>
        match w.h5 (qcName a q) with
        | none =>
          let r := writeQc none out flag latlon
          (w.setH5 (qcName a q) r.1, r.2)
        | some _ =>
          match w.answers with
          | [] => (w, some .other)
          | ans :: rest =>
            if lower ans = ['y'] then
              let r := writeQc none out flag latlon
              (({ w with answers := rest }).setH5 (qcName a q) r.1, r.2)
            else ({ w with answers := rest }, none)
    | .error e, _, _ => (w, some e)
    | .ok _, .error e, _ => (w, some e)
    | .ok _, .ok _, .error e => (w, some e)

/-- Run the next step unless an exception was raised. -/
def andThen (r : World × Option PyErr) (f : World → World × Option PyErr) : World × Option PyErr :=
  match r with
  | (w, none) => f w
  | (w, some e) => (w, some e)

/-- `_main` with `_parse_args` and `ensurepath`, hope_campaign.py:341-401 and iotools.py:64-77. -/
noncomputable def main (env : Env) (a : Args) (w : World) : World × Option PyErr :=
  match urls (upper a.dataset) with
  | none => (w, some .valueError)
  | some (list, xml) =>
    if env.mkdir then
      andThen (andThen (andThen (fetchMeta env a xml w) (fetchData env a list)) (convert env a)) (quality a)
    else (w, some .osError)

end SST.HopeMain
