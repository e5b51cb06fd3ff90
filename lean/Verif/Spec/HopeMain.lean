import Verif.Model.HopeMain

/-! # What the quality-controlled file of a HOPE dataset should hold -/

namespace SST.HopeMain
open SST SST.DataIO

/-- A reading below -100 stands for a missing one. -/
def NoSentinel (v o : Option ℝ) : Prop := ((∃ x, v = some x ∧ x < -100) → o = none) ∧ ((∀ x, v = some x → -100 ≤ x) → o = v)

/-- A reading with a flag of 2 or more is dropped. -/
def Unflagged (v f o : Option ℝ) : Prop := ((∃ x, f = some x ∧ 2 ≤ x) → o = none) ∧ ((∀ x, f = some x → x < 2) → o = v)

/-- `out` is `data` without sentinels, with the same labels. -/
def NullOf (data out : HTbl) : Prop :=
  out.cols = data.cols ∧ List.Forall₂ (fun r o : HRow => o.1 = r.1 ∧ List.Forall₂ NoSentinel r.2 o.2) data.rows out.rows

/-- Every column, without sentinels, is filled on its own as `interp_nan` does (limit 5, the times of the rows). -/
def InterpOf (data out : HTbl) : Prop :=
  out.cols = data.cols ∧ labels out = labels data ∧ (∀ r ∈ out.rows, r.2.length = data.cols.length) ∧
  ∃ mid, NullOf data mid ∧ ∀ j < data.cols.length, interpCol 5 (labels data) (column mid j) = .ok (column out j)

/-- `out` is `data` without flagged readings, where data and flags have the same labels. -/
def FlagOf (data flag out : HTbl) : Prop :=
  out.cols = data.cols ∧ labels out = labels data ∧
  (data.cols = flag.cols → labels data = labels flag → (∀ r ∈ data.rows, r.2.length = data.cols.length) → (∀ r ∈ flag.rows, r.2.length = flag.cols.length) →
    ∀ i j, i < data.rows.length → j < data.cols.length → Unflagged ((column data j).getD i none) ((column flag j).getD i none) ((column out j).getD i none))

/-- The three documented methods. -/
def QcOf (q : Str) (data flag out : HTbl) : Prop :=
  (q = "null".toList ∧ NullOf data out) ∨ (q = "interp".toList ∧ InterpOf data out) ∨ (q = "flag".toList ∧ FlagOf data flag out)

/-- A file with exactly the three tables. -/
def fileOf (data flag latlon : HTbl) : Key → Option HTbl
  | .data => some data
  | .flag => some flag
  | .latlon => some latlon
  | .tilt => none

/-- The arrays of a netCDF file fit together. -/
def Nc.Consistent (nc : Nc) : Prop :=
  nc.lat.length = nc.ids.length ∧ nc.lon.length = nc.ids.length ∧ nc.rsds.length = nc.time.length ∧ nc.flag.length = nc.time.length ∧
  (∀ r ∈ nc.rsds, r.length = nc.ids.length) ∧ ∀ r ∈ nc.flag, r.length = nc.ids.length

/-- The records of one file, one row per time, with the stations in the given order, each under its own id. -/
def readings (stations : List ℤ) (f : Nc → List (List (Option ℝ))) (nc : Nc) : List HRow :=
  (List.range nc.time.length).map fun i => (nc.time.getD i 0, stations.map fun s => ((f nc).getD i []).getD (nc.ids.idxOf s) none)

/-- All records of the files, in the order of the files, with the stations in the order of the first file. -/
def allReadings (f : Nc → List (List (Option ℝ))) (first : Nc) (ncs : List Nc) : HTbl :=
  ⟨first.ids.map .station, (first :: ncs).flatMap (readings first.ids f)⟩

/-- The positions of the stations of a file. -/
def positions (nc : Nc) : HTbl :=
  ⟨[.lat, .lon], (List.range nc.ids.length).map fun i => ((nc.ids.getD i 0 : ℝ), [nc.lat.getD i none, nc.lon.getD i none])⟩

/-- Did the user agree? -/
def Yes (ans : Str) : Prop := ans = ['y'] ∨ ans = ['Y']

/-- All listed downloads are present in the target directory. -/
def Present (env : Env) (a : Args) (u : Str) (w : World) : Prop :=
  ∃ rows, env.script u = some rows ∧ ∀ row ∈ rows, ∃ v, lastWord row = some v ∧ (w.fs (join a.target (basename v))).isSome

end SST.HopeMain
