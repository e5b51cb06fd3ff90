import Verif.Model.Cloud
import Verif.Model.Spatial

/-!
# Model of the sampling procedure of `demos/synthetic_clouds_demo.py`

Positions of the sensors, a speed and a direction of cloud motion, a window of `T` seconds sampled every second (`T + 1` instants); the
field is generated in the size computed here and then read at the sensors.  Plots are left out.  Sensors have different labels.
-/

namespace SST.CloudDemo
open SST SST.Cloud SST.Spatial

variable {ι α : Type}

/-- `np.max` of a column (not used for an empty one). -/
noncomputable def lmax : List ℝ → ℝ
  | [] => 0
  | [a] => a
  | a :: b :: l => max a (lmax (b :: l))

/-- `np.min` of a column (not used for an empty one). -/
noncomputable def lmin : List ℝ → ℝ
  | [] => 0
  | [a] => a
  | a :: b :: l => min a (lmin (b :: l))

/-- Column `X` of a table of positions. -/
def colX (w : List (ι × Vec)) : List ℝ := w.map fun p => p.2.1

/-- Column `Y`. -/
def colY (w : List (ι × Vec)) : List ℝ := w.map fun p => p.2.2

/-- Positions turned by `-cld_dir`, demos/synthetic_clouds_demo.py:55 (`rotate_vector` on two columns turns every position). -/
noncomputable def turned (pos : List (ι × Vec)) (dir : ℝ) : List (ι × Vec) := pos.map fun p => (p.1, rotate p.2 (-dir))

/-- Both columns minus their minima, demos/synthetic_clouds_demo.py:56 and 149-150. -/
noncomputable def fromCorner (w : List (ι × Vec)) : List (ι × Vec) :=
  w.map fun p => (p.1, (p.2.1 - lmin (colX w), p.2.2 - lmin (colY w)))

/-- Size of the generated field, demos/synthetic_clouds_demo.py:107-116. -/
noncomputable def fieldSize (w : List (ι × Vec)) (spd : ℝ) (T : ℕ) : ℕ × ℕ :=
  (⌈|lmax (colX w) - lmin (colX w)| / spd + T⌉.toNat, ⌈|lmax (colY w) - lmin (colY w)| / spd⌉.toNat)

/-- Positions in seconds of cloud motion, demos/synthetic_clouds_demo.py:151-152. -/
noncomputable def inSeconds (w : List (ι × Vec)) (spd : ℝ) : List (ι × Vec) := w.map fun p => (p.1, (p.2.1 / spd, p.2.2 / spd))

/-- Row and column where the series of a sensor starts, demos/synthetic_clouds_demo.py:158-159. -/
noncomputable def startCell (t : List (ι × Vec)) (p : ι × Vec) : ℤ × ℤ := (pyInt (lmax (colX t) - p.2.1), pyInt p.2.2)

/-- The series of one sensor, demos/synthetic_clouds_demo.py:162: `T + 1` rows of a column; `IndexError` for a column outside the
field, `ValueError` (assignment to a frame of `T + 1` rows) if the field ends earlier. -/
def readSensor (f : ℕ → ℕ → α) (m n T : ℕ) (c : ℤ × ℤ) : Except PyErr (List α) :=
  if c.2 < -n ∨ n ≤ c.2 then .error .indexError
  else
    let a := sliceIdx m c.1
    let b := sliceIdx m (c.1 + T + 1)
    let y := (if c.2 < 0 then c.2 + n else c.2).toNat
    if b - a = T + 1 then .ok ((List.range (b - a)).map fun (k : ℕ) => f (a + k) y) else .error .valueError

/-- demos/synthetic_clouds_demo.py:55-162: the simulated series of all sensors; `f` holds the values of the generated field.  Without
sensors or with speed 0 the size of the field is not a number (an exception). -/
noncomputable def simKt (f : ℕ → ℕ → α) (pos : List (ι × Vec)) (spd dir : ℝ) (T : ℕ) : Except PyErr (List (ι × List α)) :=
  if pos = [] ∨ spd = 0 then .error .other
  else
    let w := fromCorner (turned pos dir)
    let sz := fieldSize w spd T
    let t := inSeconds (fromCorner w) spd
    t.mapM fun p => (readSensor f sz.1 sz.2 T (startCell t p)).map fun s => (p.1, s)

end SST.CloudDemo
