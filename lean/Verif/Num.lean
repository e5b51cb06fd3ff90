import Mathlib.Data.Real.Basic
import Mathlib.Analysis.Real.Sqrt
import Mathlib.Algebra.Order.Floor.Ring
import Mathlib.Tactic.Linarith
import Mathlib.Tactic.Ring
import Mathlib.Tactic.FieldSimp
import Mathlib.Tactic.NormNum
import Mathlib.Tactic.Positivity

/-!
# Numbers and Python basics shared by all model files

* `PyErr`: the exceptions the modelled code can raise, as values.
* `XR`: numpy floats without rounding: a real, `nan`, or an infinity.  Zero is
  unsigned (`x / 0` has the sign of `x`); rounding and overflow are not modelled.
-/

namespace SST

/-- Python exceptions as values (only the classes that occur in the modelled code). -/
inductive PyErr
  | valueError | typeError | keyError | indexError | nameError | attributeError | assertionError
  | osError | other
  deriving DecidableEq, Repr

/-- Whether a result is a raised exception of the given class. -/
def Raises {α : Type*} (r : Except PyErr α) (e : PyErr) : Prop := r = Except.error e

/-- numpy floating point values, without rounding. -/
inductive XR
  | nan | pinf | ninf | fin (x : ℝ)

namespace XR

/-- numpy true division of two finite numbers. -/
noncomputable def div (a b : ℝ) : XR :=
  if b = 0 then (if a = 0 then nan else if 0 < a then pinf else ninf) else fin (a / b)

/-- `a < b` on floats; false when either side is NaN. -/
def lt : XR → XR → Prop
  | nan, _ => False
  | _, nan => False
  | fin a, fin b => a < b
  | ninf, ninf => False
  | ninf, _ => True
  | _, ninf => False
  | pinf, _ => False
  | _, pinf => True

/-- `np.abs`. -/
noncomputable def abs : XR → XR
  | nan => nan
  | pinf => pinf
  | ninf => pinf
  | fin a => fin |a|

/-- `np.isnan`. -/
def isNaN : XR → Prop
  | nan => True
  | _ => False

/-- `np.isfinite`. -/
def isFinite : XR → Prop
  | fin _ => True
  | _ => False

/-- `1 - x`. -/
noncomputable def oneSub : XR → XR
  | nan => nan
  | pinf => ninf
  | ninf => pinf
  | fin a => fin (1 - a)

/-- Adding a finite number. -/
noncomputable def addR : XR → ℝ → XR
  | nan, _ => nan
  | pinf, _ => pinf
  | ninf, _ => ninf
  | fin a, b => fin (a + b)

/-- Missing value as NaN. -/
def ofOption : Option ℝ → XR
  | none => nan
  | some x => fin x

/-- Division of possibly-NaN finite numbers. -/
noncomputable def divO : Option ℝ → Option ℝ → XR
  | some a, some b => div a b
  | _, _ => nan

end XR

/-- Python `int(x)` on a float: truncation toward zero. -/
noncomputable def pyInt (x : ℝ) : ℤ := if 0 ≤ x then ⌊x⌋ else ⌈x⌉

/-- `np.mean` of a nonempty list (the empty mean is NaN, see `meanO`). -/
noncomputable def mean (l : List ℝ) : ℝ := l.sum / l.length

/-- `np.mean`: NaN (`none`) for an empty array. -/
noncomputable def meanO (l : List ℝ) : Option ℝ := if l = [] then none else some (mean l)

/-- Plane vectors. -/
abbrev Vec := ℝ × ℝ

end SST
