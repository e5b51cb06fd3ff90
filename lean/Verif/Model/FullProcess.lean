import Verif.Model.Reassign
import Verif.Model.Spatial
import Mathlib.Data.List.Infix
import Mathlib.Data.List.Dedup
import Mathlib.Data.String.Basic
import Mathlib.Analysis.SpecialFunctions.Trigonometric.Inverse

/-!
# Model of the complete procedure of `demos/field_demo_full_process.py`

All combiners of a plant are predicted from several pairs of cloud motion vectors and reassigned within their inverters, until a
mapping repeats or ten rounds are done.
-/

namespace SST.Field
open SST SST.Spatial

variable {ι κ : Type}

/-! ## Choice of the pairs of cloud motion vectors -/

/-- `ang_between` in degrees, field_demo_full_process.py:60-61; NaN if one of the vectors is zero (`unit` divides by zero). -/
noncomputable def angBetween (a b : Vec) : Option ℝ :=
  if magnitude a = 0 ∨ magnitude b = 0 then none
  else some (Real.arccos (dot (a.1 / magnitude a, a.2 / magnitude a) (b.1 / magnitude b, b.2 / magnitude b)) * 180 / Real.pi)

/-- The test `min_ang_sep < ang_between < (180 - min_ang_sep)`, field_demo_full_process.py:62; comparisons with NaN are false. -/
def wellSeparated (minSep : ℝ) : Option ℝ → Prop
  | some x => minSep < x ∧ x < 180 - minSep
  | none => False

/-- `itertools.combinations(keys, 2)`. -/
def combos : List κ → List (κ × κ)
  | [] => []
  | a :: l => l.map (fun b => (a, b)) ++ combos l

open Classical in
/-- `cmv_pairs`, field_demo_full_process.py:58-63: the loop runs over a copy and removes from the list. -/
noncomputable def cmvPairs [DecidableEq κ] (minSep : ℝ) (vec : κ → Vec) (keys : List κ) : List (κ × κ) :=
  (combos keys).foldl (fun l p => if wellSeparated minSep (angBetween (vec p.1) (vec p.2)) then l else l.erase p) (combos keys)

/-! ## One round -/

/-- What predicts a combiner from the layout in use. -/
abbrev Predictor (ι : Type) := Frame ι String ℝ → ι → Except PyErr PredRow

/-- `cmb_preds.mean()`, field_demo_full_process.py:122: column means, NaN entries skipped. -/
noncomputable def meanRows (rows : List PredRow) : PredRow :=
  ⟨meanO (rows.filterMap PredRow.e), meanO (rows.filterMap PredRow.n), []⟩

/-- The mean prediction of one combiner, field_demo_full_process.py:107-122.  `data k ref` are the cloud vector of window `k` and the
delays and coherences of all combiners relative to `ref` measured in it. -/
noncomputable def meanPredict [DecidableEq ι] (sort : SortValues ι) (mode : String) (ndownsel : ℤ) (pairs : List (κ × κ))
    (data : κ → ι → CloudCase) : Predictor ι := fun f ref =>
  (pairs.mapM fun p => (predictedPosition sort (tablePts f) false ref mode ndownsel (data p.1 ref) (data p.2 ref)).map
    fun r => storeRow r.1).map meanRows

/-- Python's `a in b` for strings. -/
def isIn (a b : String) : Bool := decide (a.toList <:+: b.toList)

/-- `inv_ids`, field_demo_full_process.py:36-37: the second parts of the names, without repetition, sorted. -/
def invIds (inv : ι → String) (ids : List ι) : List String := ((ids.map inv).dedup).mergeSort fun a b => decide (a ≤ b)

/-- `refsub`, field_demo_full_process.py:135: the combiners whose inverter name CONTAINS `name`. -/
def refsub (inv : ι → String) (ids : List ι) (name : String) : List ι := ids.filter fun l => isIn name (inv l)

/-- `mean_preds.loc[refsub]` (labels that exist). -/
def locPreds [DecidableEq ι] (preds : List (ι × PredRow)) (refs : List ι) : List (ι × PredRow) :=
  refs.filterMap fun l => (dictGet? preds l).map fun r => (l, r)

/-- The remap of one inverter, field_demo_full_process.py:135-140. -/
noncomputable def assignGroup [LinearOrder ι] (lsa : LSA) (nan : ℝ) (f : Frame ι String ℝ) (preds : List (ι × PredRow))
    (refs : List ι) : Except PyErr (List (ι × ι)) :=
  locFrame f refs >>= fun sub => (assignPositions lsa nan sub (locPreds preds refs)).map Prod.fst

/-- Prediction of every combiner, field_demo_full_process.py:98-122. -/
def predictAll (predict : Predictor ι) (f : Frame ι String ℝ) (ids : List ι) : Except PyErr (List (ι × PredRow)) :=
  ids.mapM fun l => (predict f l).map fun r => (l, r)

/-- `remap_new` before cascading, field_demo_full_process.py:98-140. -/
noncomputable def roundRemap [LinearOrder ι] (lsa : LSA) (nan : ℝ) (predict : Predictor ι) (inv : ι → String) (ids : List ι)
    (f : Frame ι String ℝ) : Except PyErr (List (ι × ι)) :=
  predictAll predict f ids >>= fun preds =>
  ((invIds inv ids).mapM fun name => assignGroup lsa nan f preds (refsub inv ids name)).map List.flatten

/-! ## The loop -/

/-- The variables of the loop: `remap`, `pos_map`, `remaps`, `positions` and `changed`. -/
structure ProcState (ι : Type) where
  remap : List (ι × ι)
  layout : Frame ι String ℝ
  remaps : List (List (ι × ι))
  layouts : List (Frame ι String ℝ)
  changed : List ι

/-- The state before the loop, field_demo_full_process.py:70-78. -/
def procInit (f : Frame ι String ℝ) : ProcState ι :=
  ⟨f.rows.map fun r => (r.1, r.1), f, [f.rows.map fun r => (r.1, r.1)], [f], []⟩

/-- `changed`, field_demo_full_process.py:149: entries of the two lists are compared position by position. -/
def changedIds [DecidableEq ι] (new old : List (ι × ι)) : List ι :=
  ((new.zip old).filter fun p => p.1 ≠ p.2).map fun p => p.1.1

/-- The end of a round, field_demo_full_process.py:149-168: new state and `working`. -/
def procUpdate [DecidableEq ι] (s : ProcState ι) (new : List (ι × ι)) (upd : Frame ι String ℝ) : ProcState ι × Bool :=
  if new ∈ s.remaps ∨ 10 ≤ s.layouts.length then
    (⟨s.remap, s.layout, s.remaps ++ [new], s.layouts ++ [upd], changedIds new s.remap⟩, false)
  else (⟨new, upd, s.remaps ++ [new], s.layouts ++ [upd], changedIds new s.remap⟩, true)

/-- One pass of the loop, field_demo_full_process.py:98-168. -/
noncomputable def procStep [LinearOrder ι] (lsa : LSA) (nan : ℝ) (predict : Predictor ι) (inv : ι → String) (f : Frame ι String ℝ)
    (s : ProcState ι) : Except PyErr (ProcState ι × Bool) :=
  roundRemap lsa nan predict inv f.index s.layout >>= fun r =>
  cascadeRemap s.remap r >>= fun new =>
  (remapPositions nan f new none).map fun upd => procUpdate s new upd

/-- `while working`, at most `n` passes; `none` if it is still working then. -/
noncomputable def procLoop [LinearOrder ι] (lsa : LSA) (nan : ℝ) (predict : Predictor ι) (inv : ι → String) (f : Frame ι String ℝ) :
    ℕ → ProcState ι → Except PyErr (Option (ProcState ι))
  | 0, _ => .ok none
  | n + 1, s => procStep lsa nan predict inv f s >>= fun r => if r.2 then procLoop lsa nan predict inv f n r.1 else .ok (some r.1)

end SST.Field
