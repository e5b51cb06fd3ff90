import Verif.Py
import Verif.Model.Spatial

/-!
# Model of `src/solarspatialtools/field.py`
-/

namespace SST.Field
open SST SST.Spatial

variable {ι κ α : Type} [DecidableEq κ]

/-! ## Remapping -/

/-- `remap_positions`, field.py:252-260.  Reads always go to the unmodified `data`, writes to the
copy.  `nan` is the fill value pandas uses when a label is appended.  Labels are assumed unique
(`data[column][label]` on a duplicated label is a Series, not modelled). -/
def remapPositions [DecidableEq ι] (nan : α) (data : Frame ι κ α) (remap : List (ι × ι))
    (columns : Option (List κ)) : Except PyErr (Frame ι κ α) :=
  let columns := columns.getD data.cols
  remap.foldlM (init := data) fun fix item =>
    columns.foldlM (init := fix) fun fix c => do
      let v ← data.get item.2 c
      pure (fix.setCell nan item.1 c v)

/-- Ascending sort of pairs by first element, field.py:315 and 424 (Python's sort is stable). -/
def sortPairs [LinearOrder ι] (l : List (ι × ι)) : List (ι × ι) :=
  l.mergeSort fun a b => decide (a.1 ≤ b.1)

/-- Loop body of `cascade_remap`, field.py:311-312: `G[key] = A[B[key]]`. -/
def cascadeStep [LinearOrder ι] (A B G : List (ι × ι)) (key : ι) : Except PyErr (List (ι × ι)) :=
  match dictGet? B key with
  | none => .error .keyError
  | some b =>
    match dictGet? A b with
    | none => .error .keyError
    | some a => .ok (dictSet G key a)

/-- `cascade_remap`, field.py:305-316. -/
def cascadeRemap [LinearOrder ι] (remap1 remap2 : List (ι × ι)) : Except PyErr (List (ι × ι)) :=
  let A := dictOf remap1
  let B := dictOf remap2
  ((A.map Prod.fst).foldlM (cascadeStep A B) []).map sortPairs

/-! ## Assignment -/

/-- Shape of `scipy.optimize.linear_sum_assignment(C)` for an `n × m` cost matrix: row and column
indices. -/
abbrev LSA := (n m : ℕ) → (ℕ → ℕ → ℝ) → List ℕ × List ℕ

/-- A row of the predicted positions: easting, northing and further columns, `none` = NaN. -/
structure PredRow where
  e : Option ℝ
  n : Option ℝ
  extra : List (Option ℝ)

/-- `np.any(np.isnan(row))`. -/
def PredRow.hasNaN (r : PredRow) : Bool := r.e.isNone || r.n.isNone || r.extra.any Option.isNone

/-- Cost matrix, field.py:406-416: `C` starts as zeros of shape (len(original), len(predicted));
the double loop runs both indices over the length of the ORIGINAL. `PredRow`s here contain no NaN
(`getD 0` is never reached). -/
noncomputable def costMatrix (plan : List Vec) (pred : List PredRow) (i j : ℕ) : ℝ :=
  match plan[i]?, pred[j]? with
  | some p, some q =>
    if j < plan.length then Real.sqrt ((p.1 - q.e.getD 0) ^ 2 + (p.2 - q.n.getD 0) ^ 2) else 0
  | _, _ => 0

/-- The NaN-free branch of `assign_positions`, field.py:401-424, up to `remap_indices`.
`E_delay[j]` raises `IndexError` when there are fewer predictions than originals;
`original_pos.index[col_ind]` raises `IndexError` when a column index is beyond the originals. -/
noncomputable def assignCore [LinearOrder ι] (lsa : LSA) (orig : List (ι × Vec)) (pred : List PredRow) :
    Except PyErr (List (ι × ι)) :=
  if pred.length < orig.length then .error .indexError
  else
    let rc := lsa orig.length pred.length (costMatrix (orig.map Prod.snd) pred)
    match rc.2.mapM (fun j => (orig.map Prod.fst)[j]?), rc.1.mapM (fun i => (orig.map Prod.fst)[i]?) with
    | some cl, some rl => .ok (sortPairs (cl.zip rl))
    | _, _ => .error .indexError

/-- One row of `original_pos.loc[sub_pred.index]`, field.py:385. -/
def locRow [DecidableEq ι] (orig : List (ι × Vec)) (r : ι × PredRow) : Except PyErr (ι × Vec) :=
  match dictGet? orig r.1 with
  | some v => .ok (r.1, v)
  | none => .error .keyError

/-- Loop body of the NaN branch, field.py:391-400: the pairs appended for original entry `k`. -/
def nanPart [DecidableEq ι] (pred : List (ι × PredRow)) (subremap : List (ι × ι)) (k : ι × Vec) :
    Except PyErr (List (ι × ι)) :=
  match dictGet? pred k.1 with
  | none => .error .keyError
  | some r =>
    if r.hasNaN then .ok [(k.1, k.1)]
    else .ok (subremap.filter fun pair => pair.1 = k.1)

/-- `assign_positions`, field.py:376-424: the remap list.  `orig` are the label and first two
columns of `original_pos`, `pred` the rows of `predicted_pos`. -/
noncomputable def assignRemap [LinearOrder ι] (lsa : LSA) (orig : List (ι × Vec))
    (pred : List (ι × PredRow)) : Except PyErr (List (ι × ι)) :=
  if pred.any fun r => r.2.hasNaN then
    let subPred := pred.filter fun r => !r.2.hasNaN
    subPred.mapM (locRow orig) >>= fun subOrig =>
    assignCore lsa subOrig (subPred.map Prod.snd) >>= fun subremap =>
    (orig.mapM (nanPart pred subremap)).map List.flatten
  else assignCore lsa orig (pred.map Prod.snd)

/-- `assign_positions`, field.py:376-430, with the remapped copy of the original table.  The first
two columns are the coordinates; fewer than two columns raise `IndexError`. -/
noncomputable def assignPositions [LinearOrder ι] (lsa : LSA) (nan : ℝ) (original : Frame ι κ ℝ)
    (pred : List (ι × PredRow)) : Except PyErr (List (ι × ι) × Frame ι κ ℝ) :=
  match original.cols with
  | c0 :: c1 :: _ => do
    let remap ← assignRemap lsa (original.rows.map fun r => (r.1, (r.2 c0, r.2 c1))) pred
    let out ← remapPositions nan original remap none
    pure (remap, out)
  | _ => .error .indexError

/-! ## Predicted position -/

/-- Shape of `Series.sort_values` / `DataFrame.sort_values` on one key column (ascending, NaN last;
the default sort is not stable, so the routine is a parameter). -/
abbrev SortValues (ι : Type) := List (ι × Option ℝ) → List (ι × Option ℝ)

/-- What `compute_predicted_position` obtains for one of the two data sets: the cloud vector and the
arrays returned by `compute_delays_tf(df[ref], df, ...)`, one entry per column of `df`. -/
structure CloudCase where
  vec : Vec
  delay : List (Option ℝ)
  coh : List (Option ℝ)

/-- A row of `pos_data`, field.py:116-121 (the columns used later). -/
structure PosRow where
  delay : Option ℝ
  planDist : Option ℝ
  errorDist : Option ℝ
  coh : Option ℝ

/-- `pos_data`, field.py:101-123.  `pts` are label and (E, N) of every row of `pos_utm`.  Delays,
coherences and positions are combined BY POSITION; a different number of columns than rows is a
`ValueError` when the arrays are combined (simplification: no broadcasting of length one). -/
noncomputable def posData (pts : List (ι × Vec)) (refPos : Vec) (c : CloudCase) :
    Except PyErr (List (ι × PosRow)) :=
  if c.delay.length = pts.length ∧ c.coh.length = pts.length then
    let delayDist := c.delay.map fun d => d.map fun d => -d * magnitude c.vec
    let posVecs := (computeVectors (pts.map fun p => p.2.1) (pts.map fun p => p.2.2) refPos []).map
      fun v => (-v.1, -v.2)
    let planDist := projectVectors posVecs c.vec
    let errorDist := List.zipWith (fun a b => a.bind fun a => b.map fun b => a - b) delayDist planDist
    let rows := List.zipWith (fun (dp : Option ℝ × Option ℝ) ec => PosRow.mk dp.1 dp.2 ec.1 ec.2)
      (c.delay.zip planDist) (errorDist.zip c.coh)
    .ok ((pts.map Prod.fst).zip rows)
  else .error .valueError

/-- `combined_data[i]['coh']` restricted to finite values, sorted, `iloc[-ndownsel:-1].index`,
field.py:127-132. -/
def selectCoherence (sort : SortValues ι) (ndownsel : ℤ) (data : List (ι × PosRow)) : List ι :=
  let coh := (data.map fun r => (r.1, r.2.coh)).filter fun r => r.2.isSome
  (pySlice (sort coh) (-ndownsel) (-1)).map Prod.fst

/-- Sum of squares of the two coherences, field.py:136-138 (both tables have the index of
`pos_utm`). -/
noncomputable def globalCoh (d1 d2 : List (ι × PosRow)) : List (ι × Option ℝ) :=
  List.zipWith (fun a b => (a.1, a.2.coh.bind fun x => b.2.coh.map fun y => x ^ 2 + y ^ 2)) d1 d2

/-- The down-selection by `mode`, field.py:125-153. -/
noncomputable def downselect (sort : SortValues ι) (mode : String) (ndownsel : ℤ) (pts : List (ι × Vec))
    (refPos : Vec) (d1 d2 : List (ι × PosRow)) : Except PyErr (List ι × List ι) :=
  if mode = "coherence" ∨ mode = "preavg" then
    .ok (selectCoherence sort ndownsel d1, selectCoherence sort ndownsel d2)
  else if mode = "global_coherence" then
    let ix := (pySlice (sort (globalCoh d1 d2)) (-ndownsel) (-1)).map Prod.fst
    .ok (ix, ix)
  else if mode = "distance" then
    let sep := pts.map fun p => (p.1, some (magnitude (p.2.1 - refPos.1, p.2.2 - refPos.2)))
    let ix := (pySlice (sort sep) 0 ndownsel).map Prod.fst
    .ok (ix, ix)
  else if mode = "all" then .ok (pts.map Prod.fst, pts.map Prod.fst)
  else .error .valueError

/-- `data.loc[ix]` for unique labels that exist. -/
def locRows [DecidableEq ι] (data : List (ι × PosRow)) (ix : List ι) : List (ι × PosRow) :=
  ix.filterMap fun l => (dictGet? data l).map fun r => (l, r)

/-- `np.mean` of a Series: NaN entries are skipped, an empty mean is NaN. -/
noncomputable def meanError (data : List (ι × PosRow)) : Option ℝ :=
  meanO (data.filterMap fun r => r.2.errorDist)

/-- The intersection and shift, field.py:162-168.  `refValues` are the values of the row
`pos_utm.loc[ref]` in column order. -/
noncomputable def positionFrom (ea eb : Option ℝ) (va vb : Vec) (refValues : Vec) : XR × XR :=
  match ea, eb with
  | some a, some b =>
    let c := intersect1 (pol2rect a (rect2pol va.1 va.2).2) (pol2rect b (rect2pol vb.1 vb.2).2)
    (c.1.addR refValues.1, c.2.addR refValues.2)
  | _, _ => (.nan, .nan)

/-- `compute_predicted_position`, field.py:13-171, for given cloud vectors and given results of
`compute_delays_tf`.  `colsNE`: the columns of `pos_utm` are stored in the order (N, E); line 169
adds the raw row values.  Simplifications: `pos_utm` has exactly the columns E and N, unique labels,
no NaN positions; exactly two data sets. -/
noncomputable def predictedPosition [DecidableEq ι] (sort : SortValues ι) (pts : List (ι × Vec))
    (colsNE : Bool) (ref : ι) (mode : String) (ndownsel : ℤ) (c1 c2 : CloudCase) :
    Except PyErr ((XR × XR) × List (ι × PosRow) × List (ι × PosRow)) :=
  match dictGet? pts ref with
  | none => .error .keyError
  | some r =>
    posData pts r c1 >>= fun d1 =>
    posData pts r c2 >>= fun d2 =>
    (downselect sort mode ndownsel pts r d1 d2).map fun ix =>
      let s1 := locRows d1 ix.1
      let s2 := locRows d2 ix.2
      (positionFrom (meanError s1) (meanError s2) c1.vec c2.vec (if colsNE then (r.2, r.1) else r),
        s1, s2)

end SST.Field
