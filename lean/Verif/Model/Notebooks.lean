import Verif.Model.Field

/-!
# Model of the notebooks `demos/field_demo_detailed.ipynb` and `demos/plant_digitization_example.ipynb`
-/

namespace SST.Notebooks
open SST SST.Spatial SST.Field

variable {ι : Type} [DecidableEq ι]

/-- `coh.sort_values().iloc[-ndownsel:-1].index`, code cell 9 of field_demo_detailed.ipynb (the coherences are not restricted to finite
values first). -/
def nbSelect (sort : SortValues ι) (ndownsel : ℤ) (data : List (ι × PosRow)) : List ι :=
  (pySlice (sort (data.map fun r => (r.1, r.2.coh))) (-ndownsel) (-1)).map Prod.fst

/-- `np.mean(subset['error_dist']) * spatial.unit(cmv)`, code cell 9; `none` = NaN. -/
noncomputable def nbError (subset : List (ι × PosRow)) (V : Vec) : Option Vec :=
  (meanError subset).bind fun a => (unit V).map fun u => (a * u.1, a * u.2)

/-- `spatial.compute_intersection(e_a, e_b) + pos_utm.loc[ref].values`, code cell 11. -/
noncomputable def nbIntersect (ea eb : Option Vec) (refValues : Vec) : XR × XR :=
  match ea, eb with
  | some a, some b =>
    let c := (computeIntersection [a] [b]).headD (.nan, .nan)
    (c.1.addR refValues.1, c.2.addR refValues.2)
  | _, _ => (.nan, .nan)

/-- `pred_pos`, code cells 5, 9 and 11 of field_demo_detailed.ipynb (there `ndownsel = 8`), for given results of `compute_delays`.  The
tables of cell 5 are those of `compute_predicted_position` (`posData`).  Columns of `pos_utm` as in `predictedPosition`. -/
noncomputable def nbPosition (sort : SortValues ι) (pts : List (ι × Vec)) (colsNE : Bool) (ref : ι) (ndownsel : ℤ) (c1 c2 : CloudCase) :
    Except PyErr (XR × XR) :=
  match dictGet? pts ref with
  | none => .error .keyError
  | some r =>
    match posData pts r c1, posData pts r c2 with
    | .ok d1, .ok d2 =>
      .ok (nbIntersect (nbError (locRows d1 (nbSelect sort ndownsel d1)) c1.vec) (nbError (locRows d2 (nbSelect sort ndownsel d2)) c2.vec)
        (if colsNE then (r.2, r.1) else r))
    | _, _ => .error .valueError

/-- A row of the digitized plant: `asset_name`, `asset_type` and the centroid of the outline in metres (from geopandas). -/
structure Asset (ι : Type) where
  name : ι
  kind : String
  centroid : Vec

/-- `data_centroids`, code cell 15 of plant_digitization_example.ipynb: the values come from the rows of type `combiner`, the index from
all rows; `pd.DataFrame` raises `ValueError` if their numbers differ. -/
def dataCentroids (data : List (Asset ι)) : Except PyErr (List (ι × Vec)) :=
  let values := (data.filter fun a => a.kind = "combiner").map Asset.centroid
  if values.length = data.length then .ok ((data.map Asset.name).zip values) else .error .valueError

end SST.Notebooks
