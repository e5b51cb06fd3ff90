import Verif.Model.RoundVec
import Verif.Model.Field

/-!
# `assign_positions` with rounding
-/

namespace SST.Round
open SST SST.Field

variable (A : Arith) {ι κ : Type}

/-- Cost matrix, field.py:406-416. -/
noncomputable def costMatrixF (plan : List Vec) (pred : List PredRow) (i j : ℕ) : ℝ :=
  match plan[i]?, pred[j]? with
  | some p, some q =>
    if j < plan.length then A.fl (Real.sqrt (A.fl (A.fl (A.fl (p.1 - q.e.getD 0) ^ 2) + A.fl (A.fl (p.2 - q.n.getD 0) ^ 2)))) else 0
  | _, _ => 0

/-- The NaN-free branch of `assign_positions`, field.py:401-424, see `Field.assignCore`.  `linear_sum_assignment` is a parameter and works
on the rounded matrix. -/
noncomputable def assignCoreF [LinearOrder ι] (lsa : LSA) (orig : List (ι × Vec)) (pred : List PredRow) : Except PyErr (List (ι × ι)) :=
  if pred.length < orig.length then .error .indexError
  else
    let rc := lsa orig.length pred.length (costMatrixF A (orig.map Prod.snd) pred)
    match rc.2.mapM (fun j => (orig.map Prod.fst)[j]?), rc.1.mapM (fun i => (orig.map Prod.fst)[i]?) with
    | some cl, some rl => .ok (sortPairs (cl.zip rl))
    | _, _ => .error .indexError

/-- `assign_positions`, field.py:376-430, for predictions without NaN. -/
noncomputable def assignPositionsF [LinearOrder ι] [DecidableEq κ] (lsa : LSA) (nan : ℝ) (original : Frame ι κ ℝ) (pred : List (ι × PredRow)) :
    Except PyErr (List (ι × ι) × Frame ι κ ℝ) :=
  match original.cols with
  | c0 :: c1 :: _ => do
    let remap ← assignCoreF A lsa (original.rows.map fun r => (r.1, (r.2 c0, r.2 c1))) (pred.map Prod.snd)
    let out ← remapPositions nan original remap none
    pure (remap, out)
  | _ => .error .indexError

end SST.Round
