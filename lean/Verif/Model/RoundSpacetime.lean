import Verif.Model.RoundVec

/-!
# Space-time distances with rounding

`cn` and `sn` are `np.cos` and `np.sin` as computed.
-/

namespace SST.Round
open SST SST.Spatial

variable (A : Arith)

/-- `np.sqrt(dx**2 + dy**2)`, spatial.py:609-611. -/
noncomputable def pairDistF (xf yf : List ℝ) : List (List ℝ) :=
  let pts := xf.zip yf
  pts.map fun p => pts.map fun q => A.fl (Real.sqrt (A.fl (A.fl (A.fl (p.1 - q.1) ^ 2) + A.fl (A.fl (p.2 - q.2) ^ 2))))

/-- `spacetime_distances`, spatial.py:589-613, with the simplifications of `SST.Spatial.spacetimeDistances`; `total_seconds()` is rounded. -/
noncomputable def spacetimeDistancesF (cn sn : ℝ → ℝ) (x y times : List ℝ) (cs cd : ℝ) : Except PyErr (List (List ℝ)) :=
  match times with
  | [] => .error .indexError
  | t0 :: _ =>
    if x.length ≠ y.length then .error .valueError
    else
      let dur := times.map fun t => A.fl (t - t0)
      let xDrift := dur.map fun d => A.fl (A.fl (cs * d) * cn cd)
      let yDrift := dur.map fun d => A.fl (A.fl (cs * d) * sn cd)
      let X : ℕ → ℕ → ℝ := fun i a => A.fl (x.getD i 0 - xDrift.getD a 0)
      let Y : ℕ → ℕ → ℝ := fun i a => A.fl (y.getD i 0 - yDrift.getD a 0)
      let xf := flattenF times.length x.length (fun a i => X i a)
      let yf := flattenF times.length y.length (fun a i => Y i a)
      .ok (pairDistF A xf yf)

end SST.Round
