import Verif.Model.Field
import Verif.Spec.Remap
import Verif.Spec.Geom

/-! # Independent specifications: optimal assignment -/

namespace SST.Spec
open SST SST.Field

/-- A matching of `min n m` rows (listed in increasing order) with distinct columns of an `n × m`
matrix. -/
structure IsMatching (n m : ℕ) (r c : List ℕ) : Prop where
  rows_sorted : r.Pairwise (· < ·)
  rows_lt : ∀ i ∈ r, i < n
  cols_nodup : c.Nodup
  cols_lt : ∀ j ∈ c, j < m
  rows_len : r.length = min n m
  cols_len : c.length = min n m

/-- Total cost of a matching. -/
noncomputable def matchCost (C : ℕ → ℕ → ℝ) (r c : List ℕ) : ℝ := (List.zipWith C r c).sum

/-- What `scipy.optimize.linear_sum_assignment` is assumed to do: return a matching of least total
cost, rows in increasing order. -/
def IsLSA (lsa : LSA) : Prop :=
  ∀ n m C, IsMatching n m (lsa n m C).1 (lsa n m C).2 ∧
    ∀ r c, IsMatching n m r c → matchCost C (lsa n m C).1 (lsa n m C).2 ≤ matchCost C r c

variable {ι κ : Type} [DecidableEq ι]

/-- Position stored under a label. -/
noncomputable def posOf (tbl : List (ι × Vec)) (l : ι) : Vec :=
  ((tbl.find? fun r => r.1 = l).map Prod.snd).getD (0, 0)

/-- Label and first two coordinates of every prediction (only used for rows without NaN). -/
noncomputable def predCoords (pred : List (ι × PredRow)) : List (ι × Vec) :=
  pred.map fun r => (r.1, (r.2.e.getD 0, r.2.n.getD 0))

/-- Label and coordinates (columns `c0`, `c1`) of every row of a table. -/
def coords (c0 c1 : κ) (f : Frame ι κ ℝ) : List (ι × Vec) :=
  f.rows.map fun r => (r.1, (r.2 c0, r.2 c1))

/-- Total distance between each entity's predicted position and the original position assigned to
it by `remap`. -/
noncomputable def totalDist (orig pred : List (ι × Vec)) (remap : List (ι × ι)) : ℝ :=
  (remap.map fun p => pdist (posOf pred p.1) (posOf orig p.2)).sum

end SST.Spec
