import Verif.Model.Field

/-! # Independent specifications: plane-wave delays and sorting -/

namespace SST.Spec
open SST SST.Field

/-- Time by which a straight front travelling with velocity `V` reaches `x` later than `p`. -/
noncomputable def planeDelay (x p V : Vec) : ℝ :=
  ((x.1 - p.1) * V.1 + (x.2 - p.2) * V.2) / (V.1 ^ 2 + V.2 ^ 2)

/-- Ascending order with NaN (`none`) last. -/
def nanLE : Option ℝ → Option ℝ → Prop
  | _, none => True
  | none, some _ => False
  | some a, some b => a ≤ b

/-- What `sort_values` is assumed to do (nothing is assumed about the order of ties). -/
def IsSortValues {ι : Type} (sort : SortValues ι) : Prop :=
  ∀ l, (sort l).Perm l ∧ (sort l).Pairwise fun a b => nanLE a.2 b.2

/-- `S` is what remains of `labs` when the best-valued label is dropped and of the others the
`n - 1` best are kept (all others if there are fewer). -/
def BestButTop {ι : Type} (labs : List ι) (val : ι → Option ℝ) (n : ℕ) (S : List ι) : Prop :=
  S.Nodup ∧ (∀ l ∈ S, l ∈ labs) ∧ S.length = min (n - 1) (labs.length - 1) ∧
  (labs ≠ [] → ∃ top ∈ labs, top ∉ S ∧ (∀ l ∈ labs, nanLE (val l) (val top)) ∧
    ∀ s ∈ S, ∀ u ∈ labs, u ∉ S → u ≠ top → nanLE (val u) (val s))

/-- `S` is a set of `min n labs.length` labels of smallest value. -/
def Smallest {ι : Type} (labs : List ι) (val : ι → Option ℝ) (n : ℕ) (S : List ι) : Prop :=
  S.Nodup ∧ (∀ l ∈ S, l ∈ labs) ∧ S.length = min n labs.length ∧
  ∀ s ∈ S, ∀ u ∈ labs, u ∉ S → nanLE (val s) (val u)

end SST.Spec
