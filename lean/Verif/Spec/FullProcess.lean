import Verif.Spec.Reassign
import Verif.Model.FullProcess

/-! # Independent specifications: the complete reassignment procedure -/

namespace SST.Spec
open SST SST.Field

variable {ι : Type}

/-- `r` maps every combiner of `ids` to a combiner of the same inverter, one to one. -/
def WithinInverters [DecidableEq ι] (inv : ι → String) (ids : List ι) (r : List (ι × ι)) : Prop :=
  IsBijection r ids ∧ ∀ p ∈ r, inv p.1 = inv p.2

/-- No inverter name of the plant is part of another one. -/
def NamesApart (inv : ι → String) (ids : List ι) : Prop :=
  ∀ a ∈ ids, ∀ b ∈ ids, (∃ pre post : List Char, (inv b).toList = pre ++ (inv a).toList ++ post) → inv a = inv b

/-- `f'` is the plan `f` with every combiner `k` moved to the place of `v` for the pairs `(k, v)` of `r`. -/
def LayoutOf [DecidableEq ι] (f : Frame ι String ℝ) (r : List (ι × ι)) (f' : Frame ι String ℝ) : Prop :=
  f'.index = f.index ∧ f'.cols = f.cols ∧ ∀ p ∈ r, posOf (coords "E" "N" f') p.1 = posOf (coords "E" "N" f) p.2

end SST.Spec
