import Verif.Spec.Assign
import Verif.Spec.Predict
import Verif.Model.Field

/-! # Independent specifications: a plant with misplaced sensors -/

namespace SST.Spec
open SST SST.Field

variable {ι : Type}

/-- What the measurements of one data set say about reference `ref` when the sensors really are at the places `P` and a straight
front passes with velocity `V`: exact delays of all sites (in the order `labels`), any coherences. -/
def ExactCase (labels : List ι) (P : ι → Vec) (V : Vec) (ref : ι) (c : CloudCase) : Prop :=
  c.vec = V ∧ c.delay = labels.map (fun l => some (planeDelay (P l) (P ref) V)) ∧ c.coh.length = labels.length

/-- Mean of the displacements `P - R` of some sites. -/
noncomputable def meanDisp (P R : ι → Vec) (S : List ι) : Vec :=
  ((S.map fun l => (P l).1 - (R l).1).sum / S.length, (S.map fun l => (P l).2 - (R l).2).sum / S.length)

/-- Component of `v` along `V`, times the length of `V`. -/
def along (v V : Vec) : ℝ := v.1 * V.1 + v.2 * V.2

/-- The plant table `tbl` has the sensors `refs` mixed up: sensor `p.1` really is at the place the table gives for `p.2`, for the pairs
`p` of the bijection `truth`; all other sensors are where the table says.  `P` are the real places. -/
structure MixedUp [DecidableEq ι] (tbl : List (ι × Vec)) (refs : List ι) (truth : List (ι × ι)) (P : ι → Vec) : Prop where
  known : ∀ l ∈ refs, l ∈ tbl.map Prod.fst
  bij : IsBijection truth refs
  moved : ∀ p ∈ truth, P p.1 = posOf tbl p.2
  rest : ∀ l ∈ tbl.map Prod.fst, l ∉ refs → P l = posOf tbl l

end SST.Spec
