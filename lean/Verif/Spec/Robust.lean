import Verif.Spec.Reassign

/-! # Independent specifications: measured delays that are not exact -/

namespace SST.Spec
open SST SST.Field

variable {ι : Type}

/-- What one data set says about a reference: the cloud vector `V` that is used with it, finite delays `τ` of all sites (in the order
`labels`), any coherences. -/
def MeasuredCase (labels : List ι) (V : Vec) (τ : ι → ℝ) (c : CloudCase) : Prop :=
  c.vec = V ∧ c.delay = labels.map (fun l => some (τ l)) ∧ c.coh.length = labels.length

/-- Mean of the values `g` of some sites. -/
noncomputable def meanOver (S : List ι) (g : ι → ℝ) : ℝ := (S.map g).sum / S.length

/-- Mean of the places `P` of some sites. -/
noncomputable def centre (P : ι → Vec) (S : List ι) : Vec := (meanOver S fun l => (P l).1, meanOver S fun l => (P l).2)

/-- Square of the length. -/
def normSq (V : Vec) : ℝ := V.1 ^ 2 + V.2 ^ 2

end SST.Spec
