import Verif.Model.Field

/-! # Independent specifications: choosing the most variable hours -/

namespace SST.Spec
open SST SST.Field

/-- Decreasing order, NaN last. -/
def nanGE : Option ℝ → Option ℝ → Prop
  | _, none => True
  | none, some _ => False
  | some a, some b => b ≤ a

/-- What `sort_values(ascending=False)` is assumed to do (nothing is assumed about the order of ties). -/
def IsSortDesc {κ : Type} (sort : SortValues κ) : Prop := ∀ l, (sort l).Perm l ∧ (sort l).Pairwise fun a b => nanGE a.2 b.2

/-- `S` is a list of `n` labels (all of them if there are fewer) of the largest values, in decreasing order. -/
def Largest {κ : Type} (labs : List κ) (val : κ → Option ℝ) (n : ℕ) (S : List κ) : Prop :=
  S.Nodup ∧ (∀ l ∈ S, l ∈ labs) ∧ S.length = min n labs.length ∧ (S.Pairwise fun a b => nanGE (val a) (val b)) ∧
  ∀ s ∈ S, ∀ u ∈ labs, u ∉ S → nanGE (val s) (val u)

/-- Value of a column at a stamp (`none`: NaN). -/
noncomputable def valueAt (times : List ℝ) (col : List (Option ℝ)) (s : ℝ) : Option ℝ :=
  open Classical in
  ((times.zip col).find? fun p => decide (p.1 = s)).bind Prod.snd

/-- The columns in the hour from `date` on: 361 samples, one every 10 s, both ends included. -/
noncomputable def hourOf {ι : Type} (times : List ℝ) (kt : List (ι × List (Option ℝ))) (date : ℝ) : List (ι × List (Option ℝ)) :=
  kt.map fun c => (c.1, (List.range 361).map fun k : ℕ => valueAt times c.2 (date + 10 * k))

end SST.Spec
