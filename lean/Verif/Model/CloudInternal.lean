import Verif.Model.Cloud

/-!
# Model of `demos/synthetic_clouds_internal_demo.py`

The demonstration calls the internal functions of `cloudfield.py` one after the other.  Plots are reduced to the numbers they show.
-/

namespace SST.Cloud
open SST SST.Stats

/-- The random field, the clear mask and the smoothed edges, demos/synthetic_clouds_internal_demo.py:24-49: `R1` are the grids drawn for the
field with the weights `w1`, `R2` those for the mask with the weights `w2`.  The mask is turned into numbers outside the field only to
have a function on all pairs. -/
noncomputable def internalFields (R1 R2 : ℕ → ℕ → ℕ → ℝ) (w1 w2 : List ℝ) (scales : List ℤ) (m n : ℕ) (frac : ℝ) (s : ℕ) :
    Except PyErr ((Fin m × Fin n → ℝ) × (Fin m × Fin n → Bool) × (Fin m × Fin n → Bool)) := do
  let cf ← stackField R1 w1 scales m n false
  let cm ← stackField R2 w2 scales m n false
  let mask ← clearMask (fun p : Fin m × Fin n => cm p.1 p.2) frac
  let mask2 : ℕ → ℕ → Bool := fun i j => if h : i < m ∧ j < n then mask (⟨i, h.1⟩, ⟨j, h.2⟩) else false
  .ok (fun p => cf p.1 p.2, mask, fun p => open Classical in decide (smoothedBinary mask2 m n s 0 p.1 p.2))

/-- The field of `_scale_field_lave`, demos/synthetic_clouds_internal_demo.py:75 and 97. -/
noncomputable def internalLave (R1 R2 : ℕ → ℕ → ℕ → ℝ) (w1 w2 : List ℝ) (scales : List ℤ) (m n : ℕ) (frac : ℝ) (s : ℕ) (ktmean ktmax kt1 : ℝ) :
    Except PyErr (Fin m × Fin n → Option ℝ) :=
  (internalFields R1 R2 w1 w2 scales m n frac s).bind fun t => scaleLave t.1 t.2.1 t.2.2 ktmean ktmax kt1 0.99

/-- The field of `_scale_field_basic` with its two options, demos/synthetic_clouds_internal_demo.py:98. -/
noncomputable def internalBasic (R1 R2 : ℕ → ℕ → ℕ → ℝ) (w1 w2 : List ℝ) (scales : List ℤ) (m n : ℕ) (frac : ℝ) (s : ℕ) (ktmean ktmax kt1 : ℝ)
    (flip : Bool) (cs : Option ℝ) : Except PyErr ((Fin m × Fin n → ℝ) × Bool) :=
  (internalFields R1 R2 w1 w2 scales m n frac s).bind fun t => scaleBasic t.1 t.2.1 t.2.2 ktmean ktmax kt1 0.999 flip cs

open Classical in
/-- Sizes of the three histograms "Cloudy Area", "Clear Sky" and "Edge Enhancement", demos/synthetic_clouds_internal_demo.py:80-83 and
cloudfield.py:358-361, 462-465: values below, equal to and above 1; NaN is in none of them. -/
noncomputable def threeHists {ι : Type} [Fintype ι] (g : ι → Option ℝ) : ℕ × ℕ × ℕ :=
  (count fun i => ∃ v, g i = some v ∧ v < 1, count fun i => g i = some 1, count fun i => ∃ v, g i = some v ∧ 1 < v)

end SST.Cloud
