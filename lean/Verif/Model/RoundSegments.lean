import Verif.Model.Round
import Verif.Model.Tf

/-!
# The overlap of segments with rounding

`averaged_psd` and `averaged_tf` where `int(nperseg * overlap)` is computed with rounding.  Everything after it is in exact arithmetic as in `Model/Tf.lean`.
-/

namespace SST.Round
open SST SST.Tf

variable (A : Arith)

/-- `noverlap = int(nperseg * overlap)`, signalproc.py:209 and :300. -/
noncomputable def noverlapF (L : ℕ) (overlap : ℝ) : ℤ := pyInt (A.fl (L * overlap))

/-- `averaged_psd`, signalproc.py:164-215. -/
noncomputable def averagedPsdF (o : Opts) (isSeries : Bool) (cols : List (String × List ℝ)) (scaling : String) :
    Except PyErr (List (String × List (ℝ × ℝ))) :=
  let scaling := if isSeries then "density" else scaling
  let n := (cols.headD ("", [])).2.length
  if o.navgs = 0 then .error .other
  else
    let L := n / o.navgs
    let ov := noverlapF A L o.overlap
    if L = 0 ∨ (L : ℤ) ≤ ov then .error .valueError
    else if scaling ≠ "density" ∧ scaling ≠ "spectrum" then .error .valueError
    else
      let w := o.win L
      let c (k : ℕ) : ℝ := (if k = 0 ∨ 2 * k = L then 1 else 2) *
        (if scaling = "density" then o.dt / (w.map fun v => v ^ 2).sum else 1 / w.sum ^ 2)
      .ok (cols.map fun p => (p.1, (List.range (L / 2 + 1)).map fun (k : ℕ) =>
        ((k : ℝ) / (L * o.dt), psd (c k) (spectra w o.detr L ov.toNat p.2 k))))

/-- `averaged_tf`, signalproc.py:218-326. -/
noncomputable def averagedTfF (o : Opts) (ins outs : List (String × List ℝ)) : Except PyErr (List (String × List Row)) :=
  match pairCols ins outs with
  | .error e => .error e
  | .ok ps =>
    let n := (ins.headD ("", [])).2.length
    if o.navgs = 0 then .error .other
    else
      let L := n / o.navgs
      let ov := noverlapF A L o.overlap
      if L = 0 ∨ (L : ℤ) ≤ ov then .error .valueError
      else .ok (ps.map fun p => (p.1, pairTf o L ov.toNat p.2.1 p.2.2))

end SST.Round
