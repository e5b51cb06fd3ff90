import Verif.Spec.Tf

/-! # Specification: transfer functions with opposite phases -/

namespace SST.Tf
open SST

/-- The phase of a bin is defined and not half a turn (where a phase and its opposite are the same). -/
def Turned (r : Row) : Prop := ∃ z : ℂ, r.tf = some z ∧ (0 < z.re ∨ z.im ≠ 0)

/-- Two transfer functions with the same frequencies and coherences and, below the limit, opposite phases. -/
def OppositePhases (freqLim : Option ℝ) (rows rows' : List Row) : Prop :=
  List.Forall₂ (fun r r' => r'.f = r.f ∧ r'.coh = r.coh ∧
    (Below freqLim r → Turned r ∧ ∃ (z : ℂ) (c : ℝ), 0 < c ∧ r.tf = some z ∧ r'.tf = some (c * (starRingEnd ℂ) z))) rows rows'

end SST.Tf
