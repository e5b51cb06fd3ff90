import Verif.Proofs.CloudSymm
import Verif.Spec.CloudLaw
import Mathlib.Probability.ProductMeasure

/-!
# Symmetries of the law of the generated cloud field

C227: reversing the rows or the columns of a generated field, or exchanging rows and columns, leaves its law as it is.
-/

namespace SST.Props.CloudSymm
open SST SST.Spec SST.Cloud MeasureTheory

/-! ## C227 -/

/-- All numbers drawn for a field: `false` for the grids of the cloud field and `true` for those of the mask, then grid, row and column. -/
noncomputable def allDraws : Measure (Bool × ℕ × ℕ × ℕ → ℝ) := Measure.infinitePi fun _ => uniform01

/-- The field generated from the numbers drawn. -/
noncomputable def drawnField (u : Bool × ℕ × ℕ × ℕ → ℝ) (weights : List ℝ) (scales : List ℤ) (m n : ℕ) (fracClear ktmean ktmax kt1 : ℝ) (scaling : String)
    (edgesmoothing : ℕ) : Except PyErr (Fin m × Fin n → Option ℝ) :=
  cloudfield (fun k a b => u (false, k, a, b)) (fun k a b => u (true, k, a, b)) weights scales m n fracClear ktmean ktmax kt1 scaling edgesmoothing

theorem draws_exchange (e : Bool × ℕ × ℕ × ℕ ≃ Bool × ℕ × ℕ × ℕ) (S : Set (Bool × ℕ × ℕ × ℕ → ℝ)) :
    allDraws {u | (fun p => u (e p)) ∈ S} = allDraws S := by
  have h := Measure.infinitePi_map_piCongrLeft (X := fun _ : Bool × ℕ × ℕ × ℕ => ℝ) (fun _ => uniform01) e.symm
  have h2 := congrArg (fun μ => μ S) h
  simp only at h2
  rw [MeasurableEquiv.map_apply] at h2
  unfold allDraws
  rw [← h2]
  congr 1
  ext u
  simp only [Set.mem_ofPred_eq, Set.mem_preimage]
  have : MeasurableEquiv.piCongrLeft (fun _ : Bool × ℕ × ℕ × ℕ => ℝ) e.symm u = fun p => u (e p) := by
    funext p
    have := MeasurableEquiv.piCongrLeft_apply_apply (β := fun _ : Bool × ℕ × ℕ × ℕ => ℝ) e.symm u (e p)
    simpa using this
  rw [this]

/-- C227: exchanging rows and columns: a field of `n` rows and `m` columns has the law of the transposed field of `m` rows and `n` columns. -/
theorem C227_transposed (weights : List ℝ) (scales : List ℤ) (m n : ℕ) (hm : 0 < m) (hn : 0 < n) (fracClear ktmean ktmax kt1 : ℝ) (scaling : String)
    (edgesmoothing : ℕ) (E : Except PyErr (Fin n × Fin m → Option ℝ) → Prop) :
    allDraws {u | E (drawnField u weights scales n m fracClear ktmean ktmax kt1 scaling edgesmoothing)} =
      allDraws {u | E ((drawnField u weights scales m n fracClear ktmean ktmax kt1 scaling edgesmoothing).map fun g p => g (p.2, p.1))} := by
  have h := draws_exchange ((Equiv.refl Bool).prodCongr ((Equiv.refl ℕ).prodCongr (Equiv.prodComm ℕ ℕ)))
    {u | E (drawnField u weights scales n m fracClear ktmean ktmax kt1 scaling edgesmoothing)}
  rw [← h]
  congr 1
  ext u
  have := cloudfield_transposed (fun k a b => u (false, k, a, b)) (fun k a b => u (true, k, a, b)) weights scales hm hn fracClear ktmean ktmax kt1 scaling edgesmoothing
  simp only [Set.mem_ofPred_eq]
  unfold drawnField
  rw [← this]
  rfl

/-- C227: reversing the order of the rows: the field has the law of the field with its rows reversed (for the scaling 'basic', with an odd edge smoothing). -/
theorem C227_mirrored (weights : List ℝ) (scales : List ℤ) (m n : ℕ) (fracClear ktmean ktmax kt1 : ℝ) (scaling : String)
    (edgesmoothing : ℕ) (hs : scaling = "basic" → Odd edgesmoothing) (E : Except PyErr (Fin m × Fin n → Option ℝ) → Prop) :
    allDraws {u | E (drawnField u weights scales m n fracClear ktmean ktmax kt1 scaling edgesmoothing)} =
      allDraws {u | E ((drawnField u weights scales m n fracClear ktmean ktmax kt1 scaling edgesmoothing).map fun g p => g (p.1.rev, p.2))} := by
  by_cases hsmall : m < 2 ∨ n = 0
  · have hid : (fun (g : Fin m × Fin n → Option ℝ) (p : Fin m × Fin n) => g (p.1.rev, p.2)) = id := by
      funext g p
      have : p.1.rev = p.1 := by
        rcases hsmall with h | h
        · ext; rw [Fin.val_rev]; have := p.1.2; omega
        · exact absurd p.2.2 (by omega)
      rw [this]; rfl
    have hmap : ∀ r : Except PyErr (Fin m × Fin n → Option ℝ), r.map id = r := by intro r; cases r <;> rfl
    rw [hid]
    simp only [hmap]
  · push Not at hsmall
    let e : Bool × ℕ × ℕ × ℕ ≃ Bool × ℕ × ℕ × ℕ :=
      Function.Involutive.toPerm (fun p => (p.1, p.2.1, mirIdx (scaledSize m (scales.getD p.2.1 0)).toNat p.2.2.1, p.2.2.2)) fun p => by
        simp only [mirIdx_invol]
    have h := draws_exchange e {u | E (drawnField u weights scales m n fracClear ktmean ktmax kt1 scaling edgesmoothing)}
    rw [← h]
    congr 1
    ext u
    have := cloudfield_mirrored (fun k a b => u (false, k, a, b)) (fun k a b => u (true, k, a, b)) weights scales hsmall.1 (Nat.pos_of_ne_zero hsmall.2)
      fracClear ktmean ktmax kt1 scaling edgesmoothing hs
    simp only [Set.mem_ofPred_eq]
    unfold drawnField
    rw [← this]
    rfl

/-- C227: reversing the order of the columns. -/
theorem C227_columns (weights : List ℝ) (scales : List ℤ) (m n : ℕ) (fracClear ktmean ktmax kt1 : ℝ) (scaling : String)
    (edgesmoothing : ℕ) (hs : scaling = "basic" → Odd edgesmoothing) (E : Except PyErr (Fin m × Fin n → Option ℝ) → Prop) :
    allDraws {u | E (drawnField u weights scales m n fracClear ktmean ktmax kt1 scaling edgesmoothing)} =
      allDraws {u | E ((drawnField u weights scales m n fracClear ktmean ktmax kt1 scaling edgesmoothing).map fun g p => g (p.1, p.2.rev))} := by
  have hmap : ∀ {α β γ : Type} (r : Except PyErr α) (f : α → β) (g : β → γ), (r.map f).map g = r.map fun x => g (f x) := by
    intro α β γ r f g; cases r <;> rfl
  by_cases h0 : m = 0 ∨ n = 0
  · have hid : (fun (g : Fin m × Fin n → Option ℝ) (p : Fin m × Fin n) => g (p.1, p.2.rev)) = id := by
      funext g p
      rcases h0 with h | h
      · exact absurd p.1.2 (by omega)
      · exact absurd p.2.2 (by omega)
    have hmap : ∀ r : Except PyErr (Fin m × Fin n → Option ℝ), r.map id = r := by intro r; cases r <;> rfl
    rw [hid]
    simp only [hmap]
  · push Not at h0
    have hm := Nat.pos_of_ne_zero h0.1
    have hn := Nat.pos_of_ne_zero h0.2
    have a := C227_transposed weights scales n m hn hm fracClear ktmean ktmax kt1 scaling edgesmoothing E
    have b := C227_mirrored weights scales n m fracClear ktmean ktmax kt1 scaling edgesmoothing hs fun r => E (r.map fun g p => g (p.2, p.1))
    have c := C227_transposed weights scales n m hn hm fracClear ktmean ktmax kt1 scaling edgesmoothing fun r => E (r.map fun g p => g (p.1, p.2.rev))
    rw [a, b, c]
    simp only [hmap]

/-- C227: so mirrored cells are equally likely to have any given property: the probability that the cell in row `i`, column `j` is a value in `B` is that
of the cell in the mirrored row and column. -/
theorem C227_cells (weights : List ℝ) (scales : List ℤ) (m n : ℕ) (fracClear ktmean ktmax kt1 : ℝ) (scaling : String)
    (edgesmoothing : ℕ) (hs : scaling = "basic" → Odd edgesmoothing) (i : Fin m) (j : Fin n) (B : Set (Option ℝ)) :
    allDraws {u | ∃ g, drawnField u weights scales m n fracClear ktmean ktmax kt1 scaling edgesmoothing = .ok g ∧ g (i, j) ∈ B} =
        allDraws {u | ∃ g, drawnField u weights scales m n fracClear ktmean ktmax kt1 scaling edgesmoothing = .ok g ∧ g (i.rev, j) ∈ B} ∧
      allDraws {u | ∃ g, drawnField u weights scales m n fracClear ktmean ktmax kt1 scaling edgesmoothing = .ok g ∧ g (i, j) ∈ B} =
        allDraws {u | ∃ g, drawnField u weights scales m n fracClear ktmean ktmax kt1 scaling edgesmoothing = .ok g ∧ g (i, j.rev) ∈ B} := by
  have key : ∀ (r : Except PyErr (Fin m × Fin n → Option ℝ)) (f : Fin m × Fin n → Fin m × Fin n),
      (∃ g, (r.map fun g p => g (f p)) = .ok g ∧ g (i, j) ∈ B) ↔ ∃ g, r = .ok g ∧ g (f (i, j)) ∈ B := by
    intro r f
    cases r with
    | error x => simp [Except.map]
    | ok g => simp [Except.map]
  constructor
  · rw [C227_mirrored weights scales m n fracClear ktmean ktmax kt1 scaling edgesmoothing hs fun r => ∃ g, r = .ok g ∧ g (i, j) ∈ B]
    simp only [key _ fun p => (p.1.rev, p.2)]
  · rw [C227_columns weights scales m n fracClear ktmean ktmax kt1 scaling edgesmoothing hs fun r => ∃ g, r = .ok g ∧ g (i, j) ∈ B]
    simp only [key _ fun p => (p.1, p.2.rev)]

/-- The default call: opposite corners of a field of 30 rows and 40 columns are equally often clear. -/
example : allDraws {u | ∃ g, drawnField u [0.2, 0.3, 0.5] [1, 2, 3] 30 40 0.3 0.6 1.4 1.05 "basic" 3 = .ok g ∧ g (0, 0) ∈ ({some 1} : Set (Option ℝ))} =
    allDraws {u | ∃ g, drawnField u [0.2, 0.3, 0.5] [1, 2, 3] 30 40 0.3 0.6 1.4 1.05 "basic" 3 = .ok g ∧ g (29, 0) ∈ ({some 1} : Set (Option ℝ))} :=
  (C227_cells [0.2, 0.3, 0.5] [1, 2, 3] 30 40 0.3 0.6 1.4 1.05 "basic" 3 (fun _ => by decide) 0 0 {some (1 : ℝ)}).1

end SST.Props.CloudSymm
