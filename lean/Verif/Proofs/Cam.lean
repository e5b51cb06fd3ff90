import Verif.Proofs.Filters
import Verif.Spec.Filters

/-! # Helper lemmas: the CAM filter on a regular grid -/

namespace SST.Filters
open SST SST.Dft SST.Tf SST.Corr SST.Spatial

theorem shiftPhase_zero (V t : ℝ) : shiftPhase V t 0 1 = 1 := by
  unfold shiftPhase; split_ifs <;> simp

theorem shiftPhase_norm (V t f : ℝ) (z : ℂ) : ‖shiftPhase V t f z‖ = ‖z‖ := by
  unfold shiftPhase
  split_ifs
  · rw [norm_mul, show Complex.I * f * (2 * Real.pi) * t = ((f * (2 * Real.pi) * t : ℝ) : ℂ) * Complex.I by push_cast; ring,
      Complex.norm_exp_ofReal_mul_I, mul_one]
  · rw [Complex.norm_conj, norm_mul, show Complex.I * f * (2 * Real.pi) * -t = ((f * (2 * Real.pi) * -t : ℝ) : ℂ) * Complex.I by push_cast; ring,
      Complex.norm_exp_ofReal_mul_I, mul_one]

theorem conj_exp_I (a : ℝ) : (starRingEnd ℂ) (Complex.exp (a * Complex.I)) = Complex.exp ((-a : ℝ) * Complex.I) := by
  rw [← Complex.exp_conj, map_mul, Complex.conj_ofReal, Complex.conj_I]
  congr 1; push_cast; ring

theorem shiftPhase_eq (V t f : ℝ) (z : ℂ) : shiftPhase V t f z =
    if 0 < V then z * Complex.exp ((2 * Real.pi * f * t : ℝ) * Complex.I)
    else (starRingEnd ℂ) (z * Complex.exp ((-(2 * Real.pi * f * t) : ℝ) * Complex.I)) := by
  unfold shiftPhase
  rw [show Complex.I * f * (2 * Real.pi) * t = ((2 * Real.pi * f * t : ℝ) : ℂ) * Complex.I by push_cast; ring,
    show Complex.I * f * (2 * Real.pi) * -t = ((-(2 * Real.pi * f * t) : ℝ) : ℂ) * Complex.I by push_cast; ring]

theorem shiftPhase_conj (V t f : ℝ) (z : ℂ) :
    shiftPhase V t (-f) ((starRingEnd ℂ) z) = (starRingEnd ℂ) (shiftPhase V t f z) := by
  rw [shiftPhase_eq, shiftPhase_eq]
  split_ifs
  · rw [map_mul, conj_exp_I]; congr 4; ring
  · rw [Complex.conj_conj, map_mul, Complex.conj_conj, conj_exp_I]; congr 4; ring

theorem shiftPhase_neg {V : ℝ} (hV : V ≠ 0) (m f : ℝ) (z : ℂ) :
    shiftPhase (-V) (m / -V) f z = (starRingEnd ℂ) (shiftPhase V (m / V) f z) := by
  rw [shiftPhase_eq, shiftPhase_eq]
  rcases lt_or_gt_of_ne hV with h | h
  · rw [if_pos (by linarith), if_neg (by linarith), Complex.conj_conj]
    congr 4; rw [div_neg]; ring
  · rw [if_neg (by linarith), if_pos h]
    congr 5; rw [div_neg]; ring

/-- Grids. -/
noncomputable def grid (N : ℕ) (x0 dx : ℝ) : List ℝ := (List.range N).map fun (j : ℕ) => x0 + j * dx

theorem centredGrid_eq (N : ℕ) (dx : ℝ) : centredGrid N dx = grid N (-((N : ℝ) * dx / 2)) dx := rfl

@[simp] theorem grid_length (N : ℕ) (x0 dx : ℝ) : (grid N x0 dx).length = N := by simp [grid]

theorem at0_grid {N : ℕ} (x0 dx : ℝ) {j : ℕ} (h : j < N) : at0 (grid N x0 dx) j = x0 + j * dx :=
  at0_range_map (fun (j : ℕ) => x0 + j * dx) h

theorem minOf_grid {N : ℕ} (hN : 0 < N) (x0 dx : ℝ) (hdx : 0 < dx) : minOf (grid N x0 dx) = x0 := by
  obtain ⟨n, rfl⟩ : ∃ n, N = n + 1 := ⟨N - 1, by omega⟩
  unfold minOf grid
  rw [List.range_succ_eq_map]
  simp only [List.map_cons, List.tail_cons, List.headD_cons, Nat.cast_zero, zero_mul, add_zero]
  apply foldl_min_eq
  intro v hv
  simp only [List.map_map, List.mem_map] at hv
  obtain ⟨j, -, rfl⟩ := hv
  simp only [Function.comp_apply]
  have : (0 : ℝ) ≤ (j.succ : ℕ) * dx := by positivity
  linarith

/-- The value of bin `k` for positive speed, as a function of the bin number. -/
noncomputable def gridSpec (plant : List ℝ) (x0 dx : ℝ) (b : ℤ) : ℂ :=
  plantSpec plant b * Complex.exp ((2 * Real.pi * b * x0 / (plant.length * dx) : ℝ) * Complex.I)

theorem camfilter_grid {plant : List ℝ} {N : ℕ} (hl : plant.length = N) (hN : 2 ≤ N) {x0 dx V : ℝ} (hdx : 0 < dx) (hV : V ≠ 0)
    (hs : plant.sum ≠ 0) :
    camfilter plant (grid N x0 dx) V = .ok ((List.range N).map fun (k : ℕ) =>
      ((binNumber N k : ℝ) * |V| / (N * dx),
        some (if 0 < V then gridSpec plant x0 dx (binNumber N k) else (starRingEnd ℂ) (gridSpec plant x0 dx (binNumber N k))))) := by
  rw [camfilter_eq (by simpa using hN), minOf_grid (by omega) x0 dx hdx, at0_grid x0 dx (by omega), at0_grid x0 dx (by omega), hl]
  congr 1
  apply List.map_congr_left
  intro k _
  have hN0 : (N : ℝ) ≠ 0 := by positivity
  have hV' : |V| ≠ 0 := abs_ne_zero.2 hV
  have hf : (binNumber N k : ℝ) / (N * ((x0 + ((1 : ℕ) : ℝ) * dx - (x0 + ((0 : ℕ) : ℝ) * dx)) / |V|)) = (binNumber N k : ℝ) * |V| / (N * dx) := by
    push_cast
    rw [show x0 + 1 * dx - (x0 + 0 * dx) = dx by ring]
    field_simp
  rw [hf, if_neg hs]
  have hp : plantSpec plant k = plantSpec plant (binNumber N k) := plantSpec_period _ _ _ (by rw [hl]; exact binNumber_dvd N k)
  rw [hp, shiftPhase_eq]
  unfold gridSpec
  rw [hl]
  congr 2
  rcases lt_or_gt_of_ne hV with h | h
  · rw [if_neg (by linarith), if_neg (by linarith), abs_of_neg h]
    congr 5
    field_simp
  · rw [if_pos h, if_pos h, abs_of_pos h]
    congr 4
    field_simp

/-- The response on a grid. -/
theorem response_grid {plant : List ℝ} {N : ℕ} (hl : plant.length = N) (hN : 0 < N) {x0 dx V : ℝ} (hdx : 0 < dx) (hV : V ≠ 0) (b : ℤ) :
    response plant (grid N x0 dx) V (b * |V| / (N * dx)) =
      if 0 < V then plantSpec plant b * Complex.exp (-(2 * Real.pi * b * x0 / (N * dx) : ℝ) * Complex.I)
      else (starRingEnd ℂ) (plantSpec plant b * Complex.exp (-(2 * Real.pi * b * x0 / (N * dx) : ℝ) * Complex.I)) := by
  have hN0 : (N : ℝ) ≠ 0 := by positivity
  have hNC : (N : ℂ) ≠ 0 := by exact_mod_cast hN.ne'
  have hdC : (dx : ℂ) ≠ 0 := by exact_mod_cast hdx.ne'
  have hsum : ∀ g : ℝ → ℝ → ℂ, (List.zipWith g plant (grid N x0 dx)).sum = ∑ j ∈ Finset.range N, g (at0 plant j) (x0 + j * dx) := by
    intro g
    have : List.zipWith g plant (grid N x0 dx) = (List.range N).map fun (j : ℕ) => g (at0 plant j) (x0 + j * dx) := by
      apply List.ext_getElem (by simp [hl])
      intro i h1 h2
      have hi : i < N := by simpa using h2
      rw [List.getElem_zipWith, List.getElem_map, List.getElem_range, at0_of_lt (by omega)]
      congr 1
      have := at0_grid x0 dx hi
      rw [at0_of_lt (by simpa using hi)] at this
      exact this
    rw [this]; rfl
  have hpos : ∀ x0' : ℝ, (∑ j ∈ Finset.range N, ((at0 plant j : ℝ) : ℂ) * Complex.exp (-(2 * Real.pi * b * (x0' + j * dx) / (N * dx) : ℝ) * Complex.I)) / (plant.sum : ℝ) =
      plantSpec plant b * Complex.exp (-(2 * Real.pi * b * x0' / (N * dx) : ℝ) * Complex.I) := by
    intro x0'
    unfold plantSpec
    rw [Finset.sum_div, Finset.sum_mul, hl]
    apply Finset.sum_congr rfl
    intro j _
    have : Complex.exp (-(2 * Real.pi * b * (x0' + j * dx) / (N * dx) : ℝ) * Complex.I) =
        twiddle N (j * b) * Complex.exp (-(2 * Real.pi * b * x0' / (N * dx) : ℝ) * Complex.I) := by
      unfold twiddle
      rw [← Complex.exp_add]
      congr 1
      push_cast
      field_simp
      ring
    rw [this]
    push_cast
    ring
  unfold response
  rw [hsum]
  rcases lt_or_gt_of_ne hV with h | h
  · rw [if_neg (by linarith), ← hpos x0, map_div₀, map_sum, Complex.conj_ofReal]
    congr 1
    apply Finset.sum_congr rfl
    intro j _
    rw [map_mul, Complex.conj_ofReal, ← Complex.ofReal_neg, ← Complex.ofReal_neg, conj_exp_I, neg_neg]
    congr 4
    rw [abs_of_neg h]
    field_simp
  · rw [if_pos h, ← hpos x0]
    congr 1
    apply Finset.sum_congr rfl
    intro j _
    congr 3
    rw [abs_of_pos h]
    congr 2
    field_simp

end SST.Filters
