import Verif.Proofs.Cloud
import Verif.Spec.CloudLaw
import Mathlib.Probability.Moments.Covariance
import Mathlib.Analysis.SpecialFunctions.Integrals.Basic

/-! # The interpolated random fields as linear combinations of independent numbers -/

namespace SST.Cloud
open SST SST.Spec MeasureTheory ProbabilityTheory

/-- Index of the drawn grid that a node stands for. -/
def nodeIdx (r : ℤ) (c : ℕ) : ℕ := if r ≤ 1 then 0 else c

/-- Weight of the grid index `a` in row `i` of `F` interpolated rows. -/
noncomputable def hat (r : ℤ) (F i a : ℕ) : ℝ :=
  (if nodeIdx r (cell (gridSize r) (linspace01 F i)) = a then 1 - inCell (gridSize r) (linspace01 F i) else 0) +
    (if nodeIdx r (cell (gridSize r) (linspace01 F i) + 1) = a then inCell (gridSize r) (linspace01 F i) else 0)

theorem nodeIdx_lt {r : ℤ} {c : ℕ} (h : c + 1 ≤ gridSize r) : nodeIdx r c < (max r 1).toNat := by
  unfold nodeIdx
  unfold gridSize at h
  split_ifs at h ⊢ <;> omega

theorem hat_cells {r : ℤ} {F i : ℕ} (hi : i < F) : nodeIdx r (cell (gridSize r) (linspace01 F i)) < (max r 1).toNat ∧
    nodeIdx r (cell (gridSize r) (linspace01 F i) + 1) < (max r 1).toNat ∧ 0 ≤ inCell (gridSize r) (linspace01 F i) ∧ inCell (gridSize r) (linspace01 F i) ≤ 1 := by
  obtain ⟨h0, h1, h2⟩ := inCell_mem (gridSize_ge r) (linspace_mem hi).1 (linspace_mem hi).2
  exact ⟨nodeIdx_lt (by omega), nodeIdx_lt (by omega), h0, h1⟩

theorem hat_sum {r : ℤ} {F i N : ℕ} (hi : i < F) (hN : (max r 1).toNat ≤ N) (g : ℕ → ℝ) :
    ∑ a ∈ Finset.range N, hat r F i a * g a = (1 - inCell (gridSize r) (linspace01 F i)) * g (nodeIdx r (cell (gridSize r) (linspace01 F i))) +
      inCell (gridSize r) (linspace01 F i) * g (nodeIdx r (cell (gridSize r) (linspace01 F i) + 1)) := by
  obtain ⟨h0, h1, _⟩ := hat_cells (r := r) hi
  simp only [hat, add_mul, ite_mul, zero_mul]
  rw [Finset.sum_add_distrib, Finset.sum_ite_eq, Finset.sum_ite_eq, if_pos (Finset.mem_range.2 (by omega)), if_pos (Finset.mem_range.2 (by omega))]

theorem hat_nonneg {r : ℤ} {F i : ℕ} (hi : i < F) (a : ℕ) : 0 ≤ hat r F i a := by
  obtain ⟨_, _, h2, h3⟩ := hat_cells (r := r) hi
  unfold hat
  apply add_nonneg <;> split_ifs <;> linarith

theorem hat_total {r : ℤ} {F i N : ℕ} (hi : i < F) (hN : (max r 1).toNat ≤ N) : ∑ a ∈ Finset.range N, hat r F i a = 1 := by
  have := hat_sum hi hN fun _ => 1
  simp only [mul_one] at this
  linarith

theorem hat_le_one {r : ℤ} {F i : ℕ} (hi : i < F) (a : ℕ) : hat r F i a ≤ 1 := by
  obtain ⟨_, _, h2, h3⟩ := hat_cells (r := r) hi
  unfold hat
  split_ifs <;> linarith

theorem hat_sq {r : ℤ} {F i N : ℕ} (hi : i < F) (hN : (max r 1).toNat ≤ N) :
    1 / 2 ≤ ∑ a ∈ Finset.range N, hat r F i a * hat r F i a := by
  rw [hat_sum hi hN]
  obtain ⟨_, _, h2, h3⟩ := hat_cells (r := r) hi
  have e0 : 1 - inCell (gridSize r) (linspace01 F i) ≤ hat r F i (nodeIdx r (cell (gridSize r) (linspace01 F i))) := by
    conv_rhs => unfold hat
    rw [if_pos rfl]
    split_ifs <;> linarith
  have e1 : inCell (gridSize r) (linspace01 F i) ≤ hat r F i (nodeIdx r (cell (gridSize r) (linspace01 F i) + 1)) := by
    conv_rhs => unfold hat
    rw [if_pos (rfl : nodeIdx r (cell (gridSize r) (linspace01 F i) + 1) = _)]
    split_ifs <;> linarith
  nlinarith [sq_nonneg (inCell (gridSize r) (linspace01 F i) - 1 / 2)]

theorem hat_cross {r : ℤ} {F i i' N : ℕ} (hi : i < F) (hi' : i' < F) (hN : (max r 1).toNat ≤ N) :
    0 ≤ ∑ a ∈ Finset.range N, hat r F i a * hat r F i' a ∧ ∑ a ∈ Finset.range N, hat r F i a * hat r F i' a ≤ 1 := by
  constructor
  · exact Finset.sum_nonneg fun a _ => mul_nonneg (hat_nonneg hi a) (hat_nonneg hi' a)
  · rw [← hat_total hi hN]
    exact Finset.sum_le_sum fun a _ => mul_le_of_le_one_right (hat_nonneg hi a) (hat_le_one hi' a)

/-- A grid value only enters cells less than one grid step away. -/
theorem hat_near {r : ℤ} (hr : 2 ≤ r) {F i : ℕ} (hF : 2 ≤ F) (hi : i < F) {a : ℕ} (h : hat r F i a ≠ 0) :
    |(i : ℝ) * (r - 1) - a * ((F : ℝ) - 1)| < (F : ℝ) - 1 := by
  obtain ⟨_, _, h2, h3⟩ := hat_cells (r := r) hi
  have hF1 : (0 : ℝ) < (F : ℝ) - 1 := by
    have : (2 : ℝ) ≤ F := by exact_mod_cast hF
    linarith
  have hx : linspace01 F i = (i : ℝ) / ((F : ℝ) - 1) := by unfold linspace01; rw [if_neg (by omega)]
  have hg : ((gridSize r : ℕ) : ℝ) = r := by
    unfold gridSize
    rw [if_neg (by omega)]
    exact_mod_cast Int.toNat_of_nonneg (by omega)
  have hcell : inCell (gridSize r) (linspace01 F i) = (i : ℝ) / ((F : ℝ) - 1) * (r - 1) - cell (gridSize r) (linspace01 F i) := by
    conv_lhs => unfold inCell
    rw [hx, hg]
  have key : ∀ e : ℝ, (i : ℝ) / ((F : ℝ) - 1) * (r - 1) - a = e → |e| < 1 → |(i : ℝ) * (r - 1) - a * ((F : ℝ) - 1)| < (F : ℝ) - 1 := by
    intro e he h
    have : (i : ℝ) * (r - 1) - a * ((F : ℝ) - 1) = e * ((F : ℝ) - 1) := by
      rw [← he]; field_simp
    rw [this, abs_mul, abs_of_pos hF1]
    nlinarith
  have hid : ∀ c, nodeIdx r c = c := fun c => if_neg (by omega)
  unfold hat at h
  rw [hid, hid] at h
  by_cases h4 : cell (gridSize r) (linspace01 F i) = a
  · rw [if_pos h4, if_neg (by omega), add_zero] at h
    refine key _ (by rw [← h4, ← hcell]) ?_
    rw [abs_of_nonneg h2]
    exact lt_of_le_of_ne h3 fun h' => h (by linarith)
  · rw [if_neg h4, zero_add] at h
    by_cases h5 : cell (gridSize r) (linspace01 F i) + 1 = a
    · rw [if_pos h5] at h
      refine key (inCell (gridSize r) (linspace01 F i) - 1) (by rw [← h5, hcell]; push_cast; ring) ?_
      rw [abs_of_nonpos (by linarith)]
      have := lt_of_le_of_ne h2 (Ne.symm h)
      linarith
    · rw [if_neg h5] at h
      exact absurd rfl h

theorem hat_apart {r : ℤ} {F i i' : ℕ} (hF : 2 ≤ F) (hi : i < F) (hi' : i' < F) (hd : 2 * ((F : ℝ) - 1) ≤ |(i : ℝ) - i'| * (r - 1)) (a : ℕ) :
    hat r F i a = 0 ∨ hat r F i' a = 0 := by
  have hF1 : (0 : ℝ) < (F : ℝ) - 1 := by
    have : (2 : ℝ) ≤ F := by exact_mod_cast hF
    linarith
  have hr : 2 ≤ r := by
    by_contra hlt
    have : (r : ℝ) ≤ 1 := by exact_mod_cast (by omega : r ≤ 1)
    nlinarith [abs_nonneg ((i : ℝ) - i')]
  by_contra hne
  push Not at hne
  have h1 := hat_near hr hF hi hne.1
  have h2 := hat_near hr hF hi' hne.2
  have hr1 : (0 : ℝ) ≤ (r : ℝ) - 1 := by
    have : (2 : ℝ) ≤ r := by exact_mod_cast hr
    linarith
  have e : |(i : ℝ) - i'| * (r - 1) = |((i : ℝ) * (r - 1) - a * ((F : ℝ) - 1)) - ((i' : ℝ) * (r - 1) - a * ((F : ℝ) - 1))| := by
    rw [← abs_of_nonneg hr1, ← abs_mul, abs_of_nonneg hr1]
    congr 1
    ring
  rw [e] at hd
  have := abs_sub ((i : ℝ) * (r - 1) - a * ((F : ℝ) - 1)) ((i' : ℝ) * (r - 1) - a * ((F : ℝ) - 1))
  linarith

theorem randomAtScale_eq (R : ℕ → ℕ → ℝ) (r0 r1 : ℤ) {F0 F1 i j N : ℕ} (hi : i < F0) (hj : j < F1) (h0 : (max r0 1).toNat ≤ N) (h1 : (max r1 1).toNat ≤ N) :
    randomAtScale R r0 r1 F0 F1 i j = ∑ a ∈ Finset.range N, ∑ b ∈ Finset.range N, hat r0 F0 i a * hat r1 F1 j b * R a b := by
  have : ∀ a, ∑ b ∈ Finset.range N, hat r0 F0 i a * hat r1 F1 j b * R a b = hat r0 F0 i a * ∑ b ∈ Finset.range N, hat r1 F1 j b * R a b := by
    intro a
    rw [Finset.mul_sum]
    exact Finset.sum_congr rfl fun b _ => by ring
  simp only [this]
  rw [hat_sum hi h0]
  simp only [hat_sum hj h1]
  unfold randomAtScale bilinear gridAt nodeIdx
  ring

/-- Coefficient of the draw `(k, a, b)` in cell `(i, j)` of a stacked field. -/
noncomputable def stackCoef (weights : List ℝ) (scales : List ℤ) (m n i j : ℕ) (p : ℕ × ℕ × ℕ) : ℝ :=
  weights.getD p.1 0 * (hat (scaledSize m (scales.getD p.1 0)) m i p.2.1 * hat (scaledSize n (scales.getD p.1 0)) n j p.2.2)

/-- A bound for the sizes of all grids. -/
noncomputable def stackN (scales : List ℤ) (m n : ℕ) : ℕ :=
  ∑ k ∈ Finset.range scales.length, ((max (scaledSize m (scales.getD k 0)) 1).toNat + (max (scaledSize n (scales.getD k 0)) 1).toNat)

theorem stackN_le (scales : List ℤ) (m n : ℕ) {k : ℕ} (hk : k < scales.length) :
    (max (scaledSize m (scales.getD k 0)) 1).toNat ≤ stackN scales m n ∧ (max (scaledSize n (scales.getD k 0)) 1).toNat ≤ stackN scales m n := by
  have := Finset.single_le_sum (f := fun k => (max (scaledSize m (scales.getD k 0)) 1).toNat + (max (scaledSize n (scales.getD k 0)) 1).toNat)
    (fun k _ => Nat.zero_le _) (Finset.mem_range.2 hk)
  unfold stackN
  omega

/-- The draws that enter a stacked field. -/
noncomputable def stackIdx (scales : List ℤ) (m n : ℕ) : Finset (ℕ × ℕ × ℕ) :=
  Finset.range scales.length ×ˢ (Finset.range (stackN scales m n) ×ˢ Finset.range (stackN scales m n))

theorem stackSum_eq (R : ℕ → ℕ → ℕ → ℝ) (weights : List ℝ) (scales : List ℤ) {m n i j : ℕ} (hi : i < m) (hj : j < n) :
    stackSum R weights scales m n i j = ∑ p ∈ stackIdx scales m n, stackCoef weights scales m n i j p * R p.1 p.2.1 p.2.2 := by
  unfold stackSum stackIdx
  rw [Finset.sum_product, ← List.sum_toFinset _ List.nodup_range, List.toFinset_range]
  refine Finset.sum_congr rfl fun k hk => ?_
  obtain ⟨h0, h1⟩ := stackN_le scales m n (Finset.mem_range.1 hk)
  rw [randomAtScale_eq _ _ _ hi hj h0 h1, Finset.sum_product, Finset.sum_mul]
  refine Finset.sum_congr rfl fun a _ => ?_
  rw [Finset.sum_mul]
  refine Finset.sum_congr rfl fun b _ => ?_
  unfold stackCoef
  ring

/-! ## Moments of the uniform law -/

theorem uniform_moments : ∫ x, x ∂uniform01 = 1 / 2 ∧ ∫ x, x ^ 2 ∂uniform01 = 1 / 3 := by
  unfold uniform01
  constructor
  · rw [integral_Ico_eq_integral_Ioo, ← integral_Ioc_eq_integral_Ioo, ← intervalIntegral.integral_of_le zero_le_one]
    simp
  · rw [integral_Ico_eq_integral_Ioo, ← integral_Ioc_eq_integral_Ioo, ← intervalIntegral.integral_of_le zero_le_one]
    norm_num [integral_pow]

theorem uniform_bound : ∀ᵐ x ∂uniform01, ‖x‖ ≤ 1 := by
  unfold uniform01
  rw [ae_restrict_iff' measurableSet_Ico]
  refine Filter.Eventually.of_forall fun x hx => ?_
  rw [Real.norm_eq_abs, abs_le]
  constructor <;> linarith [hx.1, hx.2]

section draws
variable {Ω : Type} [MeasurableSpace Ω] {P : Measure Ω} [IsProbabilityMeasure P] {R : Ω → ℕ → ℕ → ℕ → ℝ}

omit [IsProbabilityMeasure P] in
theorem draw_integral (hR : UniformDraws P R) (k a b : ℕ) {g : ℝ → ℝ} (hg : Measurable g) : ∫ ω, g (R ω k a b) ∂P = ∫ x, g x ∂uniform01 := by
  rw [← hR.law k a b, integral_map (hR.measurable k a b).aemeasurable hg.aestronglyMeasurable]

theorem draw_memLp (hR : UniformDraws P R) (k a b : ℕ) : MemLp (fun ω => R ω k a b) 2 P := by
  refine MemLp.of_bound (hR.measurable k a b).aestronglyMeasurable 1 ?_
  have := uniform_bound
  rw [← hR.law k a b] at this
  exact ae_of_ae_map (hR.measurable k a b).aemeasurable this

theorem draw_cov (hR : UniformDraws P R) (p q : ℕ × ℕ × ℕ) :
    cov[fun ω => R ω p.1 p.2.1 p.2.2, fun ω => R ω q.1 q.2.1 q.2.2; P] = if p = q then 1 / 12 else 0 := by
  split_ifs with h
  · subst h
    rw [covariance_eq_sub (draw_memLp hR _ _ _) (draw_memLp hR _ _ _)]
    have h1 := draw_integral hR p.1 p.2.1 p.2.2 measurable_id
    have h2 := draw_integral hR p.1 p.2.1 p.2.2 (g := fun x => x ^ 2) (by fun_prop)
    simp only [id] at h1
    rw [uniform_moments.1] at h1
    rw [uniform_moments.2] at h2
    simp only [Pi.mul_apply, ← sq]
    rw [h1, h2]
    norm_num
  · exact (hR.indep.indepFun h).covariance_eq_zero (draw_memLp hR _ _ _) (draw_memLp hR _ _ _)

theorem stack_memLp (hR : UniformDraws P R) (c : ℕ × ℕ × ℕ → ℝ) (T : Finset (ℕ × ℕ × ℕ)) : MemLp (fun ω => ∑ p ∈ T, c p * R ω p.1 p.2.1 p.2.2) 2 P :=
  memLp_finsetSum _ fun _ _ => (draw_memLp hR _ _ _).const_mul _

theorem comb_cov (hR : UniformDraws P R) (c d : ℕ × ℕ × ℕ → ℝ) (T : Finset (ℕ × ℕ × ℕ)) :
    cov[fun ω => ∑ p ∈ T, c p * R ω p.1 p.2.1 p.2.2, fun ω => ∑ p ∈ T, d p * R ω p.1 p.2.1 p.2.2; P] = (∑ p ∈ T, c p * d p) / 12 := by
  rw [covariance_fun_sum_fun_sum' (fun p _ => (draw_memLp hR _ _ _).const_mul _) (fun p _ => (draw_memLp hR _ _ _).const_mul _), Finset.sum_div]
  refine Finset.sum_congr rfl fun p hp => ?_
  simp only [covariance_const_mul_left, covariance_const_mul_right, draw_cov hR, mul_ite, mul_zero]
  rw [Finset.sum_ite_eq, if_pos hp]
  ring

theorem comb_mean (hR : UniformDraws P R) (c : ℕ × ℕ × ℕ → ℝ) (T : Finset (ℕ × ℕ × ℕ)) :
    ∫ ω, ∑ p ∈ T, c p * R ω p.1 p.2.1 p.2.2 ∂P = (∑ p ∈ T, c p) / 2 := by
  rw [integral_finsetSum _ fun p _ => ((draw_memLp hR _ _ _).integrable (by norm_num)).const_mul _, Finset.sum_div]
  refine Finset.sum_congr rfl fun p _ => ?_
  have h1 := draw_integral hR p.1 p.2.1 p.2.2 measurable_id
  simp only [id] at h1
  rw [integral_const_mul, h1, uniform_moments.1]
  ring

end draws

end SST.Cloud
