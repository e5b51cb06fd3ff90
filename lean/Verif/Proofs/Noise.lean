import Verif.Props.Segments
import Verif.Spec.Noise
import Mathlib.Algebra.Order.Chebyshev

/-! # Spectra of white noise -/

namespace SST.Tf
open SST SST.Dft SST.Corr SST.Spec MeasureTheory

/-! ## Linear combinations of noise -/

section comb
variable {Ω : Type} [MeasurableSpace Ω] {P : Measure Ω} [IsProbabilityMeasure P] {e : ℕ → Ω → ℝ} {σ : ℝ}

theorem noise_int (h : WhiteNoise P e σ) (i : ℕ) : Integrable (e i) P := (h.square i).integrable (by norm_num)

omit [IsProbabilityMeasure P] in
theorem noise_mul_int (h : WhiteNoise P e σ) (i j : ℕ) : Integrable (fun ω => e i ω * e j ω) P := (h.square i).integrable_mul (h.square j)

omit [IsProbabilityMeasure P] in
theorem noise_sq (h : WhiteNoise P e σ) (a : ℕ → ℝ) (T : Finset ℕ) :
    Integrable (fun ω => (∑ i ∈ T, e i ω * a i) ^ 2) P ∧ ∫ ω, (∑ i ∈ T, e i ω * a i) ^ 2 ∂P = σ ^ 2 * ∑ i ∈ T, a i ^ 2 := by
  have e1 : (fun ω => (∑ i ∈ T, e i ω * a i) ^ 2) = fun ω => ∑ i ∈ T, ∑ j ∈ T, a i * a j * (e i ω * e j ω) := by
    funext ω
    rw [sq, Finset.sum_mul_sum]
    refine Finset.sum_congr rfl fun i _ => Finset.sum_congr rfl fun j _ => by ring
  rw [e1]
  constructor
  · exact integrable_finsetSum _ fun i _ => integrable_finsetSum _ fun j _ => (noise_mul_int h i j).const_mul _
  · rw [integral_finsetSum _ fun i _ => integrable_finsetSum _ fun j _ => (noise_mul_int h i j).const_mul _, Finset.mul_sum]
    refine Finset.sum_congr rfl fun i hi => ?_
    rw [integral_finsetSum _ fun j _ => (noise_mul_int h i j).const_mul _]
    simp only [integral_const_mul, h.corr, mul_ite, mul_zero]
    rw [Finset.sum_ite_eq, if_pos hi]
    ring

/-- A complex combination of the samples. -/
theorem noise_normSq (h : WhiteNoise P e σ) (D : ℕ → ℂ) (T : Finset ℕ) :
    Integrable (fun ω => Complex.normSq (∑ i ∈ T, (e i ω : ℂ) * D i)) P ∧
      ∫ ω, Complex.normSq (∑ i ∈ T, (e i ω : ℂ) * D i) ∂P = σ ^ 2 * ∑ i ∈ T, Complex.normSq (D i) := by
  have e1 : (fun ω => Complex.normSq (∑ i ∈ T, (e i ω : ℂ) * D i)) = fun ω => (∑ i ∈ T, e i ω * (D i).re) ^ 2 + (∑ i ∈ T, e i ω * (D i).im) ^ 2 := by
    funext ω
    rw [Complex.normSq_apply, Complex.re_sum, Complex.im_sum]
    simp only [Complex.re_ofReal_mul, Complex.im_ofReal_mul]
    ring
  obtain ⟨a1, a2⟩ := noise_sq h (fun i => (D i).re) T
  obtain ⟨b1, b2⟩ := noise_sq h (fun i => (D i).im) T
  rw [e1]
  refine ⟨a1.add b1, ?_⟩
  rw [integral_add a1 b1, a2, b2, ← mul_add, ← Finset.sum_add_distrib]
  congr 1
  refine Finset.sum_congr rfl fun i _ => ?_
  rw [Complex.normSq_apply]
  ring

theorem noise_mean (h : WhiteNoise P e σ) (D : ℕ → ℂ) (T : Finset ℕ) :
    Integrable (fun ω => ∑ i ∈ T, (e i ω : ℂ) * D i) P ∧ ∫ ω, ∑ i ∈ T, (e i ω : ℂ) * D i ∂P = 0 := by
  have hi : ∀ i ∈ T, Integrable (fun ω => (e i ω : ℂ) * D i) P := fun i _ => (noise_int h i).ofReal.mul_const _
  refine ⟨integrable_finsetSum _ hi, ?_⟩
  rw [integral_finsetSum _ hi]
  refine Finset.sum_eq_zero fun i _ => ?_
  have : ∫ ω, ((e i ω : ℝ) : ℂ) ∂P = ((∫ ω, e i ω ∂P : ℝ) : ℂ) := integral_ofReal
  rw [integral_mul_const, this, h.mean]
  simp

end comb

/-! ## The spectrum of a segment as a linear combination of its samples -/

/-- Distance of a sample from the middle of the segment. -/
noncomputable def mid (L : ℕ) (j : ℕ) : ℝ := (j : ℝ) - (L - 1) / 2

theorem mid_sum (L : ℕ) : ∑ j ∈ Finset.range L, mid L j = 0 := by
  unfold mid
  rw [Finset.sum_sub_distrib, Finset.sum_const, Finset.card_range, nsmul_eq_mul]
  have : ∑ j ∈ Finset.range L, (j : ℝ) = L * (L - 1) / 2 := by
    induction L with
    | zero => simp
    | succ L ih => rw [Finset.sum_range_succ, ih]; push_cast; ring
  rw [this]
  ring

/-- Detrending applied to any weights. -/
noncomputable def proj (d : Detrend) (L : ℕ) (u : ℕ → ℝ) (j : ℕ) : ℝ :=
  match d with
  | .none => u j
  | .constant => u j - (∑ i ∈ Finset.range L, u i) / L
  | .linear => u j - ((∑ i ∈ Finset.range L, u i) / L + (∑ i ∈ Finset.range L, mid L i * u i) / (∑ i ∈ Finset.range L, mid L i ^ 2) * mid L j)

/-- Detrending does not increase the energy. -/
theorem proj_energy (d : Detrend) (L : ℕ) (u : ℕ → ℝ) : ∑ j ∈ Finset.range L, proj d L u j ^ 2 ≤ ∑ j ∈ Finset.range L, u j ^ 2 := by
  rcases Nat.eq_zero_or_pos L with rfl | hL
  · simp
  have hL' : (0 : ℝ) < L := by exact_mod_cast hL
  cases d with
  | none => exact le_refl _
  | constant =>
    set m := (∑ i ∈ Finset.range L, u i) / L with hm
    have hs : ∑ i ∈ Finset.range L, u i = L * m := by rw [hm]; field_simp
    have : ∑ j ∈ Finset.range L, proj .constant L u j ^ 2 = ∑ j ∈ Finset.range L, u j ^ 2 - L * m ^ 2 := by
      have e : ∀ j ∈ Finset.range L, proj .constant L u j ^ 2 = u j ^ 2 - 2 * m * u j + m ^ 2 := fun j _ => by unfold proj; simp only [← hm]; ring
      rw [Finset.sum_congr rfl e, Finset.sum_add_distrib, Finset.sum_sub_distrib, ← Finset.mul_sum, hs, Finset.sum_const, Finset.card_range, nsmul_eq_mul]
      ring
    rw [this]
    nlinarith [mul_nonneg hL'.le (sq_nonneg m)]
  | linear =>
    set m := (∑ i ∈ Finset.range L, u i) / L with hm
    set T := ∑ i ∈ Finset.range L, mid L i ^ 2 with hT
    set b := (∑ i ∈ Finset.range L, mid L i * u i) / T with hb
    have hs : ∑ i ∈ Finset.range L, u i = L * m := by rw [hm]; field_simp
    have hT0 : 0 ≤ T := Finset.sum_nonneg fun i _ => sq_nonneg _
    have hbT : b * ∑ i ∈ Finset.range L, mid L i * u i = b ^ 2 * T := by
      by_cases h : T = 0
      · have : b = 0 := by rw [hb, h, div_zero]
        rw [this]; ring
      · have : ∑ i ∈ Finset.range L, mid L i * u i = b * T := by rw [hb]; field_simp
        rw [this]; ring
    have : ∑ j ∈ Finset.range L, proj .linear L u j ^ 2 = ∑ j ∈ Finset.range L, u j ^ 2 - L * m ^ 2 - b ^ 2 * T := by
      have e : ∀ j ∈ Finset.range L, proj .linear L u j ^ 2 =
          u j ^ 2 - 2 * m * u j + m ^ 2 - 2 * (b * (mid L j * u j)) + 2 * m * b * mid L j + b ^ 2 * mid L j ^ 2 := fun j _ => by
        unfold proj; simp only [← hm, ← hT, ← hb]; ring
      rw [Finset.sum_congr rfl e]
      simp only [Finset.sum_add_distrib, Finset.sum_sub_distrib, ← Finset.mul_sum, hs, Finset.sum_const, Finset.card_range, nsmul_eq_mul, mid_sum, hbT, ← hT]
      ring
    rw [this]
    nlinarith [mul_nonneg hL'.le (sq_nonneg m), mul_nonneg (sq_nonneg b) hT0]

/-- Detrending is symmetric. -/
theorem proj_symm (d : Detrend) (L : ℕ) (u v : ℕ → ℝ) :
    ∑ j ∈ Finset.range L, proj d L u j * v j = ∑ j ∈ Finset.range L, u j * proj d L v j := by
  cases d with
  | none => rfl
  | constant =>
    simp only [proj, sub_mul, mul_sub, Finset.sum_sub_distrib, ← Finset.mul_sum, ← Finset.sum_mul]
    ring
  | linear =>
    simp only [proj, sub_mul, mul_sub, add_mul, mul_add, Finset.sum_sub_distrib, Finset.sum_add_distrib, mul_assoc, ← Finset.mul_sum, ← Finset.sum_mul]
    congr 2
    · ring
    · have : ∑ x ∈ Finset.range L, u x * ((∑ i ∈ Finset.range L, mid L i * v i) / (∑ i ∈ Finset.range L, mid L i ^ 2) * mid L x) =
          (∑ i ∈ Finset.range L, mid L i * v i) / (∑ i ∈ Finset.range L, mid L i ^ 2) * ∑ x ∈ Finset.range L, mid L x * u x := by
        rw [Finset.mul_sum]
        exact Finset.sum_congr rfl fun x _ => by ring
      rw [this]
      ring

theorem list_sum_at0 (x : List ℝ) : x.sum = ∑ i ∈ Finset.range x.length, at0 x i := by
  induction x with
  | nil => simp
  | cons a l ih =>
    rw [List.sum_cons, ih, List.length_cons, Finset.sum_range_succ', add_comm]
    simp [at0]

theorem detrend_proj (d : Detrend) {L : ℕ} {x : List ℝ} (hx : x.length = L) {j : ℕ} (hj : j < L) :
    at0 (detrend d x) j = proj d L (fun i => at0 x i) j := by
  have hm : mean x = (∑ i ∈ Finset.range L, at0 x i) / L := by
    rw [mean_def, list_sum_at0, hx]
  cases d with
  | none => rfl
  | constant =>
    unfold detrend proj
    rw [at0_of_lt (by simpa [hx] using hj), List.getElem_map, ← at0_of_lt (by rw [hx]; exact hj), hm]
  | linear =>
    unfold detrend proj
    simp only
    rw [hx, at0_range_map _ hj, hm]
    unfold slope mid
    rw [hx]

/-- Weight of sample `j` in the spectrum at bin `k`. -/
noncomputable def specCoef (w : List ℝ) (d : Detrend) (L k j : ℕ) : ℂ :=
  ⟨proj d L (fun i => at0 w i * (twiddle L (i * k)).re) j, proj d L (fun i => at0 w i * (twiddle L (i * k)).im) j⟩

theorem spectrum_eq (w : List ℝ) (d : Detrend) {L : ℕ} {x : List ℝ} (hx : x.length = L) (k : ℕ) :
    spectrum w d x k = ∑ j ∈ Finset.range L, ((at0 x j : ℝ) : ℂ) * specCoef w d L k j := by
  unfold spectrum
  rw [hx]
  apply Complex.ext
  · rw [Complex.re_sum, Complex.re_sum]
    simp only [Complex.re_ofReal_mul, specCoef]
    rw [← proj_symm]
    refine Finset.sum_congr rfl fun j hj => ?_
    rw [detrend_proj d hx (Finset.mem_range.1 hj)]
    ring
  · rw [Complex.im_sum, Complex.im_sum]
    simp only [Complex.im_ofReal_mul, specCoef]
    rw [← proj_symm]
    refine Finset.sum_congr rfl fun j hj => ?_
    rw [detrend_proj d hx (Finset.mem_range.1 hj)]
    ring

theorem twiddle_normSq (L : ℕ) (m : ℤ) : (twiddle L m).re ^ 2 + (twiddle L m).im ^ 2 = 1 := by
  have : Complex.normSq (twiddle L m) = 1 := by
    rw [Complex.normSq_eq_norm_sq, norm_twiddle, one_pow]
  rw [Complex.normSq_apply] at this
  linarith

theorem window_energy {w : List ℝ} {L : ℕ} (hw : w.length = L) : (w.map fun v => v ^ 2).sum = ∑ j ∈ Finset.range L, at0 w j ^ 2 := by
  subst hw
  induction w with
  | nil => simp
  | cons a w ih =>
    rw [List.map_cons, List.sum_cons, ih, List.length_cons, Finset.sum_range_succ', add_comm]
    simp [at0]

theorem coef_energy {w : List ℝ} (d : Detrend) {L : ℕ} (hw : w.length = L) (k : ℕ) :
    ∑ j ∈ Finset.range L, Complex.normSq (specCoef w d L k j) ≤ (w.map fun v => v ^ 2).sum ∧
      (d = .none → ∑ j ∈ Finset.range L, Complex.normSq (specCoef w d L k j) = (w.map fun v => v ^ 2).sum) := by
  have e : ∀ j, Complex.normSq (specCoef w d L k j) = proj d L (fun i => at0 w i * (twiddle L (i * k)).re) j ^ 2 + proj d L (fun i => at0 w i * (twiddle L (i * k)).im) j ^ 2 := by
    intro j
    unfold specCoef
    rw [Complex.normSq_mk]
    ring
  have f : ∑ j ∈ Finset.range L, (at0 w j * (twiddle L (j * k)).re) ^ 2 + ∑ j ∈ Finset.range L, (at0 w j * (twiddle L (j * k)).im) ^ 2 = (w.map fun v => v ^ 2).sum := by
    rw [window_energy hw, ← Finset.sum_add_distrib]
    refine Finset.sum_congr rfl fun j _ => ?_
    have := twiddle_normSq L (j * k)
    linear_combination at0 w j ^ 2 * this
  simp only [e, Finset.sum_add_distrib]
  constructor
  · rw [← f]
    exact add_le_add (proj_energy _ _ _) (proj_energy _ _ _)
  · rintro rfl
    exact f

theorem proj_constant_energy {L : ℕ} (hL : 0 < L) (u : ℕ → ℝ) :
    ∑ j ∈ Finset.range L, proj .constant L u j ^ 2 = ∑ j ∈ Finset.range L, u j ^ 2 - (∑ j ∈ Finset.range L, u j) ^ 2 / L := by
  have hL' : (0 : ℝ) < L := by exact_mod_cast hL
  set m := (∑ i ∈ Finset.range L, u i) / L with hm
  have hs : ∑ i ∈ Finset.range L, u i = L * m := by rw [hm]; field_simp
  have e : ∀ j ∈ Finset.range L, proj .constant L u j ^ 2 = u j ^ 2 - 2 * m * u j + m ^ 2 := fun j _ => by unfold proj; simp only [← hm]; ring
  rw [Finset.sum_congr rfl e, Finset.sum_add_distrib, Finset.sum_sub_distrib, ← Finset.mul_sum, hs, Finset.sum_const, Finset.card_range, nsmul_eq_mul]
  field_simp
  ring

theorem windowPower_eq {w : List ℝ} {L : ℕ} (hw : w.length = L) (k : ℕ) :
    windowPower w k = (∑ j ∈ Finset.range L, at0 w j * (twiddle L (j * k)).re) ^ 2 + (∑ j ∈ Finset.range L, at0 w j * (twiddle L (j * k)).im) ^ 2 := by
  subst hw
  unfold windowPower
  have : ∑ j : Fin w.length, ((w[j] : ℝ) : ℂ) * Complex.exp (-(2 * Real.pi * Complex.I * (j * k) / w.length)) =
      ∑ j ∈ Finset.range w.length, ((at0 w j : ℝ) : ℂ) * twiddle w.length (j * k) := by
    rw [Finset.sum_range]
    refine Finset.sum_congr rfl fun j _ => ?_
    rw [at0_of_lt j.2]
    unfold twiddle
    congr 2
    push_cast
    ring
  rw [this, Complex.normSq_apply, Complex.re_sum, Complex.im_sum]
  simp only [Complex.re_ofReal_mul, Complex.im_ofReal_mul]
  ring

theorem coef_energy_constant {w : List ℝ} {L : ℕ} (hL : 0 < L) (hw : w.length = L) (k : ℕ) :
    ∑ j ∈ Finset.range L, Complex.normSq (specCoef w .constant L k j) = (w.map fun v => v ^ 2).sum - windowPower w k / L := by
  have e : ∀ j, Complex.normSq (specCoef w .constant L k j) = proj .constant L (fun i => at0 w i * (twiddle L (i * k)).re) j ^ 2 + proj .constant L (fun i => at0 w i * (twiddle L (i * k)).im) j ^ 2 := by
    intro j
    unfold specCoef
    rw [Complex.normSq_mk]
    ring
  have f : ∑ j ∈ Finset.range L, (at0 w j * (twiddle L (j * k)).re) ^ 2 + ∑ j ∈ Finset.range L, (at0 w j * (twiddle L (j * k)).im) ^ 2 = (w.map fun v => v ^ 2).sum := by
    rw [window_energy hw, ← Finset.sum_add_distrib]
    refine Finset.sum_congr rfl fun j _ => ?_
    have := twiddle_normSq L (j * k)
    linear_combination at0 w j ^ 2 * this
  simp only [e, Finset.sum_add_distrib, proj_constant_energy hL]
  rw [← f, windowPower_eq hw]
  ring

/-! ## Segments of a record -/

theorem at0_segment (x : List ℝ) {L s j : ℕ} (hj : j < L) : at0 (segment x L s) j = at0 x (s + j) := by
  unfold at0 segment
  rw [List.getElem?_take_of_lt hj, List.getElem?_drop]

theorem segment_length {x : List ℝ} {L s : ℕ} (h : s + L ≤ x.length) : (segment x L s).length = L := by
  unfold segment
  rw [List.length_take, List.length_drop]
  omega

/-- Weight of sample `i` of the record in the spectrum of the segment that starts at `s`. -/
noncomputable def segCoef (w : List ℝ) (d : Detrend) (L k s i : ℕ) : ℂ := if s ≤ i ∧ i < s + L then specCoef w d L k (i - s) else 0

theorem seg_sum {n L s : ℕ} (h : s + L ≤ n) (g : ℕ → ℕ → ℂ) :
    ∑ j ∈ Finset.range L, g (s + j) j = ∑ i ∈ Finset.range n, if s ≤ i ∧ i < s + L then g i (i - s) else 0 := by
  rw [← Finset.sum_filter]
  have : (Finset.range n).filter (fun i => s ≤ i ∧ i < s + L) = Finset.Ico s (s + L) := by
    ext i
    simp only [Finset.mem_filter, Finset.mem_range, Finset.mem_Ico]
    omega
  rw [this, Finset.sum_Ico_eq_sum_range, Nat.add_sub_cancel_left]
  refine Finset.sum_congr rfl fun j _ => ?_
  rw [Nat.add_sub_cancel_left]

theorem seg_spectrum (w : List ℝ) (d : Detrend) {L s n : ℕ} {x : List ℝ} (hn : x.length = n) (h : s + L ≤ n) (k : ℕ) :
    spectrum w d (segment x L s) k = ∑ i ∈ Finset.range n, ((at0 x i : ℝ) : ℂ) * segCoef w d L k s i := by
  rw [spectrum_eq w d (segment_length (by rw [hn]; exact h))]
  have e : ∀ j ∈ Finset.range L, ((at0 (segment x L s) j : ℝ) : ℂ) * specCoef w d L k j = (fun i j => ((at0 x i : ℝ) : ℂ) * specCoef w d L k j) (s + j) j := by
    intro j hj
    rw [at0_segment _ (Finset.mem_range.1 hj)]
  rw [Finset.sum_congr rfl e, seg_sum h fun i j => ((at0 x i : ℝ) : ℂ) * specCoef w d L k j]
  refine Finset.sum_congr rfl fun i _ => ?_
  unfold segCoef
  split_ifs <;> simp

theorem segCoef_energy (w : List ℝ) (d : Detrend) {L s n : ℕ} (h : s + L ≤ n) (k : ℕ) :
    ∑ i ∈ Finset.range n, Complex.normSq (segCoef w d L k s i) = ∑ j ∈ Finset.range L, Complex.normSq (specCoef w d L k j) := by
  have := seg_sum h fun _ j => ((Complex.normSq (specCoef w d L k j) : ℝ) : ℂ)
  have e : ∀ i, ((Complex.normSq (segCoef w d L k s i) : ℝ) : ℂ) = if s ≤ i ∧ i < s + L then ((Complex.normSq (specCoef w d L k (i - s)) : ℝ) : ℂ) else 0 := by
    intro i
    unfold segCoef
    split_ifs <;> simp
  simp only [← e] at this
  exact_mod_cast this.symm

/-! ## Many segments -/

/-- At most `m` segments contain a given sample. -/
theorem cover_card {S h L m : ℕ} (hh : 0 < h) (hm : L ≤ m * h) (i : ℕ) :
    ((Finset.range S).filter fun s => s * h ≤ i ∧ i < s * h + L).card ≤ m := by
  have hsub : (Finset.range S).filter (fun s => s * h ≤ i ∧ i < s * h + L) ⊆ Finset.Ico (i / h + 1 - m) (i / h + 1) := by
    intro s hs
    simp only [Finset.mem_filter, Finset.mem_range] at hs
    rw [Finset.mem_Ico]
    have h1 : s ≤ i / h := (Nat.le_div_iff_mul_le hh).2 hs.2.1
    have h2 : i / h < s + m := by
      rw [Nat.div_lt_iff_lt_mul hh, Nat.add_mul]
      omega
    omega
  refine (Finset.card_le_card hsub).trans ?_
  rw [Nat.card_Ico]
  omega

/-- Energy of the weights of the samples in a weighted sum of the spectra of the segments. -/
theorem many_energy (w : List ℝ) (d : Detrend) {L h S n m : ℕ} (hh : 0 < h) (hm : L ≤ m * h) (hfit : ∀ s < S, s * h + L ≤ n) (k : ℕ) (X : ℕ → ℂ) :
    ∑ i ∈ Finset.range n, Complex.normSq (∑ s ∈ Finset.range S, X s * segCoef w d L k (s * h) i) ≤
      m * ((∑ s ∈ Finset.range S, Complex.normSq (X s)) * ∑ j ∈ Finset.range L, Complex.normSq (specCoef w d L k j)) := by
  have hpt : ∀ i ∈ Finset.range n, Complex.normSq (∑ s ∈ Finset.range S, X s * segCoef w d L k (s * h) i) ≤
      m * ∑ s ∈ Finset.range S, Complex.normSq (X s) * Complex.normSq (segCoef w d L k (s * h) i) := by
    intro i _
    set A := (Finset.range S).filter fun s => s * h ≤ i ∧ i < s * h + L with hA
    have e1 : ∑ s ∈ Finset.range S, X s * segCoef w d L k (s * h) i = ∑ s ∈ A, X s * segCoef w d L k (s * h) i := by
      rw [hA, Finset.sum_filter]
      refine Finset.sum_congr rfl fun s _ => ?_
      unfold segCoef
      split_ifs <;> simp
    have e2 : ∑ s ∈ A, Complex.normSq (X s) * Complex.normSq (segCoef w d L k (s * h) i) ≤
        ∑ s ∈ Finset.range S, Complex.normSq (X s) * Complex.normSq (segCoef w d L k (s * h) i) :=
      Finset.sum_le_sum_of_subset_of_nonneg (Finset.filter_subset _ _) fun s _ _ => mul_nonneg (Complex.normSq_nonneg _) (Complex.normSq_nonneg _)
    have e3 : Complex.normSq (∑ s ∈ A, X s * segCoef w d L k (s * h) i) ≤ A.card * ∑ s ∈ A, Complex.normSq (X s) * Complex.normSq (segCoef w d L k (s * h) i) := by
      rw [Complex.normSq_eq_norm_sq]
      calc ‖∑ s ∈ A, X s * segCoef w d L k (s * h) i‖ ^ 2 ≤ (∑ s ∈ A, ‖X s * segCoef w d L k (s * h) i‖) ^ 2 := by
            gcongr; exact norm_sum_le _ _
        _ ≤ A.card * ∑ s ∈ A, ‖X s * segCoef w d L k (s * h) i‖ ^ 2 := sq_sum_le_card_mul_sum_sq
        _ = _ := by
            congr 1
            refine Finset.sum_congr rfl fun s _ => ?_
            rw [← Complex.normSq_eq_norm_sq, Complex.normSq_mul]
    rw [e1]
    refine e3.trans ?_
    have hc : (A.card : ℝ) ≤ m := by exact_mod_cast cover_card hh hm i
    have h0 : 0 ≤ ∑ s ∈ Finset.range S, Complex.normSq (X s) * Complex.normSq (segCoef w d L k (s * h) i) :=
      Finset.sum_nonneg fun s _ => mul_nonneg (Complex.normSq_nonneg _) (Complex.normSq_nonneg _)
    calc (A.card : ℝ) * ∑ s ∈ A, Complex.normSq (X s) * Complex.normSq (segCoef w d L k (s * h) i)
        ≤ A.card * ∑ s ∈ Finset.range S, Complex.normSq (X s) * Complex.normSq (segCoef w d L k (s * h) i) := mul_le_mul_of_nonneg_left e2 (by positivity)
      _ ≤ m * ∑ s ∈ Finset.range S, Complex.normSq (X s) * Complex.normSq (segCoef w d L k (s * h) i) := mul_le_mul_of_nonneg_right hc h0
  refine (Finset.sum_le_sum hpt).trans (le_of_eq ?_)
  rw [← Finset.mul_sum, Finset.sum_comm, Finset.sum_mul]
  congr 1
  refine Finset.sum_congr rfl fun s hs => ?_
  rw [← Finset.mul_sum, segCoef_energy w d (hfit s (Finset.mem_range.1 hs))]

/-! ## The averages -/

theorem pyInt_overlap {L : ℕ} {ov : ℝ} (h0 : 0 ≤ ov) : (pyInt ((L : ℝ) * ov)).toNat = ⌊(L : ℝ) * ov⌋₊ := by
  unfold pyInt
  rw [if_pos (by positivity)]
  rfl

theorem pyInt_lt {L : ℕ} (hL : 0 < L) {ov : ℝ} (h0 : 0 ≤ ov) (h1 : ov < 1) : pyInt ((L : ℝ) * ov) < L := by
  unfold pyInt
  rw [if_pos (by positivity), Int.floor_lt, Int.cast_natCast]
  have : (0 : ℝ) < (L : ℝ) := by exact_mod_cast hL
  nlinarith

theorem starts_fit {n L h S : ℕ} (hf : AsManyAsFit n L h S) : ∀ s < S, s * h + L ≤ n := by
  obtain ⟨-, -, c, -⟩ := hf
  intro s hs
  have : s * h ≤ (S - 1) * h := Nat.mul_le_mul_right _ (by omega)
  omega

theorem many_fit {n L ov : ℕ} (hL : 0 < L) (hn : L ≤ n) (hov : ov < L) : AsManyAsFit n L (L - ov) ((n - ov) / (L - ov)) := by
  have hh : 0 < L - ov := by omega
  have h1 : L - ov ≤ n - ov := by omega
  have hS : 0 < (n - ov) / (L - ov) := Nat.div_pos h1 hh
  have a1 := Nat.div_mul_le_self (n - ov) (L - ov)
  have a2 := Nat.lt_mul_div_succ (n - ov) hh
  refine ⟨hh, hS, ?_, ?_⟩
  · obtain ⟨S, hS'⟩ : ∃ S, (n - ov) / (L - ov) = S + 1 := ⟨_, (Nat.succ_pred_eq_of_pos hS).symm⟩
    rw [hS'] at a1 ⊢
    rw [Nat.add_sub_cancel]
    rw [Nat.add_mul] at a1
    omega
  · rw [Nat.mul_succ] at a2
    rw [Nat.mul_comm]
    omega

/-- There are at least as many segments as averages asked for. -/
theorem many_navgs {n N h S : ℕ} (hL : 0 < n / N) (hf : AsManyAsFit n (n / N) h S) (hh : h ≤ n / N) : N ≤ S := by
  obtain ⟨a1, a2, a3, a4⟩ := hf
  have h3 : n / N * N ≤ n := Nat.div_mul_le_self _ _
  by_contra hc
  push Not at hc
  have h4 : (S + 1) * (n / N) ≤ N * (n / N) := Nat.mul_le_mul_right _ hc
  have h5 := Nat.mul_le_mul_left S hh
  rw [Nat.mul_comm N] at h4
  rw [Nat.add_mul, Nat.one_mul] at h4
  omega

theorem listsum_eq {M : Type} [AddCommMonoid M] (S : ℕ) (f : ℕ → M) : ((List.range S).map f).sum = ∑ s ∈ Finset.range S, f s := by
  induction S with
  | zero => simp
  | succ S ih => rw [List.range_succ, List.map_append, List.sum_append, ih, Finset.sum_range_succ]; simp

theorem psd_sum (c : ℝ) (w : List ℝ) (d : Detrend) (L ov : ℕ) (x : List ℝ) (k : ℕ) :
    psd c (spectra w d L ov x k) = c * ((∑ s ∈ Finset.range ((x.length - ov) / (L - ov)), Complex.normSq (spectrum w d (segment x L (s * (L - ov))) k)) /
      ((x.length - ov) / (L - ov) : ℕ)) := by
  unfold psd spectra segStarts
  rw [List.map_map, List.map_map, List.length_map, List.length_map, List.length_range, listsum_eq]
  rfl

theorem csd_sum (c : ℝ) (w : List ℝ) (d : Detrend) (L ov : ℕ) (x y : List ℝ) (hl : y.length = x.length) (k : ℕ) :
    csd c (spectra w d L ov x k) (spectra w d L ov y k) =
      c * ((∑ s ∈ Finset.range ((x.length - ov) / (L - ov)), (starRingEnd ℂ) (spectrum w d (segment x L (s * (L - ov))) k) * spectrum w d (segment y L (s * (L - ov))) k) /
        ((x.length - ov) / (L - ov) : ℕ)) := by
  unfold csd spectra segStarts
  rw [hl, List.map_map, List.map_map, List.length_map, List.length_range, List.zipWith_map, List.zipWith_self, listsum_eq]
  rfl

theorem psd_eval (o : Opts) (b : Bool) (nm : String) (x : List ℝ) (h1 : 0 < o.navgs) (h2 : o.navgs ≤ x.length) (h3 : 0 ≤ o.overlap) (h4 : o.overlap < 1) :
    averagedPsd o b [(nm, x)] "density" = .ok [(nm, (List.range (x.length / o.navgs / 2 + 1)).map fun (k : ℕ) => ((k : ℝ) / ((x.length / o.navgs : ℕ) * o.dt),
      psd (psdScale (o.win (x.length / o.navgs)) o.dt (x.length / o.navgs) k)
        (spectra (o.win (x.length / o.navgs)) o.detr (x.length / o.navgs) ⌊((x.length / o.navgs : ℕ) : ℝ) * o.overlap⌋₊ x k)))] := by
  have hL : 0 < x.length / o.navgs := Nat.div_pos h2 h1
  unfold averagedPsd
  simp only [List.headD_cons, ite_self]
  rw [if_neg h1.ne', if_neg (by push Not; exact ⟨hL.ne', pyInt_lt hL h3 h4⟩), if_neg (by simp), pyInt_overlap h3]
  simp only [if_true, List.map_cons, List.map_nil]
  rfl

theorem tf_eval (o : Opts) (a b : String) (x y : List ℝ) (h1 : 0 < o.navgs) (h2 : o.navgs ≤ x.length) (h3 : 0 ≤ o.overlap) (h4 : o.overlap < 1) :
    averagedTf o [(a, x)] [(b, y)] = .ok [(a ++ "_" ++ b, pairTf o (x.length / o.navgs) ⌊((x.length / o.navgs : ℕ) : ℝ) * o.overlap⌋₊ x y)] := by
  have hL : 0 < x.length / o.navgs := Nat.div_pos h2 h1
  unfold averagedTf
  simp only [pairCols, List.length_cons, List.length_nil, if_true, List.zipWith_cons_cons, List.zipWith_nil_left, List.headD_cons]
  have hc : ¬ (x.length / o.navgs = 0 ∨ ((x.length / o.navgs : ℕ) : ℤ) ≤ pyInt (((x.length / o.navgs : ℕ) : ℝ) * o.overlap)) := by
    push Not; exact ⟨hL.ne', pyInt_lt hL h3 h4⟩
  rw [if_neg h1.ne']
  refine (if_neg hc).trans ?_
  rw [pyInt_overlap h3]
  rfl

/-! ## Expected spectra -/

section expect
variable {Ω : Type} [MeasurableSpace Ω] {P : Measure Ω} [IsProbabilityMeasure P] {e : ℕ → Ω → ℝ} {σ : ℝ}

theorem at0_record {n : ℕ} (f : ℕ → ℝ) {i : ℕ} (hi : i < n) : at0 ((List.range n).map f) i = f i := at0_range_map f hi

theorem record_spectrum (w : List ℝ) (d : Detrend) {L s n : ℕ} (h : s + L ≤ n) (f : ℕ → ℝ) (k : ℕ) :
    spectrum w d (segment ((List.range n).map f) L s) k = ∑ i ∈ Finset.range n, ((f i : ℝ) : ℂ) * segCoef w d L k s i := by
  rw [seg_spectrum w d (by simp) h]
  exact Finset.sum_congr rfl fun i hi => by rw [at0_record f (Finset.mem_range.1 hi)]

/-- Expected averaged power. -/
theorem psd_expect (h : WhiteNoise P e σ) (c : ℝ) (w : List ℝ) (d : Detrend) {L ov n : ℕ} (hL : 0 < L) (hn : L ≤ n) (hov : ov < L) (k : ℕ) :
    Integrable (fun ω => psd c (spectra w d L ov ((List.range n).map fun i => e i ω) k)) P ∧
      ∫ ω, psd c (spectra w d L ov ((List.range n).map fun i => e i ω) k) ∂P = c * (σ ^ 2 * ∑ j ∈ Finset.range L, Complex.normSq (specCoef w d L k j)) := by
  have hf := many_fit hL hn hov
  have hfit := starts_fit hf
  have hS : (0 : ℝ) < ((n - ov) / (L - ov) : ℕ) := by exact_mod_cast hf.2.1
  set S := (n - ov) / (L - ov) with hSd
  have e1 : (fun ω => psd c (spectra w d L ov ((List.range n).map fun i => e i ω) k)) =
      fun ω => c * ((∑ s ∈ Finset.range S, Complex.normSq (∑ i ∈ Finset.range n, ((e i ω : ℝ) : ℂ) * segCoef w d L k (s * (L - ov)) i)) / S) := by
    funext ω
    rw [psd_sum, List.length_map, List.length_range, ← hSd]
    congr 2
    refine Finset.sum_congr rfl fun s hs => ?_
    rw [record_spectrum w d (hfit s (Finset.mem_range.1 hs)) fun i => e i ω]
  have hi : ∀ s ∈ Finset.range S, Integrable (fun ω => Complex.normSq (∑ i ∈ Finset.range n, ((e i ω : ℝ) : ℂ) * segCoef w d L k (s * (L - ov)) i)) P :=
    fun s _ => (noise_normSq h _ _).1
  rw [e1]
  refine ⟨((integrable_finsetSum _ hi).div_const _).const_mul _, ?_⟩
  rw [integral_const_mul, integral_div, integral_finsetSum _ hi]
  have e2 : ∀ s ∈ Finset.range S, ∫ ω, Complex.normSq (∑ i ∈ Finset.range n, ((e i ω : ℝ) : ℂ) * segCoef w d L k (s * (L - ov)) i) ∂P =
      σ ^ 2 * ∑ j ∈ Finset.range L, Complex.normSq (specCoef w d L k j) := by
    intro s hs
    rw [(noise_normSq h _ _).2, segCoef_energy w d (hfit s (Finset.mem_range.1 hs))]
  rw [Finset.sum_congr rfl e2, Finset.sum_const, Finset.card_range, nsmul_eq_mul, mul_div_cancel_left₀ _ hS.ne']

theorem csd_noise (c : ℝ) (w : List ℝ) (d : Detrend) {L ov n : ℕ} (hL : 0 < L) (hn : L ≤ n) (hov : ov < L) (x : List ℝ) (hx : x.length = n) (f g : ℕ → ℝ) (k : ℕ) :
    csd c (spectra w d L ov x k) (spectra w d L ov ((List.range n).map fun i => f i + g i) k) =
      csd c (spectra w d L ov x k) (spectra w d L ov ((List.range n).map f) k) +
        c * ((∑ i ∈ Finset.range n, ((g i : ℝ) : ℂ) * ∑ s ∈ Finset.range ((n - ov) / (L - ov)), (starRingEnd ℂ) (spectrum w d (segment x L (s * (L - ov))) k) * segCoef w d L k (s * (L - ov)) i) /
          ((n - ov) / (L - ov) : ℕ)) := by
  have hfit := starts_fit (many_fit hL hn hov)
  rw [csd_sum c w d L ov x _ (by simp [hx]), csd_sum c w d L ov x _ (by simp [hx]), hx, ← mul_add, ← add_div]
  congr 2
  simp only [Finset.mul_sum]
  rw [Finset.sum_comm (s := Finset.range n), ← Finset.sum_add_distrib]
  refine Finset.sum_congr rfl fun s hs => ?_
  rw [record_spectrum w d (hfit s (Finset.mem_range.1 hs)) f, record_spectrum w d (hfit s (Finset.mem_range.1 hs)) fun i => f i + g i,
    Finset.mul_sum, Finset.mul_sum, ← Finset.sum_add_distrib]
  refine Finset.sum_congr rfl fun i _ => ?_
  push_cast
  ring

/-- Error of the transfer function at one bin. -/
theorem tf_noise (h : WhiteNoise P e σ) {c : ℝ} (w : List ℝ) (d : Detrend) {L ov n m N : ℕ} (hL : 0 < L) (hn : L ≤ n) (hov : ov < L) (hw : w.length = L)
    (hm : L ≤ m * (L - ov)) (hN : 0 < N) (hNS : N ≤ (n - ov) / (L - ov)) (x : List ℝ) (hx : x.length = n) (y : ℕ → ℝ) (k : ℕ) (hc : 0 ≤ c)
    (hp : psd c (spectra w d L ov x k) ≠ 0) :
    ∃ (z : ℂ) (t : Ω → ℂ), tfBin c (spectra w d L ov x k) (spectra w d L ov ((List.range n).map y) k) = some z ∧
      (∀ ω, tfBin c (spectra w d L ov x k) (spectra w d L ov ((List.range n).map fun i => y i + e i ω) k) = some (t ω)) ∧
      Integrable t P ∧ ∫ ω, t ω ∂P = z ∧ Integrable (fun ω => ‖t ω - z‖ ^ 2) P ∧
      ∫ ω, ‖t ω - z‖ ^ 2 ∂P ≤ m / N * (c * (w.map fun v => v ^ 2).sum * σ ^ 2) / psd c (spectra w d L ov x k) := by
  have hf := many_fit hL hn hov
  have hfit := starts_fit hf
  have hS : (0 : ℝ) < ((n - ov) / (L - ov) : ℕ) := by exact_mod_cast hf.2.1
  have hNS' : (N : ℝ) ≤ ((n - ov) / (L - ov) : ℕ) := by exact_mod_cast hNS
  have hpd := psd_sum c w d L ov x k
  rw [hx] at hpd
  set S := (n - ov) / (L - ov) with hSd
  set X : ℕ → ℂ := fun s => (starRingEnd ℂ) (spectrum w d (segment x L (s * (L - ov))) k) with hX
  set Q := ∑ s ∈ Finset.range S, Complex.normSq (spectrum w d (segment x L (s * (L - ov))) k) with hQ
  set p := psd c (spectra w d L ov x k) with hpdef
  have hc0 : c ≠ 0 := by rintro rfl; exact hp (by rw [hpd, zero_mul])
  have hc' : 0 < c := lt_of_le_of_ne hc (Ne.symm hc0)
  have hQ0 : 0 ≤ Q := Finset.sum_nonneg fun s _ => Complex.normSq_nonneg _
  have hQ1 : Q ≠ 0 := by intro h0; exact hp (by rw [hpd, h0, zero_div, mul_zero])
  have hQ' : 0 < Q := lt_of_le_of_ne hQ0 (Ne.symm hQ1)
  have hp' : 0 < p := by rw [hpd]; positivity
  set D : ℕ → ℂ := fun i => ∑ s ∈ Finset.range S, X s * segCoef w d L k (s * (L - ov)) i with hD
  set z := csd c (spectra w d L ov x k) (spectra w d L ov ((List.range n).map y) k) / (p : ℂ) with hz
  have hkey : ∀ ω, csd c (spectra w d L ov x k) (spectra w d L ov ((List.range n).map fun i => y i + e i ω) k) / (p : ℂ) =
      z + (∑ i ∈ Finset.range n, ((e i ω : ℝ) : ℂ) * D i) / (Q : ℂ) := by
    intro ω
    rw [csd_noise c w d hL hn hov x hx y fun i => e i ω, add_div, hz, ← hSd]
    congr 1
    rw [hpd]
    have a1 : (c : ℂ) ≠ 0 := by exact_mod_cast hc0
    have a2 : (Q : ℂ) ≠ 0 := by exact_mod_cast hQ1
    have a3 : ((S : ℝ) : ℂ) ≠ 0 := by exact_mod_cast hS.ne'
    change (c : ℂ) * ((∑ i ∈ Finset.range n, ((e i ω : ℝ) : ℂ) * D i) / _) / _ = _
    push_cast at a3 ⊢
    field_simp
  obtain ⟨m1, m2⟩ := noise_mean h D (Finset.range n)
  obtain ⟨v1, v2⟩ := noise_normSq h D (Finset.range n)
  refine ⟨z, fun ω => z + (∑ i ∈ Finset.range n, ((e i ω : ℝ) : ℂ) * D i) / (Q : ℂ), ?_, ?_, (integrable_const _).add (m1.div_const _), ?_, ?_, ?_⟩
  · unfold tfBin; rw [if_neg hp]
  · intro ω; unfold tfBin; rw [if_neg hp, ← hpdef, hkey]
  · rw [integral_add (integrable_const _) (m1.div_const _), integral_const, integral_div, m2]
    simp
  all_goals
    have e1 : (fun ω => ‖z + (∑ i ∈ Finset.range n, ((e i ω : ℝ) : ℂ) * D i) / (Q : ℂ) - z‖ ^ 2) = fun ω => Complex.normSq (∑ i ∈ Finset.range n, ((e i ω : ℝ) : ℂ) * D i) / Q ^ 2 := by
      funext ω
      rw [add_sub_cancel_left, ← Complex.normSq_eq_norm_sq, Complex.normSq_div, Complex.normSq_ofReal, sq]
  · rw [e1]; exact v1.div_const _
  · rw [e1, integral_div, v2]
    have b1 := many_energy w d hf.1 hm hfit k X
    have b2 : ∑ s ∈ Finset.range S, Complex.normSq (X s) = Q := Finset.sum_congr rfl fun s _ => Complex.normSq_conj _
    rw [b2] at b1
    have b3 := (coef_energy d hw k).1
    have b4 : σ ^ 2 * ∑ i ∈ Finset.range n, Complex.normSq (D i) ≤ σ ^ 2 * (m * (Q * (w.map fun v => v ^ 2).sum)) := by
      refine mul_le_mul_of_nonneg_left (b1.trans ?_) (sq_nonneg _)
      exact mul_le_mul_of_nonneg_left (mul_le_mul_of_nonneg_left b3 hQ0) (by positivity)
    have hW : 0 ≤ (w.map fun v => v ^ 2).sum := List.sum_nonneg (by simp only [List.mem_map]; rintro a ⟨b, -, rfl⟩; positivity)
    have hN' : (0 : ℝ) < N := by exact_mod_cast hN
    have hQp : Q = p * S / c := by rw [hpd]; field_simp
    calc _ ≤ σ ^ 2 * (m * (Q * (w.map fun v => v ^ 2).sum)) / Q ^ 2 := div_le_div_of_nonneg_right b4 (by positivity)
      _ = m * (c * (w.map fun v => v ^ 2).sum * σ ^ 2) / p / S := by
          rw [hQp]
          field_simp
      _ ≤ m * (c * (w.map fun v => v ^ 2).sum * σ ^ 2) / p / N := div_le_div_of_nonneg_left (by positivity) hN' hNS'
      _ = _ := by ring

end expect

end SST.Tf
