import Verif.Proofs.CopulaCov
import Mathlib.Algebra.QuadraticDiscriminant
import Mathlib.Analysis.SpecificLimits.Basic
import Mathlib.Analysis.Complex.ExponentialBounds

/-! # The correlation of a function of normal scores is at most the correlation of the scores -/

namespace SST.Copula
open SST SST.Spec MeasureTheory ProbabilityTheory

theorem integral_sub_add_fun {α : Type} [MeasurableSpace α] {μ : Measure α} {f g h : α → ℝ} (hf : Integrable f μ) (hg : Integrable g μ) (hh : Integrable h μ) :
    ∫ x, (f x - g x + h x) ∂μ = ∫ x, f x ∂μ - ∫ x, g x ∂μ + ∫ x, h x ∂μ := by
  rw [← integral_sub hf hg, ← integral_add (f := fun x => f x - g x) (hf.sub hg) hh]

/-- Cauchy-Schwarz for integrals. -/
theorem integral_mul_sq_le {α : Type} [MeasurableSpace α] {μ : Measure α} {f g : α → ℝ} (hf : Integrable (fun x => f x * f x) μ)
    (hfg : Integrable (fun x => f x * g x) μ) (hg : Integrable (fun x => g x * g x) μ) :
    (∫ x, f x * g x ∂μ) ^ 2 ≤ (∫ x, f x * f x ∂μ) * ∫ x, g x * g x ∂μ := by
  have h : ∀ t : ℝ, 0 ≤ (∫ x, g x * g x ∂μ) * (t * t) + (2 * ∫ x, f x * g x ∂μ) * t + ∫ x, f x * f x ∂μ := by
    intro t
    have e : ∫ x, (f x + t * g x) ^ 2 ∂μ = (∫ x, g x * g x ∂μ) * (t * t) + (2 * ∫ x, f x * g x ∂μ) * t + ∫ x, f x * f x ∂μ := by
      have h1 := hg.mul_const (t * t)
      have h2 := (hfg.const_mul 2).mul_const t
      rw [← integral_mul_const, ← integral_const_mul, ← integral_mul_const, ← integral_add h1 h2,
        ← integral_add (f := fun x => g x * g x * (t * t) + 2 * (f x * g x) * t) (h1.add h2) hf]
      congr 1
      ext x
      ring
    rw [← e]
    exact integral_nonneg fun x => sq_nonneg _
  have := discrim_le_zero h
  unfold discrim at this
  nlinarith

/-- Mean after a shift of the score. -/
theorem integral_shift {G : ℝ → ℝ} (hG : Measurable G) (a : ℝ) :
    ∫ u, G (u + a) ∂(gaussianReal 0 1) = ∫ u, G u * Real.exp (a * u - a ^ 2 / 2) ∂(gaussianReal 0 1) := by
  have h1 : ∫ u, G (u + a) ∂(gaussianReal 0 1) = ∫ u, G u ∂(gaussianReal a 1) := by
    have := gaussianReal_map_add_const (μ := 0) (v := 1) a
    rw [zero_add] at this
    rw [← this, integral_map (by fun_prop) hG.aestronglyMeasurable]
  rw [h1, integral_gaussianReal_eq_integral_smul one_ne_zero, integral_gaussianReal_eq_integral_smul one_ne_zero]
  congr 1
  ext u
  simp only [gaussianPDFReal, smul_eq_mul, NNReal.coe_one]
  rw [show -(u - a) ^ 2 / (2 * 1) = -(u - 0) ^ 2 / (2 * 1) + (a * u - a ^ 2 / 2) by ring, Real.exp_add]
  ring

theorem integral_exp_gauss (a : ℝ) : ∫ u, Real.exp (a * u) ∂(gaussianReal 0 1) = Real.exp (a ^ 2 / 2) := by
  have := congrFun (mgf_id_gaussianReal (μ := 0) (v := 1)) a
  simpa [mgf] using this

/-- A bounded function of a shifted score. -/
theorem shift_le {G : ℝ → ℝ} (hG : Measurable G) {C : ℝ} (hC : ∀ x, |G x| ≤ C) (a : ℝ) :
    (∫ u, G (u + a) ∂(gaussianReal 0 1) - ∫ u, G u ∂(gaussianReal 0 1)) ^ 2 ≤ 4 * C ^ 2 * a ^ 2 := by
  set γ : Measure ℝ := gaussianReal 0 1
  have hC0 : 0 ≤ C := (abs_nonneg _).trans (hC 0)
  rcases le_or_gt (a ^ 2) 1 with ha | ha
  · have i1 : ∀ t : ℝ, Integrable (fun u => Real.exp (t * u)) γ := fun t => integrable_exp_mul_gaussianReal t
    have iw : Integrable (fun u => Real.exp (a * u - a ^ 2 / 2) - 1) γ := by
      refine Integrable.sub ?_ (integrable_const _)
      simp only [sub_eq_add_neg, Real.exp_add]
      exact (i1 a).mul_const _
    have ew : (fun u => (Real.exp (a * u - a ^ 2 / 2) - 1) * (Real.exp (a * u - a ^ 2 / 2) - 1)) =
        fun u => Real.exp ((2 * a) * u) * Real.exp (-a ^ 2) - (2 * Real.exp (-a ^ 2 / 2)) * Real.exp (a * u) + 1 := by
      ext u
      have e1 : Real.exp ((2 * a) * u) * Real.exp (-a ^ 2) = Real.exp (a * u - a ^ 2 / 2) * Real.exp (a * u - a ^ 2 / 2) := by
        rw [← Real.exp_add, ← Real.exp_add]; congr 1; ring
      have e2 : Real.exp (-a ^ 2 / 2) * Real.exp (a * u) = Real.exp (a * u - a ^ 2 / 2) := by
        rw [← Real.exp_add]; congr 1; ring
      rw [e1, mul_assoc, e2]
      ring
    have iA : Integrable (fun u => Real.exp ((2 * a) * u) * Real.exp (-a ^ 2)) γ := (i1 _).mul_const _
    have iB : Integrable (fun u => (2 * Real.exp (-a ^ 2 / 2)) * Real.exp (a * u)) γ := (i1 _).const_mul _
    have iw2 : Integrable (fun u => (Real.exp (a * u - a ^ 2 / 2) - 1) * (Real.exp (a * u - a ^ 2 / 2) - 1)) γ := by
      rw [ew]
      exact (iA.sub iB).add (integrable_const _)
    have vw : ∫ u, (Real.exp (a * u - a ^ 2 / 2) - 1) * (Real.exp (a * u - a ^ 2 / 2) - 1) ∂γ = Real.exp (a ^ 2) - 1 := by
      rw [ew, integral_sub_add_fun iA iB (integrable_const _), integral_mul_const, integral_const_mul, integral_exp_gauss, integral_exp_gauss,
        mul_assoc, ← Real.exp_add, ← Real.exp_add]
      rw [show (2 * a) ^ 2 / 2 + -a ^ 2 = a ^ 2 by ring, show -a ^ 2 / 2 + a ^ 2 / 2 = 0 by ring]
      simp
      ring
    have iG : Integrable G γ := integrable_bdd hG hC
    have iGw : Integrable (fun u => G u * (Real.exp (a * u - a ^ 2 / 2) - 1)) γ :=
      iw.bdd_mul hG.aestronglyMeasurable (c := C) (Filter.Eventually.of_forall fun u => by rw [Real.norm_eq_abs]; exact hC u)
    have iGG : Integrable (fun u => G u * G u) γ := integrable_bdd (hG.mul hG) (C := C * C) fun u => by
      rw [abs_mul]; exact mul_le_mul (hC _) (hC _) (abs_nonneg _) hC0
    have hd : ∫ u, G (u + a) ∂γ - ∫ u, G u ∂γ = ∫ u, G u * (Real.exp (a * u - a ^ 2 / 2) - 1) ∂γ := by
      rw [integral_shift hG a]
      have : ∫ u, G u * Real.exp (a * u - a ^ 2 / 2) ∂γ = ∫ u, (G u * (Real.exp (a * u - a ^ 2 / 2) - 1) + G u) ∂γ := by
        congr 1; ext u; ring
      rw [this, integral_add iGw iG]
      ring
    have hGG : ∫ u, G u * G u ∂γ ≤ C ^ 2 := by
      have := integral_mono iGG (integrable_const (C ^ 2)) fun u => by
        have := hC u
        have h := abs_mul_abs_self (G u)
        change G u * G u ≤ C ^ 2
        nlinarith [abs_nonneg (G u)]
      simpa using this
    have hx : Real.exp (a ^ 2) - 1 ≤ 4 * a ^ 2 := by
      have h0 := sq_nonneg a
      have h1 := Real.add_one_le_exp (-a ^ 2)
      have h2 : Real.exp (a ^ 2) * Real.exp (-a ^ 2) = 1 := by rw [← Real.exp_add]; simp
      have h3 : Real.exp (a ^ 2) ≤ Real.exp 1 := Real.exp_le_exp.2 ha
      have h4 := Real.exp_one_lt_d9
      nlinarith [Real.exp_pos (a ^ 2)]
    rw [hd]
    refine (integral_mul_sq_le iGG iGw iw2).trans ?_
    rw [vw]
    have : 0 ≤ Real.exp (a ^ 2) - 1 := by linarith [Real.one_le_exp (sq_nonneg a)]
    calc (∫ u, G u * G u ∂γ) * (Real.exp (a ^ 2) - 1) ≤ C ^ 2 * (4 * a ^ 2) := mul_le_mul hGG hx this (sq_nonneg _)
      _ = 4 * C ^ 2 * a ^ 2 := by ring
  · have h1 : |∫ u, G (u + a) ∂γ| ≤ C := by
      have := norm_integral_le_of_norm_le_const (μ := γ) (f := fun u => G (u + a)) (C := C)
        (Filter.Eventually.of_forall fun u => by rw [Real.norm_eq_abs]; exact hC _)
      simpa using this
    have h2 : |∫ u, G u ∂γ| ≤ C := by
      have := norm_integral_le_of_norm_le_const (μ := γ) (f := fun u => G u) (C := C)
        (Filter.Eventually.of_forall fun u => by rw [Real.norm_eq_abs]; exact hC _)
      simpa using this
    have h3 : |∫ u, G (u + a) ∂γ - ∫ u, G u ∂γ| ≤ 2 * C := by
      refine (abs_sub _ _).trans ?_
      linarith
    have h4 : (∫ u, G (u + a) ∂γ - ∫ u, G u ∂γ) ^ 2 ≤ (2 * C) ^ 2 := by
      rw [← sq_abs]
      exact pow_le_pow_left₀ (abs_nonneg _) h3 2
    nlinarith [sq_nonneg C]

/-- Scores with a given correlation exist. -/
theorem smooth_prod {F : ℝ → ℝ} (hF : Measurable F) {C : ℝ} (hC : ∀ x, |F x| ≤ C) {r : ℝ} (hr : 0 ≤ r) (hr1 : r ≤ 1) :
    ∫ x, smooth F r x * smooth F r x ∂(gaussianReal 0 1) = ∫ x, F x * smooth F (r ^ 2) x ∂(gaussianReal 0 1) := by
  set γ : Measure ℝ := gaussianReal 0 1
  have i0 : iIndepFun (fun (k : ℕ) (ω : ℕ → ℝ) => ω k) (Measure.infinitePi fun _ : ℕ => γ) :=
    iIndepFun_infinitePi (X := fun _ x => x) fun _ => measurable_id
  have l0 : ∀ k : ℕ, (Measure.infinitePi fun _ : ℕ => γ).map (fun ω : ℕ → ℝ => ω k) = γ :=
    fun k => Measure.infinitePi_map_eval (fun _ : ℕ => γ) k
  have m0 : ∀ k : ℕ, Measurable (fun ω : ℕ → ℝ => ω k) := fun k => measurable_pi_apply k
  have q := Real.mul_self_sqrt (show 0 ≤ 1 - r ^ 2 by nlinarith)
  have hA : ∑ k ∈ Finset.range 2, (if k = 0 then (1 : ℝ) else 0) * (if k = 0 then 1 else 0) = 1 := by simp
  have hB : ∑ k ∈ Finset.range 2, (if k = 0 then r else Real.sqrt (1 - r ^ 2)) * (if k = 0 then r else Real.sqrt (1 - r ^ 2)) = 1 := by
    simp [Finset.sum_range_succ]; linear_combination q
  have hAB : ∑ k ∈ Finset.range 2, (if k = 0 then (1 : ℝ) else 0) * (if k = 0 then r else Real.sqrt (1 - r ^ 2)) = r := by
    simp [Finset.sum_range_succ]
  have e1 := score_prod m0 i0 l0 _ _ 2 hA hB hr hr1 zero_le_one le_rfl (by rw [hAB, mul_one]) hF hC
  have e2 := score_prod m0 i0 l0 _ _ 2 hA hB zero_le_one le_rfl hr hr1 (by rw [hAB, one_mul]) hF hC
  have hg := smooth_measurable hF r
  have hgC := smooth_le hC r
  have s1 : ∀ x, smooth F 1 x = F x := by intro x; simp [smooth]
  have f1 : ∫ p : ℝ × ℝ, smooth F r p.1 * smooth F r (1 * p.1 + Real.sqrt (1 - 1 ^ 2) * p.2) ∂(γ.prod γ) = ∫ x, smooth F r x * smooth F r x ∂γ := by
    have hsq : Measurable fun x => smooth F r x * smooth F r x := hg.mul hg
    have := integral_map (μ := γ.prod γ) (φ := Prod.fst) measurable_fst.aemeasurable (f := fun x => smooth F r x * smooth F r x) hsq.aestronglyMeasurable
    simp only [Measure.map_fst_prod, measure_univ, one_smul] at this
    rw [this]
    simp
  have f2 : ∫ p : ℝ × ℝ, smooth F 1 p.1 * smooth F 1 (r * p.1 + Real.sqrt (1 - r ^ 2) * p.2) ∂(γ.prod γ) = ∫ x, F x * smooth F (r ^ 2) x ∂γ := by
    simp only [s1]
    have hm : Measurable fun p : ℝ × ℝ => F p.1 * F (r * p.1 + Real.sqrt (1 - r ^ 2) * p.2) := (hF.comp measurable_fst).mul (hF.comp (by fun_prop))
    rw [integral_prod _ (integrable_bdd hm (C := C * C) fun p => by
      rw [abs_mul]; exact mul_le_mul (hC _) (hC _) (abs_nonneg _) ((abs_nonneg _).trans (hC 0)))]
    congr 1
    ext x
    simp only [smooth, Real.sqrt_sq hr]
    exact integral_const_mul _ _
  rw [← f1, ← e1, e2, f2]

theorem smooth_mean {F : ℝ → ℝ} (hF : Measurable F) {C : ℝ} (hC : ∀ x, |F x| ≤ C) {r : ℝ} (hr : 0 ≤ r) (hr1 : r ≤ 1) :
    ∫ x, smooth F r x ∂(gaussianReal 0 1) = ∫ x, F x ∂(gaussianReal 0 1) := by
  set γ : Measure ℝ := gaussianReal 0 1
  have hY : Measurable fun p : ℝ × ℝ => Real.sqrt r * p.1 + Real.sqrt (1 - Real.sqrt r ^ 2) * p.2 := by fun_prop
  have h := circle_law (s := Real.sqrt r) (by rw [Real.sq_sqrt hr]; exact hr1)
  have hm : Measurable fun p : ℝ × ℝ => F (Real.sqrt r * p.1 + Real.sqrt (1 - Real.sqrt r ^ 2) * p.2) := hF.comp hY
  calc ∫ x, smooth F r x ∂γ = ∫ p : ℝ × ℝ, F (Real.sqrt r * p.1 + Real.sqrt (1 - Real.sqrt r ^ 2) * p.2) ∂(γ.prod γ) := by
        rw [integral_prod _ (integrable_bdd hm (C := C) fun p => hC _)]
        simp only [smooth, Real.sq_sqrt hr]
        rfl
    _ = ∫ x, F x ∂γ := by
        rw [← integral_map (μ := γ.prod γ) hY.aemeasurable (f := F) hF.aestronglyMeasurable, h]

/-- First bound for the covariance of a centred function of weakly correlated scores. -/
theorem smooth_small {F : ℝ → ℝ} (hF : Measurable F) {C : ℝ} (hC : ∀ x, |F x| ≤ C) (h0 : ∫ x, F x ∂(gaussianReal 0 1) = 0) {r : ℝ} (hr : 0 ≤ r)
    (hr1 : r < 1) : ∫ x, smooth F r x * smooth F r x ∂(gaussianReal 0 1) ≤ 4 * C ^ 2 * (r / (1 - r)) := by
  set γ : Measure ℝ := gaussianReal 0 1
  have hp : 0 < 1 - r := by linarith
  have hs := Real.sqrt_pos.2 hp
  have hg := smooth_measurable hF r
  have hgC := smooth_le hC r
  have hpt : ∀ x, (smooth F r x - smooth F r 0) ^ 2 ≤ 4 * C ^ 2 * (r / (1 - r)) * x ^ 2 := by
    intro x
    have := shift_le (G := fun u => F (Real.sqrt (1 - r) * u)) (hF.comp (by fun_prop)) (C := C) (fun x => hC _) (Real.sqrt r * x / Real.sqrt (1 - r))
    have e : (Real.sqrt r * x / Real.sqrt (1 - r)) ^ 2 = r / (1 - r) * x ^ 2 := by
      rw [div_pow, mul_pow, Real.sq_sqrt hr, Real.sq_sqrt hp.le]; ring
    rw [e] at this
    have e1 : ∫ u, F (Real.sqrt (1 - r) * (u + Real.sqrt r * x / Real.sqrt (1 - r))) ∂γ = smooth F r x := by
      unfold smooth
      congr 1
      ext u
      congr 1
      field_simp
      ring
    have e2 : ∫ u, F (Real.sqrt (1 - r) * u) ∂γ = smooth F r 0 := by simp [smooth]; rfl
    rw [e1, e2] at this
    linarith
  have hx2 : ∫ x, x ^ 2 ∂γ = 1 := by
    have hv := variance_fun_id_gaussianReal (μ := 0) (v := 1)
    rw [variance_eq_integral (by fun_prop)] at hv
    simpa using hv
  have ix2 : Integrable (fun x : ℝ => x ^ 2) γ := by
    have := (memLp_id_gaussianReal (μ := 0) (v := 1) 2).integrable_sq
    simpa using this
  have ig : Integrable (smooth F r) γ := integrable_bdd hg hgC
  have igg : Integrable (fun x => smooth F r x * smooth F r x) γ := integrable_bdd (hg.mul hg) (C := C * C) fun x => by
    rw [abs_mul]; exact mul_le_mul (hgC _) (hgC _) (abs_nonneg _) ((abs_nonneg _).trans (hC 0))
  have hm0 : ∫ x, smooth F r x ∂γ = 0 := by rw [smooth_mean hF hC hr hr1.le, h0]
  have ec : ∫ x, (smooth F r x - smooth F r 0) ^ 2 ∂γ = ∫ x, smooth F r x * smooth F r x ∂γ + smooth F r 0 ^ 2 := by
    have : (fun x => (smooth F r x - smooth F r 0) ^ 2) = fun x => smooth F r x * smooth F r x - (2 * smooth F r 0) * smooth F r x + smooth F r 0 ^ 2 := by
      ext x; ring
    rw [this, integral_sub_add_fun igg (ig.const_mul _) (integrable_const _), integral_const_mul, hm0]
    simp
  have ic : Integrable (fun x => (smooth F r x - smooth F r 0) ^ 2) γ := by
    have : (fun x => (smooth F r x - smooth F r 0) ^ 2) = fun x => smooth F r x * smooth F r x - (2 * smooth F r 0) * smooth F r x + smooth F r 0 ^ 2 := by
      ext x; ring
    rw [this]
    exact (igg.sub (ig.const_mul _)).add (integrable_const _)
  have := integral_mono ic (ix2.const_mul (4 * C ^ 2 * (r / (1 - r)))) hpt
  rw [ec, integral_const_mul, hx2] at this
  nlinarith [sq_nonneg (smooth F r 0)]

/-- The covariance of a centred function of scores with correlation `r` is at most `r` times its variance. -/
theorem smooth_gebelein {F : ℝ → ℝ} (hF : Measurable F) {C : ℝ} (hC : ∀ x, |F x| ≤ C) (h0 : ∫ x, F x ∂(gaussianReal 0 1) = 0) {r : ℝ} (hr : 0 ≤ r)
    (hr1 : r ≤ 1) : ∫ x, smooth F r x * smooth F r x ∂(gaussianReal 0 1) ≤ r * ∫ x, F x * F x ∂(gaussianReal 0 1) := by
  set γ : Measure ℝ := gaussianReal 0 1
  set H : ℝ → ℝ := fun r => ∫ x, smooth F r x * smooth F r x ∂γ with hH
  set V : ℝ := ∫ x, F x * F x ∂γ with hV
  have hb : ∀ {f g : ℝ → ℝ} (_ : Measurable f) (_ : Measurable g) (_ : ∀ x, |f x| ≤ C) (_ : ∀ x, |g x| ≤ C), Integrable (fun x => f x * g x) γ :=
    fun {f g} hf hg h1 h2 => integrable_bdd (hf.mul hg) (C := C * C) fun x => by
      rw [abs_mul]; exact mul_le_mul (h1 _) (h2 _) (abs_nonneg _) ((abs_nonneg _).trans (hC 0))
  have Hnn : ∀ r, 0 ≤ H r := fun r => integral_nonneg fun x => mul_self_nonneg _
  have Vnn : 0 ≤ V := integral_nonneg fun x => mul_self_nonneg _
  have step : ∀ r, 0 ≤ r → r ≤ 1 → H r ^ 2 ≤ V * H (r ^ 2) := by
    intro r h h1
    simp only [hH]
    rw [smooth_prod hF hC h h1]
    exact integral_mul_sq_le (hb hF hF hC hC) (hb hF (smooth_measurable hF _) hC (smooth_le hC _))
      (hb (smooth_measurable hF _) (smooth_measurable hF _) (smooth_le hC _) (smooth_le hC _))
  have H1 : H 1 = V := by simp [hH, hV, smooth]
  rcases hr1.eq_or_lt with rfl | hlt
  · change H 1 ≤ 1 * V
    rw [H1, one_mul]
  by_contra hcon
  push Not at hcon
  change r * V < H r at hcon
  rcases hr.eq_or_lt with rfl | hpos
  · have := smooth_small hF hC h0 le_rfl zero_lt_one
    change H 0 ≤ _ at this
    simp at this hcon
    linarith
  rcases Vnn.eq_or_lt with hz | hVp
  · have := step r hr hr1
    rw [← hz] at this hcon
    nlinarith
  -- the ratio to the claimed bound is squared in every step
  set q : ℝ := H r / (r * V) with hq
  have hq1 : 1 < q := by rw [hq, lt_div_iff₀ (by positivity)]; linarith
  have iter : ∀ n : ℕ, (r * q) ^ 2 ^ n * V ≤ H (r ^ 2 ^ n) := by
    intro n
    induction n with
    | zero =>
      simp only [pow_zero, pow_one]
      rw [hq]
      apply le_of_eq
      field_simp
    | succ n ih =>
      have hrn : 0 ≤ r ^ 2 ^ n := by positivity
      have h := step (r ^ 2 ^ n) hrn (pow_le_one₀ hr hr1)
      rw [pow_succ, pow_mul, pow_mul]
      have h2 : ((r * q) ^ 2 ^ n * V) ^ 2 ≤ V * H ((r ^ 2 ^ n) ^ 2) := (pow_le_pow_left₀ (by positivity) ih 2).trans h
      have h3 : V * (((r * q) ^ 2 ^ n) ^ 2 * V) ≤ V * H ((r ^ 2 ^ n) ^ 2) := by nlinarith
      exact le_of_mul_le_mul_left h3 hVp
  have up : ∀ n : ℕ, H (r ^ 2 ^ n) ≤ 4 * C ^ 2 / (1 - r) * r ^ 2 ^ n := by
    intro n
    have h2 : r ^ 2 ^ n ≤ r := by
      have := pow_le_pow_of_le_one hr hr1 (Nat.one_le_two_pow (n := n))
      simpa using this
    refine (smooth_small hF hC h0 (by positivity) (h2.trans_lt hlt)).trans ?_
    have : r ^ 2 ^ n / (1 - r ^ 2 ^ n) ≤ r ^ 2 ^ n / (1 - r) := div_le_div_of_nonneg_left (by positivity) (by linarith) (by linarith)
    calc 4 * C ^ 2 * (r ^ 2 ^ n / (1 - r ^ 2 ^ n)) ≤ 4 * C ^ 2 * (r ^ 2 ^ n / (1 - r)) := by gcongr
      _ = _ := by ring
  have bd : ∀ n : ℕ, q ^ 2 ^ n ≤ 4 * C ^ 2 / (1 - r) / V := by
    intro n
    have h := (iter n).trans (up n)
    rw [mul_pow] at h
    rw [le_div_iff₀ hVp]
    have hrn : 0 < r ^ 2 ^ n := by positivity
    refine le_of_mul_le_mul_left ?_ hrn
    linarith
  obtain ⟨n, hn⟩ := pow_unbounded_of_one_lt (4 * C ^ 2 / (1 - r) / V) hq1
  have := bd n
  have h2 : q ^ n ≤ q ^ 2 ^ n := pow_le_pow_right₀ hq1.le Nat.lt_two_pow_self.le
  linarith

/-- The covariance of a bounded function of two scores with correlation `r` is at most `r` times its variance. -/
theorem score_prod_gebelein {Ω : Type} [MeasurableSpace Ω] {P : Measure Ω} [IsProbabilityMeasure P] {z : ℕ → Ω → ℝ} (hm : ∀ k, Measurable (z k))
    (hi : iIndepFun z P) (hl : ∀ k, P.map (z k) = gaussianReal 0 1) (A B : ℕ → ℝ) (d : ℕ) (hA : ∑ k ∈ Finset.range d, A k * A k = 1)
    (hB : ∑ k ∈ Finset.range d, B k * B k = 1) {r : ℝ} (hr : 0 ≤ r) (hr1 : r ≤ 1)
    (hAB : ∑ k ∈ Finset.range d, A k * B k = r) {F : ℝ → ℝ} (hF : Measurable F) {C : ℝ} (hC : ∀ x, |F x| ≤ C) :
    ∫ ω, F (∑ k ∈ Finset.range d, z k ω * A k) * F (∑ k ∈ Finset.range d, z k ω * B k) ∂P - (∫ x, F x ∂(gaussianReal 0 1)) ^ 2 ≤
      r * (∫ x, F x * F x ∂(gaussianReal 0 1) - (∫ x, F x ∂(gaussianReal 0 1)) ^ 2) := by
  set γ : Measure ℝ := gaussianReal 0 1
  set c := ∫ x, F x ∂γ with hc
  have hcC : |c| ≤ C := by
    have := norm_integral_le_of_norm_le_const (μ := γ) (f := F) (C := C) (Filter.Eventually.of_forall fun u => by rw [Real.norm_eq_abs]; exact hC u)
    simpa using this
  have hFi : Integrable F γ := integrable_bdd hF hC
  have hFF : Integrable (fun x => F x * F x) γ := integrable_bdd (hF.mul hF) (C := C * C) fun x => by
    rw [abs_mul]; exact mul_le_mul (hC _) (hC _) (abs_nonneg _) ((abs_nonneg _).trans (hC 0))
  have hG : Measurable fun x => F x - c := hF.sub_const c
  have hGC : ∀ x, |F x - c| ≤ C + C := fun x => (abs_sub _ _).trans (add_le_add (hC x) hcC)
  have hG0 : ∫ x, (F x - c) ∂γ = 0 := by rw [integral_sub hFi (integrable_const _)]; simp [hc]
  have key := smooth_gebelein hG hGC hG0 hr hr1
  have hsm : ∀ x, smooth (fun x => F x - c) r x = smooth F r x - c := by
    intro x
    unfold smooth
    have : Integrable (fun u => F (Real.sqrt r * x + Real.sqrt (1 - r) * u)) γ := integrable_bdd (hF.comp (by fun_prop)) (C := C) fun u => hC _
    rw [integral_sub this (integrable_const _)]
    simp
    rfl
  have hg := smooth_measurable hF r
  have hgC := smooth_le hC r
  have ig : Integrable (smooth F r) γ := integrable_bdd hg hgC
  have igg : Integrable (fun x => smooth F r x * smooth F r x) γ := integrable_bdd (hg.mul hg) (C := C * C) fun x => by
    rw [abs_mul]; exact mul_le_mul (hgC _) (hgC _) (abs_nonneg _) ((abs_nonneg _).trans (hC 0))
  have sq : ∀ {f : ℝ → ℝ} (_ : Integrable f γ) (_ : Integrable (fun x => f x * f x) γ) (_ : ∫ x, f x ∂γ = c),
      ∫ x, (f x - c) * (f x - c) ∂γ = ∫ x, f x * f x ∂γ - c ^ 2 := by
    intro f h1 h2 h3
    have : (fun x => (f x - c) * (f x - c)) = fun x => f x * f x - (2 * c) * f x + c ^ 2 := by ext x; ring
    rw [this, integral_sub_add_fun h2 (h1.const_mul _) (integrable_const _), integral_const_mul, h3]
    simp
    ring
  simp only [hsm] at key
  rw [sq ig igg (smooth_mean hF hC hr hr1), sq hFi hFF hc.symm] at key
  have e := score_prod hm hi hl A B d hA hB hr hr1 zero_le_one le_rfl (by rw [hAB, mul_one]) hF hC
  have f1 : ∫ p : ℝ × ℝ, smooth F r p.1 * smooth F r (1 * p.1 + Real.sqrt (1 - 1 ^ 2) * p.2) ∂(γ.prod γ) = ∫ x, smooth F r x * smooth F r x ∂γ := by
    have hsq : Measurable fun x => smooth F r x * smooth F r x := hg.mul hg
    have := integral_map (μ := γ.prod γ) (φ := Prod.fst) measurable_fst.aemeasurable (f := fun x => smooth F r x * smooth F r x) hsq.aestronglyMeasurable
    simp only [Measure.map_fst_prod, measure_univ, one_smul] at this
    rw [this]
    simp
  rw [e, f1]
  exact key

end SST.Copula
