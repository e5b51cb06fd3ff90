import Verif.Proofs.CopulaJoint
import Mathlib.Probability.Moments.Covariance
import Mathlib.MeasureTheory.Integral.Prod

/-! # Covariance of nondecreasing functions of normal scores -/

namespace SST.Copula
open SST SST.Spec MeasureTheory ProbabilityTheory

/-- Mean of `F` given the common part of a score. -/
noncomputable def smooth (F : ℝ → ℝ) (r x : ℝ) : ℝ := ∫ u, F (Real.sqrt r * x + Real.sqrt (1 - r) * u) ∂(gaussianReal 0 1)

/-- Standard bounded measurable functions are integrable. -/
theorem integrable_bdd {α : Type} [MeasurableSpace α] {μ : Measure α} [IsFiniteMeasure μ] {f : α → ℝ} (hf : Measurable f) {C : ℝ} (hC : ∀ x, |f x| ≤ C) :
    Integrable f μ :=
  Integrable.of_bound hf.aestronglyMeasurable C (Filter.Eventually.of_forall fun x => by rw [Real.norm_eq_abs]; exact hC x)

theorem smooth_measurable {F : ℝ → ℝ} (hF : Measurable F) (r : ℝ) : Measurable (smooth F r) := by
  have h : StronglyMeasurable fun p : ℝ × ℝ => F (Real.sqrt r * p.1 + Real.sqrt (1 - r) * p.2) :=
    (hF.comp (by fun_prop)).stronglyMeasurable
  exact (h.integral_prod_right (ν := gaussianReal 0 1)).measurable

theorem smooth_le {F : ℝ → ℝ} {C : ℝ} (hC : ∀ x, |F x| ≤ C) (r x : ℝ) : |smooth F r x| ≤ C := by
  have := norm_integral_le_of_norm_le_const (μ := gaussianReal 0 1) (f := fun u => F (Real.sqrt r * x + Real.sqrt (1 - r) * u)) (C := C)
    (Filter.Eventually.of_forall fun u => by rw [Real.norm_eq_abs]; exact hC _)
  simpa [smooth] using this

/-- Coefficients realising the correlation `r * s`. -/
noncomputable def pairCoef (r s : ℝ) (k : ℕ) (i : Bool) : ℝ :=
  match i, k with
  | false, 0 => Real.sqrt r
  | false, 2 => Real.sqrt (1 - r)
  | true, 0 => Real.sqrt r * s
  | true, 1 => Real.sqrt r * Real.sqrt (1 - s ^ 2)
  | true, 3 => Real.sqrt (1 - r)
  | _, _ => 0

theorem score_prod {Ω : Type} [MeasurableSpace Ω] {P : Measure Ω} [IsProbabilityMeasure P] {z : ℕ → Ω → ℝ} (hm : ∀ k, Measurable (z k))
    (hi : iIndepFun z P) (hl : ∀ k, P.map (z k) = gaussianReal 0 1) (A B : ℕ → ℝ) (d : ℕ) (hA : ∑ k ∈ Finset.range d, A k * A k = 1)
    (hB : ∑ k ∈ Finset.range d, B k * B k = 1) {r s : ℝ} (hr : 0 ≤ r) (hr1 : r ≤ 1) (hs : 0 ≤ s) (hs1 : s ≤ 1)
    (hAB : ∑ k ∈ Finset.range d, A k * B k = r * s) {F : ℝ → ℝ} (hF : Measurable F) {C : ℝ} (hC : ∀ x, |F x| ≤ C) :
    ∫ ω, F (∑ k ∈ Finset.range d, z k ω * A k) * F (∑ k ∈ Finset.range d, z k ω * B k) ∂P =
      ∫ p : ℝ × ℝ, smooth F r p.1 * smooth F r (s * p.1 + Real.sqrt (1 - s ^ 2) * p.2) ∂((gaussianReal 0 1).prod (gaussianReal 0 1)) := by
  set γ : Measure ℝ := gaussianReal 0 1
  set P0 : Measure (ℕ → ℝ) := Measure.infinitePi fun _ : ℕ => γ
  have i0 : iIndepFun (fun (k : ℕ) (ω : ℕ → ℝ) => ω k) P0 := iIndepFun_infinitePi (X := fun _ x => x) fun _ => measurable_id
  have l0 : ∀ k : ℕ, P0.map (fun ω : ℕ → ℝ => ω k) = γ := fun k => Measure.infinitePi_map_eval (fun _ : ℕ => γ) k
  have m0 : ∀ k : ℕ, Measurable (fun ω : ℕ → ℝ => ω k) := fun k => measurable_pi_apply k
  have q1 := Real.mul_self_sqrt hr
  have q3 := Real.mul_self_sqrt (sub_nonneg.2 hr1)
  have q4 := Real.mul_self_sqrt (show 0 ≤ 1 - s ^ 2 by nlinarith)
  have key := joint_law hm hi hl m0 i0 l0 (fun k (i : Bool) => if i then B k else A k) (pairCoef r s) d 4 (by
    intro i j
    cases i <;> cases j <;> simp only [Finset.sum_range_succ, Finset.range_zero, Finset.sum_empty, pairCoef, Bool.false_eq_true, if_false, if_true]
    · rw [hA]; linear_combination -q1 - q3
    · rw [hAB]; linear_combination -s * q1
    · rw [Finset.sum_congr rfl fun k _ => mul_comm (B k) (A k), hAB]; linear_combination -s * q1
    · rw [hB]; linear_combination -(s ^ 2 + Real.sqrt (1 - s ^ 2) * Real.sqrt (1 - s ^ 2)) * q1 - q3 - r * q4)
  have hprod : P0.map (fun ω : ℕ → ℝ => ((ω 0, ω 1), (ω 2, ω 3))) = (γ.prod γ).prod (γ.prod γ) := by
    have h := i0.indepFun_prodMk_prodMk m0 0 1 2 3 (by decide) (by decide) (by decide) (by decide)
    have h01 := i0.indepFun (i := 0) (j := 1) (by decide)
    have h23 := i0.indepFun (i := 2) (j := 3) (by decide)
    rw [indepFun_iff_map_prod_eq_prod_map_map (by fun_prop) (by fun_prop)] at h
    rw [indepFun_iff_map_prod_eq_prod_map_map (m0 _).aemeasurable (m0 _).aemeasurable] at h01 h23
    rw [h, h01, h23, l0, l0, l0, l0]
  have hG : Measurable fun x : Bool → ℝ => F (x false) * F (x true) :=
    (hF.comp (measurable_pi_apply false)).mul (hF.comp (measurable_pi_apply true))
  have hX : Measurable fun (ω : Ω) (i : Bool) => ∑ k ∈ Finset.range d, z k ω * if i then B k else A k :=
    measurable_pi_lambda _ fun i => Finset.measurable_sum _ fun k _ => (hm k).mul_const _
  have hX' : Measurable fun (ω : ℕ → ℝ) (i : Bool) => ∑ k ∈ Finset.range 4, ω k * pairCoef r s k i :=
    measurable_pi_lambda _ fun i => Finset.measurable_sum _ fun k _ => (m0 k).mul_const _
  have e1 := integral_map (μ := P) hX.aemeasurable (f := fun x : Bool → ℝ => F (x false) * F (x true)) hG.aestronglyMeasurable
  have e2 := integral_map (μ := P0) hX'.aemeasurable (f := fun x : Bool → ℝ => F (x false) * F (x true)) hG.aestronglyMeasurable
  simp only [Bool.false_eq_true, if_false, if_true] at e1
  rw [← e1, key, e2]
  have hH : Measurable fun p : (ℝ × ℝ) × (ℝ × ℝ) => F (Real.sqrt r * p.1.1 + Real.sqrt (1 - r) * p.2.1) *
      F (Real.sqrt r * (s * p.1.1 + Real.sqrt (1 - s ^ 2) * p.1.2) + Real.sqrt (1 - r) * p.2.2) :=
    (hF.comp (by fun_prop)).mul (hF.comp (by fun_prop))
  have e3 := integral_map (μ := P0) (φ := fun ω : ℕ → ℝ => ((ω 0, ω 1), (ω 2, ω 3))) (by fun_prop) hH.aestronglyMeasurable
  have e4 : (∫ ω : ℕ → ℝ, F (∑ k ∈ Finset.range 4, ω k * pairCoef r s k false) * F (∑ k ∈ Finset.range 4, ω k * pairCoef r s k true) ∂P0) =
      ∫ ω : ℕ → ℝ, F (Real.sqrt r * ω 0 + Real.sqrt (1 - r) * ω 2) *
        F (Real.sqrt r * (s * ω 0 + Real.sqrt (1 - s ^ 2) * ω 1) + Real.sqrt (1 - r) * ω 3) ∂P0 := by
    congr 1
    ext ω
    simp only [Finset.sum_range_succ, Finset.range_zero, Finset.sum_empty, pairCoef]
    congr 2 <;> ring
  rw [e4, ← e3, hprod, integral_prod _ (integrable_bdd hH (C := C * C) fun p => by
    rw [abs_mul]; exact mul_le_mul (hC _) (hC _) (abs_nonneg _) ((abs_nonneg _).trans (hC 0)))]
  congr 1
  ext p
  exact integral_prod_mul (μ := γ) (ν := γ) (fun u => F (Real.sqrt r * p.1 + Real.sqrt (1 - r) * u))
    (fun w => F (Real.sqrt r * (s * p.1 + Real.sqrt (1 - s ^ 2) * p.2) + Real.sqrt (1 - r) * w))

/-- The combination of two independent standard normal variables on the circle is standard normal. -/
theorem circle_law {s : ℝ} (hs1 : s ^ 2 ≤ 1) : ((gaussianReal 0 1).prod (gaussianReal 0 1)).map
    (fun p : ℝ × ℝ => s * p.1 + Real.sqrt (1 - s ^ 2) * p.2) = gaussianReal 0 1 := by
  set γ : Measure ℝ := gaussianReal 0 1
  set P0 : Measure (ℕ → ℝ) := Measure.infinitePi fun _ : ℕ => γ
  have i0 : iIndepFun (fun (k : ℕ) (ω : ℕ → ℝ) => ω k) P0 := iIndepFun_infinitePi (X := fun _ x => x) fun _ => measurable_id
  have l0 : ∀ k : ℕ, P0.map (fun ω : ℕ → ℝ => ω k) = γ := fun k => Measure.infinitePi_map_eval (fun _ : ℕ => γ) k
  have m0 : ∀ k : ℕ, Measurable (fun ω : ℕ → ℝ => ω k) := fun k => measurable_pi_apply k
  have q4 := Real.mul_self_sqrt (show 0 ≤ 1 - s ^ 2 by linarith)
  have h01 := i0.indepFun (i := 0) (j := 1) (by decide)
  rw [indepFun_iff_map_prod_eq_prod_map_map (m0 _).aemeasurable (m0 _).aemeasurable, l0, l0] at h01
  have := sum_law_unit m0 i0 l0 (fun k => if k = 0 then s else Real.sqrt (1 - s ^ 2)) 2 (by
    simp only [Finset.sum_range_succ, Finset.range_zero, Finset.sum_empty]
    simp only [if_true, one_ne_zero, if_false]
    linear_combination q4)
  rw [← h01, Measure.map_map (by fun_prop) (by fun_prop)]
  refine Eq.trans ?_ this
  congr 1
  ext ω
  simp only [Finset.sum_range_succ, Finset.range_zero, Finset.sum_empty, Function.comp]
  simp only [if_true, one_ne_zero, if_false]
  ring

/-- The mean product of the same bounded function of two standard normal scores is nondecreasing in their (nonnegative) correlation. -/
theorem score_prod_mono {Ω Ω' : Type} [MeasurableSpace Ω] [MeasurableSpace Ω'] {P : Measure Ω} {P' : Measure Ω'} [IsProbabilityMeasure P]
    [IsProbabilityMeasure P'] {z : ℕ → Ω → ℝ} {z' : ℕ → Ω' → ℝ} (hm : ∀ k, Measurable (z k)) (hi : iIndepFun z P)
    (hl : ∀ k, P.map (z k) = gaussianReal 0 1) (hm' : ∀ k, Measurable (z' k)) (hi' : iIndepFun z' P')
    (hl' : ∀ k, P'.map (z' k) = gaussianReal 0 1) (A B A' B' : ℕ → ℝ) (d d' : ℕ)
    (hA : ∑ k ∈ Finset.range d, A k * A k = 1) (hB : ∑ k ∈ Finset.range d, B k * B k = 1)
    (hA' : ∑ k ∈ Finset.range d', A' k * A' k = 1) (hB' : ∑ k ∈ Finset.range d', B' k * B' k = 1)
    {q r : ℝ} (hq : 0 ≤ q) (hqr : q ≤ r) (hr1 : r ≤ 1) (hAB : ∑ k ∈ Finset.range d, A k * B k = q)
    (hAB' : ∑ k ∈ Finset.range d', A' k * B' k = r) {F : ℝ → ℝ} (hF : Measurable F) {C : ℝ} (hC : ∀ x, |F x| ≤ C) :
    ∫ ω, F (∑ k ∈ Finset.range d, z k ω * A k) * F (∑ k ∈ Finset.range d, z k ω * B k) ∂P ≤
      ∫ ω, F (∑ k ∈ Finset.range d', z' k ω * A' k) * F (∑ k ∈ Finset.range d', z' k ω * B' k) ∂P' := by
  have hr : 0 ≤ r := hq.trans hqr
  obtain ⟨s, hs, hs1, rfl⟩ : ∃ s, 0 ≤ s ∧ s ≤ 1 ∧ q = r * s := by
    rcases hr.eq_or_lt with h | h
    · exact ⟨0, le_rfl, zero_le_one, by subst h; simpa using le_antisymm hqr hq⟩
    · exact ⟨q / r, div_nonneg hq hr, (div_le_one h).2 hqr, by field_simp⟩
  rw [score_prod hm hi hl A B d hA hB hr hr1 hs hs1 hAB hF hC, score_prod hm' hi' hl' A' B' d' hA' hB' hr hr1 zero_le_one le_rfl (by rw [hAB', mul_one]) hF hC]
  set γ : Measure ℝ := gaussianReal 0 1
  have hg := smooth_measurable hF r
  have hgC := smooth_le hC r
  have hb : ∀ x y, |smooth F r x * smooth F r y| ≤ C * C := fun x y => by
    rw [abs_mul]; exact mul_le_mul (hgC _) (hgC _) (abs_nonneg _) ((abs_nonneg _).trans (hgC 0))
  have hY : Measurable fun p : ℝ × ℝ => s * p.1 + Real.sqrt (1 - s ^ 2) * p.2 := by fun_prop
  have h1 : ∫ p : ℝ × ℝ, smooth F r p.1 * smooth F r (1 * p.1 + Real.sqrt (1 - 1 ^ 2) * p.2) ∂(γ.prod γ) =
      ∫ p : ℝ × ℝ, smooth F r p.1 * smooth F r p.1 ∂(γ.prod γ) := by simp
  have hsq : Measurable fun x => smooth F r x * smooth F r x := hg.mul hg
  have h2 : ∫ p : ℝ × ℝ, smooth F r p.1 * smooth F r p.1 ∂(γ.prod γ) = ∫ x, smooth F r x * smooth F r x ∂γ := by
    have := integral_map (μ := γ.prod γ) (φ := Prod.fst) measurable_fst.aemeasurable (f := fun x => smooth F r x * smooth F r x) hsq.aestronglyMeasurable
    rw [← this]
    congr 1
    simp
  have h3 : ∫ p : ℝ × ℝ, smooth F r (s * p.1 + Real.sqrt (1 - s ^ 2) * p.2) * smooth F r (s * p.1 + Real.sqrt (1 - s ^ 2) * p.2) ∂(γ.prod γ) =
      ∫ x, smooth F r x * smooth F r x ∂γ := by
    have := integral_map (μ := γ.prod γ) hY.aemeasurable (f := fun x => smooth F r x * smooth F r x) hsq.aestronglyMeasurable
    rw [← this, circle_law (by nlinarith)]
  have i1 : Integrable (fun p : ℝ × ℝ => smooth F r p.1 * smooth F r p.1) (γ.prod γ) :=
    integrable_bdd (hsq.comp measurable_fst) (C := C * C) fun p => hb _ _
  have i2 : Integrable (fun p : ℝ × ℝ => smooth F r (s * p.1 + Real.sqrt (1 - s ^ 2) * p.2) * smooth F r (s * p.1 + Real.sqrt (1 - s ^ 2) * p.2)) (γ.prod γ) :=
    integrable_bdd (hsq.comp hY) (C := C * C) fun p => hb _ _
  have i3 : Integrable (fun p : ℝ × ℝ => smooth F r p.1 * smooth F r (s * p.1 + Real.sqrt (1 - s ^ 2) * p.2)) (γ.prod γ) :=
    integrable_bdd ((hg.comp measurable_fst).mul (hg.comp hY)) (C := C * C) fun p => hb _ _
  have hle := integral_mono (i3.const_mul 2) (i1.add i2) fun p => by
    simp only [Pi.add_apply]
    nlinarith [sq_nonneg (smooth F r p.1 - smooth F r (s * p.1 + Real.sqrt (1 - s ^ 2) * p.2))]
  rw [integral_const_mul, integral_add' i1 i2, h2, h3] at hle
  rw [h1, h2]
  linarith

/-- Positively correlated scores give a nonnegative covariance. -/
theorem score_prod_nonneg {Ω : Type} [MeasurableSpace Ω] {P : Measure Ω} [IsProbabilityMeasure P] {z : ℕ → Ω → ℝ} (hm : ∀ k, Measurable (z k))
    (hi : iIndepFun z P) (hl : ∀ k, P.map (z k) = gaussianReal 0 1) (A B : ℕ → ℝ) (d : ℕ) (hA : ∑ k ∈ Finset.range d, A k * A k = 1)
    (hB : ∑ k ∈ Finset.range d, B k * B k = 1) {r : ℝ} (hr : 0 ≤ r) (hr1 : r ≤ 1)
    (hAB : ∑ k ∈ Finset.range d, A k * B k = r) {F : ℝ → ℝ} (hF : Measurable F) {C : ℝ} (hC : ∀ x, |F x| ≤ C) :
    (∫ x, F x ∂(gaussianReal 0 1)) * (∫ x, F x ∂(gaussianReal 0 1)) ≤
      ∫ ω, F (∑ k ∈ Finset.range d, z k ω * A k) * F (∑ k ∈ Finset.range d, z k ω * B k) ∂P := by
  have i0 : iIndepFun (fun (k : ℕ) (ω : ℕ → ℝ) => ω k) (Measure.infinitePi fun _ : ℕ => gaussianReal 0 1) :=
    iIndepFun_infinitePi (X := fun _ x => x) fun _ => measurable_id
  have l0 : ∀ k : ℕ, (Measure.infinitePi fun _ : ℕ => gaussianReal 0 1).map (fun ω : ℕ → ℝ => ω k) = gaussianReal 0 1 :=
    fun k => Measure.infinitePi_map_eval (fun _ : ℕ => gaussianReal 0 1) k
  have m0 : ∀ k : ℕ, Measurable (fun ω : ℕ → ℝ => ω k) := fun k => measurable_pi_apply k
  have a1 : ∑ k ∈ Finset.range 2, (if k = 0 then (1 : ℝ) else 0) * (if k = 0 then 1 else 0) = 1 := by simp
  have b1 : ∑ k ∈ Finset.range 2, (if k = 1 then (1 : ℝ) else 0) * (if k = 1 then 1 else 0) = 1 := by simp
  have ab : ∑ k ∈ Finset.range 2, (if k = 0 then (1 : ℝ) else 0) * (if k = 1 then 1 else 0) = 0 := by simp
  refine le_trans (le_of_eq ?_) (score_prod_mono m0 i0 l0 hm hi hl (fun k => if k = 0 then 1 else 0) (fun k => if k = 1 then 1 else 0) A B 2 d a1 b1 hA hB
    le_rfl hr hr1 ab hAB hF hC)
  rw [score_prod m0 i0 l0 _ _ 2 a1 b1 (r := 0) (s := 0) le_rfl zero_le_one le_rfl zero_le_one (by rw [ab, mul_zero]) hF hC]
  have e : ∀ x, smooth F 0 x = ∫ x, F x ∂(gaussianReal 0 1) := by
    intro x
    simp [smooth]
  simp [e]

end SST.Copula
