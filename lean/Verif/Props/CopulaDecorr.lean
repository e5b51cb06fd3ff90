import Verif.Proofs.CopulaGebelein
import Verif.Props.CopulaDemo
import Verif.Props.CopulaDist

/-! # Decorrelation of the values of the simulated irradiance field

C225 correlation of two values, variance of the plant mean and ramps against the distance.
-/

namespace SST.Copula
open SST SST.Spec SST.Spatial MeasureTheory ProbabilityTheory

/-! ## C225 -/

/-- C225: the covariance of two values of the unscaled field is at most their variance times the prescribed correlation of the scores, which falls
off exponentially with the distance of the points in the frame of the clouds. -/
theorem C225_correlation {Ω : Type} [MeasurableSpace Ω] (P : Measure Ω) [IsProbabilityMeasure P] (mvn : Ω → Mvn) (seed : Option ℕ) (call : ℕ)
    (hmvn : MvnLaw P mvn seed call) (σ : Setting) (hσ : σ.Good) (K : ℝ) (Q : Params) (hQ : Proper Q) (noneg : Bool)
    (t s u r w v : ℕ) (ht : t < σ.times.length) (hs : s < σ.ePos.length) (hu : u < σ.times.length) (hr : r < σ.ePos.length)
    (hw : w < σ.times.length) (hv : v < σ.ePos.length) :
    cov[fun ω => fieldValue (mvn ω) call σ K Q seed false noneg t s, fun ω => fieldValue (mvn ω) call σ K Q seed false noneg u r; P] ≤
      Real.exp (-max (Q.corrQuadr * K * (1 - K)) (1 / 100000) * pdist (σ.point t s) (σ.point u r)) *
        Var[fun ω => fieldValue (mvn ω) call σ K Q seed false noneg w v; P] := by
  obtain ⟨F, hF, hC, h⟩ := value_random K Q hQ noneg
  obtain ⟨A, z, d, h1, h2, h3, hA, hval, _⟩ := h P mvn seed call hmvn σ hσ
  have unit : ∀ t < σ.times.length, ∀ s < σ.ePos.length, ∑ k ∈ Finset.range d, A k t s * A k t s = 1 := by
    intro t ht s hs
    rw [hA t ht s hs t ht s hs, pdist_self]
    simp
  have hX : ∀ t s, Measurable fun ω => ∑ k ∈ Finset.range d, z k ω * A k t s := fun t s => Finset.measurable_sum _ fun k _ => (h1 k).mul_const _
  have hmean : ∀ t < σ.times.length, ∀ s < σ.ePos.length, ∀ G : ℝ → ℝ, Measurable G →
      ∫ ω, G (∑ k ∈ Finset.range d, z k ω * A k t s) ∂P = ∫ x, G x ∂(gaussianReal 0 1) := by
    intro t ht s hs G hG
    rw [← sum_law_unit h1 h2 h3 (fun k => A k t s) d (unit t ht s hs), integral_map (hX t s).aemeasurable hG.aestronglyMeasurable]
  rw [← C76_value, ← covariance_self (by simp only [hval _ w hw v hv]; exact (hF.comp (hX w v)).aemeasurable)]
  simp only [hval _ t ht s hs, hval _ u hu r hr, hval _ w hw v hv]
  have hL : ∀ t s, MemLp (fun ω => F (∑ k ∈ Finset.range d, z k ω * A k t s)) 2 P := fun t s => value_memLp (hF.comp (hX t s)) fun ω => hC _
  rw [covariance_eq_sub (hL t s) (hL u r), covariance_eq_sub (hL w v) (hL w v), hmean t ht s hs F hF, hmean u hu r hr F hF, hmean w hw v hv F hF]
  have hsq := hmean w hw v hv (fun x => F x * F x) (hF.mul hF)
  have key := score_prod_gebelein h1 h2 h3 _ _ d (unit t ht s hs) (unit u hu r hr) (Real.exp_pos _).le
    (by rw [Real.exp_le_one_iff]; nlinarith [decay_pos K Q.corrQuadr, pdist_nonneg (σ.point t s) (σ.point u r)]) (hA t ht s hs u hu r hr) hF hC
  simp only [Pi.mul_apply]
  rw [hsq]
  simp only [sq] at key
  exact key

/-- Two sites 450 m apart. -/
example : ∃ mvn : (ℕ → ℝ) → Mvn, cov[fun ω => fieldValue (mvn ω) 0 demoSetting 0.5 defaultParams none false true 7 0,
    fun ω => fieldValue (mvn ω) 0 demoSetting 0.5 defaultParams none false true 7 1; Measure.infinitePi fun _ : ℕ => gaussianReal 0 1] ≤
      Real.exp (-max (defaultParams.corrQuadr * 0.5 * (1 - 0.5)) (1 / 100000) * pdist (demoSetting.point 7 0) (demoSetting.point 7 1)) *
      Var[fun ω => fieldValue (mvn ω) 0 demoSetting 0.5 defaultParams none false true 7 0; Measure.infinitePi fun _ : ℕ => gaussianReal 0 1] := by
  obtain ⟨mvn, _, h⟩ := exists_mvnLaw
  refine ⟨mvn, C225_correlation _ mvn none 0 (h _ _) demoSetting demoSetting_good 0.5 defaultParams default_proper true 7 0 7 1 7 0 ?_ ?_ ?_ ?_ ?_ ?_⟩
  all_goals simp [demoSetting]

/-- C225: the variance of the plant mean is at most that of one site times the mean of the prescribed correlations over all pairs of sites. -/
theorem C225_plant {Ω : Type} [MeasurableSpace Ω] (P : Measure Ω) [IsProbabilityMeasure P] (mvn : Ω → Mvn) (seed : Option ℕ) (call : ℕ)
    (hmvn : MvnLaw P mvn seed call) (σ : Setting) (hσ : σ.Good) (K : ℝ) (Q : Params) (hQ : Proper Q) (noneg : Bool)
    (t w v : ℕ) (ht : t < σ.times.length) (hw : w < σ.times.length) (hv : v < σ.ePos.length) :
    Var[fun ω => siteMean (mvn ω) call σ K Q seed noneg t; P] ≤
      (∑ i ∈ Finset.range σ.ePos.length, ∑ j ∈ Finset.range σ.ePos.length,
        Real.exp (-max (Q.corrQuadr * K * (1 - K)) (1 / 100000) * pdist (σ.site i) (σ.site j))) / σ.ePos.length ^ 2 *
        Var[fun ω => fieldValue (mvn ω) call σ K Q seed false noneg w v; P] := by
  rw [siteMean_variance P mvn seed call hmvn σ hσ K Q hQ noneg t ht, div_mul_eq_mul_div, Finset.sum_mul]
  apply div_le_div_of_nonneg_right _ (by positivity)
  apply Finset.sum_le_sum
  intro i hi
  rw [Finset.sum_mul]
  apply Finset.sum_le_sum
  intro j hj
  rw [Finset.mem_range] at hi hj
  have e : pdist (σ.point t i) (σ.point t j) = pdist (σ.site i) (σ.site j) := by
    simp [pdist, Setting.point, Setting.site, driftPos]
  have := C225_correlation P mvn seed call hmvn σ hσ K Q hQ noneg t i t j w v ht hi ht hj hw hv
  rwa [e] at this

/-- C225: with `n` sites at least `D` apart from each other the variance of the plant mean is at most `1/n + exp (-p D)` times that of a site. -/
theorem C225_apart {Ω : Type} [MeasurableSpace Ω] (P : Measure Ω) [IsProbabilityMeasure P] (mvn : Ω → Mvn) (seed : Option ℕ) (call : ℕ)
    (hmvn : MvnLaw P mvn seed call) (σ : Setting) (hσ : σ.Good) (K : ℝ) (Q : Params) (hQ : Proper Q) (noneg : Bool)
    (t w v : ℕ) (ht : t < σ.times.length) (hw : w < σ.times.length) (hv : v < σ.ePos.length) (D : ℝ)
    (hD : ∀ i < σ.ePos.length, ∀ j < σ.ePos.length, i ≠ j → D ≤ pdist (σ.site i) (σ.site j)) :
    Var[fun ω => siteMean (mvn ω) call σ K Q seed noneg t; P] ≤
      (1 / σ.ePos.length + Real.exp (-max (Q.corrQuadr * K * (1 - K)) (1 / 100000) * D)) *
        Var[fun ω => fieldValue (mvn ω) call σ K Q seed false noneg w v; P] := by
  refine (C225_plant P mvn seed call hmvn σ hσ K Q hQ noneg t w v ht hw hv).trans ?_
  apply mul_le_mul_of_nonneg_right _ (variance_nonneg _ _)
  set p := max (Q.corrQuadr * K * (1 - K)) (1 / 100000) with hp
  have hp0 : 0 < p := lt_of_lt_of_le (by norm_num) (le_max_right _ _)
  have hpos : (0 : ℝ) < σ.ePos.length := by exact_mod_cast (by omega : 0 < σ.ePos.length)
  rw [div_le_iff₀ (by positivity)]
  have hrow : ∀ i ∈ Finset.range σ.ePos.length, ∑ j ∈ Finset.range σ.ePos.length, Real.exp (-p * pdist (σ.site i) (σ.site j)) ≤
      1 + σ.ePos.length * Real.exp (-p * D) := by
    intro i hi
    rw [← Finset.add_sum_erase _ _ hi, pdist_self]
    simp only [mul_zero, Real.exp_zero]
    refine add_le_add le_rfl ((Finset.sum_le_sum fun j hj => ?_ : _ ≤ ∑ j ∈ (Finset.range σ.ePos.length).erase i, Real.exp (-p * D)).trans ?_)
    · rw [Finset.mem_erase, Finset.mem_range] at hj
      have := hD i (Finset.mem_range.1 hi) j hj.2 (Ne.symm hj.1)
      exact Real.exp_le_exp.2 (by nlinarith)
    · rw [Finset.sum_const, nsmul_eq_mul]
      apply mul_le_mul_of_nonneg_right _ (Real.exp_pos _).le
      exact_mod_cast (Finset.card_erase_le).trans (by simp)
  refine (Finset.sum_le_sum hrow).trans (le_of_eq ?_)
  rw [Finset.sum_const, Finset.card_range, nsmul_eq_mul]
  field_simp

/-- Three sites at least 450 m apart. -/
example : ∃ mvn : (ℕ → ℝ) → Mvn, Var[fun ω => siteMean (mvn ω) 0 demoSetting 0.5 defaultParams none true 7; Measure.infinitePi fun _ : ℕ => gaussianReal 0 1] ≤
    (1 / 3 + Real.exp (-max (defaultParams.corrQuadr * 0.5 * (1 - 0.5)) (1 / 100000) * 450)) *
      Var[fun ω => fieldValue (mvn ω) 0 demoSetting 0.5 defaultParams none false true 7 0; Measure.infinitePi fun _ : ℕ => gaussianReal 0 1] := by
  obtain ⟨mvn, _, h⟩ := exists_mvnLaw
  refine ⟨mvn, le_of_le_of_eq (C225_apart _ mvn none 0 (h _ _) demoSetting demoSetting_good 0.5 defaultParams default_proper true 7 7 0 ?_ ?_ ?_ 450 ?_) ?_⟩
  any_goals simp [demoSetting]
  intro i hi j hj hij
  interval_cases i <;> interval_cases j <;> first | (exact absurd rfl hij) | skip
  all_goals
    simp [Setting.site, pdist]
  all_goals
    apply Real.le_sqrt_of_sq_le
    norm_num

/-- C225: the mean square difference of two values is at least `2 (1 - exp (-p d))` times the variance, `d` being the distance of the two points in the
frame of the clouds. -/
theorem C225_ramp {Ω : Type} [MeasurableSpace Ω] (P : Measure Ω) [IsProbabilityMeasure P] (mvn : Ω → Mvn) (seed : Option ℕ) (call : ℕ)
    (hmvn : MvnLaw P mvn seed call) (σ : Setting) (hσ : σ.Good) (K : ℝ) (Q : Params) (hQ : Proper Q) (noneg : Bool)
    (t s u r w v : ℕ) (ht : t < σ.times.length) (hs : s < σ.ePos.length) (hu : u < σ.times.length) (hr : r < σ.ePos.length)
    (hw : w < σ.times.length) (hv : v < σ.ePos.length) :
    2 * (1 - Real.exp (-max (Q.corrQuadr * K * (1 - K)) (1 / 100000) * pdist (σ.point t s) (σ.point u r))) *
        Var[fun ω => fieldValue (mvn ω) call σ K Q seed false noneg w v; P] ≤
      ∫ ω, (fieldValue (mvn ω) call σ K Q seed false noneg u r - fieldValue (mvn ω) call σ K Q seed false noneg t s) ^ 2 ∂P := by
  obtain ⟨c, h1, _, _, h4⟩ := two_fields P P mvn mvn seed seed call call hmvn hmvn σ σ hσ hσ K Q hQ noneg
  have key := C225_correlation P mvn seed call hmvn σ hσ K Q hQ noneg t s u r w v ht hs hu hr hw hv
  have ml : ∀ t (_ : t < σ.times.length) s (_ : s < σ.ePos.length), MemLp (fun ω => fieldValue (mvn ω) call σ K Q seed false noneg t s) 2 P :=
    fun t ht s hs => value_memLp (h1 t ht s hs).1 (h1 t ht s hs).2.1
  have hvar : ∀ t (_ : t < σ.times.length) s (_ : s < σ.ePos.length), Var[fun ω => fieldValue (mvn ω) call σ K Q seed false noneg t s; P] =
      Var[fun ω => fieldValue (mvn ω) call σ K Q seed false noneg w v; P] := by
    intro t ht s hs
    have a := C216_variance P mvn seed call hmvn σ hσ K Q hQ noneg t s t s w v ht hs ht hs hw hv
    have b := C216_variance P mvn seed call hmvn σ hσ K Q hQ noneg w v w v t s hw hv hw hv ht hs
    rw [covariance_self (h1 t ht s hs).1.aemeasurable] at a
    rw [covariance_self (h1 w hw v hv).1.aemeasurable] at b
    exact le_antisymm a b
  have hd : Var[fun ω => fieldValue (mvn ω) call σ K Q seed false noneg u r - fieldValue (mvn ω) call σ K Q seed false noneg t s; P] =
      ∫ ω, (fieldValue (mvn ω) call σ K Q seed false noneg u r - fieldValue (mvn ω) call σ K Q seed false noneg t s) ^ 2 ∂P := by
    apply variance_of_integral_eq_zero ((h1 u hu r hr).1.sub (h1 t ht s hs).1).aemeasurable
    rw [integral_sub' ((ml u hu r hr).integrable (by norm_num)) ((ml t ht s hs).integrable (by norm_num)), (h1 u hu r hr).2.2, (h1 t ht s hs).2.2, sub_self]
  rw [← hd, variance_fun_sub (ml u hu r hr) (ml t ht s hs), hvar u hu r hr, hvar t ht s hs, covariance_comm]
  linarith

/-- Clouds at the demo's velocity, over one minute. -/
example : ∃ mvn : (ℕ → ℝ) → Mvn,
    2 * (1 - Real.exp (-max (defaultParams.corrQuadr * 0.5 * (1 - 0.5)) (1 / 100000) * pdist (demoSetting.point 3 1) (demoSetting.point 7 1))) *
        Var[fun ω => fieldValue (mvn ω) 0 demoSetting 0.5 defaultParams none false true 0 0; Measure.infinitePi fun _ : ℕ => gaussianReal 0 1] ≤
      ∫ ω, (fieldValue (mvn ω) 0 demoSetting 0.5 defaultParams none false true 7 1 - fieldValue (mvn ω) 0 demoSetting 0.5 defaultParams none false true 3 1) ^ 2
        ∂(Measure.infinitePi fun _ : ℕ => gaussianReal 0 1) := by
  obtain ⟨mvn, _, h⟩ := exists_mvnLaw
  refine ⟨mvn, C225_ramp _ mvn none 0 (h _ _) demoSetting demoSetting_good 0.5 defaultParams default_proper true 3 1 7 1 0 0 ?_ ?_ ?_ ?_ ?_ ?_⟩
  all_goals simp [demoSetting]

end SST.Copula
