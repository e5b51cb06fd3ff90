import Verif.Proofs.Noise
import Mathlib.Probability.Independence.InfinitePi
import Mathlib.Probability.Distributions.Gaussian.Real
import Mathlib.Probability.Independence.Integration

/-!
# Properties C228-C229: what measurement noise does to spectra and transfer functions

Specifications: `Spec/Noise.lean`.
-/

namespace SST.Props.Noise
open SST SST.Tf SST.Dft SST.Corr SST.Spec MeasureTheory ProbabilityTheory

variable {Ω : Type} [MeasurableSpace Ω] {P : Measure Ω} [IsProbabilityMeasure P] {e : ℕ → Ω → ℝ} {σ : ℝ}

/-- Independent standard normal samples are white noise, so the hypotheses below can be met. -/
theorem gauss_white : WhiteNoise (Measure.infinitePi fun _ : ℕ => gaussianReal 0 1) (fun i ω => ω i) 1 := by
  have hmp : ∀ i : ℕ, MeasurePreserving (fun ω : ℕ → ℝ => ω i) (Measure.infinitePi fun _ : ℕ => gaussianReal 0 1) (gaussianReal 0 1) :=
    fun i => measurePreserving_eval_infinitePi (fun _ : ℕ => gaussianReal 0 1) i
  have hm : ∀ i : ℕ, ∫ ω, ω i ∂(Measure.infinitePi fun _ : ℕ => gaussianReal 0 1) = 0 := by
    intro i
    have := integral_map (μ := Measure.infinitePi fun _ : ℕ => gaussianReal 0 1) (φ := fun ω : ℕ → ℝ => ω i) (measurable_pi_apply i).aemeasurable (f := fun x => x) (by fun_prop)
    rw [← this, (hmp i).map_eq, integral_id_gaussianReal]
  have h2 : ∫ x, x ^ 2 ∂(gaussianReal 0 1) = 1 := by
    have := variance_id_gaussianReal (μ := 0) (v := 1)
    rw [variance_eq_integral (by fun_prop)] at this
    simpa using this
  refine ⟨fun i => ?_, hm, fun i j => ?_⟩
  · exact (memLp_id_gaussianReal 2).comp_measurePreserving (hmp i)
  · by_cases hij : i = j
    · subst hij
      have := integral_map (μ := Measure.infinitePi fun _ : ℕ => gaussianReal 0 1) (φ := fun ω : ℕ → ℝ => ω i) (measurable_pi_apply i).aemeasurable (f := fun x => x ^ 2) (by fun_prop)
      rw [(hmp i).map_eq, h2] at this
      rw [if_pos rfl, one_pow, this]
      exact integral_congr_ae (Filter.Eventually.of_forall fun ω => (sq _).symm)
    · rw [if_neg hij]
      have hI : IndepFun (fun ω : ℕ → ℝ => ω i) (fun ω => ω j) (Measure.infinitePi fun _ : ℕ => gaussianReal 0 1) :=
        (iIndepFun_infinitePi (P := fun _ : ℕ => gaussianReal 0 1) (X := fun _ x => x) fun _ => measurable_id).indepFun hij
      have := hI.integral_fun_mul_eq_mul_integral (measurable_pi_apply i).aestronglyMeasurable (measurable_pi_apply j).aestronglyMeasurable
      rw [this, hm, zero_mul]

/-! ## C228 -/

/-- **C228.**  The averaged spectrum of a record of white noise: for every number of averages, overlap and window its expected value at every bin is the noise level `2 dt σ²`
(`dt σ²` at the two end frequencies) without detrending, and never more with it. -/
theorem C228_level (hw : WhiteNoise P e σ) (o : Opts) (b : Bool) (nm : String) (n : ℕ) (h1 : 0 < o.navgs) (h2 : o.navgs ≤ n) (h3 : 0 ≤ o.overlap) (h4 : o.overlap < 1) (hdt : 0 < o.dt)
    (hl : (o.win (n / o.navgs)).length = n / o.navgs) (hnz : ∃ v ∈ o.win (n / o.navgs), v ≠ 0) :
    ∃ p : ℕ → Ω → ℝ,
      (∀ ω, averagedPsd o b [(nm, (List.range n).map fun i => e i ω)] "density" =
        .ok [(nm, (List.range (n / o.navgs / 2 + 1)).map fun (k : ℕ) => ((k : ℝ) / ((n / o.navgs : ℕ) * o.dt), p k ω))]) ∧
      ∀ k, Integrable (p k) P ∧ ∫ ω, p k ω ∂P ≤ noiseLevel o.dt σ (n / o.navgs) k ∧
        (o.detr = .none → ∫ ω, p k ω ∂P = noiseLevel o.dt σ (n / o.navgs) k) ∧
        (o.detr = .constant → ∫ ω, p k ω ∂P = noiseLevel o.dt σ (n / o.navgs) k *
          (1 - windowPower (o.win (n / o.navgs)) k / ((n / o.navgs : ℕ) * ((o.win (n / o.navgs)).map fun v => v ^ 2).sum))) := by
  set L := n / o.navgs with hLd
  have hL : 0 < L := Nat.div_pos h2 h1
  have hov : ⌊(L : ℝ) * o.overlap⌋₊ < L := by
    rw [Nat.floor_lt (by positivity)]
    have : (0 : ℝ) < (L : ℝ) := by exact_mod_cast hL
    nlinarith
  have hW : 0 < ((o.win L).map fun v => v ^ 2).sum := by
    obtain ⟨v, hv, hv0⟩ := hnz
    have h0 : ∀ a ∈ (o.win L).map fun v => v ^ 2, 0 ≤ a := by
      simp only [List.mem_map]; rintro a ⟨c, -, rfl⟩; positivity
    exact lt_of_lt_of_le (by positivity) (List.single_le_sum h0 (v ^ 2) (List.mem_map.2 ⟨v, hv, rfl⟩))
  refine ⟨fun k ω => psd (psdScale (o.win L) o.dt L k) (spectra (o.win L) o.detr L ⌊(L : ℝ) * o.overlap⌋₊ ((List.range n).map fun i => e i ω) k), ?_, ?_⟩
  · intro ω
    have := psd_eval o b nm ((List.range n).map fun i => e i ω) h1 (by simpa using h2) h3 h4
    simpa only [List.length_map, List.length_range, ← hLd] using this
  · intro k
    obtain ⟨i1, i2⟩ := psd_expect hw (psdScale (o.win L) o.dt L k) (o.win L) o.detr hL (Nat.div_le_self n o.navgs) hov k
    have hlev : psdScale (o.win L) o.dt L k * (σ ^ 2 * ((o.win L).map fun v => v ^ 2).sum) = noiseLevel o.dt σ L k := by
      unfold psdScale noiseLevel
      field_simp
    have hc : 0 ≤ psdScale (o.win L) o.dt L k := by
      unfold psdScale
      split_ifs <;> positivity
    refine ⟨i1, ?_, ?_, ?_⟩
    · rw [i2, ← hlev]
      exact mul_le_mul_of_nonneg_left (mul_le_mul_of_nonneg_left (coef_energy o.detr hl k).1 (sq_nonneg _)) hc
    · intro hd
      rw [i2, (coef_energy o.detr hl k).2 hd, hlev]
    · intro hd
      rw [i2, hd, coef_energy_constant hL hl, ← hlev]
      have hL' : (L : ℝ) ≠ 0 := by exact_mod_cast hL.ne'
      field_simp

example : WhiteNoise (Measure.infinitePi fun _ : ℕ => gaussianReal 0 1) (fun i ω => ω i) 1 ∧
    ∃ o : Opts, 0 < o.navgs ∧ o.navgs ≤ 8 ∧ 0 ≤ o.overlap ∧ o.overlap < 1 ∧ 0 < o.dt ∧ (o.win (8 / o.navgs)).length = 8 / o.navgs ∧ ∃ v ∈ o.win (8 / o.navgs), v ≠ 0 :=
  ⟨gauss_white, ⟨1, 2, 1 / 2, fun L => List.replicate L 1, .linear⟩, by norm_num, by norm_num, by norm_num, by norm_num, by norm_num, by simp, 1, by simp, one_ne_zero⟩

/-! ## C229 -/

/-- The `tf` column of a result of `averaged_tf`. -/
def tfColumn (r : Except PyErr (List (String × List Row))) : Except PyErr (List (String × List (ℝ × Option ℂ))) :=
  r.map fun cols => cols.map fun c => (c.1, c.2.map fun q => (q.f, q.tf))

/-- **C229.**  White noise added to the output of `averaged_tf`: bins without input power stay NaN.  At every other bin the estimate is unbiased, and its mean squared error is at most
`m / navgs` times the noise-to-signal ratio at the bin, where the signal is `averaged_psd` of the input and `m` is the number of segments that share a sample
(1 without overlap, 2 with the default overlap of one half). -/
theorem C229_error (hw : WhiteNoise P e σ) (o : Opts) (sr : Bool) (a b : String) (x : List ℝ) (y : ℕ → ℝ) (m : ℕ)
    (h1 : 0 < o.navgs) (h2 : o.navgs ≤ x.length) (h3 : 0 ≤ o.overlap) (h4 : o.overlap < 1) (hdt : 0 < o.dt)
    (hl : (o.win (x.length / o.navgs)).length = x.length / o.navgs)
    (hm : x.length / o.navgs ≤ m * (x.length / o.navgs - ⌊((x.length / o.navgs : ℕ) : ℝ) * o.overlap⌋₊)) :
    ∃ (f p : ℕ → ℝ) (z : ℕ → Option ℂ) (t : ℕ → Ω → Option ℂ),
      averagedPsd o sr [(a, x)] "density" = .ok [(a, (List.range (x.length / o.navgs / 2 + 1)).map fun (k : ℕ) => (f k, p k))] ∧
      tfColumn (averagedTf o [(a, x)] [(b, (List.range x.length).map y)]) =
        .ok [(a ++ "_" ++ b, (List.range (x.length / o.navgs / 2 + 1)).map fun (k : ℕ) => (f k, z k))] ∧
      (∀ ω, tfColumn (averagedTf o [(a, x)] [(b, (List.range x.length).map fun i => y i + e i ω)]) =
        .ok [(a ++ "_" ++ b, (List.range (x.length / o.navgs / 2 + 1)).map fun (k : ℕ) => (f k, t k ω))]) ∧
      ∀ k, (p k = 0 → z k = none ∧ ∀ ω, t k ω = none) ∧
        (p k ≠ 0 → ∃ (z' : ℂ) (t' : Ω → ℂ), z k = some z' ∧ (∀ ω, t k ω = some (t' ω)) ∧
          Integrable t' P ∧ ∫ ω, t' ω ∂P = z' ∧ Integrable (fun ω => ‖t' ω - z'‖ ^ 2) P ∧
          ∫ ω, ‖t' ω - z'‖ ^ 2 ∂P ≤ m / o.navgs * (noiseLevel o.dt σ (x.length / o.navgs) k / p k) ∧
          ∀ ε, 0 < ε → P.real {ω | ε ≤ ‖t' ω - z'‖} ≤ m / o.navgs * (noiseLevel o.dt σ (x.length / o.navgs) k / p k) / ε ^ 2) := by
  obtain ⟨n, hn⟩ : ∃ n, x.length = n := ⟨_, rfl⟩
  have e1 := psd_eval o sr a x h1 h2 h3 h4
  have e2 := tf_eval o a b x ((List.range x.length).map y) h1 h2 h3 h4
  have e3 := fun ω => tf_eval o a b x ((List.range x.length).map fun i => y i + e i ω) h1 h2 h3 h4
  rw [hn] at h2 hl hm e1 e2 ⊢
  simp only [hn] at e3 ⊢
  set L := n / o.navgs with hLd
  have hL : 0 < L := Nat.div_pos h2 h1
  have hov : ⌊(L : ℝ) * o.overlap⌋₊ < L := by
    rw [Nat.floor_lt (by positivity)]
    have : (0 : ℝ) < (L : ℝ) := by exact_mod_cast hL
    nlinarith
  set ov := ⌊(L : ℝ) * o.overlap⌋₊ with hovd
  have hnL : L ≤ n := Nat.div_le_self _ _
  have hc : ∀ k, 0 ≤ psdScale (o.win L) o.dt L k := by
    intro k
    have hW : 0 ≤ ((o.win L).map fun v => v ^ 2).sum := List.sum_nonneg (by simp only [List.mem_map]; rintro a ⟨b, -, rfl⟩; positivity)
    unfold psdScale
    split_ifs <;> positivity
  refine ⟨_, fun k => psd (psdScale (o.win L) o.dt L k) (spectra (o.win L) o.detr L ov x k),
    fun k => tfBin (psdScale (o.win L) o.dt L k) (spectra (o.win L) o.detr L ov x k) (spectra (o.win L) o.detr L ov ((List.range n).map y) k),
    fun k ω => tfBin (psdScale (o.win L) o.dt L k) (spectra (o.win L) o.detr L ov x k) (spectra (o.win L) o.detr L ov ((List.range n).map fun i => y i + e i ω) k), e1, ?_, ?_, ?_⟩
  · rw [e2]
    simp only [tfColumn, Except.map, List.map_cons, List.map_nil, pairTf, List.map_map]
    rfl
  · intro ω
    rw [e3]
    simp only [tfColumn, Except.map, List.map_cons, List.map_nil, pairTf, List.map_map]
    rfl
  · intro k
    constructor
    · intro hp
      unfold tfBin
      exact ⟨if_pos hp, fun ω => if_pos hp⟩
    · intro hp
      have hf := many_fit hL hnL hov
      have hN := many_navgs hL hf (Nat.sub_le _ _)
      obtain ⟨z', t', a1, a2, a3, a4, a5, a6⟩ := tf_noise hw (o.win L) o.detr hL hnL hov hl hm h1 hN x hn y k (hc k) hp
      have hW0 : ((o.win L).map fun v => v ^ 2).sum ≠ 0 := by
        intro h0
        refine hp ?_
        change psd (psdScale (o.win L) o.dt L k) _ = 0
        unfold psd psdScale
        rw [h0, div_zero, mul_zero, zero_mul]
      have hlev : psdScale (o.win L) o.dt L k * ((o.win L).map fun v => v ^ 2).sum * σ ^ 2 = noiseLevel o.dt σ L k := by
        unfold psdScale noiseLevel
        field_simp
      rw [hlev, mul_div_assoc] at a6
      refine ⟨z', t', a1, a2, a3, a4, a5, a6, fun ε hε => ?_⟩
      have := mul_meas_ge_le_integral_of_nonneg (Filter.Eventually.of_forall fun ω => sq_nonneg ‖t' ω - z'‖) a5 (ε ^ 2)
      have hset : {ω | ε ^ 2 ≤ ‖t' ω - z'‖ ^ 2} = {ω | ε ≤ ‖t' ω - z'‖} := by
        ext ω
        exact pow_le_pow_iff_left₀ hε.le (norm_nonneg _) two_ne_zero
      rw [hset] at this
      rw [le_div_iff₀ (by positivity), mul_comm]
      exact this.trans a6

/-- The default overlap shares every sample between at most two segments; no overlap shares none. -/
theorem C229_shares (L : ℕ) : L ≤ 2 * (L - ⌊(L : ℝ) * 0.5⌋₊) ∧ L ≤ 1 * (L - ⌊(L : ℝ) * 0⌋₊) := by
  constructor
  · have h : (⌊(L : ℝ) * 0.5⌋₊ : ℝ) ≤ L * 0.5 := Nat.floor_le (by positivity)
    have h' : 2 * ⌊(L : ℝ) * 0.5⌋₊ ≤ L := by
      have : (2 : ℝ) * ⌊(L : ℝ) * 0.5⌋₊ ≤ L := by linarith
      exact_mod_cast this
    omega
  · simp

example : WhiteNoise (Measure.infinitePi fun _ : ℕ => gaussianReal 0 1) (fun i ω => ω i) 1 ∧
    ∃ (o : Opts) (x : List ℝ), 0 < o.navgs ∧ o.navgs ≤ x.length ∧ 0 ≤ o.overlap ∧ o.overlap < 1 ∧ 0 < o.dt ∧ (o.win (x.length / o.navgs)).length = x.length / o.navgs ∧
      x.length / o.navgs ≤ 2 * (x.length / o.navgs - ⌊((x.length / o.navgs : ℕ) : ℝ) * o.overlap⌋₊) :=
  ⟨gauss_white, ⟨1, 2, 0.5, fun L => List.replicate L 1, .linear⟩, [0, 1, 0, -1, 0, 1, 0, -1], by norm_num, by norm_num, by norm_num, by norm_num, by norm_num, by simp,
    (C229_shares _).1⟩

end SST.Props.Noise
