import Verif.Props.CopulaLaw
import Mathlib.MeasureTheory.Measure.CharacteristicFunction.Basic
import Mathlib.Analysis.InnerProductSpace.PiL2

/-! # Joint law of several values of the copula field -/

namespace SST.Copula
open SST SST.Spec SST.Spatial MeasureTheory ProbabilityTheory

/-- The joint law of linear combinations of independent standard normal variables is determined by the inner products of the coefficients. -/
theorem joint_law {ι : Type} [Fintype ι] {Ω Ω' : Type} [MeasurableSpace Ω] [MeasurableSpace Ω'] {P : Measure Ω} {P' : Measure Ω'} [IsProbabilityMeasure P]
    [IsProbabilityMeasure P'] {z : ℕ → Ω → ℝ} {z' : ℕ → Ω' → ℝ} (hm : ∀ k, Measurable (z k)) (hi : iIndepFun z P)
    (hl : ∀ k, P.map (z k) = gaussianReal 0 1) (hm' : ∀ k, Measurable (z' k)) (hi' : iIndepFun z' P')
    (hl' : ∀ k, P'.map (z' k) = gaussianReal 0 1) (A A' : ℕ → ι → ℝ) (d d' : ℕ)
    (hG : ∀ i j, ∑ k ∈ Finset.range d, A k i * A k j = ∑ k ∈ Finset.range d', A' k i * A' k j) :
    P.map (fun ω i => ∑ k ∈ Finset.range d, z k ω * A k i) = P'.map (fun ω i => ∑ k ∈ Finset.range d', z' k ω * A' k i) := by
  have hX : Measurable fun ω i => ∑ k ∈ Finset.range d, z k ω * A k i :=
    measurable_pi_lambda _ fun i => Finset.measurable_sum _ fun k _ => (hm k).mul_const _
  have hX' : Measurable fun ω i => ∑ k ∈ Finset.range d', z' k ω * A' k i :=
    measurable_pi_lambda _ fun i => Finset.measurable_sum _ fun k _ => (hm' k).mul_const _
  have hdir : ∀ u : ι → ℝ, P.map (fun ω => ∑ i, (∑ k ∈ Finset.range d, z k ω * A k i) * u i) =
      P'.map (fun ω => ∑ i, (∑ k ∈ Finset.range d', z' k ω * A' k i) * u i) := by
    intro u
    have e : ∀ {Ω : Type} (z : ℕ → Ω → ℝ) (A : ℕ → ι → ℝ) (d : ℕ), (fun ω => ∑ i, (∑ k ∈ Finset.range d, z k ω * A k i) * u i) =
        fun ω => ∑ k ∈ Finset.range d, z k ω * ∑ i, A k i * u i := by
      intro Ω z A d
      ext ω
      simp only [Finset.sum_mul, Finset.mul_sum]
      rw [Finset.sum_comm]
      exact Finset.sum_congr rfl fun k _ => Finset.sum_congr rfl fun i _ => by ring
    have v : ∀ (A : ℕ → ι → ℝ) (d : ℕ), ((∑ k ∈ Finset.range d, ((∑ i, A k i * u i) ^ 2).toNNReal : NNReal) : ℝ) =
        ∑ i, ∑ j, u i * u j * ∑ k ∈ Finset.range d, A k i * A k j := by
      intro A d
      rw [NNReal.coe_sum]
      simp only [Finset.mul_sum]
      rw [Finset.sum_congr rfl fun k _ => show (((∑ i, A k i * u i) ^ 2).toNNReal : ℝ) = ∑ i, ∑ j, u i * u j * (A k i * A k j) by
        rw [Real.coe_toNNReal _ (sq_nonneg _), sq, Finset.sum_mul_sum]
        exact Finset.sum_congr rfl fun i _ => Finset.sum_congr rfl fun j _ => by ring]
      rw [Finset.sum_comm]
      exact Finset.sum_congr rfl fun i _ => Finset.sum_comm
    rw [e, e, sum_law hm hi hl, sum_law hm' hi' hl']
    congr 1
    ext
    rw [v, v]
    simp only [hG]
  have key : P.map (fun ω => WithLp.toLp 2 fun i => ∑ k ∈ Finset.range d, z k ω * A k i) =
      P'.map (fun ω => WithLp.toLp 2 fun i => ∑ k ∈ Finset.range d', z' k ω * A' k i) := by
    have m1 := (WithLp.measurable_toLp 2 (ι → ℝ)).comp hX
    have m2 := (WithLp.measurable_toLp 2 (ι → ℝ)).comp hX'
    have := Measure.isProbabilityMeasure_map (μ := P) m1.aemeasurable
    have := Measure.isProbabilityMeasure_map (μ := P') m2.aemeasurable
    have hc : ∀ {Ω : Type} [MeasurableSpace Ω] {P : Measure Ω} (X : Ω → ι → ℝ) (_ : Measurable X) (u : EuclideanSpace ℝ ι),
        charFun (P.map fun ω => WithLp.toLp 2 (X ω)) u = ∫ y, Complex.exp (y * Complex.I) ∂(P.map fun ω => ∑ i, X ω i * u i) := by
      intro Ω _ P X hX u
      have m : Measurable fun ω => WithLp.toLp 2 (X ω) := (WithLp.measurable_toLp 2 (ι → ℝ)).comp hX
      have m' : Measurable fun ω => ∑ i, X ω i * u i := Finset.measurable_sum _ fun i _ => (measurable_pi_iff.1 hX i).mul_const _
      rw [charFun_apply, integral_map m.aemeasurable (by fun_prop), integral_map m'.aemeasurable (by fun_prop)]
      congr 1
      ext ω
      congr 3
      simp [PiLp.inner_apply, mul_comm]
    apply Measure.ext_of_charFun
    ext u
    exact ((hc _ hX u).trans (by rw [hdir])).trans (hc _ hX' u).symm
  have h1 := Measure.map_map (μ := P) (WithLp.measurable_ofLp 2 (ι → ℝ)) ((WithLp.measurable_toLp 2 (ι → ℝ)).comp hX)
  have h2 := Measure.map_map (μ := P') (WithLp.measurable_ofLp 2 (ι → ℝ)) ((WithLp.measurable_toLp 2 (ι → ℝ)).comp hX')
  exact h1.symm.trans ((congrArg (fun μ => Measure.map (WithLp.ofLp (p := 2) (V := ι → ℝ)) μ) key).trans h2)

/-- The unscaled field as a fixed nondecreasing function of normal scores. -/
theorem field_random (K : ℝ) (Q : Params) (hQ : Proper Q) (noneg : Bool) : ∃ F : ℝ → ℝ, Monotone F ∧ (∀ g, -2 ≤ F g ∧ F g ≤ 2) ∧
    ∀ {Ω : Type} [MeasurableSpace Ω] (P : Measure Ω) (mvn : Ω → Mvn) (seed : Option ℕ) (call : ℕ), MvnLaw P mvn seed call →
      ∀ (times ePos nPos : List ℝ) (cs cd : ℝ), times ≠ [] → ePos ≠ [] → ePos.length = nPos.length →
        ∃ (A : ℕ → ℕ → ℕ → ℝ) (z : ℕ → Ω → ℝ), (∀ k, Measurable (z k)) ∧ iIndepFun z P ∧ (∀ k, P.map (z k) = gaussianReal 0 1) ∧
          (∀ t < times.length, ∀ s < ePos.length, ∀ t' < times.length, ∀ s' < ePos.length,
            ∑ k ∈ Finset.range (ePos.length * times.length), A k t s * A k t' s' =
              Real.exp (-decay K Q.corrQuadr * pdist (driftPos cs cd (ePos.getD s 0) (nPos.getD s 0) (times.getD t 0))
                (driftPos cs cd (ePos.getD s' 0) (nPos.getD s' 0) (times.getD t' 0)))) ∧
          ∀ ω, rawField (mvn ω) call times ePos nPos (.scalar cs) (.scalar cd) K Q seed noneg = .ok ((List.range times.length).map fun t =>
            (List.range ePos.length).map fun s => F (∑ k ∈ Finset.range (ePos.length * times.length), z k ω * A k t s)) := by
  have hgne : csiGrid ≠ [] := by
    intro h
    have := congrArg List.length h
    rw [csiGrid_length] at this
    simp at this
  obtain ⟨pdf, cdf, kk, hg, _, hlen, hb, hp, _, rfl⟩ := C73_solar_gmm csiGrid hgne K Q hQ.comp0 hQ.comp1 hQ.cloud hQ.clear
  have hpw : (nodes cdf).Pairwise fun p q : ℝ × ℝ => p.1 ≤ q.1 ∧ p.2 ≤ q.2 := knots_pairwise (csiGrid_sorted.imp le_of_lt) (hp.imp le_of_lt) hlen.le
    (fun v hv => csiGrid_mem hv) (fun v hv => ⟨(hb v hv).1.le, (hb v hv).2⟩)
  have hbd : ∀ p ∈ nodes cdf, -2 ≤ p.2 ∧ p.2 ≤ 2 := by
    intro p hp
    simp only [nodes, List.cons_append, List.mem_cons, List.mem_append, List.mem_map, List.not_mem_nil, or_false] at hp
    rcases hp with rfl | ⟨q, hq, rfl⟩ | rfl
    · norm_num
    · obtain ⟨hk, _⟩ := uniqueIdx_mem hq
      rw [List.getD_eq_getElem csiGrid 0 (by omega : q.2 < csiGrid.length)]
      exact csiGrid_mem (List.getElem_mem _)
    · norm_num
  refine ⟨fun g => post noneg (interp (nodes cdf) (Phi g)), fun g g' h => post_mono noneg (interp_mono _ hpw (Phi_mono h)), ?_, ?_⟩
  · intro g
    have h := interp_bounds (nodes cdf) (by simp [nodes]) hbd (Phi g)
    beta_reduce
    unfold post
    cases noneg with
    | false => simpa using h
    | true =>
      simp only [if_true]
      split_ifs
      · norm_num
      · exact h
  · intro Ω _ P mvn seed call hmvn times ePos nPos cs cd hT hS hxy
    obtain ⟨D, hD, _⟩ := spacetime_main ePos nPos times cs cd hxy hT
    obtain ⟨hcov, hm⟩ := cov_isCov hD (decay_pos K Q.corrQuadr).le
    obtain ⟨A, z, hA, h1, h2, h3, hz⟩ := hmvn _ _ hcov
    refine ⟨fun k t s => A k (s * times.length + t), z, h1, h2, h3, ?_, ?_⟩
    · intro t ht s hs t' ht' s' hs'
      rw [hA _ (flat_lt ht hs) _ (flat_lt ht' hs'), hm _ (flat_lt ht hs) _ (flat_lt ht' hs'), flatPos_eq _ _ _ _ _ ht, flatPos_eq _ _ _ _ _ ht']
    · intro ω
      exact rawField_eq (mvn ω) call times ePos nPos cs cd K Q seed noneg pdf cdf _ hg hlen D hD hS _ (hz ω)

end SST.Copula
