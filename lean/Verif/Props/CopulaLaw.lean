import Verif.Proofs.CopulaLaw
import Verif.Spec.CopulaLaw

/-!
# The distribution of the values of a copula field

C127: every value of the unscaled field has the mixture distribution.
-/

namespace SST.Copula
open SST SST.Spec SST.Spatial MeasureTheory ProbabilityTheory

open Classical in
theorem post_le {noneg : Bool} {v x : ℝ} (h : noneg = true → 0 ≤ x) : post noneg v ≤ x ↔ v ≤ x := by
  unfold post
  cases noneg with
  | false => simp
  | true =>
    have hx := h rfl
    simp only [if_true]
    split_ifs with hv
    · exact ⟨fun _ => by linarith, fun _ => hx⟩
    · rfl

/-- The field for random draws. -/
theorem downscale_random {Ω : Type} [MeasurableSpace Ω] {P : Measure Ω} {mvn : Ω → Mvn} {seed : Option ℕ} {call : ℕ} (hmvn : MvnLaw P mvn seed call)
    (times ePos nPos : List ℝ) (cs cd K : ℝ) (Q : Params) (hT : times ≠ []) (hS : ePos ≠ []) (hxy : ePos.length = nPos.length) (noneg : Bool)
    {pdf cdf : List ℝ} {kk : ℝ} (hg : solarGmm csiGrid K Q = .ok (pdf, cdf, kk)) (hlen : cdf.length = csiGrid.length) (hkk : kk = decay K Q.corrQuadr) :
    ∃ (A : ℕ → ℕ → ℝ) (z : ℕ → Ω → ℝ), (∀ k, Measurable (z k)) ∧ iIndepFun z P ∧ (∀ k, P.map (z k) = gaussianReal 0 1) ∧
      (∀ r < ePos.length * times.length, ∑ k ∈ Finset.range (ePos.length * times.length), A k r * A k r = 1) ∧
      ∀ ω, ∀ t < times.length, ∀ s < ePos.length, ∃ cm, downscale (mvn ω) call times ePos nPos (.scalar cs) (.scalar cd) K Q seed false noneg = .ok cm ∧
        cell cm t s = some (.fin (post noneg (interp (nodes cdf) (Phi (∑ k ∈ Finset.range (ePos.length * times.length), z k ω * A k (s * times.length + t)))))) := by
  obtain ⟨D, hD, _⟩ := spacetime_main ePos nPos times cs cd hxy hT
  subst hkk
  obtain ⟨hcov, hm⟩ := cov_isCov hD (decay_pos K Q.corrQuadr).le
  obtain ⟨A, z, hA, h1, h2, h3, hz⟩ := hmvn _ _ hcov
  refine ⟨A, z, h1, h2, h3, ?_, ?_⟩
  · intro r hr
    rw [hA r hr r hr, hm r hr r hr, pdist_self]
    simp
  · intro ω t ht s hs
    have hraw := rawField_eq (mvn ω) call times ePos nPos cs cd K Q seed noneg pdf cdf _ hg hlen D hD hS _ (hz ω)
    refine ⟨_, downscale_eq hraw false, ?_⟩
    rw [cell_map, show cell _ t s = _ from cell_range (fun t s : ℕ => post noneg (interp (nodes cdf) (Phi
      (∑ k ∈ Finset.range (ePos.length * times.length), z k ω * A k (s * times.length + t))))) ht hs]
    rfl

/-- C127: at every time and site, the probability that the unscaled value is at most the grid point `csi k` is the `k`-th entry of the
mixture distribution function that `_solar_gmm` computes for the requested mean (with the non-negativity option for grid points `≥ 0`). -/
theorem C127_marginal_law {Ω : Type} [MeasurableSpace Ω] (P : Measure Ω) [IsProbabilityMeasure P] (mvn : Ω → Mvn) (seed : Option ℕ) (call : ℕ)
    (hmvn : MvnLaw P mvn seed call) (times ePos nPos : List ℝ) (cs cd K : ℝ) (Q : Params) (hQ : Proper Q) (hxy : ePos.length = nPos.length)
    (noneg : Bool) (t s : ℕ) (ht : t < times.length) (hs : s < ePos.length) :
    ∃ pdf cdf kk, solarGmm csiGrid K Q = .ok (pdf, cdf, kk) ∧ cdf.length = csiGrid.length ∧
      ∀ (k : ℕ) (x c : ℝ), csiGrid[k]? = some x → cdf[k]? = some c → (noneg = true → 0 ≤ x) →
        P {ω | ∃ cm v, downscale (mvn ω) call times ePos nPos (.scalar cs) (.scalar cd) K Q seed false noneg = .ok cm ∧
          cell cm t s = some (.fin v) ∧ v ≤ x} = ENNReal.ofReal c := by
  have hgne : csiGrid ≠ [] := by
    intro h
    have := congrArg List.length h
    rw [csiGrid_length] at this
    simp at this
  obtain ⟨pdf, cdf, kk, hg, _, hlen, hb, hp, _, hkk⟩ := C73_solar_gmm csiGrid hgne K Q hQ.comp0 hQ.comp1 hQ.cloud hQ.clear
  refine ⟨pdf, cdf, kk, hg, hlen, ?_⟩
  intro k x c hx hc hnn
  obtain ⟨hk, rfl⟩ := List.getElem?_eq_some_iff.1 hc
  obtain ⟨hk', rfl⟩ := List.getElem?_eq_some_iff.1 hx
  obtain ⟨A, z, h1, h2, h3, hA, hcm⟩ := downscale_random hmvn times ePos nPos cs cd K Q (List.ne_nil_of_length_pos (by omega)) (List.ne_nil_of_length_pos (by omega))
    hxy noneg hg hlen hkk
  set X : Ω → ℝ := fun ω => ∑ k ∈ Finset.range (ePos.length * times.length), z k ω * A k (s * times.length + t) with hX
  have hlaw : P.map X = gaussianReal 0 1 := sum_law_unit h1 h2 h3 _ _ (hA _ (flat_lt ht hs))
  have hXm : Measurable X := Finset.measurable_sum _ fun k _ => (h1 k).mul_const _
  have hset : {ω | ∃ cm v, downscale (mvn ω) call times ePos nPos (.scalar cs) (.scalar cd) K Q seed false noneg = .ok cm ∧
      cell cm t s = some (.fin v) ∧ v ≤ csiGrid[k]} = {ω | Phi (X ω) ≤ cdf[k]} := by
    ext ω
    obtain ⟨cm, hd, hcell⟩ := hcm ω t ht s hs
    have key := interp_nodes_le hlen hp hb k hk (Phi_lt_one (X ω))
    simp only [Set.mem_setOf_eq]
    rw [← key, ← post_le hnn]
    constructor
    · rintro ⟨cm', v, hd', hv, hle⟩
      rw [hd] at hd'
      cases hd'
      rw [hcell] at hv
      cases hv
      exact hle
    · intro h
      exact ⟨cm, _, hd, hcell, h⟩
  rw [hset]
  have hck := hb _ (List.getElem_mem hk)
  rcases hck.2.lt_or_eq with h | h
  · exact Phi_uniform hXm hlaw hck.1 h
  · rw [h]
    have : {ω | Phi (X ω) ≤ 1} = Set.univ := by
      ext ω
      simp [(Phi_mem (X ω)).2]
    rw [this]
    simp

/-- C127: with the non-negativity option the whole probability below zero is moved to zero. -/
theorem C127_no_negative_mass {Ω : Type} [MeasurableSpace Ω] (P : Measure Ω) (mvn : Ω → Mvn) (seed : Option ℕ) (call : ℕ)
    (hmvn : ∀ ω, MvnSpec (mvn ω)) (times ePos nPos : List ℝ) (cs cd K : ℝ) (Q : Params) (hQ : Proper Q) (hxy : ePos.length = nPos.length)
    (t s : ℕ) (ht : t < times.length) (hs : s < ePos.length) :
    P {ω | ∃ cm v, downscale (mvn ω) call times ePos nPos (.scalar cs) (.scalar cd) K Q seed false true = .ok cm ∧
          cell cm t s = some (.fin v) ∧ v < 0} = 0 := by
  have : {ω | ∃ cm v, downscale (mvn ω) call times ePos nPos (.scalar cs) (.scalar cd) K Q seed false true = .ok cm ∧
          cell cm t s = some (.fin v) ∧ v < 0} = ∅ := by
    ext ω
    simp only [Set.mem_setOf_eq, Set.mem_empty_iff_false, iff_false]
    rintro ⟨cm, v, hd, hv, hneg⟩
    obtain ⟨vals, h, hall⟩ := C77_unscaled_bounds (mvn ω) (hmvn ω) call times ePos nPos cs cd K Q hQ seed
      (List.ne_nil_of_length_pos (by omega)) (List.ne_nil_of_length_pos (by omega)) hxy true
    rw [h] at hd
    cases hd
    rw [cell_map] at hv
    obtain ⟨u, hu, huv⟩ := Option.map_eq_some_iff.1 hv
    cases huv
    obtain ⟨row, hr, hu⟩ := Option.bind_eq_some_iff.1 hu
    have := (hall row (List.mem_of_getElem? hr) v (List.mem_of_getElem? hu)).2 rfl
    linarith
  rw [this]
  simp

/-- The draws on the canonical space of independent standard normal sequences, with any factor of the covariance. -/
theorem exists_mvnLaw : ∃ (mvn : (ℕ → ℝ) → Mvn), (∀ ω, MvnSpec (mvn ω)) ∧
    ∀ seed call, MvnLaw (Measure.infinitePi fun _ : ℕ => gaussianReal 0 1) mvn seed call := by
  classical
  have hex : ∀ C : List (List ℝ), ∃ A : ℕ → ℕ → ℝ, ∀ d, IsCov C d → ∀ i < d, ∀ j < d, ∑ k ∈ Finset.range d, A k i * A k j = mat C i j := by
    intro C
    by_cases h : ∃ d, IsCov C d
    · obtain ⟨d, hd⟩ := h
      obtain ⟨A, hA⟩ := exists_factor hd
      refine ⟨A, fun d' hd' => ?_⟩
      have : d' = d := by rw [← hd'.square.1, hd.square.1]
      rw [this]
      exact hA
    · exact ⟨fun _ _ => 0, fun d hd => absurd ⟨d, hd⟩ h⟩
  choose A hA using hex
  refine ⟨fun ω _ _ C n => (List.range n).map fun _ => (List.range C.length).map fun i => ∑ k ∈ Finset.range C.length, ω k * A C k i, ?_, ?_⟩
  · intro ω
    refine ⟨?_, fun _ _ _ => rfl⟩
    intro seed call C d n hC
    have hl : C.length = d := hC.square.1
    exact ⟨A C, fun _ => ω, hA C d hC, by simp only [hl]⟩
  · intro seed call C d hC
    have hl : C.length = d := hC.square.1
    refine ⟨A C, fun k ω => ω k, hA C d hC, fun k => measurable_pi_apply k, ?_, ?_, ?_⟩
    · exact iIndepFun_infinitePi (X := fun _ x => x) fun _ => measurable_id
    · intro k
      exact Measure.infinitePi_map_eval (fun _ : ℕ => gaussianReal 0 1) k
    · intro ω
      simp [hl]

/-- Two sites, three times: the law holds on the canonical space. -/
example : ∃ (mvn : (ℕ → ℝ) → Mvn), ∃ pdf cdf kk, solarGmm csiGrid 0.52 defaultParams = .ok (pdf, cdf, kk) ∧ ∀ c : ℝ, cdf[250]? = some c →
    (Measure.infinitePi fun _ : ℕ => gaussianReal 0 1) {ω | ∃ cm v, downscale (mvn ω) 0 [0, 15, 30] [0, 450] [0, 0] (.scalar 5) (.scalar 1) 0.52 defaultParams none false true = .ok cm ∧
      cell cm 2 1 = some (.fin v) ∧ v ≤ -2 + (250 : ℕ) / 100} = ENNReal.ofReal c := by
  obtain ⟨mvn, _, h⟩ := exists_mvnLaw
  obtain ⟨pdf, cdf, kk, hg, _, hall⟩ := C127_marginal_law (Measure.infinitePi fun _ : ℕ => gaussianReal 0 1) mvn none 0 (h none 0) [0, 15, 30] [0, 450] [0, 0] 5 1 0.52 defaultParams
    default_proper rfl true 2 1 (by simp) (by simp)
  exact ⟨mvn, pdf, cdf, kk, hg, fun c hc => hall 250 _ c (by simp [csiGrid]) hc (fun _ => by norm_num)⟩

example : ∃ (mvn : (ℕ → ℝ) → Mvn), (Measure.infinitePi fun _ : ℕ => gaussianReal 0 1) {ω | ∃ cm v, downscale (mvn ω) 0 [0, 15, 30] [0, 450] [0, 0] (.scalar 5) (.scalar 1) 0.52 defaultParams none false true = .ok cm ∧
    cell cm 2 1 = some (.fin v) ∧ v < 0} = 0 := by
  obtain ⟨mvn, h, _⟩ := exists_mvnLaw
  exact ⟨mvn, C127_no_negative_mass _ mvn none 0 h [0, 15, 30] [0, 450] [0, 0] 5 1 0.52 defaultParams default_proper rfl 2 1 (by simp) (by simp)⟩

end SST.Copula
