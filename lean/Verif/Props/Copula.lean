import Verif.Proofs.CopulaField

/-!
# Properties of the copula fields

C74 the covariance is a correlation matrix, C75 frozen field, C77 `downscale`, C78 `downscale_multihour`,
C126 hours as independent realisations.
-/

namespace SST.Copula
open SST SST.Spec SST.Spatial

/-! ## C74 -/

/-- C74: for every layout, time list, cloud velocity and positive decay parameter, `exp (-p D)` is a covariance
matrix (symmetric, positive semidefinite) with unit diagonal and entries in `(0, 1]`. -/
theorem C74_correlation_matrix (x y times : List ℝ) (cs cd p : ℝ) (hp : 0 ≤ p) (D : List (List ℝ))
    (hD : spacetimeDistances x y times cs cd = .ok D) :
    IsCov (covMatrix p D) (x.length * times.length) ∧
    (∀ r < x.length * times.length, mat (covMatrix p D) r r = 1) ∧
    ∀ r < x.length * times.length, ∀ s < x.length * times.length, 0 < mat (covMatrix p D) r s ∧ mat (covMatrix p D) r s ≤ 1 := by
  obtain ⟨h1, h2⟩ := cov_isCov hD hp
  refine ⟨h1, fun r hr => ?_, fun r hr s hs => ?_⟩
  · rw [h2 r hr r hr, pdist_self]; simp
  · rw [h2 r hr s hs]
    refine ⟨Real.exp_pos _, Real.exp_le_one_iff.2 ?_⟩
    have := mul_nonneg hp (pdist_nonneg (flatPos x y times cs cd r) (flatPos x y times cs cd s))
    linarith

/-- C74: correlation decreases strictly with space-time distance. -/
theorem C74_decreasing (x y times : List ℝ) (cs cd p : ℝ) (hp : 0 < p) (D : List (List ℝ))
    (hD : spacetimeDistances x y times cs cd = .ok D) (r s r' s' : ℕ) (hr : r < x.length * times.length)
    (hs : s < x.length * times.length) (hr' : r' < x.length * times.length) (hs' : s' < x.length * times.length) :
    mat (covMatrix p D) r s < mat (covMatrix p D) r' s' ↔ mat D r' s' < mat D r s := by
  obtain ⟨_, _, _, hent⟩ := spacetime_flat hD
  rw [mat_of_entry (covMatrix_entry (hent r hr s hs)), mat_of_entry (covMatrix_entry (hent r' hr' s' hs')),
    mat_of_entry (hent r hr s hs), mat_of_entry (hent r' hr' s' hs'), Real.exp_lt_exp]
  constructor
  · intro h
    by_contra hc
    push Not at hc
    nlinarith [mul_le_mul_of_nonneg_left hc hp.le]
  · intro h
    nlinarith [mul_lt_mul_of_pos_left h hp]

/-- C74: the decay parameter that `downscale` uses is positive, so the matrix it passes on is always a covariance. -/
theorem C74_downscale (x y times : List ℝ) (cs cd K p : ℝ) (D : List (List ℝ)) (hD : spacetimeDistances x y times cs cd = .ok D) :
    IsCov (covMatrix (decay K p) D) (x.length * times.length) :=
  (cov_isCov hD (decay_pos K p).le).1

example : ∃ D, spacetimeDistances [0, 450, 0] [0, 0, 450] [0, 15, 30] 1 0 = .ok D ∧ IsCov (covMatrix 0.001 D) 9 := by
  obtain ⟨D, hD, _⟩ := spacetime_main [0, 450, 0] [0, 0, 450] [0, 15, 30] 1 0 rfl (by simp)
  exact ⟨D, hD, (C74_correlation_matrix _ _ _ _ _ _ (by norm_num) D hD).1⟩

/-! ## The field -/

/-- Parameters that `_process_params` accepts for every mean. -/
structure Proper (P : Params) : Prop where
  comp0 : 0 ≤ P.comp0
  comp1 : P.comp0 ≤ 1
  cloud : P.cloud0 ≠ 0
  clear : P.clear0 ≠ 0

theorem default_proper : Proper defaultParams := ⟨default_comp.1, default_comp.2.1, default_comp.2.2.2.1, default_comp.2.2.2.2⟩

/-- Everything about the unscaled field in one place. -/
theorem rawField_main (mvn : Mvn) (hmvn : MvnSpec mvn) (call : ℕ) (times ePos nPos : List ℝ) (cs cd K : ℝ) (P : Params)
    (hP : Proper P) (seed : Option ℕ) (hT : times ≠ []) (hS : ePos ≠ []) (hxy : ePos.length = nPos.length) :
    ∃ (kn : List (ℝ × ℝ)) (A : ℕ → ℕ → ℝ) (z : ℕ → ℝ), (kn ≠ [] ∧ kn.Pairwise (fun p q => p.1 ≤ q.1 ∧ p.2 ≤ q.2) ∧ ∀ p ∈ kn, -2 ≤ p.2 ∧ p.2 ≤ 2) ∧
      (∀ r < ePos.length * times.length, ∀ s < ePos.length * times.length,
        ∑ k ∈ Finset.range (ePos.length * times.length), A k r * A k s =
          Real.exp (-decay K P.corrQuadr * pdist (flatPos ePos nPos times cs cd r) (flatPos ePos nPos times cs cd s))) ∧
      ∀ noneg, rawField mvn call times ePos nPos (.scalar cs) (.scalar cd) K P seed noneg =
        .ok ((List.range times.length).map fun t => (List.range ePos.length).map fun s => post noneg (interp kn (Phi
          (∑ k ∈ Finset.range (ePos.length * times.length), z k * A k (s * times.length + t))))) := by
  have hgne : csiGrid ≠ [] := by
    intro h
    have := congrArg List.length h
    rw [csiGrid_length] at this
    simp at this
  obtain ⟨pdf, cdf, k, hg, _, hlen, hb, hp, _, rfl⟩ := C73_solar_gmm csiGrid hgne K P hP.comp0 hP.comp1 hP.cloud hP.clear
  obtain ⟨D, hD, _⟩ := spacetime_main ePos nPos times cs cd hxy hT
  obtain ⟨hcov, hm⟩ := cov_isCov hD (decay_pos K P.corrQuadr).le
  obtain ⟨A, z, hA, hz⟩ := hmvn.factor seed call _ _ 1 hcov
  refine ⟨nodes cdf, A, z 0, ⟨by simp [nodes], ?_, ?_⟩, ?_, ?_⟩
  · exact knots_pairwise (csiGrid_sorted.imp le_of_lt) (hp.imp le_of_lt) hlen.le (fun v hv => csiGrid_mem hv)
      (fun v hv => ⟨(hb v hv).1.le, (hb v hv).2⟩)
  · intro p hp
    simp only [nodes, List.cons_append, List.mem_cons, List.mem_append, List.mem_map, List.not_mem_nil, or_false] at hp
    rcases hp with rfl | ⟨q, hq, rfl⟩ | rfl
    · norm_num
    · obtain ⟨hk, _⟩ := uniqueIdx_mem hq
      rw [List.getD_eq_getElem csiGrid 0 (by omega : q.2 < csiGrid.length)]
      exact csiGrid_mem (List.getElem_mem _)
    · norm_num
  · intro r hr s hs
    rw [hA r hr s hs, hm r hr s hs]
  · intro noneg
    exact rawField_eq mvn call times ePos nPos cs cd K P seed noneg pdf cdf _ hg hlen D hD hS _ (by rw [hz]; rfl)

/-- Entry of a field: row (time) `t`, column (site) `s`. -/
def cell {α : Type} (cm : List (List α)) (t s : ℕ) : Option α := cm[t]?.bind (·[s]?)

theorem cell_range {α : Type} (f : ℕ → ℕ → α) {T S t s : ℕ} (ht : t < T) (hs : s < S) :
    cell ((List.range T).map fun t => (List.range S).map fun s => f t s) t s = some (f t s) := by
  simp [cell, ht, hs]

theorem cell_map {α β : Type} (f : α → β) (cm : List (List α)) (t s : ℕ) : cell (cm.map fun row => row.map f) t s = (cell cm t s).map f := by
  unfold cell
  rw [List.getElem?_map]
  cases cm[t]? <;> simp

theorem fin_inj {a b : List (List ℝ)} (h : (a.map fun row => row.map XR.fin) = b.map fun row => row.map XR.fin) : a = b := by
  have h1 : Function.Injective (fun row : List ℝ => row.map XR.fin) := List.map_injective_iff.2 fun x y h => by cases h; rfl
  exact List.map_injective_iff.2 h1 h

theorem post_mono (noneg : Bool) {v w : ℝ} (h : v ≤ w) : post noneg v ≤ post noneg w := by
  unfold post
  cases noneg with
  | false => simpa using h
  | true =>
    simp only [if_true]
    split_ifs with h1 h2 h2 <;> linarith

theorem flat_lt {T S t s : ℕ} (ht : t < T) (hs : s < S) : s * T + t < S * T := by
  calc s * T + t < s * T + T := by omega
    _ = (s + 1) * T := by ring
    _ ≤ S * T := Nat.mul_le_mul_right _ hs

theorem flatPos_eq (x y times : List ℝ) (cs cd : ℝ) {t s : ℕ} (ht : t < times.length) :
    flatPos x y times cs cd (s * times.length + t) = driftPos cs cd (x.getD s 0) (y.getD s 0) (times.getD t 0) := by
  have hT : 0 < times.length := by omega
  unfold flatPos
  rw [show (s * times.length + t) / times.length = s by rw [Nat.mul_comm, Nat.mul_add_div hT, Nat.div_eq_of_lt ht, Nat.add_zero],
    show (s * times.length + t) % times.length = t by rw [Nat.mul_comm, Nat.mul_add_mod, Nat.mod_eq_of_lt ht]]

/-- `downscale` in terms of the unscaled field. -/
theorem downscale_eq {mvn : Mvn} {call : ℕ} {times ePos nPos : List ℝ} {cs cd : SArg} {K : ℝ} {P : Params} {seed : Option ℕ} {noneg : Bool}
    {cm : List (List ℝ)} (h : rawField mvn call times ePos nPos cs cd K P seed noneg = .ok cm) (scale : Bool) :
    downscale mvn call times ePos nPos cs cd K P seed scale noneg =
      .ok (cm.map fun row => row.map fun v : ℝ => if scale then mulX (XR.div K (mean cm.flatten)) v else XR.fin v) := by
  unfold downscale
  rw [h]
  cases scale <;> rfl

/-! ## C75 -/

/-- C75: a point that the clouds carry from site `i` at time `a` to site `j` at time `b` gets the same value, whatever
the draw, the factorisation of the covariance, the seed and the options. -/
theorem C75_frozen_field (mvn : Mvn) (hmvn : MvnSpec mvn) (call : ℕ) (times ePos nPos : List ℝ) (cs cd K : ℝ) (P : Params)
    (hP : Proper P) (seed : Option ℕ) (scale noneg : Bool) (hxy : ePos.length = nPos.length) (i j a b : ℕ) (hi : i < ePos.length)
    (hj : j < ePos.length) (ha : a < times.length) (hb : b < times.length)
    (hx : ePos[j] = ePos[i] + cs * Real.cos cd * (times[b] - times[a]))
    (hy : nPos[j]'(hxy ▸ hj) = nPos[i]'(hxy ▸ hi) + cs * Real.sin cd * (times[b] - times[a])) :
    ∃ cm v, downscale mvn call times ePos nPos (.scalar cs) (.scalar cd) K P seed scale noneg = .ok cm ∧
      cell cm a i = some v ∧ cell cm b j = some v := by
  have hT : times ≠ [] := by rintro rfl; simp at ha
  have hS : ePos ≠ [] := by rintro rfl; simp at hi
  obtain ⟨kn, A, z, _, hA, hraw⟩ := rawField_main mvn hmvn call times ePos nPos cs cd K P hP seed hT hS hxy
  have hr := flat_lt ha hi
  have hs := flat_lt hb hj
  have hpos : flatPos ePos nPos times cs cd (i * times.length + a) = flatPos ePos nPos times cs cd (j * times.length + b) := by
    rw [flatPos_eq _ _ _ _ _ ha, flatPos_eq _ _ _ _ _ hb, List.getD_eq_getElem _ _ hi, List.getD_eq_getElem _ _ hj, List.getD_eq_getElem _ _ ha,
      List.getD_eq_getElem _ _ hb, List.getD_eq_getElem _ _ (hxy ▸ hi), List.getD_eq_getElem _ _ (hxy ▸ hj), hx, hy]
    simp only [driftPos, Prod.mk.injEq]
    constructor <;> ring
  have hAeq : ∀ k < ePos.length * times.length, A k (i * times.length + a) = A k (j * times.length + b) := by
    have e : ∀ r s, r < ePos.length * times.length → s < ePos.length * times.length →
        flatPos ePos nPos times cs cd r = flatPos ePos nPos times cs cd s →
        ∑ k ∈ Finset.range (ePos.length * times.length), A k r * A k s = 1 := by
      intro r s hr hs h
      rw [hA r hr s hs, h, pdist_self]
      simp
    have hsq : ∑ k ∈ Finset.range (ePos.length * times.length), (A k (i * times.length + a) - A k (j * times.length + b)) ^ 2 = 0 := by
      have : ∀ k, (A k (i * times.length + a) - A k (j * times.length + b)) ^ 2 = A k (i * times.length + a) * A k (i * times.length + a) +
          A k (j * times.length + b) * A k (j * times.length + b) - 2 * (A k (i * times.length + a) * A k (j * times.length + b)) := fun k => by ring
      simp only [this, Finset.sum_sub_distrib, Finset.sum_add_distrib, ← Finset.mul_sum, e _ _ hr hr rfl, e _ _ hs hs rfl, e _ _ hr hs hpos]
      norm_num
    intro k hk
    have := (Finset.sum_eq_zero_iff_of_nonneg fun k _ => sq_nonneg _).1 hsq k (Finset.mem_range.2 hk)
    have := pow_eq_zero_iff (two_ne_zero) |>.1 this
    linarith
  have hg : ∑ k ∈ Finset.range (ePos.length * times.length), z k * A k (i * times.length + a) =
      ∑ k ∈ Finset.range (ePos.length * times.length), z k * A k (j * times.length + b) :=
    Finset.sum_congr rfl fun k hk => by rw [hAeq k (Finset.mem_range.1 hk)]
  have hcell : ∀ t s, t < times.length → s < ePos.length → cell ((List.range times.length).map fun t => (List.range ePos.length).map fun s => post noneg (interp kn (Phi
      (∑ k ∈ Finset.range (ePos.length * times.length), z k * A k (s * times.length + t))))) t s = some (post noneg (interp kn (Phi
      (∑ k ∈ Finset.range (ePos.length * times.length), z k * A k (s * times.length + t))))) := fun t s ht hs => cell_range (fun t s : ℕ => post noneg (interp kn (Phi
      (∑ k ∈ Finset.range (ePos.length * times.length), z k * A k (s * times.length + t))))) ht hs
  have h1 := hcell a i ha hi
  have h2 := hcell b j hb hj
  rw [← hg] at h2
  exact ⟨_, _, downscale_eq (hraw noneg) scale, by rw [cell_map, h1]; rfl, by rw [cell_map, h2]; rfl⟩

example : ∃ mvn : Mvn, MvnSpec mvn ∧ ∃ cm v, downscale mvn 0 [0, 450] [0, 450, 0] [0, 0, 450] (.scalar 1) (.scalar 0) 0.52 defaultParams (some 42) true true = .ok cm ∧
    cell cm 0 0 = some v ∧ cell cm 1 1 = some v := by
  obtain ⟨mvn, h⟩ := exists_mvn
  exact ⟨mvn, h, C75_frozen_field mvn h 0 [0, 450] [0, 450, 0] [0, 0, 450] 1 0 0.52 defaultParams default_proper (some 42) true true rfl 0 1 0 1
    (by simp) (by simp) (by simp) (by simp) (by simp) (by simp)⟩

/-! ## C77 -/

/-- C77: layout and law. Row `t`, column `s` is a fixed nondecreasing function of a sum `Σ zₖ Aₖ(s,t)` whose
coefficients have inner product `exp (-k · distance)` for the space-time distance of the two (site, time) pairs. -/
theorem C77_layout (mvn : Mvn) (hmvn : MvnSpec mvn) (call : ℕ) (times ePos nPos : List ℝ) (cs cd K : ℝ) (P : Params)
    (hP : Proper P) (seed : Option ℕ) (hT : times ≠ []) (hS : ePos ≠ []) (hxy : ePos.length = nPos.length) (noneg : Bool) :
    ∃ (cm : List (List XR)) (F : ℝ → ℝ) (A : ℕ → ℕ → ℕ → ℝ) (z : ℕ → ℝ),
      downscale mvn call times ePos nPos (.scalar cs) (.scalar cd) K P seed false noneg = .ok cm ∧
      cm.length = times.length ∧ (∀ row ∈ cm, row.length = ePos.length) ∧ Monotone F ∧
      (∀ t < times.length, ∀ s < ePos.length,
        cell cm t s = some (.fin (F (∑ k ∈ Finset.range (ePos.length * times.length), z k * A k t s)))) ∧
      ∀ t < times.length, ∀ s < ePos.length, ∀ t' < times.length, ∀ s' < ePos.length,
        ∑ k ∈ Finset.range (ePos.length * times.length), A k t s * A k t' s' =
          Real.exp (-decay K P.corrQuadr * pdist (driftPos cs cd (ePos.getD s 0) (nPos.getD s 0) (times.getD t 0))
            (driftPos cs cd (ePos.getD s' 0) (nPos.getD s' 0) (times.getD t' 0))) := by
  obtain ⟨kn, A, z, ⟨hne, hpw, _⟩, hA, hraw⟩ := rawField_main mvn hmvn call times ePos nPos cs cd K P hP seed hT hS hxy
  refine ⟨_, fun g => post noneg (interp kn (Phi g)), fun k t s => A k (s * times.length + t), z, downscale_eq (hraw noneg) false, by simp, ?_, ?_, ?_, ?_⟩
  · intro row hrow
    simp only [List.map_map, List.mem_map] at hrow
    obtain ⟨t, _, rfl⟩ := hrow
    simp
  · intro g g' hgg
    exact post_mono noneg (interp_mono kn hpw (Phi_mono hgg))
  · intro t ht s hs
    rw [cell_map, show cell _ t s = _ from cell_range (fun t s : ℕ => post noneg (interp kn (Phi
      (∑ k ∈ Finset.range (ePos.length * times.length), z k * A k (s * times.length + t))))) ht hs]
    rfl
  · intro t ht s hs t' ht' s' hs'
    rw [hA _ (flat_lt ht hs) _ (flat_lt ht' hs'), flatPos_eq _ _ _ _ _ ht, flatPos_eq _ _ _ _ _ ht']

/-- C77: without scaling all values are in `[-2, 2]`, with the non-negativity option in `[0, 2]`. -/
theorem C77_unscaled_bounds (mvn : Mvn) (hmvn : MvnSpec mvn) (call : ℕ) (times ePos nPos : List ℝ) (cs cd K : ℝ) (P : Params)
    (hP : Proper P) (seed : Option ℕ) (hT : times ≠ []) (hS : ePos ≠ []) (hxy : ePos.length = nPos.length) (noneg : Bool) :
    ∃ vals : List (List ℝ), downscale mvn call times ePos nPos (.scalar cs) (.scalar cd) K P seed false noneg = .ok (vals.map fun row => row.map XR.fin) ∧
      ∀ row ∈ vals, ∀ v ∈ row, (-2 ≤ v ∧ v ≤ 2) ∧ (noneg = true → 0 ≤ v) := by
  obtain ⟨kn, A, z, ⟨hne, hpw, hb⟩, hA, hraw⟩ := rawField_main mvn hmvn call times ePos nPos cs cd K P hP seed hT hS hxy
  refine ⟨_, downscale_eq (hraw noneg) false, ?_⟩
  intro row hrow v hv
  simp only [List.mem_map] at hrow
  obtain ⟨t, _, rfl⟩ := hrow
  simp only [List.mem_map] at hv
  obtain ⟨s, _, rfl⟩ := hv
  have h := interp_bounds kn hne hb (Phi (∑ k ∈ Finset.range (ePos.length * times.length), z k * A k (s * times.length + t)))
  generalize interp kn (Phi (∑ k ∈ Finset.range (ePos.length * times.length), z k * A k (s * times.length + t))) = u at h ⊢
  unfold post
  cases noneg with
  | false => simp [h.1, h.2]
  | true =>
    simp only [if_true]
    split_ifs with h0
    · norm_num
    · push Not at h0; exact ⟨h, fun _ => h0⟩

theorem sum_flatten_map (cm : List (List ℝ)) (c : ℝ) : (cm.map fun row => row.map fun v : ℝ => c * v).flatten.sum = c * cm.flatten.sum := by
  rw [← List.map_flatten, List.sum_map_mul_left]
  simp

/-- C77: with scaling, whenever the unscaled values have a nonzero mean, every value is the unscaled one times the same
factor and the mean is exactly the requested one; with the non-negativity option, a positive unscaled mean and a requested
mean that is not negative, no value is negative. -/
theorem C77_scaled_mean (mvn : Mvn) (call : ℕ) (times ePos nPos : List ℝ) (cs cd : SArg) (K : ℝ) (P : Params) (seed : Option ℕ) (noneg : Bool)
    (raw : List (List ℝ)) (hraw : downscale mvn call times ePos nPos cs cd K P seed false noneg = .ok (raw.map fun row => row.map XR.fin))
    (hm : mean raw.flatten ≠ 0) :
    ∃ vals : List (List ℝ), downscale mvn call times ePos nPos cs cd K P seed true noneg = .ok (vals.map fun row => row.map XR.fin) ∧
      vals = (raw.map fun row => row.map fun v : ℝ => K / mean raw.flatten * v) ∧ mean vals.flatten = K ∧
      (0 ≤ K → 0 < mean raw.flatten → (∀ row ∈ raw, ∀ v ∈ row, 0 ≤ v) → ∀ row ∈ vals, ∀ v ∈ row, 0 ≤ v) := by
  have hr : rawField mvn call times ePos nPos cs cd K P seed noneg = .ok raw := by
    unfold downscale at hraw
    cases h : rawField mvn call times ePos nPos cs cd K P seed noneg with
    | error e => rw [h] at hraw; cases hraw
    | ok cm =>
      rw [h] at hraw
      simp only [Bool.false_eq_true, if_false, Except.ok.injEq] at hraw
      rw [fin_inj hraw]
  refine ⟨_, ?_, rfl, ?_, ?_⟩
  · rw [downscale_eq hr true]
    congr 1
    rw [List.map_map]
    apply List.map_congr_left
    intro row _
    simp only [Function.comp, List.map_map, if_true]
    apply List.map_congr_left
    intro v _
    simp [XR.div, hm, mulX]
  · have hlen : (raw.map fun row => row.map fun v : ℝ => K / mean raw.flatten * v).flatten.length = raw.flatten.length := by
      rw [← List.map_flatten, List.length_map]
    conv_lhs => rw [mean, sum_flatten_map, hlen]
    have : raw.flatten.sum / raw.flatten.length = mean raw.flatten := rfl
    rw [mul_div_assoc, this, div_mul_cancel₀ _ hm]
  · intro hK hpos h0 row hrow v hv
    obtain ⟨r0, hr0, rfl⟩ := List.mem_map.1 hrow
    obtain ⟨v0, hv0, rfl⟩ := List.mem_map.1 hv
    exact mul_nonneg (div_nonneg hK hpos.le) (h0 r0 hr0 v0 hv0)

/-- C77: what happens when every unscaled value is zero (for example all negative and clipped): scaling turns every value into NaN. -/
theorem C77_all_zero (mvn : Mvn) (call : ℕ) (times ePos nPos : List ℝ) (cs cd : SArg) (K : ℝ) (P : Params) (seed : Option ℕ) (noneg : Bool)
    (raw : List (List ℝ)) (hraw : downscale mvn call times ePos nPos cs cd K P seed false noneg = .ok (raw.map fun row => row.map XR.fin))
    (hz : ∀ row ∈ raw, ∀ v ∈ row, v = 0) :
    downscale mvn call times ePos nPos cs cd K P seed true noneg = .ok (raw.map fun row => row.map fun _ => XR.nan) := by
  have hr : rawField mvn call times ePos nPos cs cd K P seed noneg = .ok raw := by
    unfold downscale at hraw
    cases h : rawField mvn call times ePos nPos cs cd K P seed noneg with
    | error e => rw [h] at hraw; cases hraw
    | ok cm =>
      rw [h] at hraw
      simp only [Bool.false_eq_true, if_false, Except.ok.injEq] at hraw
      rw [fin_inj hraw]
  have hm : mean raw.flatten = 0 := by
    unfold mean
    have : raw.flatten.sum = 0 := by
      apply List.sum_eq_zero
      intro v hv
      obtain ⟨row, hrow, hv⟩ := List.mem_flatten.1 hv
      exact hz row hrow v hv
    rw [this, zero_div]
  rw [downscale_eq hr true]
  congr 1
  apply List.map_congr_left
  intro row hrow
  apply List.map_congr_left
  intro v hv
  rw [if_pos rfl, hm, hz row hrow v hv]
  unfold XR.div
  rw [if_pos rfl]
  split_ifs <;> simp [mulX]

example : ∃ mvn : Mvn, MvnSpec mvn ∧ ∃ vals : List (List ℝ), downscale mvn 0 [0, 15] [0, 450] [0, 0] (.scalar 1) (.scalar 0) 0.52 defaultParams none false true
    = .ok (vals.map fun row => row.map XR.fin) := by
  obtain ⟨mvn, h⟩ := exists_mvn
  obtain ⟨vals, hv, _⟩ := C77_unscaled_bounds mvn h 0 [0, 15] [0, 450] [0, 0] 1 0 0.52 defaultParams default_proper none (by simp) (by simp) rfl true
  exact ⟨mvn, h, vals, hv⟩

/-- One site and one time, for examples. -/
theorem demo_single (Z : ℝ) : ∃ cdf pdf : List ℝ, ∃ k, solarGmm csiGrid 0.52 defaultParams = .ok (pdf, cdf, k) ∧
    downscale (demoMvn Z) 0 [0] [0] [0] (.scalar 1) (.scalar 0) 0.52 defaultParams (some 1) false true =
      .ok ([[post true (interp (nodes cdf) (Phi Z))]].map fun row => row.map XR.fin) := by
  have hgne : csiGrid ≠ [] := by
    intro h
    have := congrArg List.length h
    rw [csiGrid_length] at this
    simp at this
  have hP := default_proper
  obtain ⟨pdf, cdf, k, hg, _, hlen, hb, hp, _, rfl⟩ := C73_solar_gmm csiGrid hgne 0.52 defaultParams hP.comp0 hP.comp1 hP.cloud hP.clear
  obtain ⟨D, hD, _⟩ := spacetime_main [0] [0] [0] 1 0 rfl (by simp)
  obtain ⟨hcov, hm⟩ := cov_isCov hD (decay_pos 0.52 defaultParams.corrQuadr).le
  have hraw := rawField_eq (demoMvn Z) 0 [0] [0] [0] 1 0 0.52 defaultParams (some 1) true pdf cdf _ hg hlen D hD (by simp) (fun _ => Z) (by
    unfold demoMvn
    rw [hcov.square.1]
    simp only [List.length_cons, List.length_nil, List.range_one, List.map_cons, List.map_nil, Nat.reduceMul, Nat.reduceAdd]
    rw [hm 0 (by simp) 0 (by simp), pdist_self]
    simp)
  refine ⟨cdf, pdf, _, hg, ?_⟩
  rw [downscale_eq hraw false]
  simp

example : ∃ mvn : Mvn, MvnSpec mvn ∧ ∃ raw : List (List ℝ), downscale mvn 0 [0] [0] [0] (.scalar 1) (.scalar 0) 0.52 defaultParams (some 1) false true =
    .ok (raw.map fun row => row.map XR.fin) ∧ 0 < mean raw.flatten := by
  have hgne : csiGrid ≠ [] := by
    intro h
    have := congrArg List.length h
    rw [csiGrid_length] at this
    simp at this
  have hP := default_proper
  obtain ⟨pdf, cdf, k, hg, _, hlen, hb, hp, hlast, rfl⟩ := C73_solar_gmm csiGrid hgne 0.52 defaultParams hP.comp0 hP.comp1 hP.cloud hP.clear
  have h400 : cdf.length = 400 := by rw [hlen, csiGrid_length]
  have h398 : cdf[398]'(by omega) < 1 := by
    have h1 := (List.pairwise_iff_getElem.1 hp) 398 399 (by omega) (by omega) (by norm_num)
    have h2 := (hb (cdf[399]'(by omega)) (List.getElem_mem _)).2
    linarith
  obtain ⟨Z, hZ⟩ : ∃ Z, cdf[398]'(by omega) < Phi Z :=
    ((ProbabilityTheory.tendsto_cdf_atTop _).eventually (lt_mem_nhds h398)).exists
  have hnode := C123_nodes_partial csiGrid cdf hlen.symm (hp.imp le_of_lt) (fun v hv => ⟨(hb v hv).1.le, (hb v hv).2⟩) 398 (by omega) h398
    (fun j hj => (List.pairwise_iff_getElem.1 hp) j 398 (by omega) (by omega) hj)
  unfold inverseSample at hnode
  rw [knots_ok hlen.le] at hnode
  simp only [Except.ok.injEq] at hnode
  have hmono := interp_mono (nodes cdf) (knots_pairwise (csiGrid_sorted.imp le_of_lt) (hp.imp le_of_lt) hlen.le (fun v hv => csiGrid_mem hv)
      (fun v hv => ⟨(hb v hv).1.le, (hb v hv).2⟩)) hZ.le
  have hpos : 0 < interp (nodes cdf) (Phi Z) := by
    refine lt_of_lt_of_le ?_ (hnode.symm.le.trans hmono)
    simp [csiGrid]
    norm_num
  obtain ⟨cdf', pdf', k', hg', hd⟩ := demo_single Z
  rw [hg] at hg'
  cases hg'
  refine ⟨demoMvn Z, demoMvn_spec Z, _, hd, ?_⟩
  simp [mean, post, hpos.not_gt, hpos]

/-! ## C78 -/

/-- The value of a speed or direction argument for hour `i` of `n`: a number or a one-element list serves all hours,
a list with one entry per hour is indexed. -/
def perHour (n i : ℕ) : SArg → Option ℝ
  | .scalar v => some v
  | .list l => if l.length = 1 then l[0]? else if l.length = n then l[i]? else none

/-- The times of hour `i`. -/
def timesOf (n i : ℕ) : TArg → Option (List ℝ)
  | .index ts => some ts
  | .list l => if l.length = n then (l[i]?).join else none

/-- The parameters of hour `i`. -/
def paramsOf (n i : ℕ) : PArg → Option Params
  | .dict P => some P
  | .list l => if l.length = n then (l[i]?).join else none

/-- Both numbers or both lists. -/
def SameKind : SArg → SArg → Prop
  | .scalar _, .scalar _ => True
  | .list _, .list _ => True
  | _, _ => False

theorem rawField_congr {mvn : Mvn} {call : ℕ} {times ePos nPos : List ℝ} {cs cd cs' cd' : SArg} {K : ℝ} {P : Params} {seed : Option ℕ} {noneg : Bool}
    (h : spacetimeArg ePos nPos times cs cd = spacetimeArg ePos nPos times cs' cd') :
    rawField mvn call times ePos nPos cs cd K P seed noneg = rawField mvn call times ePos nPos cs' cd' K P seed noneg := by
  unfold rawField
  rw [h]

theorem downscale_congr {mvn : Mvn} {call : ℕ} {times ePos nPos : List ℝ} {cs cd cs' cd' : SArg} {K : ℝ} {P : Params} {seed : Option ℕ} {scale noneg : Bool}
    (h : spacetimeArg ePos nPos times cs cd = spacetimeArg ePos nPos times cs' cd') :
    downscale mvn call times ePos nPos cs cd K P seed scale noneg = downscale mvn call times ePos nPos cs' cd' K P seed scale noneg := by
  unfold downscale
  rw [rawField_congr h]

theorem runHours_ok {β : Type} (f : ℕ → Except PyErr β) (l : List ℕ) (bs : List β) :
    runHours f l = .ok bs ↔ bs.length = l.length ∧ ∀ (i : ℕ) (hi : i < l.length) (hb : i < bs.length), f l[i] = .ok bs[i] := by
  induction l generalizing bs with
  | nil =>
    simp only [runHours, Except.ok.injEq, List.length_nil]
    constructor
    · rintro rfl; exact ⟨rfl, fun i hi => absurd hi (by simp)⟩
    · intro h; exact (List.length_eq_zero_iff.1 h.1).symm
  | cons a l ih =>
    constructor
    · intro h
      simp only [runHours] at h
      cases hf : f a with
      | error e => rw [hf] at h; cases h
      | ok b =>
        rw [hf] at h
        cases hr : runHours f l with
        | error e => rw [hr] at h; cases h
        | ok bs' =>
          rw [hr] at h
          cases h
          obtain ⟨h1, h2⟩ := (ih bs').1 hr
          refine ⟨by simp [h1], ?_⟩
          intro i hi hb
          cases i with
          | zero => exact hf
          | succ i => exact h2 i (by simpa using hi) (by simpa using hb)
    · rintro ⟨h1, h2⟩
      cases bs with
      | nil => simp at h1
      | cons b bs =>
        have h3 := h2 0 (by simp) (by simp)
        have h4 := (ih bs).2 ⟨by simpa using h1, fun i hi hb => h2 (i + 1) (by simpa using hi) (by simpa using hb)⟩
        simp only [List.getElem_cons_zero] at h3
        simp only [runHours, h3, h4]

theorem getD_some {α : Type} {l : List (Option α)} {i : ℕ} {v d : α} (h : (l[i]?).join = some v) : (l.getD i none).getD d = v := by
  rw [List.getD_eq_getElem?_getD]
  cases hl : l[i]? with
  | none => simp [hl] at h
  | some o => cases o <;> simp_all

/-- The checks pass and the arguments of each hour are the specified ones. -/
theorem multi_args {n : ℕ} {times : TArg} {params : PArg} {spd dir : SArg} (hkind : SameKind dir spd) (hn : 0 < n)
    (ht : ∀ i < n, ∃ ts, timesOf n i times = some ts) (hp : ∀ i < n, ∃ P, paramsOf n i params = some P)
    (hs : ∀ i < n, ∃ v, perHour n i spd = some v) (hd : ∀ i < n, ∃ v, perHour n i dir = some v) :
    checkTimes n times = .ok () ∧ checkParams n params = .ok () ∧ ∃ md ms, checkDir n dir = .ok md ∧ checkSpd n dir spd = .ok ms ∧
      ∀ i < n, ∀ v w, perHour n i spd = some v → perHour n i dir = some w →
        ∀ x y ts, spacetimeArg x y ts (argAt ms i spd) (argAt md i dir) = spacetimeArg x y ts (.scalar v) (.scalar w) := by
  have all_some : ∀ {α : Type} (l : List (Option α)), l.length = n → (∀ i < n, ∃ v, (l[i]?).join = some v) → l.all Option.isSome = true := by
    intro α l hl h
    rw [List.all_eq_true]
    intro o ho
    obtain ⟨i, hi, rfl⟩ := List.getElem_of_mem ho
    obtain ⟨v, hv⟩ := h i (hl ▸ hi)
    rw [List.getElem?_eq_getElem hi] at hv
    simp only [Option.join_some] at hv
    rw [hv]; rfl
  refine ⟨?_, ?_, ?_⟩
  · cases times with
    | index ts => rfl
    | list l =>
      have hl : l.length = n := by
        obtain ⟨ts, h⟩ := ht 0 hn
        by_contra hc
        simp [timesOf, hc] at h
      have := all_some l hl fun i hi => by have := ht i hi; simpa [timesOf, hl] using this
      simp [checkTimes, hl, this]
  · cases params with
    | dict P => rfl
    | list l =>
      have hl : l.length = n := by
        obtain ⟨ts, h⟩ := hp 0 hn
        by_contra hc
        simp [paramsOf, hc] at h
      have := all_some l hl fun i hi => by have := hp i hi; simpa [paramsOf, hl] using this
      simp [checkParams, hl, this]
  · cases dir with
    | scalar d =>
      cases spd with
      | list l => exact absurd hkind (by simp [SameKind])
      | scalar s =>
        refine ⟨false, false, rfl, rfl, ?_⟩
        intro i hi v w hv hw x y ts
        simp only [perHour, Option.some.injEq] at hv hw
        subst hv; subst hw
        rfl
    | list dl =>
      cases spd with
      | scalar s => exact absurd hkind (by simp [SameKind])
      | list sl =>
        have hlen : ∀ l : List ℝ, (∀ i < n, ∃ v, perHour n i (.list l) = some v) → l.length = 1 ∨ (l.length ≠ 1 ∧ l.length = n) := by
          intro l h
          by_cases h1 : l.length = 1
          · exact .inl h1
          · refine .inr ⟨h1, ?_⟩
            obtain ⟨v, hv⟩ := h 0 hn
            by_contra hc
            simp [perHour, h1, hc] at hv
        have one : ∀ l : List ℝ, l.length = 1 → ∀ i v, perHour n i (.list l) = some v → l = [v] := by
          intro l h1 i v hv
          obtain ⟨a, rfl⟩ := List.length_eq_one_iff.1 h1
          simp [perHour] at hv
          rw [hv]
        have many : ∀ l : List ℝ, l.length ≠ 1 → l.length = n → ∀ i v, perHour n i (.list l) = some v → l.getD i 0 = v := by
          intro l h1 hn i v hv
          simp only [perHour, if_neg h1, if_pos hn] at hv
          rw [List.getD_eq_getElem?_getD, hv]; rfl
        rcases hlen dl hd with hd1 | ⟨hd1, hdn⟩ <;> rcases hlen sl hs with hs1 | ⟨hs1, hsn⟩
        · refine ⟨false, false, by simp [checkDir, hd1], by simp [checkSpd, hs1], ?_⟩
          intro i hi v w hv hw x y ts
          rw [one sl hs1 i v hv, one dl hd1 i w hw]
          simp only [argAt, Bool.false_eq_true, if_false]
          exact (spacetimeArg_one x y ts v w).2.2
        · refine ⟨false, true, by simp [checkDir, hd1], by simp [checkSpd, hsn, show n ≠ 1 by omega], ?_⟩
          intro i hi v w hv hw x y ts
          rw [one dl hd1 i w hw]
          simp only [argAt, Bool.false_eq_true, if_false, if_true, many sl hs1 hsn i v hv]
          exact (spacetimeArg_one x y ts v w).2.1
        · refine ⟨true, false, by simp [checkDir, hdn, show n ≠ 1 by omega], by simp [checkSpd, hs1], ?_⟩
          intro i hi v w hv hw x y ts
          rw [one sl hs1 i v hv]
          simp only [argAt, Bool.false_eq_true, if_false, if_true, many dl hd1 hdn i w hw]
          exact (spacetimeArg_one x y ts v w).1
        · refine ⟨true, true, by simp [checkDir, hdn, show n ≠ 1 by omega], by simp [checkSpd, hsn, show n ≠ 1 by omega], ?_⟩
          intro i hi v w hv hw x y ts
          simp only [argAt, if_true, many sl hs1 hsn i v hv, many dl hd1 hdn i w hw]

/-- C78 (the part that holds): when speed and direction are both numbers or both lists, and every argument specifies a value for
every hour, the call succeeds exactly when every hour succeeds, and its result is the concatenation of the hourly results,
each with its own times, parameters, speed, direction and mean.
Missing: a number for one of speed and direction and a list for the other (see the `violated` theorems). -/
theorem C78_hourwise_partial (mvn : Mvn) (times : TArg) (ePos nPos : List ℝ) (spd dir : SArg) (meanCSI : List ℝ) (params : PArg)
    (seed : Option ℕ) (scale noneg : Bool) (hkind : SameKind dir spd) (hn : 0 < meanCSI.length)
    (tsOf : ℕ → List ℝ) (ht : ∀ i < meanCSI.length, timesOf meanCSI.length i times = some (tsOf i))
    (PsOf : ℕ → Params) (hp : ∀ i < meanCSI.length, paramsOf meanCSI.length i params = some (PsOf i))
    (sOf : ℕ → ℝ) (hs : ∀ i < meanCSI.length, perHour meanCSI.length i spd = some (sOf i))
    (dOf : ℕ → ℝ) (hd : ∀ i < meanCSI.length, perHour meanCSI.length i dir = some (dOf i)) (out : List (List XR)) :
    downscaleMultihour mvn times ePos nPos spd dir meanCSI params seed scale noneg = .ok out ↔
      ∃ parts : List (List (List XR)), parts.length = meanCSI.length ∧ out = parts.flatten ∧
        ∀ (i : ℕ) (hi : i < meanCSI.length) (hb : i < parts.length),
          downscale mvn i (tsOf i) ePos nPos (.scalar (sOf i)) (.scalar (dOf i)) meanCSI[i] (PsOf i) seed scale noneg = .ok parts[i] := by
  obtain ⟨h1, h2, md, ms, h3, h4, h5⟩ := multi_args hkind hn (fun i hi => ⟨_, ht i hi⟩) (fun i hi => ⟨_, hp i hi⟩) (fun i hi => ⟨_, hs i hi⟩) (fun i hi => ⟨_, hd i hi⟩)
  have hf : ∀ (i : ℕ) (hi : i < meanCSI.length), downscale mvn i (timesAt i times) ePos nPos (argAt ms i spd) (argAt md i dir) (meanCSI.getD i 0)
      (paramsAt defaultParams i params) seed scale noneg =
      downscale mvn i (tsOf i) ePos nPos (.scalar (sOf i)) (.scalar (dOf i)) meanCSI[i] (PsOf i) seed scale noneg := by
    intro i hi
    have e1 : timesAt i times = tsOf i := by
      have := ht i hi
      cases times with
      | index ts => simpa [timesOf, timesAt] using this
      | list l =>
        by_cases hl : l.length = meanCSI.length
        · simp only [timesOf, if_pos hl] at this
          exact getD_some this
        · simp [timesOf, hl] at this
    have e2 : paramsAt defaultParams i params = PsOf i := by
      have := hp i hi
      cases params with
      | dict P => simpa [paramsOf, paramsAt] using this
      | list l =>
        by_cases hl : l.length = meanCSI.length
        · simp only [paramsOf, if_pos hl] at this
          exact getD_some this
        · simp [paramsOf, hl] at this
    rw [e1, e2, List.getD_eq_getElem _ _ hi]
    exact downscale_congr (h5 i hi _ _ (hs i hi) (hd i hi) _ _ _)
  have key : ∀ parts : List (List (List XR)), runHours (fun i => downscale mvn i (timesAt i times) ePos nPos (argAt ms i spd)
      (argAt md i dir) (meanCSI.getD i 0) (paramsAt defaultParams i params) seed scale noneg) (List.range meanCSI.length) = .ok parts ↔
      parts.length = meanCSI.length ∧ ∀ (i : ℕ) (hi : i < meanCSI.length) (hb : i < parts.length),
          downscale mvn i (tsOf i) ePos nPos (.scalar (sOf i)) (.scalar (dOf i)) meanCSI[i] (PsOf i) seed scale noneg = .ok parts[i] := by
    intro parts
    rw [runHours_ok]
    simp only [List.length_range, List.getElem_range]
    refine and_congr_right fun _ => forall_congr' fun i => forall_congr' fun hi => forall_congr' fun hb => ?_
    rw [hf i hi]
  unfold downscaleMultihour
  rw [h1]
  simp only [h2, h3, h4]
  constructor
  · intro h
    cases hr : runHours (fun i => downscale mvn i (timesAt i times) ePos nPos (argAt ms i spd)
      (argAt md i dir) (meanCSI.getD i 0) (paramsAt defaultParams i params) seed scale noneg) (List.range meanCSI.length) with
    | error e => rw [hr] at h; cases h
    | ok parts =>
      rw [hr] at h
      obtain ⟨hl, hparts⟩ := (key parts).1 hr
      cases parts with
      | nil => simp at h
      | cons a l =>
        simp only [Except.ok.injEq] at h
        exact ⟨a :: l, hl, h.symm, hparts⟩
  · rintro ⟨parts, hl, rfl, hparts⟩
    rw [(key parts).2 ⟨hl, hparts⟩]
    cases parts with
    | nil => rw [List.length_nil] at hl; omega
    | cons a l => rfl

/-- C78: a list of times or parameters of the wrong length, or with a wrong entry, a direction list of the wrong length, and
no hours at all raise `ValueError`. -/
theorem C78_rejects (mvn : Mvn) (times : TArg) (ePos nPos : List ℝ) (spd dir : SArg) (meanCSI : List ℝ) (params : PArg) (seed : Option ℕ) (scale noneg : Bool) :
    (∀ l, times = .list l → l.length ≠ meanCSI.length ∨ none ∈ l →
      Raises (downscaleMultihour mvn times ePos nPos spd dir meanCSI params seed scale noneg) .valueError) ∧
    (checkTimes meanCSI.length times = .ok () → ∀ l, params = .list l → l.length ≠ meanCSI.length ∨ none ∈ l →
      Raises (downscaleMultihour mvn times ePos nPos spd dir meanCSI params seed scale noneg) .valueError) ∧
    (checkTimes meanCSI.length times = .ok () → checkParams meanCSI.length params = .ok () → ∀ l, dir = .list l → l.length ≠ 1 → l.length ≠ meanCSI.length →
      Raises (downscaleMultihour mvn times ePos nPos spd dir meanCSI params seed scale noneg) .valueError) ∧
    (checkTimes meanCSI.length times = .ok () → checkParams meanCSI.length params = .ok () → ∀ l l', dir = .list l → (l.length = 1 ∨ l.length = meanCSI.length) →
      spd = .list l' → l'.length ≠ 1 → l'.length ≠ meanCSI.length →
      Raises (downscaleMultihour mvn times ePos nPos spd dir meanCSI params seed scale noneg) .valueError) := by
  have hall : ∀ {α : Type} (l : List (Option α)), none ∈ l → l.all Option.isSome = false := by
    intro α l h
    rw [Bool.eq_false_iff]
    intro hc
    have := List.all_eq_true.1 hc none h
    simp at this
  refine ⟨?_, ?_, ?_, ?_⟩
  · rintro l rfl h
    have hc : checkTimes meanCSI.length (.list l) = .error .valueError := by
      unfold checkTimes
      by_cases hl : l.length = meanCSI.length
      · have := hall l (h.resolve_left (by simpa using hl))
        simp [hl, this]
      · simp [hl]
    unfold Raises downscaleMultihour
    rw [hc]
  · rintro ht l rfl h
    have hc : checkParams meanCSI.length (.list l) = .error .valueError := by
      unfold checkParams
      by_cases hl : l.length = meanCSI.length
      · have := hall l (h.resolve_left (by simpa using hl))
        simp [hl, this]
      · simp [hl]
    unfold Raises downscaleMultihour
    rw [ht]
    simp only [hc]
  · rintro ht hp l rfl h1 h2
    unfold Raises downscaleMultihour
    rw [ht]
    simp [hp, checkDir, h1, h2]
  · rintro ht hp l l' rfl hl rfl h1 h2
    unfold Raises downscaleMultihour
    rw [ht]
    have : ∃ b, checkDir meanCSI.length (.list l) = .ok b := by
      unfold checkDir
      by_cases h : l.length = 1
      · exact ⟨false, by simp [h]⟩
      · exact ⟨true, by simp [hl.resolve_left h, show meanCSI.length ≠ 1 from (hl.resolve_left h) ▸ h]⟩
    obtain ⟨b, hb⟩ := this
    simp [hp, hb, checkSpd, h1, h2]

/-- C78 is violated: one direction per hour with a single numeric speed raises `TypeError`, because line 571 tests the type of
`cloud_dir` and then takes the length of `cloud_spd`. -/
theorem C78_violated_scalar_speed (mvn : Mvn) (times : TArg) (ePos nPos : List ℝ) (s : ℝ) (dirs : List ℝ) (meanCSI : List ℝ) (params : PArg) (seed : Option ℕ) (scale noneg : Bool)
    (ht : checkTimes meanCSI.length times = .ok ()) (hp : checkParams meanCSI.length params = .ok ()) (hl : dirs.length = meanCSI.length) :
    Raises (downscaleMultihour mvn times ePos nPos (.scalar s) (.list dirs) meanCSI params seed scale noneg) .typeError := by
  unfold Raises downscaleMultihour
  rw [ht]
  have : ∃ b, checkDir meanCSI.length (.list dirs) = .ok b := by
    unfold checkDir
    by_cases h : dirs.length = 1
    · exact ⟨false, by simp [h]⟩
    · exact ⟨true, by simp [hl, show meanCSI.length ≠ 1 from hl ▸ h]⟩
  obtain ⟨b, hb⟩ := this
  simp [hp, hb, checkSpd]

/-- C78 is violated: one speed per hour with a single numeric direction raises `ValueError` (the whole list of speeds is broadcast
against the times of the first hour) unless the number of hours happens to match the number of times. -/
theorem C78_violated_scalar_direction (mvn : Mvn) (ts ePos nPos : List ℝ) (spds : List ℝ) (d : ℝ) (meanCSI : List ℝ) (P : Params) (hP : Proper P) (seed : Option ℕ)
    (scale noneg : Bool) (hl : spds.length = meanCSI.length) (h2 : 2 ≤ meanCSI.length) (hT : 2 ≤ ts.length) (hne : ts.length ≠ meanCSI.length) :
    Raises (downscaleMultihour mvn (.index ts) ePos nPos (.list spds) (.scalar d) meanCSI (.dict P) seed scale noneg) .valueError := by
  obtain ⟨K, Ks, rfl⟩ : ∃ K Ks, meanCSI = K :: Ks := List.exists_cons_of_ne_nil (by rintro rfl; simp at h2)
  have hgne : csiGrid ≠ [] := by
    intro h
    have := congrArg List.length h
    rw [csiGrid_length] at this
    simp at this
  obtain ⟨pdf, cdf, k, hg, _⟩ := C73_solar_gmm csiGrid hgne K P hP.comp0 hP.comp1 hP.cloud hP.clear
  have hst : spacetimeArg ePos nPos ts (.list spds) (.scalar d) = .error .valueError := by
    obtain ⟨t0, tl, rfl⟩ : ∃ t0 tl, ts = t0 :: tl := List.exists_cons_of_ne_nil (by rintro rfl; simp at hT)
    unfold spacetimeArg
    have : bmul ((t0 :: tl).map fun t => t - t0) (.list spds) = .error .valueError := by
      unfold bmul
      simp only [List.length_map]
      rw [if_neg (by omega), if_neg (by omega), if_neg (by omega)]
    simp only [this]
  have hd : downscale mvn 0 ts ePos nPos (.list spds) (.scalar d) K P seed scale noneg = .error .valueError := by
    unfold downscale rawField
    rw [hg]
    simp only [hst]
  unfold Raises downscaleMultihour
  simp only [checkTimes, checkParams, checkDir, checkSpd, timesAt, paramsAt, argAt, Bool.false_eq_true, if_false]
  rw [show List.range (K :: Ks).length = 0 :: (List.range Ks.length).map Nat.succ by rw [List.length_cons, List.range_succ_eq_map]]
  simp only [runHours, List.getD_cons_zero, hd]

example : Raises (downscaleMultihour (demoMvn 1) (.index [0, 15, 30]) [0, 450] [0, 0] (.scalar 5) (.list [0, 1]) [0.5, 0.7] (.dict defaultParams) none true true) .typeError :=
  C78_violated_scalar_speed _ _ _ _ _ _ _ _ _ _ _ rfl rfl rfl

example : Raises (downscaleMultihour (demoMvn 1) (.index [0, 15, 30]) [0, 450] [0, 0] (.list [5, 6]) (.scalar 0) [0.5, 0.7] (.dict defaultParams) none true true) .valueError :=
  C78_violated_scalar_direction _ _ _ _ _ _ _ _ default_proper _ _ _ rfl (by simp) (by simp) (by simp)

example : ∃ out, downscaleMultihour (demoMvn 1) (.index [0, 15, 30]) [0, 450] [0, 0] (.list [5, 6]) (.list [0]) [0.5, 0.7] (.list [some defaultParams, some defaultParams])
    none false true = .ok out := by
  have h : ∀ i s d K, ∃ p, downscale (demoMvn 1) i [0, 15, 30] [0, 450] [0, 0] (.scalar s) (.scalar d) K defaultParams none false true = .ok p := by
    intro i s d K
    obtain ⟨v, hv, _⟩ := C77_unscaled_bounds (demoMvn 1) (demoMvn_spec 1) i [0, 15, 30] [0, 450] [0, 0] s d K defaultParams default_proper none (by simp) (by simp) rfl true
    exact ⟨_, hv⟩
  obtain ⟨p0, h0⟩ := h 0 5 0 0.5
  obtain ⟨p1, h1⟩ := h 1 6 0 0.7
  refine ⟨_, (C78_hourwise_partial (demoMvn 1) (.index [0, 15, 30]) [0, 450] [0, 0] (.list [5, 6]) (.list [0]) [0.5, 0.7] (.list [some defaultParams, some defaultParams])
    none false true trivial (by simp) (fun _ => [0, 15, 30]) (by simp [timesOf]) (fun _ => defaultParams) ?_ (fun i => if i = 0 then 5 else 6) ?_ (fun _ => 0) ?_ _).2
    ⟨[p0, p1], rfl, rfl, ?_⟩⟩
  · intro i hi
    simp only [List.length_cons, List.length_nil] at hi
    interval_cases i <;> simp [paramsOf]
  · intro i hi
    simp only [List.length_cons, List.length_nil] at hi
    interval_cases i <;> simp [perHour]
  · intro i hi
    simp [perHour]
  · intro i hi hb
    simp only [List.length_cons, List.length_nil] at hi
    interval_cases i
    · exact h0
    · exact h1

/-! ## C126 -/

/-- With an integer seed the number of the call does not matter. -/
theorem downscale_seeded {mvn : Mvn} (hmvn : MvnSpec mvn) (call call' : ℕ) (times ePos nPos : List ℝ) (cs cd : SArg) (K : ℝ) (P : Params) (s : ℕ) (scale noneg : Bool) :
    downscale mvn call times ePos nPos cs cd K P (some s) scale noneg = downscale mvn call' times ePos nPos cs cd K P (some s) scale noneg := by
  have : mvn (some s) call = mvn (some s) call' := hmvn.seeded s call call'
  unfold downscale rawField spaceTimeCopula copularnd
  simp only [this]

/-- C126 (the part that holds): with an integer seed, repeating a call gives the same field.
Missing: different hours are different realisations (`C126_violated_hours`). -/
theorem C126_reproducible_partial (mvn : Mvn) (hmvn : MvnSpec mvn) (call call' : ℕ) (times ePos nPos : List ℝ) (cs cd : SArg) (K : ℝ) (P : Params) (s : ℕ) (scale noneg : Bool) :
    downscale mvn call times ePos nPos cs cd K P (some s) scale noneg = downscale mvn call' times ePos nPos cs cd K P (some s) scale noneg :=
  downscale_seeded hmvn call call' times ePos nPos cs cd K P s scale noneg

/-- C126 is violated: with an integer seed, hours with the same mean are copies of each other. -/
theorem C126_violated_hours (mvn : Mvn) (hmvn : MvnSpec mvn) (ts ePos nPos : List ℝ) (s d : ℝ) (K : ℝ) (n : ℕ) (hn : 0 < n) (P : Params) (seed : ℕ) (scale noneg : Bool)
    (out : List (List XR)) (h : downscaleMultihour mvn (.index ts) ePos nPos (.scalar s) (.scalar d) (List.replicate n K) (.dict P) (some seed) scale noneg = .ok out) :
    ∃ hour, downscale mvn 0 ts ePos nPos (.scalar s) (.scalar d) K P (some seed) scale noneg = .ok hour ∧ out = (List.replicate n hour).flatten := by
  have hlen : (List.replicate n K).length = n := List.length_replicate
  obtain ⟨parts, hl, rfl, hparts⟩ := (C78_hourwise_partial mvn (.index ts) ePos nPos (.scalar s) (.scalar d) (List.replicate n K) (.dict P) (some seed) scale noneg
    trivial (by rwa [hlen]) (fun _ => ts) (fun _ _ => rfl) (fun _ => P) (fun _ _ => rfl) (fun _ => s) (fun _ _ => rfl) (fun _ => d) (fun _ _ => rfl) out).1 h
  rw [hlen] at hl
  have h0 := hparts 0 (by rwa [hlen]) (by omega)
  rw [List.getElem_replicate] at h0
  refine ⟨parts[0]'(by omega), h0, ?_⟩
  congr 1
  apply List.ext_getElem (by simp [hl])
  intro i h1 h2
  have hi := hparts i (by rw [hlen]; omega) h1
  rw [List.getElem_replicate, downscale_seeded hmvn i 0, h0] at hi
  rw [List.getElem_replicate]
  exact (Except.ok.inj hi).symm

/-- The hypotheses hold in a concrete case: three hours at a mean of 0.52 with seed 42. -/
example : ∃ mvn : Mvn, MvnSpec mvn ∧ ∃ out hour, downscaleMultihour mvn (.index [0, 450]) [0, 450, 0] [0, 0, 450] (.scalar 1) (.scalar 0) (List.replicate 3 0.52)
    (.dict defaultParams) (some 42) true true = .ok out ∧ out = (List.replicate 3 hour).flatten := by
  obtain ⟨mvn, h⟩ := exists_mvn
  obtain ⟨cm, -, h0, -⟩ := C75_frozen_field mvn h 0 [0, 450] [0, 450, 0] [0, 0, 450] 1 0 0.52 defaultParams default_proper (some 42) true true rfl 0 1 0 1
    (by simp) (by simp) (by simp) (by simp) (by simp) (by simp)
  have h3 := (C78_hourwise_partial mvn (.index [0, 450]) [0, 450, 0] [0, 0, 450] (.scalar 1) (.scalar 0) (List.replicate 3 0.52) (.dict defaultParams) (some 42) true true
    trivial (by simp) (fun _ => [0, 450]) (fun _ _ => rfl) (fun _ => defaultParams) (fun _ _ => rfl) (fun _ => 1) (fun _ _ => rfl) (fun _ => 0) (fun _ _ => rfl)
    (List.replicate 3 cm).flatten).2 ⟨List.replicate 3 cm, by simp, rfl, fun i hi hi' => by
      rw [List.getElem_replicate, List.getElem_replicate, downscale_seeded h i 0]; exact h0⟩
  obtain ⟨hour, -, e⟩ := C126_violated_hours mvn h _ _ _ _ _ _ 3 (by norm_num) _ _ _ _ _ h3
  exact ⟨mvn, h, _, hour, h3, e⟩

end SST.Copula
