import Verif.Props.CopulaDist
import Verif.Spec.Copula

/-! Helper lemmas for the copula field properties. -/

namespace SST.Copula
open SST SST.Spec SST.Spatial

theorem mat_of_entry {C : List (List ℝ)} {i j : ℕ} {v : ℝ} (h : entry C i j = some v) : mat C i j = v := by
  simp [mat, h]

/-! ## Factorisation -/

theorem exists_factor {C : List (List ℝ)} {d : ℕ} (h : IsCov C d) : ∃ A : ℕ → ℕ → ℝ,
    ∀ i < d, ∀ j < d, ∑ k ∈ Finset.range d, A k i * A k j = mat C i j := by
  have hp : Kernel.PSD (ι := Fin d) fun i j => mat C i j := by
    refine ⟨fun i j => h.symm i i.2 j j.2, fun c => ?_⟩
    have := h.psd fun i => if hi : i < d then c ⟨i, hi⟩ else 0
    rw [Finset.sum_range] at this
    refine this.trans_eq (Finset.sum_congr rfl fun i _ => ?_)
    rw [Finset.sum_range]
    refine Finset.sum_congr rfl fun j _ => ?_
    simp
  obtain ⟨B, hB⟩ : ∃ B : Matrix (Fin d) (Fin d) ℝ, (Matrix.of fun i j : Fin d => mat C i j) = B.conjTranspose * B := by
    have := hp.toMatrix
    open scoped MatrixOrder in
    have h2 := CStarAlgebra.nonneg_iff_eq_star_mul_self.1 this.nonneg
    exact h2
  refine ⟨fun k i => if hk : k < d then (if hi : i < d then B ⟨k, hk⟩ ⟨i, hi⟩ else 0) else 0, ?_⟩
  intro i hi j hj
  have := congrFun (congrFun hB ⟨i, hi⟩) ⟨j, hj⟩
  simp only [Matrix.of_apply, Matrix.mul_apply, Matrix.conjTranspose_apply, star_trivial] at this
  rw [this, Finset.sum_range]
  refine Finset.sum_congr rfl fun k _ => ?_
  simp [hi, hj]

open Classical in
/-- A generator that meets the assumptions: it returns `Z` times the first column of the covariance. -/
noncomputable def demoMvn (Z : ℝ) : Mvn := fun _ _ C n => (List.range n).map fun _ => (List.range C.length).map fun i => Z * mat C i 0

theorem demoMvn_spec (Z : ℝ) : MvnSpec (demoMvn Z) := by
  refine ⟨?_, fun _ _ _ => rfl⟩
  intro seed call C d n hC
  obtain ⟨A, hA⟩ := exists_factor hC
  refine ⟨A, fun _ k => Z * A k 0, hA, ?_⟩
  unfold demoMvn
  rw [hC.square.1]
  apply List.map_congr_left
  intro _ _
  apply List.map_congr_left
  intro i hi
  rw [List.mem_range] at hi
  rw [← hA i hi 0 (by omega), Finset.mul_sum]
  apply Finset.sum_congr rfl
  intro k _
  ring

/-- The assumptions on the generator can be met. -/
theorem exists_mvn : ∃ mvn : Mvn, MvnSpec mvn := ⟨demoMvn 1, demoMvn_spec 1⟩

/-- Variables with correlation one are equal. -/
theorem factor_eq {C : List (List ℝ)} {d : ℕ} {A : ℕ → ℕ → ℝ} (hA : ∀ i < d, ∀ j < d, ∑ k ∈ Finset.range d, A k i * A k j = mat C i j)
    {i j : ℕ} (hi : i < d) (hj : j < d) (hii : mat C i i = 1) (hjj : mat C j j = 1) (hij : mat C i j = 1) :
    ∀ k < d, A k i = A k j := by
  have hs : ∑ k ∈ Finset.range d, (A k i - A k j) ^ 2 = 0 := by
    have : ∀ k, (A k i - A k j) ^ 2 = A k i * A k i + A k j * A k j - 2 * (A k i * A k j) := fun k => by ring
    simp only [this, Finset.sum_sub_distrib, Finset.sum_add_distrib, ← Finset.mul_sum, hA i hi i hi, hA j hj j hj, hA i hi j hj, hii, hjj, hij]
    norm_num
  intro k hk
  have := (Finset.sum_eq_zero_iff_of_nonneg fun k _ => sq_nonneg _).1 hs k (Finset.mem_range.2 hk)
  have := pow_eq_zero_iff (two_ne_zero) |>.1 this
  linarith

/-! ## Space-time distances -/

theorem spacetimeArg_scalar (x y times : List ℝ) (cs cd : ℝ) :
    spacetimeArg x y times (.scalar cs) (.scalar cd) = spacetimeDistances x y times cs cd := by
  unfold spacetimeArg spacetimeDistances
  cases times with
  | nil => rfl
  | cons t0 ts =>
    simp only [bmul, SArg.map]
    by_cases h : x.length ≠ y.length
    · rw [if_pos h, if_pos h]
    · rw [if_neg h, if_neg h]
      simp only [List.length_map, List.map_map]
      have e : ∀ f : ℝ, ((fun x => x * f) ∘ (fun x => x * cs) ∘ fun t => t - t0) = ((fun d : ℝ => cs * d * f) ∘ fun t => t - t0) := by
        intro f; funext t; simp only [Function.comp]; ring
      simp only [e]

theorem spacetimeArg_one (x y times : List ℝ) (cs cd : ℝ) :
    spacetimeArg x y times (.list [cs]) (.scalar cd) = spacetimeArg x y times (.scalar cs) (.scalar cd) ∧
    spacetimeArg x y times (.scalar cs) (.list [cd]) = spacetimeArg x y times (.scalar cs) (.scalar cd) ∧
    spacetimeArg x y times (.list [cs]) (.list [cd]) = spacetimeArg x y times (.scalar cs) (.scalar cd) := by
  have hb : ∀ (l : List ℝ) (v : ℝ), l ≠ [] → bmul l (.list [v]) = bmul l (.scalar v) := by
    intro l v hl
    simp only [bmul, List.length_cons, List.length_nil, List.headD_cons]
    by_cases h : 0 + 1 = l.length
    · rw [if_pos h]
      obtain ⟨a, rfl⟩ := List.length_eq_one_iff.1 h.symm
      rfl
    · rw [if_neg h]
      simp
  unfold spacetimeArg
  cases times with
  | nil => exact ⟨rfl, rfl, rfl⟩
  | cons t0 ts =>
    have hne : (List.map (fun t => t - t0) (t0 :: ts)) ≠ [] := by simp
    have h1 := hb _ cs hne
    have h2 : ∃ d, bmul (List.map (fun t => t - t0) (t0 :: ts)) (.scalar cs) = .ok d ∧ d ≠ [] := ⟨_, rfl, by simp⟩
    obtain ⟨d, hd, hdne⟩ := h2
    simp only [h1, hd, SArg.map]
    rw [show List.map Real.cos [cd] = [Real.cos cd] from rfl, show List.map Real.sin [cd] = [Real.sin cd] from rfl]
    simp only [hb d _ hdne, and_self]

/-! ## The covariance -/

theorem covMatrix_entry {D : List (List ℝ)} {p : ℝ} {i j : ℕ} {v : ℝ} (h : entry D i j = some v) :
    entry (covMatrix p D) i j = some (Real.exp (-p * v)) := by
  unfold entry at h ⊢
  unfold covMatrix
  rw [List.getElem?_map]
  cases hr : D[i]? with
  | none => simp [hr] at h
  | some row =>
    rw [hr] at h
    simp only [Option.bind_some, Option.map_some, List.getElem?_map] at h ⊢
    rw [h]
    rfl

/-- Space-time position of a flat index. -/
noncomputable def flatPos (x y times : List ℝ) (cs cd : ℝ) (r : ℕ) : Vec :=
  driftPos cs cd (x.getD (r / times.length) 0) (y.getD (r / times.length) 0) (times.getD (r % times.length) 0)

theorem spacetime_flat {x y times : List ℝ} {cs cd : ℝ} {D : List (List ℝ)} (hD : spacetimeDistances x y times cs cd = .ok D) :
    x.length = y.length ∧ times ≠ [] ∧ IsSquare D (x.length * times.length) ∧
    ∀ r < x.length * times.length, ∀ s < x.length * times.length,
      entry D r s = some (pdist (flatPos x y times cs cd r) (flatPos x y times cs cd s)) := by
  have hne : times ≠ [] := by rintro rfl; simp [spacetimeDistances] at hD
  have hxy : x.length = y.length := by
    by_contra h
    obtain ⟨t0, ts, rfl⟩ := List.exists_cons_of_ne_nil hne
    simp [spacetimeDistances, h] at hD
  obtain ⟨D', hD', hsq, hent⟩ := spacetime_main x y times cs cd hxy hne
  rw [hD] at hD'
  cases hD'
  refine ⟨hxy, hne, hsq, ?_⟩
  intro r hr s hs
  obtain ⟨i, a, hi, ha, rfl⟩ := index_decomp hr
  obtain ⟨j, b, hj, hb, rfl⟩ := index_decomp hs
  rw [hent i j a b hi hj ha hb]
  have hT : 0 < times.length := by omega
  have h1 : (i * times.length + a) / times.length = i := by
    rw [Nat.mul_comm, Nat.mul_add_div hT, Nat.div_eq_of_lt ha, Nat.add_zero]
  have h2 : (i * times.length + a) % times.length = a := by
    rw [Nat.mul_comm, Nat.mul_add_mod, Nat.mod_eq_of_lt ha]
  have h3 : (j * times.length + b) / times.length = j := by
    rw [Nat.mul_comm, Nat.mul_add_div hT, Nat.div_eq_of_lt hb, Nat.add_zero]
  have h4 : (j * times.length + b) % times.length = b := by
    rw [Nat.mul_comm, Nat.mul_add_mod, Nat.mod_eq_of_lt hb]
  unfold flatPos
  rw [h1, h2, h3, h4, List.getD_eq_getElem _ _ hi, List.getD_eq_getElem _ _ hj, List.getD_eq_getElem _ _ ha, List.getD_eq_getElem _ _ hb,
    List.getD_eq_getElem _ _ (hxy ▸ hi), List.getD_eq_getElem _ _ (hxy ▸ hj)]

theorem cov_isCov {x y times : List ℝ} {cs cd p : ℝ} {D : List (List ℝ)} (hD : spacetimeDistances x y times cs cd = .ok D) (hp : 0 ≤ p) :
    IsCov (covMatrix p D) (x.length * times.length) ∧ ∀ r < x.length * times.length, ∀ s < x.length * times.length,
      mat (covMatrix p D) r s = Real.exp (-p * pdist (flatPos x y times cs cd r) (flatPos x y times cs cd s)) := by
  obtain ⟨hxy, hne, hsq, hent⟩ := spacetime_flat hD
  have hm : ∀ r < x.length * times.length, ∀ s < x.length * times.length,
      mat (covMatrix p D) r s = Real.exp (-p * pdist (flatPos x y times cs cd r) (flatPos x y times cs cd s)) :=
    fun r hr s hs => mat_of_entry (covMatrix_entry (hent r hr s hs))
  refine ⟨⟨⟨?_, ?_⟩, ?_, ?_⟩, hm⟩
  · simp [covMatrix, hsq.1]
  · intro row hrow
    obtain ⟨r, hr, rfl⟩ := List.mem_map.1 hrow
    simpa using hsq.2 r hr
  · intro i hi j hj
    rw [hm i hi j hj, hm j hj i hi, pdist_comm]
  · intro c
    have h := (Kernel.exp_dist_psd (ι := Fin (x.length * times.length)) (fun r => flatPos x y times cs cd r) hp).2 fun i => c i
    rw [Finset.sum_range]
    refine h.trans_eq (Finset.sum_congr rfl fun i _ => ?_)
    rw [Finset.sum_range]
    refine Finset.sum_congr rfl fun j _ => ?_
    rw [hm i i.2 j j.2]
    rfl

theorem Phi_mem (z : ℝ) : 0 ≤ Phi z ∧ Phi z ≤ 1 := ⟨ProbabilityTheory.cdf_nonneg _ _, ProbabilityTheory.cdf_le_one _ _⟩

theorem Phi_mono {z z' : ℝ} (h : z ≤ z') : Phi z ≤ Phi z' := ProbabilityTheory.monotone_cdf _ h

/-! ## The raw field -/

theorem csiGrid_length : csiGrid.length = 400 := by simp [csiGrid]

theorem csiGrid_mem {v : ℝ} (h : v ∈ csiGrid) : -2 ≤ v ∧ v ≤ 2 := by
  obtain ⟨i, hi, rfl⟩ := List.mem_map.1 h
  rw [List.mem_range] at hi
  have h1 : (i : ℝ) ≤ 400 := by exact_mod_cast hi.le
  have h0 : (0 : ℝ) ≤ i := by positivity
  constructor <;> linarith

theorem csiGrid_sorted : csiGrid.Pairwise (· < ·) := by
  unfold csiGrid
  rw [List.pairwise_map]
  refine List.pairwise_lt_range.imp ?_
  intro a b hab
  have : (a : ℝ) < b := by exact_mod_cast hab
  linarith

theorem decay_pos (K p : ℝ) : 0 < decay K p := by
  rw [C76_value]
  exact lt_of_lt_of_le (by norm_num) (le_max_right _ _)

open Classical in
/-- The treatment of a single value by `noneg`. -/
noncomputable def post (noneg : Bool) (v : ℝ) : ℝ := if noneg then (if v < 0 then 0 else v) else v

/-- The interpolation nodes of `downscale`. -/
noncomputable def nodes (cdf : List ℝ) : List (ℝ × ℝ) :=
  (0, -2) :: (uniqueIdx cdf).map (fun p => (p.1, csiGrid.getD p.2 0)) ++ [(1, 2)]

theorem rawField_eq (mvn : Mvn) (call : ℕ) (times ePos nPos : List ℝ) (cs cd K : ℝ) (P : Params) (seed : Option ℕ) (noneg : Bool)
    (pdf cdf : List ℝ) (k : ℝ) (hg : solarGmm csiGrid K P = .ok (pdf, cdf, k)) (hlen : cdf.length = csiGrid.length)
    (D : List (List ℝ)) (hD : spacetimeDistances ePos nPos times cs cd = .ok D) (hsite : ePos ≠ [])
    (g : ℕ → ℝ) (hmvn : mvn seed call (covMatrix k D) 1 = [(List.range (ePos.length * times.length)).map g]) :
    rawField mvn call times ePos nPos (.scalar cs) (.scalar cd) K P seed noneg =
      .ok ((List.range times.length).map fun t => (List.range ePos.length).map fun s =>
        post noneg (interp (nodes cdf) (Phi (g (s * times.length + t))))) := by
  obtain ⟨hxy, hne, hsq, _⟩ := spacetime_flat hD
  have hpos : 0 < ePos.length * times.length := Nat.mul_pos (List.length_pos_iff.2 hsite) (List.length_pos_iff.2 hne)
  have hDne : covMatrix k D ≠ [] := by
    intro h
    have := congrArg List.length h
    simp only [covMatrix, List.length_map, List.length_nil, hsq.1] at this
    omega
  unfold rawField
  rw [hg]
  simp only [spacetimeArg_scalar, hD]
  have hc : copularnd mvn 1 (covMatrix k D) seed call = .ok [(List.range (ePos.length * times.length)).map fun i => Phi (g i)] := by
    unfold copularnd
    cases hcov : covMatrix k D with
    | nil => exact absurd hcov hDne
    | cons a l =>
      rw [← hcov]
      simp only
      rw [hmvn]
      simp
  have hs : spaceTimeCopula mvn 1 D csiGrid cdf k seed call =
      .ok [(List.range (ePos.length * times.length)).map fun i => interp (nodes cdf) (Phi (g i))] := by
    unfold spaceTimeCopula
    rw [hc]
    simp only [knots_ok hlen.le]
    simp [nodes]
  rw [hs]
  simp only
  have hr : reshapeFirst [(List.range (ePos.length * times.length)).map fun i => interp (nodes cdf) (Phi (g i))] ePos.length times.length =
      .ok ((List.range times.length).map fun t => (List.range ePos.length).map fun s => interp (nodes cdf) (Phi (g (s * times.length + t)))) := by
    unfold reshapeFirst
    rw [if_pos (by simp)]
    congr 1
    apply List.map_congr_left
    intro t ht
    apply List.map_congr_left
    intro s hs
    rw [List.mem_range] at ht hs
    have hlt : s * times.length + t < ePos.length * times.length := by
      calc s * times.length + t < s * times.length + times.length := by omega
        _ = (s + 1) * times.length := by ring
        _ ≤ ePos.length * times.length := Nat.mul_le_mul_right _ hs
    rw [List.getD_eq_getElem _ _ (by simpa using hlt)]
    simp
  rw [hr]
  simp only
  congr 1
  cases noneg with
  | false => simp [post]
  | true =>
    simp only [if_true, clip, List.map_map, post]
    apply List.map_congr_left
    intro t _
    simp only [Function.comp, List.map_map]
    apply List.map_congr_left
    intro s _
    rfl

end SST.Copula
