import Verif.Proofs.CopulaCov
import Verif.Spec.CopulaDemo

/-!
# What the copula demonstrations show (demos/synthetic_copula_demo.py)

C213: a downwind site repeats the upwind series.  C214: the joint law depends only on distances in the frame of the clouds.
C215: the rake image and its transpose have the same law.  C216: closer points covary more.  C217: the lag of the largest covariance.
C218: variability of the plant mean.  C219: mean-square ramps.
-/

namespace SST.Copula
open SST SST.Spec SST.Spatial MeasureTheory ProbabilityTheory

/-! ## C213 -/

/-- C213: with regular times, a site that lies `k` time steps downwind of another one repeats its series `k` samples later, with every
generator, seed and option. -/
theorem C213_delayed (mvn : Mvn) (hmvn : MvnSpec mvn) (call : ℕ) (times ePos nPos : List ℝ) (cs cd K : ℝ) (P : Params)
    (hP : Proper P) (seed : Option ℕ) (scale noneg : Bool) (hxy : ePos.length = nPos.length) (t0 dt : ℝ) (hT : times ≠ [])
    (ht : ∀ (a : ℕ) (ha : a < times.length), times[a] = t0 + a * dt) (i j k : ℕ) (hi : i < ePos.length) (hj : j < ePos.length)
    (hx : ePos[j] = ePos[i] + cs * Real.cos cd * (k * dt)) (hy : nPos[j]'(hxy ▸ hj) = nPos[i]'(hxy ▸ hi) + cs * Real.sin cd * (k * dt)) :
    ∃ cm, downscale mvn call times ePos nPos (.scalar cs) (.scalar cd) K P seed scale noneg = .ok cm ∧
      ∀ a, a + k < times.length → ∃ v, cell cm a i = some v ∧ cell cm (a + k) j = some v := by
  have h0 : 0 < times.length := List.length_pos_iff.2 hT
  obtain ⟨cm, _, hcm, _⟩ := C75_frozen_field mvn hmvn call times ePos nPos cs cd K P hP seed scale noneg hxy i i 0 0 hi hi h0 h0
    (by simp) (by simp)
  refine ⟨cm, hcm, fun a ha => ?_⟩
  have e : times[a + k] - times[a] = k * dt := by
    rw [ht, ht]
    push_cast
    ring
  obtain ⟨cm', v, hcm', h1, h2⟩ := C75_frozen_field mvn hmvn call times ePos nPos cs cd K P hP seed scale noneg hxy i j a (a + k) hi hj (by omega) ha
    (by rw [e]; exact hx) (by rw [e]; exact hy)
  rw [hcm] at hcm'
  cases hcm'
  exact ⟨v, h1, h2⟩

/-- The first two sites of the demonstration, with a delay of 30 samples of 15 s. -/
example : ∃ mvn : Mvn, ∃ cm, downscale mvn 0 ((List.range 240).map fun a : ℕ => (a : ℝ) * 15) [0, 450, 0] [0, 0, 450] (.scalar 1) (.scalar 0) 0.52 defaultParams
    (some 42) true true = .ok cm ∧ ∀ a, a + 30 < 240 → ∃ v, cell cm a 0 = some v ∧ cell cm (a + 30) 1 = some v := by
  obtain ⟨mvn, h⟩ := exists_mvn
  obtain ⟨cm, h1, h2⟩ := C213_delayed mvn h 0 ((List.range 240).map fun a : ℕ => (a : ℝ) * 15) [0, 450, 0] [0, 0, 450] 1 0 0.52 defaultParams default_proper (some 42)
    true true rfl 0 15 (by simp) (by simp) 0 1 30 (by simp) (by simp) (by norm_num) (by norm_num)
  exact ⟨mvn, cm, h1, fun a ha => h2 a (by simpa using ha)⟩

/-! ## The values as functions of normal scores -/

/-- The value that `downscale` gives for time `t` and site `s`. -/
noncomputable def fieldValue (mvn : Mvn) (call : ℕ) (σ : Setting) (K : ℝ) (Q : Params) (seed : Option ℕ) (scale noneg : Bool) (t s : ℕ) : ℝ :=
  cellValue (downscale mvn call σ.times σ.ePos σ.nPos (.scalar σ.cs) (.scalar σ.cd) K Q seed scale noneg) t s

/-- The finite part of an entry. -/
def finPart : XR → ℝ
  | .fin v => v
  | _ => 0

theorem cellValue_of_cell {r : Except PyErr (List (List XR))} {cm : List (List XR)} (h : r = .ok cm) {t s : ℕ} {x : XR} (hc : cell cm t s = some x) :
    cellValue r t s = finPart x := by
  subst h
  unfold cell at hc
  simp only [cellValue, hc]
  cases x <;> rfl

theorem mean_matrix (f : ℕ → ℕ → ℝ) (T S : ℕ) : mean (((List.range T).map fun t => (List.range S).map fun s => f t s).flatten) =
    (∑ t ∈ Finset.range T, ∑ s ∈ Finset.range S, f t s) / (T * S : ℕ) := by
  have h : ∀ T : ℕ, (((List.range T).map fun t => (List.range S).map fun s => f t s).flatten).sum = ∑ t ∈ Finset.range T, ∑ s ∈ Finset.range S, f t s ∧
      (((List.range T).map fun t => (List.range S).map fun s => f t s).flatten).length = T * S := by
    intro T
    induction T with
    | zero => simp
    | succ T ih =>
      rw [List.range_succ, List.map_append, List.flatten_append, List.sum_append, List.length_append, ih.1, ih.2, Finset.sum_range_succ]
      constructor
      · simp only [List.map_cons, List.map_nil, List.flatten_cons, List.flatten_nil, List.append_nil]
        rfl
      · simp
        ring
  unfold mean
  rw [(h T).1, (h T).2]

theorem scaled_value (K m v : ℝ) : finPart (mulX (XR.div K m) v) = K / m * v := by
  unfold XR.div
  split_ifs with h1 h2 h3
  · simp [mulX, h1, finPart]
  · simp only [mulX, h1, div_zero, zero_mul]
    split_ifs <;> rfl
  · simp only [mulX, h1, div_zero, zero_mul]
    split_ifs <;> rfl
  · rfl

/-- The values of a field in terms of normal scores whose correlations are a function of the distances in the frame of the clouds. -/
theorem value_random (K : ℝ) (Q : Params) (hQ : Proper Q) (noneg : Bool) : ∃ F : ℝ → ℝ, Measurable F ∧ (∀ g, |F g| ≤ 2) ∧
    ∀ {Ω : Type} [MeasurableSpace Ω] (P : Measure Ω) (mvn : Ω → Mvn) (seed : Option ℕ) (call : ℕ), MvnLaw P mvn seed call → ∀ σ : Setting, σ.Good →
      ∃ (A : ℕ → ℕ → ℕ → ℝ) (z : ℕ → Ω → ℝ) (d : ℕ), (∀ k, Measurable (z k)) ∧ iIndepFun z P ∧ (∀ k, P.map (z k) = gaussianReal 0 1) ∧
        (∀ t < σ.times.length, ∀ s < σ.ePos.length, ∀ t' < σ.times.length, ∀ s' < σ.ePos.length,
          ∑ k ∈ Finset.range d, A k t s * A k t' s' = Real.exp (-decay K Q.corrQuadr * pdist (σ.point t s) (σ.point t' s'))) ∧
        (∀ ω, ∀ t < σ.times.length, ∀ s < σ.ePos.length,
          fieldValue (mvn ω) call σ K Q seed false noneg t s = F (∑ k ∈ Finset.range d, z k ω * A k t s)) ∧
        (∀ ω, ∀ t < σ.times.length, ∀ s < σ.ePos.length, fieldValue (mvn ω) call σ K Q seed true noneg t s =
          K / ((∑ t ∈ Finset.range σ.times.length, ∑ s ∈ Finset.range σ.ePos.length, F (∑ k ∈ Finset.range d, z k ω * A k t s)) /
            (σ.times.length * σ.ePos.length : ℕ)) * F (∑ k ∈ Finset.range d, z k ω * A k t s)) := by
  obtain ⟨F, hF, hb, h⟩ := field_random K Q hQ noneg
  refine ⟨F, hF.measurable, fun g => abs_le.2 (hb g), ?_⟩
  intro Ω _ P mvn seed call hmvn σ hσ
  obtain ⟨A, z, h1, h2, h3, hA, hz⟩ := h P mvn seed call hmvn σ.times σ.ePos σ.nPos σ.cs σ.cd hσ.times hσ.sites hσ.coords
  have hcell : ∀ (g : ℝ → XR) (ω : Ω), ∀ t < σ.times.length, ∀ s < σ.ePos.length, cell (((List.range σ.times.length).map fun t =>
      (List.range σ.ePos.length).map fun s => F (∑ k ∈ Finset.range (σ.ePos.length * σ.times.length), z k ω * A k t s)).map fun row => row.map g) t s =
        some (g (F (∑ k ∈ Finset.range (σ.ePos.length * σ.times.length), z k ω * A k t s))) := by
    intro g ω t ht s hs
    rw [cell_map, show cell _ t s = _ from cell_range (fun t s : ℕ => F (∑ k ∈ Finset.range (σ.ePos.length * σ.times.length), z k ω * A k t s)) ht hs]
    rfl
  refine ⟨A, z, _, h1, h2, h3, hA, ?_, ?_⟩
  · intro ω t ht s hs
    exact cellValue_of_cell (downscale_eq (hz ω) false) (hcell _ ω t ht s hs)
  · intro ω t ht s hs
    refine (cellValue_of_cell (downscale_eq (hz ω) true) (hcell _ ω t ht s hs)).trans ?_
    refine (scaled_value _ _ _).trans ?_
    rw [mean_matrix (fun t s => F (∑ k ∈ Finset.range (σ.ePos.length * σ.times.length), z k ω * A k t s))]

/-! ## C214 -/

/-- C214: two families of values, possibly from different layouts, times and cloud velocities, have the same joint law whenever the points they are
taken at have the same distances in the frame of the clouds. -/
theorem C214_same_law {Ω Ω' : Type} [MeasurableSpace Ω] [MeasurableSpace Ω'] (P : Measure Ω) (P' : Measure Ω') [IsProbabilityMeasure P]
    [IsProbabilityMeasure P'] (mvn : Ω → Mvn) (mvn' : Ω' → Mvn) (seed seed' : Option ℕ) (call call' : ℕ) (hmvn : MvnLaw P mvn seed call)
    (hmvn' : MvnLaw P' mvn' seed' call') (σ σ' : Setting) (hσ : σ.Good) (hσ' : σ'.Good) (K : ℝ) (Q : Params) (hQ : Proper Q) (noneg : Bool)
    {ι : Type} [Fintype ι] (t s t' s' : ι → ℕ) (ht : ∀ p, t p < σ.times.length) (hs : ∀ p, s p < σ.ePos.length)
    (ht' : ∀ p, t' p < σ'.times.length) (hs' : ∀ p, s' p < σ'.ePos.length)
    (hd : ∀ p q, pdist (σ.point (t p) (s p)) (σ.point (t q) (s q)) = pdist (σ'.point (t' p) (s' p)) (σ'.point (t' q) (s' q))) :
    (Measurable fun ω p => fieldValue (mvn ω) call σ K Q seed false noneg (t p) (s p)) ∧
    (Measurable fun ω p => fieldValue (mvn' ω) call' σ' K Q seed' false noneg (t' p) (s' p)) ∧
    P.map (fun ω p => fieldValue (mvn ω) call σ K Q seed false noneg (t p) (s p)) =
      P'.map (fun ω p => fieldValue (mvn' ω) call' σ' K Q seed' false noneg (t' p) (s' p)) := by
  obtain ⟨F, hF, _, h⟩ := value_random K Q hQ noneg
  obtain ⟨A, z, d, h1, h2, h3, hA, hv, _⟩ := h P mvn seed call hmvn σ hσ
  obtain ⟨A', z', d', h1', h2', h3', hA', hv', _⟩ := h P' mvn' seed' call' hmvn' σ' hσ'
  have e : (fun ω p => fieldValue (mvn ω) call σ K Q seed false noneg (t p) (s p)) = (fun (x : ι → ℝ) p => F (x p)) ∘
      fun ω p => ∑ k ∈ Finset.range d, z k ω * A k (t p) (s p) := by
    ext ω p
    exact hv ω _ (ht p) _ (hs p)
  have e' : (fun ω p => fieldValue (mvn' ω) call' σ' K Q seed' false noneg (t' p) (s' p)) = (fun (x : ι → ℝ) p => F (x p)) ∘
      fun ω p => ∑ k ∈ Finset.range d', z' k ω * A' k (t' p) (s' p) := by
    ext ω p
    exact hv' ω _ (ht' p) _ (hs' p)
  have hX : Measurable fun ω p => ∑ k ∈ Finset.range d, z k ω * A k (t p) (s p) :=
    measurable_pi_lambda _ fun i => Finset.measurable_sum _ fun k _ => (h1 k).mul_const _
  have hX' : Measurable fun ω p => ∑ k ∈ Finset.range d', z' k ω * A' k (t' p) (s' p) :=
    measurable_pi_lambda _ fun i => Finset.measurable_sum _ fun k _ => (h1' k).mul_const _
  have hG : Measurable fun (x : ι → ℝ) p => F (x p) := measurable_pi_lambda _ fun i => hF.comp (measurable_pi_apply i)
  rw [e, e']
  refine ⟨hG.comp hX, hG.comp hX', ?_⟩
  rw [← Measure.map_map hG hX, ← Measure.map_map hG hX', joint_law h1 h2 h3 h1' h2' h3' (fun k p => A k (t p) (s p)) (fun k p => A' k (t' p) (s' p)) d d'
    (fun i j => by rw [hA _ (ht i) _ (hs i) _ (ht j) _ (hs j), hA' _ (ht' i) _ (hs' i) _ (ht' j) _ (hs' j), hd])]

/-- C214: the law of the values at given sites and times does not depend on which other sites and times are simulated in the same call, on the
origin of the coordinates or of the time axis, or on the number of calls made before. -/
theorem C214_invariant {Ω : Type} [MeasurableSpace Ω] (P : Measure Ω) [IsProbabilityMeasure P] (mvn : Ω → Mvn) (seed : Option ℕ) (call call' : ℕ)
    (hmvn : MvnLaw P mvn seed call) (hmvn' : MvnLaw P mvn seed call') (σ σ' : Setting) (hσ : σ.Good) (hσ' : σ'.Good) (hcs : σ'.cs = σ.cs) (hcd : σ'.cd = σ.cd)
    (K : ℝ) (Q : Params) (hQ : Proper Q) (noneg : Bool) {ι : Type} [Fintype ι] (t s t' s' : ι → ℕ) (ht : ∀ p, t p < σ.times.length)
    (hs : ∀ p, s p < σ.ePos.length) (ht' : ∀ p, t' p < σ'.times.length) (hs' : ∀ p, s' p < σ'.ePos.length) (c : Vec) (b : ℝ)
    (he : ∀ p, σ'.site (s' p) = ((σ.site (s p)).1 + c.1, (σ.site (s p)).2 + c.2)) (hb : ∀ p, σ'.times.getD (t' p) 0 = σ.times.getD (t p) 0 + b) :
    P.map (fun ω p => fieldValue (mvn ω) call σ K Q seed false noneg (t p) (s p)) =
      P.map (fun ω p => fieldValue (mvn ω) call' σ' K Q seed false noneg (t' p) (s' p)) := by
  refine (C214_same_law P P mvn mvn seed seed call call' hmvn hmvn' σ σ' hσ hσ' K Q hQ noneg t s t' s' ht hs ht' hs' fun p q => ?_).2.2
  have h1 := fun p => congrArg Prod.fst (he p)
  have h2 := fun p => congrArg Prod.snd (he p)
  simp only [Setting.site] at h1 h2
  simp only [Setting.point, driftPos, pdist, h1, h2, hb, hcs, hcd]
  congr 1
  ring

/-- The setting of `demonstrate_downscaling`. -/
noncomputable def demoSetting : Setting := ⟨(List.range 240).map fun a : ℕ => (a : ℝ) * 15, [0, 450, 0], [0, 0, 450], 1, 0⟩

theorem demoSetting_good : demoSetting.Good := ⟨by simp [demoSetting], by simp [demoSetting], rfl⟩

/-- The downwind and the northward site are equally far from the first one: both pairs of simultaneous values have the same law. -/
example : ∃ mvn : (ℕ → ℝ) → Mvn, (Measure.infinitePi fun _ : ℕ => gaussianReal 0 1).map
    (fun ω (p : Fin 2) => fieldValue (mvn ω) 0 demoSetting 0.52 defaultParams (some 42) false true 7 (if p = 0 then 0 else 1)) =
      (Measure.infinitePi fun _ : ℕ => gaussianReal 0 1).map
        (fun ω (p : Fin 2) => fieldValue (mvn ω) 0 demoSetting 0.52 defaultParams (some 42) false true 9 (if p = 0 then 0 else 2)) := by
  obtain ⟨mvn, _, h⟩ := exists_mvnLaw
  refine ⟨mvn, (C214_same_law _ _ mvn mvn (some 42) (some 42) 0 0 (h _ _) (h _ _) demoSetting demoSetting demoSetting_good demoSetting_good 0.52 defaultParams
    default_proper true (fun _ : Fin 2 => 7) (fun p => if p = 0 then 0 else 1) (fun _ => 9) (fun p => if p = 0 then 0 else 2) ?_ ?_ ?_ ?_ ?_).2.2⟩
  · simp [demoSetting]
  · intro p
    fin_cases p <;> simp [demoSetting]
  · simp [demoSetting]
  · intro p
    fin_cases p <;> simp [demoSetting]
  · intro p q
    fin_cases p <;> fin_cases q <;> simp [demoSetting, Setting.point, driftPos, pdist]
    rw [show (-(7 * 15) - (450 - 7 * 15) : ℝ) ^ 2 = 450 ^ 2 by norm_num]
    exact Real.sqrt_sq (by norm_num)

/-- The first two sites of the demonstration, simulated alone, elsewhere and an hour later. -/
example : ∃ mvn : (ℕ → ℝ) → Mvn, (Measure.infinitePi fun _ : ℕ => gaussianReal 0 1).map
    (fun ω (p : Fin 2) => fieldValue (mvn ω) 0 demoSetting 0.52 defaultParams none false true 7 p) =
      (Measure.infinitePi fun _ : ℕ => gaussianReal 0 1).map
        (fun ω (p : Fin 2) => fieldValue (mvn ω) 3 ⟨[3600 + 105], [100, 550], [20, 20], 1, 0⟩ 0.52 defaultParams none false true 0 p) := by
  obtain ⟨mvn, _, h⟩ := exists_mvnLaw
  refine ⟨mvn, C214_invariant _ mvn none 0 3 (h _ _) (h _ _) demoSetting ⟨[3600 + 105], [100, 550], [20, 20], 1, 0⟩ demoSetting_good ⟨by simp, by simp, rfl⟩ rfl rfl 0.52
    defaultParams default_proper true (fun _ : Fin 2 => 7) (fun p => p) (fun _ => 0) (fun p => p) ?_ ?_ ?_ ?_ (100, 20) 3600 ?_ ?_⟩
  · simp [demoSetting]
  · intro p
    simp only [demoSetting, List.length_cons, List.length_nil]
    omega
  · simp
  · intro p
    simp only [List.length_cons, List.length_nil]
    omega
  · intro p
    fin_cases p
    · simp [demoSetting, Setting.site]
    · simp [demoSetting, Setting.site]
      norm_num
  · intro p
    simp [demoSetting]
    norm_num

/-! ## C215 -/

/-- The scaled and unscaled values of a whole field have the same law as those of another field whose points correspond one to one with the same
distances in the frame of the clouds. -/
theorem C215_whole_field {Ω Ω' : Type} [MeasurableSpace Ω] [MeasurableSpace Ω'] (P : Measure Ω) (P' : Measure Ω') [IsProbabilityMeasure P]
    [IsProbabilityMeasure P'] (mvn : Ω → Mvn) (mvn' : Ω' → Mvn) (seed seed' : Option ℕ) (call call' : ℕ) (hmvn : MvnLaw P mvn seed call)
    (hmvn' : MvnLaw P' mvn' seed' call') (σ σ' : Setting) (hσ : σ.Good) (hσ' : σ'.Good) (K : ℝ) (Q : Params) (hQ : Proper Q) (scale noneg : Bool)
    (T S T' S' : ℕ) (hT : σ.times.length = T) (hS : σ.ePos.length = S) (hT' : σ'.times.length = T') (hS' : σ'.ePos.length = S')
    (e : (Fin T × Fin S) ≃ (Fin T' × Fin S'))
    (hd : ∀ p q, pdist (σ.point p.1 p.2) (σ.point q.1 q.2) = pdist (σ'.point (e p).1 (e p).2) (σ'.point (e q).1 (e q).2)) :
    P.map (fun ω (p : Fin T × Fin S) => fieldValue (mvn ω) call σ K Q seed scale noneg p.1 p.2) =
      P'.map (fun ω p => fieldValue (mvn' ω) call' σ' K Q seed' scale noneg (e p).1 (e p).2) := by
  subst hT hS hT' hS'
  cases scale with
  | false =>
    exact (C214_same_law P P' mvn mvn' seed seed' call call' hmvn hmvn' σ σ' hσ hσ' K Q hQ noneg (fun p => (p.1 : ℕ)) (fun p => (p.2 : ℕ))
      (fun p => ((e p).1 : ℕ)) (fun p => ((e p).2 : ℕ)) (fun p => p.1.2) (fun p => p.2.2) (fun p => (e p).1.2) (fun p => (e p).2.2) hd).2.2
  | true =>
    obtain ⟨F, hF, _, h⟩ := value_random K Q hQ noneg
    obtain ⟨A, z, d, h1, h2, h3, hA, _, hv⟩ := h P mvn seed call hmvn σ hσ
    obtain ⟨A', z', d', h1', h2', h3', hA', _, hv'⟩ := h P' mvn' seed' call' hmvn' σ' hσ'
    have hcard : σ.times.length * σ.ePos.length = σ'.times.length * σ'.ePos.length := by
      simpa using Fintype.card_congr e
    have e1 : (fun ω (p : Fin σ.times.length × Fin σ.ePos.length) => fieldValue (mvn ω) call σ K Q seed true noneg p.1 p.2) =
        (fun (x : Fin σ.times.length × Fin σ.ePos.length → ℝ) p => K / ((∑ q, F (x q)) / (σ.times.length * σ.ePos.length : ℕ)) * F (x p)) ∘
          fun ω p => ∑ k ∈ Finset.range d, z k ω * A k p.1 p.2 := by
      ext ω p
      simp only [Function.comp]
      rw [hv ω _ p.1.2 _ p.2.2, Fintype.sum_prod_type]
      simp only [Finset.sum_range]
    have e2 : (fun ω (p : Fin σ.times.length × Fin σ.ePos.length) => fieldValue (mvn' ω) call' σ' K Q seed' true noneg (e p).1 (e p).2) =
        (fun (x : Fin σ.times.length × Fin σ.ePos.length → ℝ) p => K / ((∑ q, F (x q)) / (σ.times.length * σ.ePos.length : ℕ)) * F (x p)) ∘
          fun ω p => ∑ k ∈ Finset.range d', z' k ω * A' k (e p).1 (e p).2 := by
      ext ω p
      simp only [Function.comp]
      rw [hv' ω _ (e p).1.2 _ (e p).2.2, hcard, Equiv.sum_comp e (fun q : Fin σ'.times.length × Fin σ'.ePos.length => F (∑ k ∈ Finset.range d', z' k ω * A' k q.1 q.2)),
        Fintype.sum_prod_type]
      simp only [Finset.sum_range]
    have hX : Measurable fun ω (p : Fin σ.times.length × Fin σ.ePos.length) => ∑ k ∈ Finset.range d, z k ω * A k p.1 p.2 :=
      measurable_pi_lambda _ fun i => Finset.measurable_sum _ fun k _ => (h1 k).mul_const _
    have hX' : Measurable fun ω (p : Fin σ.times.length × Fin σ.ePos.length) => ∑ k ∈ Finset.range d', z' k ω * A' k (e p).1 (e p).2 :=
      measurable_pi_lambda _ fun i => Finset.measurable_sum _ fun k _ => (h1' k).mul_const _
    have hc : ∀ p : Fin σ.times.length × Fin σ.ePos.length, Measurable fun x : Fin σ.times.length × Fin σ.ePos.length → ℝ => F (x p) :=
      fun p => hF.comp (measurable_pi_apply p)
    have hG : Measurable fun (x : Fin σ.times.length × Fin σ.ePos.length → ℝ) p => K / ((∑ q, F (x q)) / (σ.times.length * σ.ePos.length : ℕ)) * F (x p) :=
      measurable_pi_lambda _ fun p => (measurable_const.div ((Finset.measurable_sum _ fun q _ => hc q).div_const _)).mul (hc p)
    rw [e1, e2, ← Measure.map_map hG hX, ← Measure.map_map hG hX', joint_law h1 h2 h3 h1' h2' h3' (fun k p => A k p.1 p.2) (fun k p => A' k (e p).1 (e p).2) d d'
      (fun i j => by rw [hA _ i.1.2 _ i.2.2 _ j.1.2 _ j.2.2, hA' _ (e i).1.2 _ (e i).2.2 _ (e j).1.2 _ (e j).2.2, hd])]

/-- The setting of one image of `demonstrate_multiple_speeds`: a rake of `N` sites to the north, spaced by the distance the clouds move in a time step. -/
noncomputable def rake (N : ℕ) (t0 dt cs : ℝ) : Setting :=
  ⟨(List.range N).map fun a : ℕ => t0 + a * dt, List.replicate N 0, (List.range N).map fun a : ℕ => (a : ℝ) * cs * dt, cs, 0⟩

/-- C215: the image of `demonstrate_multiple_speeds` (time down, distance across) and its transpose have the same law: the field is statistically
the same along and across the wind. -/
theorem C215_transpose {Ω : Type} [MeasurableSpace Ω] (P : Measure Ω) [IsProbabilityMeasure P] (mvn : Ω → Mvn) (seed : Option ℕ) (call : ℕ)
    (hmvn : MvnLaw P mvn seed call) (N : ℕ) (hN : 0 < N) (t0 dt cs K : ℝ) (Q : Params) (hQ : Proper Q) (scale noneg : Bool) :
    P.map (fun ω (p : Fin N × Fin N) => fieldValue (mvn ω) call (rake N t0 dt cs) K Q seed scale noneg p.1 p.2) =
      P.map (fun ω (p : Fin N × Fin N) => fieldValue (mvn ω) call (rake N t0 dt cs) K Q seed scale noneg p.2 p.1) := by
  have hlen : (rake N t0 dt cs).times.length = N := by simp [rake]
  have hlen' : (rake N t0 dt cs).ePos.length = N := by simp [rake]
  have hg : (rake N t0 dt cs).Good := by
    refine ⟨?_, ?_, ?_⟩ <;> simp [rake, hN.ne']
  refine C215_whole_field P P mvn mvn seed seed call call hmvn hmvn _ _ hg hg K Q hQ scale noneg N N N N hlen hlen' hlen hlen' (Equiv.prodComm _ _) ?_
  intro p q
  have hp : ∀ a b : Fin N, (rake N t0 dt cs).point a b = (-(cs * (t0 + a * dt)), (b : ℝ) * cs * dt) := by
    intro a b
    simp [Setting.point, rake, driftPos]
  simp only [Equiv.prodComm_apply, Prod.swap]
  rw [hp, hp, hp, hp]
  unfold pdist
  congr 1
  ring

/-- One of the images of the demonstration. -/
example : ∃ mvn : (ℕ → ℝ) → Mvn, (Measure.infinitePi fun _ : ℕ => gaussianReal 0 1).map
    (fun ω (p : Fin 61 × Fin 61) => fieldValue (mvn ω) 0 (rake 61 0 10 25) 0.7 defaultParams (some 42) true true p.1 p.2) =
      (Measure.infinitePi fun _ : ℕ => gaussianReal 0 1).map
        (fun ω (p : Fin 61 × Fin 61) => fieldValue (mvn ω) 0 (rake 61 0 10 25) 0.7 defaultParams (some 42) true true p.2 p.1) := by
  obtain ⟨mvn, _, h⟩ := exists_mvnLaw
  exact ⟨mvn, C215_transpose _ mvn (some 42) 0 (h _ _) 61 (by norm_num) 0 10 25 0.7 defaultParams default_proper true true⟩

/-! ## C216 -/

theorem value_memLp {Ω : Type} [MeasurableSpace Ω] {P : Measure Ω} [IsProbabilityMeasure P] {f : Ω → ℝ} (hf : Measurable f) {C : ℝ} (hC : ∀ ω, |f ω| ≤ C) :
    MemLp f 2 P :=
  MemLp.of_bound hf.aestronglyMeasurable C (Filter.Eventually.of_forall fun x => by rw [Real.norm_eq_abs]; exact hC x)

/-- Measurability, bounds, means and product means of the unscaled values of two fields. -/
theorem two_fields {Ω Ω' : Type} [MeasurableSpace Ω] [MeasurableSpace Ω'] (P : Measure Ω) (P' : Measure Ω') [IsProbabilityMeasure P]
    [IsProbabilityMeasure P'] (mvn : Ω → Mvn) (mvn' : Ω' → Mvn) (seed seed' : Option ℕ) (call call' : ℕ) (hmvn : MvnLaw P mvn seed call)
    (hmvn' : MvnLaw P' mvn' seed' call') (σ σ' : Setting) (hσ : σ.Good) (hσ' : σ'.Good) (K : ℝ) (Q : Params) (hQ : Proper Q) (noneg : Bool) :
    ∃ c : ℝ, (∀ t < σ.times.length, ∀ s < σ.ePos.length, Measurable (fun ω => fieldValue (mvn ω) call σ K Q seed false noneg t s) ∧
      (∀ ω, |fieldValue (mvn ω) call σ K Q seed false noneg t s| ≤ 2) ∧ ∫ ω, fieldValue (mvn ω) call σ K Q seed false noneg t s ∂P = c) ∧
    (∀ t < σ'.times.length, ∀ s < σ'.ePos.length, Measurable (fun ω => fieldValue (mvn' ω) call' σ' K Q seed' false noneg t s) ∧
      (∀ ω, |fieldValue (mvn' ω) call' σ' K Q seed' false noneg t s| ≤ 2) ∧ ∫ ω, fieldValue (mvn' ω) call' σ' K Q seed' false noneg t s ∂P' = c) ∧
    (∀ t < σ.times.length, ∀ s < σ.ePos.length, ∀ u < σ.times.length, ∀ r < σ.ePos.length,
      c * c ≤ ∫ ω, fieldValue (mvn ω) call σ K Q seed false noneg t s * fieldValue (mvn ω) call σ K Q seed false noneg u r ∂P) ∧
    (∀ t < σ.times.length, ∀ s < σ.ePos.length, ∀ u < σ.times.length, ∀ r < σ.ePos.length,
      ∀ t' < σ'.times.length, ∀ s' < σ'.ePos.length, ∀ u' < σ'.times.length, ∀ r' < σ'.ePos.length,
        pdist (σ.point t s) (σ.point u r) ≤ pdist (σ'.point t' s') (σ'.point u' r') →
        ∫ ω, fieldValue (mvn' ω) call' σ' K Q seed' false noneg t' s' * fieldValue (mvn' ω) call' σ' K Q seed' false noneg u' r' ∂P' ≤
          ∫ ω, fieldValue (mvn ω) call σ K Q seed false noneg t s * fieldValue (mvn ω) call σ K Q seed false noneg u r ∂P) := by
  obtain ⟨F, hF, hC, h⟩ := value_random K Q hQ noneg
  obtain ⟨A, z, d, h1, h2, h3, hA, hv, _⟩ := h P mvn seed call hmvn σ hσ
  obtain ⟨A', z', d', h1', h2', h3', hA', hv', _⟩ := h P' mvn' seed' call' hmvn' σ' hσ'
  have unit : ∀ t < σ.times.length, ∀ s < σ.ePos.length, ∑ k ∈ Finset.range d, A k t s * A k t s = 1 := by
    intro t ht s hs
    rw [hA t ht s hs t ht s hs, pdist_self]
    simp
  have unit' : ∀ t < σ'.times.length, ∀ s < σ'.ePos.length, ∑ k ∈ Finset.range d', A' k t s * A' k t s = 1 := by
    intro t ht s hs
    rw [hA' t ht s hs t ht s hs, pdist_self]
    simp
  have hmean : ∀ {Ω : Type} [MeasurableSpace Ω] {P : Measure Ω} [IsProbabilityMeasure P] {z : ℕ → Ω → ℝ} (_ : ∀ k, Measurable (z k)) (_ : iIndepFun z P)
      (_ : ∀ k, P.map (z k) = gaussianReal 0 1) (a : ℕ → ℝ) (d : ℕ) (_ : ∑ k ∈ Finset.range d, a k * a k = 1),
      ∫ ω, F (∑ k ∈ Finset.range d, z k ω * a k) ∂P = ∫ x, F x ∂(gaussianReal 0 1) := by
    intro Ω _ P _ z h1 h2 h3 a d ha
    have hX : Measurable fun ω => ∑ k ∈ Finset.range d, z k ω * a k := Finset.measurable_sum _ fun k _ => (h1 k).mul_const _
    rw [← sum_law_unit h1 h2 h3 a d ha, integral_map hX.aemeasurable hF.aestronglyMeasurable]
  refine ⟨∫ x, F x ∂(gaussianReal 0 1), ?_, ?_, ?_, ?_⟩
  · intro t ht s hs
    simp only [hv _ t ht s hs]
    exact ⟨hF.comp (Finset.measurable_sum _ fun k _ => (h1 k).mul_const _), fun ω => hC _, hmean h1 h2 h3 _ d (unit t ht s hs)⟩
  · intro t ht s hs
    simp only [hv' _ t ht s hs]
    exact ⟨hF.comp (Finset.measurable_sum _ fun k _ => (h1' k).mul_const _), fun ω => hC _, hmean h1' h2' h3' _ d' (unit' t ht s hs)⟩
  · intro t ht s hs u hu r hr
    simp only [hv _ t ht s hs, hv _ u hu r hr]
    exact score_prod_nonneg h1 h2 h3 _ _ d (unit t ht s hs) (unit u hu r hr) (Real.exp_pos _).le
      (by rw [Real.exp_le_one_iff]; nlinarith [decay_pos K Q.corrQuadr, pdist_nonneg (σ.point t s) (σ.point u r)])
      (hA t ht s hs u hu r hr) hF hC
  · intro t ht s hs u hu r hr t' ht' s' hs' u' hu' r' hr' hd
    simp only [hv _ t ht s hs, hv _ u hu r hr, hv' _ t' ht' s' hs', hv' _ u' hu' r' hr']
    exact score_prod_mono h1' h2' h3' h1 h2 h3 _ _ _ _ d' d (unit' t' ht' s' hs') (unit' u' hu' r' hr') (unit t ht s hs) (unit u hu r hr)
      (Real.exp_pos _).le (Real.exp_le_exp.2 (by nlinarith [decay_pos K Q.corrQuadr]))
      (by rw [Real.exp_le_one_iff]; nlinarith [decay_pos K Q.corrQuadr, pdist_nonneg (σ.point t s) (σ.point u r)])
      (hA' t' ht' s' hs' u' hu' r' hr') (hA t ht s hs u hu r hr) hF hC

/-- C216: the covariance of two values of the unscaled field is never negative, and it is the larger the closer their points are in the frame of
the clouds, also between different layouts, times and cloud velocities. -/
theorem C216_covariance {Ω Ω' : Type} [MeasurableSpace Ω] [MeasurableSpace Ω'] (P : Measure Ω) (P' : Measure Ω') [IsProbabilityMeasure P]
    [IsProbabilityMeasure P'] (mvn : Ω → Mvn) (mvn' : Ω' → Mvn) (seed seed' : Option ℕ) (call call' : ℕ) (hmvn : MvnLaw P mvn seed call)
    (hmvn' : MvnLaw P' mvn' seed' call') (σ σ' : Setting) (hσ : σ.Good) (hσ' : σ'.Good) (K : ℝ) (Q : Params) (hQ : Proper Q) (noneg : Bool)
    (t s u r : ℕ) (ht : t < σ.times.length) (hs : s < σ.ePos.length) (hu : u < σ.times.length) (hr : r < σ.ePos.length)
    (t' s' u' r' : ℕ) (ht' : t' < σ'.times.length) (hs' : s' < σ'.ePos.length) (hu' : u' < σ'.times.length) (hr' : r' < σ'.ePos.length)
    (hd : pdist (σ.point t s) (σ.point u r) ≤ pdist (σ'.point t' s') (σ'.point u' r')) :
    0 ≤ cov[fun ω => fieldValue (mvn' ω) call' σ' K Q seed' false noneg t' s', fun ω => fieldValue (mvn' ω) call' σ' K Q seed' false noneg u' r'; P'] ∧
    cov[fun ω => fieldValue (mvn' ω) call' σ' K Q seed' false noneg t' s', fun ω => fieldValue (mvn' ω) call' σ' K Q seed' false noneg u' r'; P'] ≤
      cov[fun ω => fieldValue (mvn ω) call σ K Q seed false noneg t s, fun ω => fieldValue (mvn ω) call σ K Q seed false noneg u r; P] := by
  obtain ⟨c, h1, h2, h3, h4⟩ := two_fields P P' mvn mvn' seed seed' call call' hmvn hmvn' σ σ' hσ hσ' K Q hQ noneg
  obtain ⟨_, g1, _, g3, _⟩ := two_fields P' P' mvn' mvn' seed' seed' call' call' hmvn' hmvn' σ' σ' hσ' hσ' K Q hQ noneg
  have hp := h4 t ht s hs u hu r hr t' ht' s' hs' u' hu' r' hr' hd
  have hn := g3 t' ht' s' hs' u' hu' r' hr'
  rw [← (g1 t' ht' s' hs').2.2, (h2 t' ht' s' hs').2.2] at hn
  rw [covariance_eq_sub (value_memLp (h1 t ht s hs).1 (h1 t ht s hs).2.1) (value_memLp (h1 u hu r hr).1 (h1 u hu r hr).2.1),
    covariance_eq_sub (value_memLp (h2 t' ht' s' hs').1 (h2 t' ht' s' hs').2.1) (value_memLp (h2 u' hu' r' hr').1 (h2 u' hu' r' hr').2.1),
    (h1 t ht s hs).2.2, (h1 u hu r hr).2.2, (h2 t' ht' s' hs').2.2, (h2 u' hu' r' hr').2.2]
  simp only [Pi.mul_apply]
  exact ⟨by linarith, by linarith⟩

/-- C216: in particular the covariance of two values is at most the variance of one value, which is the same everywhere. -/
theorem C216_variance {Ω : Type} [MeasurableSpace Ω] (P : Measure Ω) [IsProbabilityMeasure P] (mvn : Ω → Mvn) (seed : Option ℕ) (call : ℕ)
    (hmvn : MvnLaw P mvn seed call) (σ : Setting) (hσ : σ.Good) (K : ℝ) (Q : Params) (hQ : Proper Q) (noneg : Bool)
    (t s u r w v : ℕ) (ht : t < σ.times.length) (hs : s < σ.ePos.length) (hu : u < σ.times.length) (hr : r < σ.ePos.length)
    (hw : w < σ.times.length) (hv : v < σ.ePos.length) :
    cov[fun ω => fieldValue (mvn ω) call σ K Q seed false noneg t s, fun ω => fieldValue (mvn ω) call σ K Q seed false noneg u r; P] ≤
      Var[fun ω => fieldValue (mvn ω) call σ K Q seed false noneg w v; P] := by
  obtain ⟨_, h1, _⟩ := two_fields P P mvn mvn seed seed call call hmvn hmvn σ σ hσ hσ K Q hQ noneg
  rw [← covariance_self (h1 w hw v hv).1.aemeasurable]
  exact (C216_covariance P P mvn mvn seed seed call call hmvn hmvn σ σ hσ hσ K Q hQ noneg w v w v hw hv hw hv t s u r ht hs hu hr
    (by rw [pdist_self]; exact pdist_nonneg _ _)).2

/-- The simultaneous values of the first two sites covary less than values 450 s apart. -/
example : ∃ mvn : (ℕ → ℝ) → Mvn, cov[fun ω => fieldValue (mvn ω) 0 demoSetting 0.52 defaultParams none false true 7 0,
    fun ω => fieldValue (mvn ω) 0 demoSetting 0.52 defaultParams none false true 7 1; Measure.infinitePi fun _ : ℕ => gaussianReal 0 1] ≤
      cov[fun ω => fieldValue (mvn ω) 0 demoSetting 0.52 defaultParams none false true 7 0,
        fun ω => fieldValue (mvn ω) 0 demoSetting 0.52 defaultParams none false true 37 1; Measure.infinitePi fun _ : ℕ => gaussianReal 0 1] := by
  obtain ⟨mvn, _, h⟩ := exists_mvnLaw
  refine ⟨mvn, (C216_covariance _ _ mvn mvn none none 0 0 (h _ _) (h _ _) demoSetting demoSetting demoSetting_good demoSetting_good 0.52 defaultParams default_proper true
    7 0 37 1 ?_ ?_ ?_ ?_ 7 0 7 1 ?_ ?_ ?_ ?_ ?_).2⟩
  any_goals simp [demoSetting]
  rw [show pdist _ _ = 0 by rw [pdist_eq_zero]; simp [Setting.point, driftPos]; norm_num]
  exact pdist_nonneg _ _

/-! ## C217 -/

/-- C217: seen as a function of the lag, the covariance of the values of two sites is largest at the lag after which the clouds have travelled the
along-wind part of their separation, and it decreases on both sides of that lag. -/
theorem C217_lag {Ω : Type} [MeasurableSpace Ω] (P : Measure Ω) [IsProbabilityMeasure P] (mvn : Ω → Mvn) (seed : Option ℕ) (call : ℕ)
    (hmvn : MvnLaw P mvn seed call) (σ : Setting) (hσ : σ.Good) (hcs : σ.cs ≠ 0) (K : ℝ) (Q : Params) (hQ : Proper Q) (noneg : Bool)
    (i j a b a' b' : ℕ) (hi : i < σ.ePos.length) (hj : j < σ.ePos.length) (ha : a < σ.times.length) (hb : b < σ.times.length)
    (ha' : a' < σ.times.length) (hb' : b' < σ.times.length) (lag : ℝ)
    (hlag : lag = (((σ.site j).1 - (σ.site i).1) * Real.cos σ.cd + ((σ.site j).2 - (σ.site i).2) * Real.sin σ.cd) / σ.cs)
    (hle : |(σ.times[b] - σ.times[a]) - lag| ≤ |(σ.times[b'] - σ.times[a']) - lag|) :
    cov[fun ω => fieldValue (mvn ω) call σ K Q seed false noneg a' i, fun ω => fieldValue (mvn ω) call σ K Q seed false noneg b' j; P] ≤
      cov[fun ω => fieldValue (mvn ω) call σ K Q seed false noneg a i, fun ω => fieldValue (mvn ω) call σ K Q seed false noneg b j; P] := by
  refine (C216_covariance P P mvn mvn seed seed call call hmvn hmvn σ σ hσ hσ K Q hQ noneg a i b j ha hi hb hj a' i b' j ha' hi hb' hj ?_).2
  have key : ∀ (x y : ℕ) (hx : x < σ.times.length) (hy : y < σ.times.length), ((σ.point x i).1 - (σ.point y j).1) ^ 2 + ((σ.point x i).2 - (σ.point y j).2) ^ 2 =
      (((σ.site j).1 - (σ.site i).1) ^ 2 + ((σ.site j).2 - (σ.site i).2) ^ 2 - (σ.cs * lag) ^ 2) + σ.cs ^ 2 * ((σ.times[y] - σ.times[x]) - lag) ^ 2 := by
    intro x y hx hy
    have hl : σ.cs * lag = ((σ.site j).1 - (σ.site i).1) * Real.cos σ.cd + ((σ.site j).2 - (σ.site i).2) * Real.sin σ.cd := by
      rw [hlag]
      field_simp
    have hsc := Real.sin_sq_add_cos_sq σ.cd
    simp only [Setting.point, driftPos, Setting.site, List.getD_eq_getElem _ _ hx, List.getD_eq_getElem _ _ hy] at hl ⊢
    linear_combination (σ.cs ^ 2 * (σ.times[y] - σ.times[x]) ^ 2) * hsc + 2 * σ.cs * (σ.times[y] - σ.times[x]) * hl
  unfold pdist
  apply Real.sqrt_le_sqrt
  rw [key a b ha hb, key a' b' ha' hb']
  have := sq_le_sq.2 hle
  nlinarith [sq_nonneg σ.cs]

/-- The northward site has its largest covariance with the first one at lag zero. -/
example : ∃ mvn : (ℕ → ℝ) → Mvn, ∀ a < 240, ∀ b < 240, cov[fun ω => fieldValue (mvn ω) 0 demoSetting 0.52 defaultParams none false true a 0,
    fun ω => fieldValue (mvn ω) 0 demoSetting 0.52 defaultParams none false true b 2; Measure.infinitePi fun _ : ℕ => gaussianReal 0 1] ≤
      cov[fun ω => fieldValue (mvn ω) 0 demoSetting 0.52 defaultParams none false true 7 0,
        fun ω => fieldValue (mvn ω) 0 demoSetting 0.52 defaultParams none false true 7 2; Measure.infinitePi fun _ : ℕ => gaussianReal 0 1] := by
  obtain ⟨mvn, _, h⟩ := exists_mvnLaw
  refine ⟨mvn, fun a ha b hb => C217_lag _ mvn none 0 (h _ _) demoSetting demoSetting_good (by simp [demoSetting]) 0.52 defaultParams default_proper true
    0 2 7 7 a b ?_ ?_ ?_ ?_ ?_ ?_ 0 ?_ ?_⟩
  any_goals simp [demoSetting, Setting.site]
  · exact ha
  · exact hb

/-! ## C218 -/

/-- The mean over the sites at time `t`. -/
noncomputable def siteMean (mvn : Mvn) (call : ℕ) (σ : Setting) (K : ℝ) (Q : Params) (seed : Option ℕ) (noneg : Bool) (t : ℕ) : ℝ :=
  (∑ s ∈ Finset.range σ.ePos.length, fieldValue mvn call σ K Q seed false noneg t s) / σ.ePos.length

theorem siteMean_variance {Ω : Type} [MeasurableSpace Ω] (P : Measure Ω) [IsProbabilityMeasure P] (mvn : Ω → Mvn) (seed : Option ℕ) (call : ℕ)
    (hmvn : MvnLaw P mvn seed call) (σ : Setting) (hσ : σ.Good) (K : ℝ) (Q : Params) (hQ : Proper Q) (noneg : Bool) (t : ℕ) (ht : t < σ.times.length) :
    Var[fun ω => siteMean (mvn ω) call σ K Q seed noneg t; P] = (∑ i ∈ Finset.range σ.ePos.length, ∑ j ∈ Finset.range σ.ePos.length,
      cov[fun ω => fieldValue (mvn ω) call σ K Q seed false noneg t i, fun ω => fieldValue (mvn ω) call σ K Q seed false noneg t j; P]) / σ.ePos.length ^ 2 := by
  obtain ⟨_, h1, _⟩ := two_fields P P mvn mvn seed seed call call hmvn hmvn σ σ hσ hσ K Q hQ noneg
  have hm : ∀ i ∈ Finset.range σ.ePos.length, MemLp (fun ω => fieldValue (mvn ω) call σ K Q seed false noneg t i) 2 P := by
    intro i hi
    have := h1 t ht i (Finset.mem_range.1 hi)
    exact value_memLp this.1 this.2.1
  have hmeas : Measurable fun ω => ∑ s ∈ Finset.range σ.ePos.length, fieldValue (mvn ω) call σ K Q seed false noneg t s :=
    Finset.measurable_sum _ fun i hi => (h1 t ht i (Finset.mem_range.1 hi)).1
  have e : (fun ω => siteMean (mvn ω) call σ K Q seed noneg t) = fun ω => (1 / (σ.ePos.length : ℝ)) *
      ∑ s ∈ Finset.range σ.ePos.length, fieldValue (mvn ω) call σ K Q seed false noneg t s := by
    ext ω
    unfold siteMean
    ring
  rw [e, variance_const_mul, ← covariance_self hmeas.aemeasurable, covariance_fun_sum_fun_sum' hm hm]
  ring

/-- C218: spreading the sites of a plant out, so that no two of them get closer, does not increase the variance of the plant mean. -/
theorem C218_spread {Ω Ω' : Type} [MeasurableSpace Ω] [MeasurableSpace Ω'] (P : Measure Ω) (P' : Measure Ω') [IsProbabilityMeasure P]
    [IsProbabilityMeasure P'] (mvn : Ω → Mvn) (mvn' : Ω' → Mvn) (seed seed' : Option ℕ) (call call' : ℕ) (hmvn : MvnLaw P mvn seed call)
    (hmvn' : MvnLaw P' mvn' seed' call') (σ σ' : Setting) (hσ : σ.Good) (hσ' : σ'.Good) (K : ℝ) (Q : Params) (hQ : Proper Q) (noneg : Bool)
    (t t' : ℕ) (ht : t < σ.times.length) (ht' : t' < σ'.times.length) (hn : σ'.ePos.length = σ.ePos.length)
    (hd : ∀ i < σ.ePos.length, ∀ j < σ.ePos.length, pdist (σ.site i) (σ.site j) ≤ pdist (σ'.site i) (σ'.site j)) :
    Var[fun ω => siteMean (mvn' ω) call' σ' K Q seed' noneg t'; P'] ≤ Var[fun ω => siteMean (mvn ω) call σ K Q seed noneg t; P] := by
  rw [siteMean_variance P mvn seed call hmvn σ hσ K Q hQ noneg t ht, siteMean_variance P' mvn' seed' call' hmvn' σ' hσ' K Q hQ noneg t' ht', hn]
  apply div_le_div_of_nonneg_right _ (by positivity)
  apply Finset.sum_le_sum
  intro i hi
  apply Finset.sum_le_sum
  intro j hj
  rw [Finset.mem_range] at hi hj
  have e : ∀ (σ : Setting) (t : ℕ), pdist (σ.point t i) (σ.point t j) = pdist (σ.site i) (σ.site j) := by
    intro σ t
    simp [pdist, Setting.point, Setting.site, driftPos]
  exact (C216_covariance P P' mvn mvn' seed seed' call call' hmvn hmvn' σ σ' hσ hσ' K Q hQ noneg t i t j ht hi ht hj t' i t' j ht' (hn ▸ hi) ht' (hn ▸ hj)
    (by rw [e, e]; exact hd i hi j hj)).2

/-- Twice the distances. -/
example : ∃ mvn : (ℕ → ℝ) → Mvn, Var[fun ω => siteMean (mvn ω) 0 ⟨[0, 15], [0, 900, 0], [0, 0, 900], 5, 1⟩ 0.52 defaultParams none true 1;
    Measure.infinitePi fun _ : ℕ => gaussianReal 0 1] ≤
      Var[fun ω => siteMean (mvn ω) 0 demoSetting 0.52 defaultParams none true 7; Measure.infinitePi fun _ : ℕ => gaussianReal 0 1] := by
  obtain ⟨mvn, _, h⟩ := exists_mvnLaw
  refine ⟨mvn, C218_spread _ _ mvn mvn none none 0 0 (h _ _) (h _ _) demoSetting ⟨[0, 15], [0, 900, 0], [0, 0, 900], 5, 1⟩ demoSetting_good ⟨by simp, by simp, rfl⟩ 0.52
    defaultParams default_proper true 7 1 ?_ ?_ rfl ?_⟩
  · simp [demoSetting]
  · simp
  · intro i hi j hj
    simp only [demoSetting, List.length_cons, List.length_nil] at hi hj
    interval_cases i <;> interval_cases j <;> simp [demoSetting, Setting.site, pdist] <;> norm_num

/-- C218: the plant mean varies no more than a single site. -/
theorem C218_below_site {Ω : Type} [MeasurableSpace Ω] (P : Measure Ω) [IsProbabilityMeasure P] (mvn : Ω → Mvn) (seed : Option ℕ) (call : ℕ)
    (hmvn : MvnLaw P mvn seed call) (σ : Setting) (hσ : σ.Good) (K : ℝ) (Q : Params) (hQ : Proper Q) (noneg : Bool)
    (t w v : ℕ) (ht : t < σ.times.length) (hw : w < σ.times.length) (hv : v < σ.ePos.length) :
    Var[fun ω => siteMean (mvn ω) call σ K Q seed noneg t; P] ≤ Var[fun ω => fieldValue (mvn ω) call σ K Q seed false noneg w v; P] := by
  rw [siteMean_variance P mvn seed call hmvn σ hσ K Q hQ noneg t ht]
  have hpos : (0 : ℝ) < σ.ePos.length := by exact_mod_cast (by omega : 0 < σ.ePos.length)
  rw [div_le_iff₀ (by positivity)]
  refine (Finset.sum_le_sum fun i hi => Finset.sum_le_sum fun j hj => C216_variance P mvn seed call hmvn σ hσ K Q hQ noneg t i t j w v ht (Finset.mem_range.1 hi) ht
    (Finset.mem_range.1 hj) hw hv).trans (le_of_eq ?_)
  simp
  ring

example : ∃ mvn : (ℕ → ℝ) → Mvn, Var[fun ω => siteMean (mvn ω) 0 demoSetting 0.52 defaultParams none true 7; Measure.infinitePi fun _ : ℕ => gaussianReal 0 1] ≤
    Var[fun ω => fieldValue (mvn ω) 0 demoSetting 0.52 defaultParams none false true 8 1; Measure.infinitePi fun _ : ℕ => gaussianReal 0 1] := by
  obtain ⟨mvn, _, h⟩ := exists_mvnLaw
  exact ⟨mvn, C218_below_site _ mvn none 0 (h _ _) demoSetting demoSetting_good 0.52 defaultParams default_proper true 7 8 1 (by simp [demoSetting]) (by simp [demoSetting])
    (by simp [demoSetting])⟩

/-! ## C219 -/

/-- C219: the mean square difference of two values grows with the distance of their points in the frame of the clouds. -/
theorem C219_difference {Ω Ω' : Type} [MeasurableSpace Ω] [MeasurableSpace Ω'] (P : Measure Ω) (P' : Measure Ω') [IsProbabilityMeasure P]
    [IsProbabilityMeasure P'] (mvn : Ω → Mvn) (mvn' : Ω' → Mvn) (seed seed' : Option ℕ) (call call' : ℕ) (hmvn : MvnLaw P mvn seed call)
    (hmvn' : MvnLaw P' mvn' seed' call') (σ σ' : Setting) (hσ : σ.Good) (hσ' : σ'.Good) (K : ℝ) (Q : Params) (hQ : Proper Q) (noneg : Bool)
    (t s u r : ℕ) (ht : t < σ.times.length) (hs : s < σ.ePos.length) (hu : u < σ.times.length) (hr : r < σ.ePos.length)
    (t' s' u' r' : ℕ) (ht' : t' < σ'.times.length) (hs' : s' < σ'.ePos.length) (hu' : u' < σ'.times.length) (hr' : r' < σ'.ePos.length)
    (hd : pdist (σ.point t s) (σ.point u r) ≤ pdist (σ'.point t' s') (σ'.point u' r')) :
    ∫ ω, (fieldValue (mvn ω) call σ K Q seed false noneg u r - fieldValue (mvn ω) call σ K Q seed false noneg t s) ^ 2 ∂P ≤
      ∫ ω, (fieldValue (mvn' ω) call' σ' K Q seed' false noneg u' r' - fieldValue (mvn' ω) call' σ' K Q seed' false noneg t' s') ^ 2 ∂P' := by
  obtain ⟨c, h1, h2, h3, h4⟩ := two_fields P P' mvn mvn' seed seed' call call' hmvn hmvn' σ σ' hσ hσ' K Q hQ noneg
  obtain ⟨_, _, _, _, g4⟩ := two_fields P' P mvn' mvn seed' seed call' call hmvn' hmvn σ' σ hσ' hσ K Q hQ noneg
  have expand : ∀ {Ω : Type} [MeasurableSpace Ω] (P : Measure Ω) [IsProbabilityMeasure P] (f g : Ω → ℝ) (_ : Measurable f ∧ (∀ ω, |f ω| ≤ 2) ∧ ∫ ω, f ω ∂P = c)
      (_ : Measurable g ∧ (∀ ω, |g ω| ≤ 2) ∧ ∫ ω, g ω ∂P = c), ∫ ω, (g ω - f ω) ^ 2 ∂P = ∫ ω, g ω * g ω ∂P + ∫ ω, f ω * f ω ∂P - 2 * ∫ ω, f ω * g ω ∂P := by
    intro Ω _ P _ f g hf hg
    have ib : ∀ {f g : Ω → ℝ} (_ : Measurable f ∧ (∀ ω, |f ω| ≤ 2) ∧ ∫ ω, f ω ∂P = c) (_ : Measurable g ∧ (∀ ω, |g ω| ≤ 2) ∧ ∫ ω, g ω ∂P = c),
        Integrable (fun ω => f ω * g ω) P := fun {f g} hf hg => integrable_bdd (hf.1.mul hg.1) (C := 2 * 2) fun ω => by
      rw [abs_mul]; exact mul_le_mul (hf.2.1 ω) (hg.2.1 ω) (abs_nonneg _) (by norm_num)
    rw [← integral_const_mul, ← integral_add (ib hg hg) (ib hf hf)]
    refine Eq.trans ?_ (integral_sub ((ib hg hg).add (ib hf hf)) ((ib hf hg).const_mul 2))
    congr 1
    ext ω
    ring
  rw [expand P _ _ (h1 t ht s hs) (h1 u hu r hr), expand P' _ _ (h2 t' ht' s' hs') (h2 u' hu' r' hr')]
  have := h4 t ht s hs u hu r hr t' ht' s' hs' u' hu' r' hr' hd
  have a1 := g4 t' ht' s' hs' t' ht' s' hs' t ht s hs t ht s hs (by rw [pdist_self, pdist_self])
  have a2 := g4 u' hu' r' hr' u' hu' r' hr' u hu r hr u hu r hr (by rw [pdist_self, pdist_self])
  linarith

/-- C219: with faster clouds or over longer time steps the mean square change at a site is at least as large. -/
theorem C219_ramp {Ω Ω' : Type} [MeasurableSpace Ω] [MeasurableSpace Ω'] (P : Measure Ω) (P' : Measure Ω') [IsProbabilityMeasure P]
    [IsProbabilityMeasure P'] (mvn : Ω → Mvn) (mvn' : Ω' → Mvn) (seed seed' : Option ℕ) (call call' : ℕ) (hmvn : MvnLaw P mvn seed call)
    (hmvn' : MvnLaw P' mvn' seed' call') (σ σ' : Setting) (hσ : σ.Good) (hσ' : σ'.Good) (K : ℝ) (Q : Params) (hQ : Proper Q) (noneg : Bool)
    (t u s t' u' s' : ℕ) (ht : t < σ.times.length) (hu : u < σ.times.length) (hs : s < σ.ePos.length) (ht' : t' < σ'.times.length)
    (hu' : u' < σ'.times.length) (hs' : s' < σ'.ePos.length)
    (hd : |σ.cs| * |σ.times[u] - σ.times[t]| ≤ |σ'.cs| * |σ'.times[u'] - σ'.times[t']|) :
    ∫ ω, (fieldValue (mvn ω) call σ K Q seed false noneg u s - fieldValue (mvn ω) call σ K Q seed false noneg t s) ^ 2 ∂P ≤
      ∫ ω, (fieldValue (mvn' ω) call' σ' K Q seed' false noneg u' s' - fieldValue (mvn' ω) call' σ' K Q seed' false noneg t' s') ^ 2 ∂P' := by
  refine C219_difference P P' mvn mvn' seed seed' call call' hmvn hmvn' σ σ' hσ hσ' K Q hQ noneg t s u s ht hs hu hs t' s' u' s' ht' hs' hu' hs' ?_
  have e : ∀ (σ : Setting) (t u s : ℕ) (ht : t < σ.times.length) (hu : u < σ.times.length), pdist (σ.point t s) (σ.point u s) = |σ.cs| * |σ.times[u] - σ.times[t]| := by
    intro σ t u s ht hu
    have hsc := Real.sin_sq_add_cos_sq σ.cd
    rw [← abs_mul, ← Real.sqrt_sq_eq_abs]
    unfold pdist
    congr 1
    simp only [Setting.point, driftPos, List.getD_eq_getElem _ _ ht, List.getD_eq_getElem _ _ hu]
    linear_combination (σ.cs ^ 2 * (σ.times[u] - σ.times[t]) ^ 2) * hsc
  rw [e σ t u s ht hu, e σ' t' u' s' ht' hu']
  exact hd

/-- Clouds at 1 m/s and at 25 m/s. -/
example : ∃ mvn : (ℕ → ℝ) → Mvn,
    ∫ ω, (fieldValue (mvn ω) 0 demoSetting 0.52 defaultParams none false true 8 1 - fieldValue (mvn ω) 0 demoSetting 0.52 defaultParams none false true 7 1) ^ 2
      ∂(Measure.infinitePi fun _ : ℕ => gaussianReal 0 1) ≤
    ∫ ω, (fieldValue (mvn ω) 0 ⟨[0, 15], [3], [4], 25, 1⟩ 0.52 defaultParams none false true 1 0 - fieldValue (mvn ω) 0 ⟨[0, 15], [3], [4], 25, 1⟩ 0.52 defaultParams none false true 0 0) ^ 2
      ∂(Measure.infinitePi fun _ : ℕ => gaussianReal 0 1) := by
  obtain ⟨mvn, _, h⟩ := exists_mvnLaw
  refine ⟨mvn, C219_ramp _ _ mvn mvn none none 0 0 (h _ _) (h _ _) demoSetting ⟨[0, 15], [3], [4], 25, 1⟩ demoSetting_good ⟨by simp, by simp, rfl⟩ 0.52 defaultParams default_proper true
    7 8 1 0 1 0 ?_ ?_ ?_ ?_ ?_ ?_ ?_⟩
  any_goals simp [demoSetting]
  norm_num

end SST.Copula
