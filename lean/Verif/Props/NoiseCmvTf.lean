import Verif.Spec.NoiseCmvTf
import Verif.Props.CmvTf
import Verif.Props.NoisePredict

/-!
# C238: cloud motion from records with noise, backend 'tf'

Specification: `Spec/NoiseCmvTf.lean`.
-/

namespace SST.Props.NoiseCmvTf
open SST SST.Cmv SST.Spec SST.Spatial SST.Tf SST.Props.Cmv SST.Props.RobustCmv SST.Props.CmvTf SST.Props.NoisePredict MeasureTheory

variable {ι : Type} [DecidableEq ι]

/-- The record of a pattern with a disturbance, as a column. -/
theorem noisy_column (q : ℤ → ℝ) (n : ℕ) (m : ℤ) (e : ℕ → ℝ) :
    (((recordOf q n m).map some).zipIdx.map fun v => v.1.map (· + e v.2)) = (recordOf (fun t => q (t - m) + e t.toNat) n 0).map some := by
  rw [← noisy_record, List.zipIdx_map, List.map_map, List.map_map]
  rfl

/-- The delay of a pair of disturbed records. -/
theorem tfDelays_noisy (ham : ℕ → List ℝ) (nanD : List (Option ℝ) → List (Option ℝ) → Option ℝ) {dt ρ η : ℝ} (hdt : 0 < dt) (hρ0 : 0 ≤ ρ) (hη : 0 ≤ η) (hη1 : η < 1)
    (hρ : 0.6 < ((1 - jointPart ρ η) / (1 + jointPart ρ η)) ^ 2) {q : ℤ → ℝ} {n S K : ℕ} (hK : LastBin (n / 5) K dt) {m m' : ℤ}
    (hS : AsManyAsFit n (n / 5) (n / 5 - n / 5 / 2) S) (hm : 2 * |((m' - m : ℤ) : ℝ)| < (1 - jointPart ρ η) * (n / 5 : ℕ))
    (hedge : ∀ k : ℕ, k ≤ n / 5 / 2 → (k : ℝ) / ((n / 5 : ℕ) * dt) < 0.02 →
      ∑ i ∈ Finset.range S, edgeEffect (ham (n / 5)) (fun t => q (t - m)) (n / 5) (i * (n / 5 - n / 5 / 2)) (m' - m) ^ 2 ≤
        ρ ^ 2 * ∑ i ∈ Finset.range S, ‖patternSpec (ham (n / 5)) (fun t => q (t - m)) (n / 5) (i * (n / 5 - n / 5 / 2)) k‖ ^ 2)
    {p : ℕ → ℝ} (hp : ∀ k ≤ K, 0 < p k ∧ p k ≤ binPower (ham (n / 5)) (fun t => q (t - m)) (n / 5) S k) {e e' : ℕ → ℝ}
    (he : ∀ k ≤ K, binPower (ham (n / 5)) (fun t => e t.toNat) (n / 5) S k ≤ η ^ 2 * p k)
    (he' : ∀ k ≤ K, binPower (ham (n / 5)) (fun t => e' t.toNat) (n / 5) S k ≤ η ^ 2 * p k) :
    ∃ d r, tfDelays ham nanD dt ((recordOf (fun t => q (t - m) + e t.toNat) n 0).map some) ((recordOf (fun t => q (t - m') + e' t.toNat) n 0).map some) = (some d, r) ∧
      |d - (m' - m : ℤ) * dt| ≤ jointPart ρ η * ((n / 5 : ℕ) * dt) / (2 * K) := by
  have hh : n / 5 - n / 5 / 2 = n / 5 - ⌊((n / 5 : ℕ) : ℝ) * 0.5⌋₊ := by
    congr 1
    symm
    have h2 : ((n / 5 : ℕ) : ℝ) * 0.5 = ((n / 5 : ℕ) : ℝ) / ((2 : ℕ) : ℝ) := by push_cast; ring
    rw [h2, Nat.floor_div_eq_div]
  have hL0 : 0 < n / 5 := by have := hK.1; have := hK.2.1; omega
  have hLd : (0 : ℝ) < (n / 5 : ℕ) * dt := by
    have : (0 : ℝ) < (n / 5 : ℕ) := by exact_mod_cast hL0
    positivity
  have hbelow : ∀ k : ℕ, k ≤ n / 5 / 2 → (k : ℝ) / ((n / 5 : ℕ) * dt) < 0.02 → k ≤ K := by
    intro k hk h1
    by_contra hc
    have hc' : K + 1 ≤ k := by omega
    have h2 := hK.2.2.2 (by omega)
    have : ((K : ℝ) + 1) / ((n / 5 : ℕ) * dt) ≤ k / ((n / 5 : ℕ) * dt) := by
      apply div_le_div_of_nonneg_right _ hLd.le
      exact_mod_cast hc'
    linarith
  have hfit : ∀ i ∈ Finset.range S, i * (n / 5 - n / 5 / 2) + n / 5 ≤ n := by
    intro i hi
    rw [Finset.mem_range] at hi
    have : i * (n / 5 - n / 5 / 2) ≤ (S - 1) * (n / 5 - n / 5 / 2) := Nat.mul_le_mul_right _ (by omega)
    have := hS.2.2.1
    omega
  have hlen : ∀ (a : ℤ → ℝ), (recordOf a n 0).length = n := fun a => by simp [recordOf]
  obtain ⟨⟨d, mask, mc, h1, h2⟩, -⟩ := frozen_near "A" "B" (recordOf (fun t => q (t - m) + e t.toNat) n 0) (recordOf (fun t => q (t - m') + e' t.toNat) n 0)
    n 5 (n / 5) (n / 5 - n / 5 / 2) S K (hlen _) (hlen _) (m' - m) dt 0.5 0.02 (jointPart ρ η) ham .none
    (some 0.6) hdt (by norm_num) rfl hh hS (jointPart_nonneg hρ0 hη hη1) hm
    (fun k hk hkf => by
      have hkK := hbelow k hk hkf
      exact close_noisy hρ0 hη hη1 hfit (hp k hkK).1 (hp k hkK).2 (hedge k hk hkf) (he k hkK) (he' k hkK) rfl rfl)
    (by intro l hl; cases hl; exact hρ) hK.1 hK.2.1 hK.2.2.1 hK.2.2.2
  have hx : ∃ e₁, xcorrExtras dt (recordOf (fun t => q (t - m) + e t.toNat) n 0) (recordOf (fun t => q (t - m') + e' t.toNat) n 0) (some d) = .ok e₁ := by
    unfold xcorrExtras
    rw [Corr.correlation_coeff (by decide +kernel)]
    exact ⟨_, rfl⟩
  obtain ⟨e₁, hx⟩ := hx
  refine ⟨d, (finiteOf e₁.1, finiteOf e₁.2.1), ?_, h2⟩
  unfold tfDelays
  rw [if_neg (by simp)]
  simp only [List.filterMap_map, Function.comp_def, id, List.filterMap_some]
  rw [h1]
  simp only [hx]

/-- **C238.**  All sites record one pattern moving with the speed `s₀` in the direction `θ₀`, and every site adds a disturbance, at most the part `η` of the spectrum of the pattern in the
bins used.  The delay `compute_cmv` works with for any pair of sites (backend 'tf') differs from the travel time by at most `(ρ + 2 η) / (1 - η) · T / 2K`: `T` is the length of a segment, a
fifth of the record, `K` its last bin below 0.02 Hz and `ρ` the relative size of the edge effects. -/
theorem C238_delays (x : Ext) (ham : ℕ → List ℝ) (nanD : List (Option ℝ) → List (Option ℝ) → Option ℝ) (dt ρ η : ℝ) (hdt : 0 < dt)
    (hx : ∀ a b, x.delays "tf" a b = tfDelays ham nanD dt a b) (hρ0 : 0 ≤ ρ) (hη : 0 ≤ η) (hη1 : η < 1) (hρ : 0.6 < ((1 - jointPart ρ η) / (1 + jointPart ρ η)) ^ 2)
    (q : ℤ → ℝ) (n S K : ℕ) (hK : LastBin (n / 5) K dt) (m : ι → ℤ) (ts : List (ι × List (Option ℝ))) (hp : SeenPattern ham n S dt ρ q m ts)
    (hshort : ∀ r ∈ ts, ∀ r' ∈ ts, 2 * |((m r'.1 - m r.1 : ℤ) : ℝ)| < (1 - jointPart ρ η) * (n / 5 : ℕ))
    (p : ℕ → ℝ) (hpow : ∀ k ≤ K, 0 < p k ∧ ∀ r ∈ ts, p k ≤ binPower (ham (n / 5)) (fun t => q (t - m r.1)) (n / 5) S k)
    (e : ι → ℕ → ℝ) (hq : ∀ r ∈ ts, ∀ k ≤ K, binPower (ham (n / 5)) (fun t => e r.1 t.toNat) (n / 5) S k ≤ η ^ 2 * p k)
    (pos : List (ι × Vec)) (s₀ θ₀ t₀ : ℝ) (harr : ∀ p ∈ pos, (m p.1 : ℝ) * dt = t₀ + travelTime s₀ θ₀ p.2)
    (ref : RefArg ι) (method backend : String) (hb : backend.toLower = "tf") (options : Option Dict) (out : Out ι)
    (hout : (computeCmv x (disturbedSeries ts e) pos ref method backend options).1 = .ok out) :
    ∀ r ∈ out.rows, ∃ τ, r.1.delay = some τ ∧ |τ - travelTime s₀ θ₀ r.1.vec| ≤ jointPart ρ η * ((n / 5 : ℕ) * dt) / (2 * K) := by
  intro r hr
  obtain ⟨⟨a, b⟩, h⟩ := rows_statOf hout r hr
  rw [hb] at h
  obtain ⟨-, sa, sb, pa, pb, m1, m2, m3, m4, e1, -, e3⟩ := stat_fields h
  have ea := harr _ m3
  have eb := harr _ m4
  simp only [disturbedSeries, List.mem_map] at m1 m2
  obtain ⟨ra, ha, hea⟩ := m1
  obtain ⟨rb, hb', heb⟩ := m2
  obtain ⟨rfl, rfl⟩ := Prod.mk.inj hea
  obtain ⟨rfl, rfl⟩ := Prod.mk.inj heb
  simp only at ea eb
  obtain ⟨d, e', hd, hd'⟩ := tfDelays_noisy ham nanD hdt hρ0 hη hη1 hρ hK hp.segments (hshort _ ha _ hb') (fun k hk hkf => (hp.edges _ ha _ hb' k hk hkf).2)
    (fun k hk => ⟨(hpow k hk).1, (hpow k hk).2 _ ha⟩) (hq _ ha) (hq _ hb')
  refine ⟨d, by rw [e1, hx, hp.recorded _ ha, hp.recorded _ hb', noisy_column, noisy_column, hd], ?_⟩
  have : travelTime s₀ θ₀ r.1.vec = ((m rb.1 - m ra.1 : ℤ) : ℝ) * dt := by
    push_cast
    rw [sub_mul, ea, eb, e3]
    unfold travelTime
    simp only
    ring
  rw [this]
  exact hd'

/-- **C238.**  The velocity gagne then returns. -/
theorem C238_velocity (x : Ext) (hlsq : ExactLsq x.leastsq) (ham : ℕ → List ℝ) (nanD : List (Option ℝ) → List (Option ℝ) → Option ℝ) (dt ρ η : ℝ) (hdt : 0 < dt)
    (hx : ∀ a b, x.delays "tf" a b = tfDelays ham nanD dt a b) (hρ0 : 0 ≤ ρ) (hη : 0 ≤ η) (hη1 : η < 1) (hρ : 0.6 < ((1 - jointPart ρ η) / (1 + jointPart ρ η)) ^ 2)
    (q : ℤ → ℝ) (n S K : ℕ) (hK : LastBin (n / 5) K dt) (m : ι → ℤ) (ts : List (ι × List (Option ℝ))) (hp : SeenPattern ham n S dt ρ q m ts)
    (hshort : ∀ r ∈ ts, ∀ r' ∈ ts, 2 * |((m r'.1 - m r.1 : ℤ) : ℝ)| < (1 - jointPart ρ η) * (n / 5 : ℕ))
    (p : ℕ → ℝ) (hpow : ∀ k ≤ K, 0 < p k ∧ ∀ r ∈ ts, p k ≤ binPower (ham (n / 5)) (fun t => q (t - m r.1)) (n / 5) S k)
    (e : ι → ℕ → ℝ) (hq : ∀ r ∈ ts, ∀ k ≤ K, binPower (ham (n / 5)) (fun t => e r.1 t.toNat) (n / 5) S k ≤ η ^ 2 * p k)
    (pos : List (ι × Vec)) (s₀ θ₀ t₀ : ℝ) (hs₀ : 0 < s₀) (harr : ∀ p ∈ pos, (m p.1 : ℝ) * dt = t₀ + travelTime s₀ θ₀ p.2)
    (ref : RefArg ι) (method backend : String) (hm : method.toLower = "gagne") (hb : backend.toLower = "tf") (options : Option Dict) (out : Out ι)
    (hout : (computeCmv x (disturbedSeries ts e) pos ref method backend options).1 = .ok out) (h2 : 2 ≤ countFlag .good out.rows) :
    ((∃ r ∈ out.rows, r.2 = .good ∧ countFlag .good out.rows * (jointPart ρ η * ((n / 5 : ℕ) * dt) / (2 * K)) ^ 2 < travelTime s₀ θ₀ r.1.vec ^ 2) →
      out.speed ≠ none) ∧
    VelocityWithin out s₀ θ₀ (jointPart ρ η * ((n / 5 : ℕ) * dt) / (2 * K)) := by
  have h := C238_delays x ham nanD dt ρ η hdt hx hρ0 hη hη1 hρ q n S K hK m ts hp hshort p hpow e hq pos s₀ θ₀ t₀ harr ref method backend hb options out hout
  have := jointPart_nonneg hρ0 hη hη1
  refine C204_velocity x hlsq _ pos ref method backend hm options out hout h2 ?_ s₀ θ₀ _ hs₀ (by positivity) ?_
  · intro r hr _
    obtain ⟨τ, hτ, -⟩ := h r hr
    rw [hτ]; simp
  · intro r hr _ τ hτ
    obtain ⟨τ', hτ', hb'⟩ := h r hr
    rw [hτ] at hτ'
    cases hτ'
    exact hb'

/-- **C238.**  And with jamaly: let the travel time along every GOOD pair be at least `T` and the bound `δ` on the errors of the delays smaller than `T`.  The direction `θ` returned satisfies
`sin² (θ - θ₀) · (scatter of the pair velocities) ≤ 2 (s₀ δ / (T - δ))²`, and the speed differs from `s₀ cos (θ - θ₀)` by at most `s₀ δ / (T - δ) + M |sin (θ - θ₀)|`, `M` bounding the apparent
speeds at right angles to the motion. -/
theorem C238_jamaly (x : Ext) (hmin : LocalMinimizer x.minimizeScalar) (ham : ℕ → List ℝ) (nanD : List (Option ℝ) → List (Option ℝ) → Option ℝ) (dt ρ η : ℝ) (hdt : 0 < dt)
    (hx : ∀ a b, x.delays "tf" a b = tfDelays ham nanD dt a b) (hρ0 : 0 ≤ ρ) (hη : 0 ≤ η) (hη1 : η < 1) (hρ : 0.6 < ((1 - jointPart ρ η) / (1 + jointPart ρ η)) ^ 2)
    (q : ℤ → ℝ) (n S K : ℕ) (hK : LastBin (n / 5) K dt) (m : ι → ℤ) (ts : List (ι × List (Option ℝ))) (hp : SeenPattern ham n S dt ρ q m ts)
    (hshort : ∀ r ∈ ts, ∀ r' ∈ ts, 2 * |((m r'.1 - m r.1 : ℤ) : ℝ)| < (1 - jointPart ρ η) * (n / 5 : ℕ))
    (p : ℕ → ℝ) (hpow : ∀ k ≤ K, 0 < p k ∧ ∀ r ∈ ts, p k ≤ binPower (ham (n / 5)) (fun t => q (t - m r.1)) (n / 5) S k)
    (e : ι → ℕ → ℝ) (hq : ∀ r ∈ ts, ∀ k ≤ K, binPower (ham (n / 5)) (fun t => e r.1 t.toNat) (n / 5) S k ≤ η ^ 2 * p k)
    (pos : List (ι × Vec)) (s₀ θ₀ t₀ : ℝ) (hs₀ : 0 < s₀) (harr : ∀ p ∈ pos, (m p.1 : ℝ) * dt = t₀ + travelTime s₀ θ₀ p.2)
    (ref : RefArg ι) (method backend : String) (hm : method.toLower = "jamaly") (hb : backend.toLower = "tf") (options : Option Dict) (out : Out ι)
    (hout : (computeCmv x (disturbedSeries ts e) pos ref method backend options).1 = .ok out) (h2 : 2 ≤ countFlag .good out.rows)
    (δ T : ℝ) (hδ : δ = jointPart ρ η * ((n / 5 : ℕ) * dt) / (2 * K)) (hT : δ < T) (hlong : ∀ r ∈ out.rows, r.2 = .good → T ≤ |travelTime s₀ θ₀ r.1.vec|) :
    ∃ s θ, out.speed = some s ∧ out.angle = some θ ∧
      Real.sin (θ - θ₀) ^ 2 * (variance (goodSpeeds out.rows 0) + variance (goodSpeeds out.rows (Real.pi / 2))) ≤ 2 * (s₀ * (δ / (T - δ))) ^ 2 ∧
      ∀ M, (∀ v ∈ goodSpeeds out.rows (θ₀ + Real.pi / 2), |v| ≤ M) → |s - s₀ * Real.cos (θ - θ₀)| ≤ s₀ * (δ / (T - δ)) + M * |Real.sin (θ - θ₀)| := by
  have h := C238_delays x ham nanD dt ρ η hdt hx hρ0 hη hη1 hρ q n S K hK m ts hp hshort p hpow e hq pos s₀ θ₀ t₀ harr ref method backend hb options out hout
  have := jointPart_nonneg hρ0 hη hη1
  have hδ0 : 0 ≤ δ := by rw [hδ]; positivity
  refine C205_noise x hmin _ pos ref method backend hm options out hout h2 s₀ θ₀ _ hs₀ ?_
  intro r hr hg τ hτ
  obtain ⟨τ', hτ', hb'⟩ := h r hr
  rw [hτ] at hτ'
  cases hτ'
  rw [← hδ] at hb'
  have h1 := hlong r hr hg
  have h3 : T - δ ≤ |τ| := by
    have := abs_sub_abs_le_abs_sub (travelTime s₀ θ₀ r.1.vec) τ
    rw [abs_sub_comm] at this
    linarith
  have hpos : 0 < T - δ := by linarith
  calc |τ - travelTime s₀ θ₀ r.1.vec| ≤ δ := hb'
    _ = δ / (T - δ) * (T - δ) := by field_simp
    _ ≤ δ / (T - δ) * |τ| := by gcongr

variable {Ω : Type} [MeasurableSpace Ω] {Pr : Measure Ω} [IsProbabilityMeasure Pr]

/-- **C238.**  White noise of the variance `σ²` at every site: whatever table `compute_cmv` returns, its delays miss the travel times by more than the bound, or the velocity misses the true
one by more than follows from it, with probability at most the number of sites times the sum over the bins used of the expected power of the noise over the part `η²` of the power `p k`. -/
theorem C238_probability (x : Ext) (hlsq : ExactLsq x.leastsq) (ham : ℕ → List ℝ) (nanD : List (Option ℝ) → List (Option ℝ) → Option ℝ) (dt ρ η : ℝ) (hdt : 0 < dt)
    (hx : ∀ a b, x.delays "tf" a b = tfDelays ham nanD dt a b) (hρ0 : 0 ≤ ρ) (hη : 0 < η) (hη1 : η < 1) (hρ : 0.6 < ((1 - jointPart ρ η) / (1 + jointPart ρ η)) ^ 2)
    (q : ℤ → ℝ) (n S K : ℕ) (hw : (ham (n / 5)).length = n / 5) (hK : LastBin (n / 5) K dt) (m : ι → ℤ) (ts : List (ι × List (Option ℝ))) (hp : SeenPattern ham n S dt ρ q m ts)
    (hshort : ∀ r ∈ ts, ∀ r' ∈ ts, 2 * |((m r'.1 - m r.1 : ℤ) : ℝ)| < (1 - jointPart ρ η) * (n / 5 : ℕ))
    (p : ℕ → ℝ) (hpow : ∀ k ≤ K, 0 < p k ∧ ∀ r ∈ ts, p k ≤ binPower (ham (n / 5)) (fun t => q (t - m r.1)) (n / 5) S k)
    (u : ι → ℕ → Ω → ℝ) (σ : ℝ) (hu : ∀ i, WhiteNoise Pr (u i) σ)
    (pos : List (ι × Vec)) (s₀ θ₀ t₀ : ℝ) (hs₀ : 0 < s₀) (harr : ∀ p ∈ pos, (m p.1 : ℝ) * dt = t₀ + travelTime s₀ θ₀ p.2)
    (ref : RefArg ι) (method backend : String) (hm : method.toLower = "gagne") (hb : backend.toLower = "tf") (options : Option Dict) :
    Pr.real {ω | ∀ out, (computeCmv x (disturbedSeries ts fun i j => u i j ω) pos ref method backend options).1 = .ok out →
        (∀ r ∈ out.rows, ∃ τ, r.1.delay = some τ ∧ |τ - travelTime s₀ θ₀ r.1.vec| ≤ jointPart ρ η * ((n / 5 : ℕ) * dt) / (2 * K)) ∧
        (2 ≤ countFlag .good out.rows → VelocityWithin out s₀ θ₀ (jointPart ρ η * ((n / 5 : ℕ) * dt) / (2 * K)))}ᶜ ≤
      ts.length * ∑ k ∈ Finset.range (K + 1), S * (σ ^ 2 * ((ham (n / 5)).map fun v => v ^ 2).sum) / (η ^ 2 * p k) := by
  have hb1 := quiet_ids hu (by have := hK.1; have := hK.2.1; omega) hw hp.segments hη (fun k hk => (hpow k hk).1) (ts.map Prod.fst)
  rw [List.length_map] at hb1
  refine le_trans (measureReal_mono ?_ (measure_ne_top _ _)) hb1
  intro ω hω
  rw [Set.mem_compl_iff, Set.mem_ofPred_eq] at hω
  rw [Set.mem_ofPred_eq]
  intro hc
  have hc' : ∀ r ∈ ts, ∀ k ≤ K, binPower (ham (n / 5)) (fun t => (fun i j => u i j ω) r.1 t.toNat) (n / 5) S k ≤ η ^ 2 * p k :=
    fun r hr => hc r.1 (List.mem_map_of_mem hr)
  refine hω fun out hout => ⟨?_, fun h2 => ?_⟩
  · exact C238_delays x ham nanD dt ρ η hdt hx hρ0 hη.le hη1 hρ q n S K hK m ts hp hshort p hpow (fun i j => u i j ω) hc' pos s₀ θ₀ t₀ harr ref method backend hb options out hout
  · exact (C238_velocity x hlsq ham nanD dt ρ η hdt hx hρ0 hη.le hη1 hρ q n S K hK m ts hp hshort p hpow (fun i j => u i j ω) hc' pos s₀ θ₀ t₀ hs₀ harr ref method backend hm hb options out hout h2).2

/-! ## A concrete case -/

theorem seen_power {u : ℤ} (hu : u = 0 ∨ u = 1) (k : ℕ) : 1 ≤ binPower (flatTop 6) (fun t => upDown (t - u)) 6 9 k := by
  refine le_trans (le_of_eq ?_) (Finset.single_le_sum (f := fun i => ‖patternSpec (flatTop 6) (fun t => upDown (t - u)) 6 (i * 3) k‖ ^ 2)
    (fun i _ => by positivity) (Finset.mem_range.2 (show 4 < 9 by norm_num)))
  simp only [flat_spec _ hu]
  norm_num

/-- A disturbance of one sample in the middle of the record, seen in two segments at most. -/
theorem blip_power (k : ℕ) : binPower (flatTop 6) (fun t => if t.toNat = 3 then (0.05 : ℝ) else 0) 6 9 k ≤ 0.05 ^ 2 * 1 := by
  unfold binPower
  have h0 : ∀ i, i < 9 → i ≠ 0 → patternSpec (flatTop 6) (fun t => if t.toNat = 3 then (0.05 : ℝ) else 0) 6 (i * (6 - 6 / 2)) k = 0 := by
    intro i hi hi0
    unfold patternSpec
    interval_cases i <;> simp [Finset.sum_range_succ, flatTop] at hi0 ⊢
  have h1 : patternSpec (flatTop 6) (fun t => if t.toNat = 3 then (0.05 : ℝ) else 0) 6 (0 * (6 - 6 / 2)) k = 0.05 * Complex.exp (-2 * Real.pi * Complex.I * (3 * k : ℝ) / 6) := by
    unfold patternSpec
    simp [Finset.sum_range_succ, flatTop]
  rw [Finset.sum_eq_single_of_mem 0 (Finset.mem_range.2 (by norm_num)) (fun i hi hne => by rw [h0 i (Finset.mem_range.1 hi) hne]; simp), h1, norm_mul,
    show (-2 * Real.pi * Complex.I * (3 * k : ℝ) / 6 : ℂ) = ((-2 * Real.pi * (3 * k) / 6 : ℝ) : ℂ) * Complex.I by push_cast; ring, Complex.norm_exp_ofReal_mul_I]
  norm_num

/-- The hypotheses of C238 hold in the concrete case of C222 with a disturbance of one sample at every site. -/
example (x : Ext) (hls : ExactLsq x.leastsq) (nanD : List (Option ℝ) → List (Option ℝ) → Option ℝ)
    (hx : ∀ a b, x.delays "tf" a b = tfDelays flatTop nanD 10 a b) (out : Out ℕ)
    (hout : (computeCmv x (disturbedSeries longSeries fun _ j => if j = 3 then 0.05 else 0) threeSites .none "gagne" "tf" none).1 = .ok out) (h2 : 2 ≤ countFlag .good out.rows) :
    VelocityWithin out (Real.sqrt (1 / 2)) (Real.pi / 4) (jointPart 0 0.05 * ((30 / 5 : ℕ) * 10) / (2 * (1 : ℕ))) := by
  have hK : LastBin (30 / 5) 1 10 := by unfold LastBin; norm_num
  have hj : jointPart 0 0.05 = 2 / 19 := part_demo
  have hq : ∀ r ∈ longSeries, ∀ k ≤ 1, binPower (flatTop (30 / 5)) (fun t => (fun (_ j : ℕ) => if j = 3 then (0.05 : ℝ) else 0) r.1 t.toNat) (30 / 5) 9 k ≤ 0.05 ^ 2 * (fun _ => 1 : ℕ → ℝ) k :=
    fun r _ k _ => blip_power k
  refine (C238_velocity x hls flatTop nanD 10 0 0.05 (by norm_num) hx le_rfl (by norm_num) (by norm_num) (by rw [hj]; norm_num) upDown 30 9 1 hK arrives longSeries long_seen
    (fun r hr r' hr' => ?_) (fun _ => 1) (fun k _ => ⟨one_pos, fun r hr => seen_power (longSeries_mem hr).2 k⟩) (fun _ j => if j = 3 then 0.05 else 0) hq threeSites
    (Real.sqrt (1 / 2)) (Real.pi / 4) 0 (by positivity) (fun p hp => ?_) .none "gagne" "tf" (by decide +kernel) (by decide +kernel) none out hout h2).2
  · rw [hj]
    rcases (longSeries_mem hr).2 with h | h <;> rcases (longSeries_mem hr').2 with h' | h' <;> rw [h, h'] <;> norm_num
  · simp only [threeSites, List.mem_cons, List.not_mem_nil, or_false] at hp
    rcases hp with rfl | rfl | rfl <;> simp only [travelTime, arrives, Real.cos_pi_div_four, Real.sin_pi_div_four]
    · norm_num
    · norm_num
      nlinarith [Real.mul_self_sqrt (show (0 : ℝ) ≤ 2 by norm_num)]
    · norm_num
      nlinarith [Real.mul_self_sqrt (show (0 : ℝ) ≤ 2 by norm_num)]

example (x : Ext) (hmin : LocalMinimizer x.minimizeScalar) (nanD : List (Option ℝ) → List (Option ℝ) → Option ℝ)
    (hx : ∀ a b, x.delays "tf" a b = tfDelays flatTop nanD 10 a b) (out : Out ℕ)
    (hout : (computeCmv x (disturbedSeries longSeries fun _ j => if j = 3 then 0.05 else 0) threeSites .none "jamaly" "tf" none).1 = .ok out) (h2 : 2 ≤ countFlag .good out.rows)
    (hlong : ∀ r ∈ out.rows, r.2 = .good → 10 ≤ |travelTime (Real.sqrt (1 / 2)) (Real.pi / 4) r.1.vec|) :
    ∃ s θ, out.speed = some s ∧ out.angle = some θ ∧
      Real.sin (θ - Real.pi / 4) ^ 2 * (variance (goodSpeeds out.rows 0) + variance (goodSpeeds out.rows (Real.pi / 2))) ≤ 2 * (Real.sqrt (1 / 2) * (60 / 19 / (10 - 60 / 19))) ^ 2 := by
  have hK : LastBin (30 / 5) 1 10 := by unfold LastBin; norm_num
  have hj : jointPart 0 0.05 = 2 / 19 := part_demo
  have hq : ∀ r ∈ longSeries, ∀ k ≤ 1, binPower (flatTop (30 / 5)) (fun t => (fun (_ j : ℕ) => if j = 3 then (0.05 : ℝ) else 0) r.1 t.toNat) (30 / 5) 9 k ≤ 0.05 ^ 2 * (fun _ => 1 : ℕ → ℝ) k :=
    fun r _ k _ => blip_power k
  have hs : ∀ r ∈ longSeries, ∀ r' ∈ longSeries, 2 * |((arrives r'.1 - arrives r.1 : ℤ) : ℝ)| < (1 - jointPart 0 0.05) * (30 / 5 : ℕ) := by
    intro r hr r' hr'
    rw [hj]
    rcases (longSeries_mem hr).2 with h | h <;> rcases (longSeries_mem hr').2 with h' | h' <;> rw [h, h'] <;> norm_num
  have ha : ∀ p ∈ threeSites, (arrives p.1 : ℝ) * 10 = 0 + travelTime (Real.sqrt (1 / 2)) (Real.pi / 4) p.2 := by
    intro p hp
    simp only [threeSites, List.mem_cons, List.not_mem_nil, or_false] at hp
    rcases hp with rfl | rfl | rfl <;> simp only [travelTime, arrives, Real.cos_pi_div_four, Real.sin_pi_div_four]
    · norm_num
    · norm_num
      nlinarith [Real.mul_self_sqrt (show (0 : ℝ) ≤ 2 by norm_num)]
    · norm_num
      nlinarith [Real.mul_self_sqrt (show (0 : ℝ) ≤ 2 by norm_num)]
  obtain ⟨s, θ, h1, h2, h3, -⟩ := C238_jamaly x hmin flatTop nanD 10 0 0.05 (by norm_num) hx le_rfl (by norm_num) (by norm_num) (by rw [hj]; norm_num) upDown 30 9 1 hK arrives longSeries long_seen
    hs (fun _ => 1) (fun k _ => ⟨one_pos, fun r hr => seen_power (longSeries_mem hr).2 k⟩) (fun _ j => if j = 3 then 0.05 else 0) hq threeSites
    (Real.sqrt (1 / 2)) (Real.pi / 4) 0 (by positivity) ha .none "jamaly" "tf" (by decide +kernel) (by decide +kernel) none out hout h2 (60 / 19) 10 (by rw [hj]; norm_num) (by norm_num) hlong
  exact ⟨s, θ, h1, h2, h3⟩

/-- The hypotheses of `C238_probability` hold in the same case (white noise exists: `gauss_white`). -/
example (x : Ext) (hls : ExactLsq x.leastsq) (nanD : List (Option ℝ) → List (Option ℝ) → Option ℝ)
    (hx : ∀ a b, x.delays "tf" a b = tfDelays flatTop nanD 10 a b) (u : ℕ → ℕ → Ω → ℝ) (σ : ℝ) (hu : ∀ i, WhiteNoise Pr (u i) σ) :
    Pr.real {ω | ∀ out, (computeCmv x (disturbedSeries longSeries fun i j => u i j ω) threeSites .none "gagne" "tf" none).1 = .ok out →
        (∀ r ∈ out.rows, ∃ τ, r.1.delay = some τ ∧ |τ - travelTime (Real.sqrt (1 / 2)) (Real.pi / 4) r.1.vec| ≤ jointPart 0 0.05 * ((30 / 5 : ℕ) * 10) / (2 * (1 : ℕ))) ∧
        (2 ≤ countFlag .good out.rows → VelocityWithin out (Real.sqrt (1 / 2)) (Real.pi / 4) (jointPart 0 0.05 * ((30 / 5 : ℕ) * 10) / (2 * (1 : ℕ))))}ᶜ ≤
      (longSeries.length : ℝ) * ∑ k ∈ Finset.range (1 + 1), (9 : ℕ) * (σ ^ 2 * ((flatTop (30 / 5)).map fun v => v ^ 2).sum) / (0.05 ^ 2 * 1) := by
  have hK : LastBin (30 / 5) 1 10 := by unfold LastBin; norm_num
  have hj : jointPart 0 0.05 = 2 / 19 := part_demo
  refine C238_probability x hls flatTop nanD 10 0 0.05 (by norm_num) hx le_rfl (by norm_num) (by norm_num) (by rw [hj]; norm_num) upDown 30 9 1 rfl hK arrives longSeries long_seen
    (fun r hr r' hr' => ?_) (fun _ => 1) (fun k _ => ⟨one_pos, fun r hr => seen_power (longSeries_mem hr).2 k⟩) u σ hu threeSites
    (Real.sqrt (1 / 2)) (Real.pi / 4) 0 (by positivity) (fun p hp => ?_) .none "gagne" "tf" (by decide +kernel) (by decide +kernel) none
  · rw [hj]
    rcases (longSeries_mem hr).2 with h | h <;> rcases (longSeries_mem hr').2 with h' | h' <;> rw [h, h'] <;> norm_num
  · simp only [threeSites, List.mem_cons, List.not_mem_nil, or_false] at hp
    rcases hp with rfl | rfl | rfl <;> simp only [travelTime, arrives, Real.cos_pi_div_four, Real.sin_pi_div_four]
    · norm_num
    · norm_num
      nlinarith [Real.mul_self_sqrt (show (0 : ℝ) ≤ 2 by norm_num)]
    · norm_num
      nlinarith [Real.mul_self_sqrt (show (0 : ℝ) ≤ 2 by norm_num)]

end SST.Props.NoiseCmvTf
