import Verif.Props.Noise
import Verif.Props.RobustTf

/-!
# Property C232: delays from transfer functions with measurement noise

Specifications: `Spec/Noise.lean` and `Spec/RobustTf.lean`.
-/

namespace SST.Props.NoiseTf
open SST SST.Tf SST.Dft SST.Spec SST.Props.Noise MeasureTheory

/-- A value within the fraction `ρ` of one with a given phase has that phase up to `π ρ / 2`. -/
theorem near_phase {A φ ρ : ℝ} (hA : 0 < A) (hρ : ρ < 1) {t : ℂ} (h : ‖t - A * Complex.exp (φ * Complex.I)‖ ≤ ρ * A) :
    ∃ B e : ℝ, 0 < B ∧ |e| ≤ Real.pi / 2 * ρ ∧ t = B * Complex.exp ((φ + e : ℝ) * Complex.I) := by
  set u := Complex.exp (φ * Complex.I) with hu
  have hn : ‖u‖ = 1 := Complex.norm_exp_ofReal_mul_I φ
  have hu0 : u ≠ 0 := Complex.exp_ne_zero _
  have hA0 : (A : ℂ) ≠ 0 := by exact_mod_cast hA.ne'
  set δ := t / (A * u) - 1 with hδ
  have hδn : ‖δ‖ ≤ ρ := by
    have e : δ = (t - A * u) / (A * u) := by rw [hδ]; field_simp
    rw [e, norm_div, norm_mul, hn, Complex.norm_real, Real.norm_of_nonneg hA.le, mul_one, div_le_iff₀ hA]
    exact h
  have ht : t = A * u * (1 + δ) := by rw [hδ]; field_simp; ring
  refine ⟨A * ‖1 + δ‖, Complex.arg (1 + δ), ?_, arg_near hρ hδn, ?_⟩
  · refine mul_pos hA (norm_pos_iff.2 fun h0 => ?_)
    have : δ = -1 := by linear_combination h0
    rw [this] at hδn
    simp at hδn
    linarith
  · have e1 := Complex.norm_mul_exp_arg_mul_I (1 + δ)
    rw [Complex.ofReal_add, add_mul, Complex.exp_add, ← hu, ht]
    push_cast
    linear_combination (-(A * u)) * e1

variable {Ω : Type} [MeasurableSpace Ω] {P : Measure Ω} [IsProbabilityMeasure P] {e : ℕ → Ω → ℝ} {σ : ℝ}

theorem map_range_inj {α : Type} {n : ℕ} {f g : ℕ → α} (h : (List.range n).map f = (List.range n).map g) {k : ℕ} (hk : k < n) : f k = g k :=
  List.map_inj_left.1 h k (List.mem_range.2 hk)

/-- The phases of the noisy transfer function. -/
theorem noisy_near (hw : WhiteNoise P e σ) (o : Opts) (a b : String) (x : List ℝ) (y : ℕ → ℝ) (m L : ℕ) (hLd : L = x.length / o.navgs)
    (h1 : 0 < o.navgs) (h2 : o.navgs ≤ x.length) (h3 : 0 ≤ o.overlap) (h4 : o.overlap < 1) (hdt : 0 < o.dt)
    (hl : (o.win L).length = L) (hm : L ≤ m * (L - ⌊(L : ℝ) * o.overlap⌋₊))
    (fl τ ε ρ : ℝ) (hρ : 0 < ρ) (hρ1 : ρ < 1) (p A θ : ℕ → ℝ) (z : ℕ → Option ℂ)
    (hpsd : averagedPsd o false [(a, x)] "density" = .ok [(a, (List.range (L / 2 + 1)).map fun (k : ℕ) => ((k : ℝ) / (L * o.dt), p k))])
    (htf : tfColumn (averagedTf o [(a, x)] [(b, (List.range x.length).map y)]) = .ok [(a ++ "_" ++ b, (List.range (L / 2 + 1)).map fun (k : ℕ) => ((k : ℝ) / (L * o.dt), z k))])
    (hz : ∀ k : ℕ, k ≤ L / 2 → (k : ℝ) / (L * o.dt) < fl → 0 < A k ∧ |θ k| ≤ ε ∧ z k = some (A k * Complex.exp ((-(2 * Real.pi * (k / (L * o.dt)) * τ) + θ k : ℝ) * Complex.I))) :
    P.real {ω | ¬ ∀ r ∈ pairTf o L ⌊(L : ℝ) * o.overlap⌋₊ x ((List.range x.length).map fun i => y i + e i ω), r.f < fl → NearDelay τ (ε + Real.pi / 2 * ρ) r} ≤
      ∑ k ∈ (Finset.range (L / 2 + 1)).filter (fun k : ℕ => (k : ℝ) / (L * o.dt) < fl), m / o.navgs * (noiseLevel o.dt σ L k / p k) / (ρ * A k) ^ 2 := by
  subst hLd
  obtain ⟨f', p', z', t, g1, g2, g3, g4⟩ := C229_error hw o false a b x y m h1 h2 h3 h4 hdt hl hm
  set L := x.length / o.navgs
  rw [g1] at hpsd
  rw [g2] at htf
  have hL : 0 < L := Nat.div_pos h2 h1
  have q1 : ∀ k, k < L / 2 + 1 → p' k = p k := fun k hk =>
    (Prod.mk.inj (map_range_inj (Prod.mk.inj (List.cons.inj (Except.ok.inj hpsd)).1).2 hk)).2
  have q2 : ∀ k, k < L / 2 + 1 → z' k = z k := fun k hk =>
    (Prod.mk.inj (map_range_inj (Prod.mk.inj (List.cons.inj (Except.ok.inj htf)).1).2 hk)).2
  have q3 : ∀ ω k, k < L / 2 + 1 → tfBin (psdScale (o.win L) o.dt L k) (spectra (o.win L) o.detr L ⌊(L : ℝ) * o.overlap⌋₊ x k)
      (spectra (o.win L) o.detr L ⌊(L : ℝ) * o.overlap⌋₊ ((List.range x.length).map fun i => y i + e i ω) k) = t k ω := by
    intro ω k hk
    have h5 := g3 ω
    rw [tf_eval o a b x _ h1 h2 h3 h4] at h5
    simp only [tfColumn, Except.map, List.map_cons, List.map_nil, pairTf, List.map_map] at h5
    exact (Prod.mk.inj (map_range_inj (Prod.mk.inj (List.cons.inj (Except.ok.inj h5)).1).2 hk)).2
  have hsub : {ω | ¬ ∀ r ∈ pairTf o L ⌊(L : ℝ) * o.overlap⌋₊ x ((List.range x.length).map fun i => y i + e i ω), r.f < fl → NearDelay τ (ε + Real.pi / 2 * ρ) r} ⊆
      ⋃ k ∈ (Finset.range (L / 2 + 1)).filter (fun k : ℕ => (k : ℝ) / (L * o.dt) < fl), {ω | ∃ t', t k ω = some t' ∧ ∃ z', z k = some z' ∧ ρ * A k ≤ ‖t' - z'‖} := by
    intro ω hω
    rw [Set.mem_ofPred_eq] at hω
    push Not at hω
    obtain ⟨r, hr, hrf, hnot⟩ := hω
    obtain ⟨k, hk, rfl⟩ := pairTf_mem hr
    rw [q3 ω k hk] at hnot
    simp only at hrf
    rw [Set.mem_iUnion₂]
    refine ⟨k, Finset.mem_filter.2 ⟨Finset.mem_range.2 hk, hrf⟩, ?_⟩
    obtain ⟨hA, hθ, hzk⟩ := hz k (by omega) hrf
    have hp : p' k ≠ 0 := by
      intro h0
      have := ((g4 k).1 h0).1
      rw [q2 k hk, hzk] at this
      cases this
    obtain ⟨z1, t1, e1, e2, -⟩ := (g4 k).2 hp
    refine ⟨t1 ω, e2 ω, z1, by rw [← q2 k hk]; exact e1, ?_⟩
    by_contra hlt
    push Not at hlt
    rw [q2 k hk, hzk] at e1
    have e1 := Option.some.inj e1
    rw [← e1] at hlt
    obtain ⟨B, d, hB, hd, ht⟩ := near_phase hA hρ1 hlt.le
    refine hnot ⟨B, θ k + d, hB, (abs_add_le _ _).trans (add_le_add hθ hd), ?_⟩
    show t k ω = _
    rw [e2 ω, ht, add_assoc]
  refine (measureReal_mono hsub (measure_ne_top _ _)).trans ((measureReal_biUnion_finset_le _ _).trans (Finset.sum_le_sum fun k hk => ?_))
  rw [Finset.mem_filter, Finset.mem_range] at hk
  obtain ⟨hA, hθ, hzk⟩ := hz k (by omega) hk.2
  have hp : p' k ≠ 0 := by
    intro h0
    have := ((g4 k).1 h0).1
    rw [q2 k hk.1, hzk] at this
    cases this
  obtain ⟨z1, t1, e1, e2, -, -, -, -, e3⟩ := (g4 k).2 hp
  rw [← q1 k hk.1]
  refine le_trans (measureReal_mono ?_ (measure_ne_top _ _)) (e3 (ρ * A k) (by positivity))
  rintro ω ⟨t', ht', z2, hz2, hle⟩
  rw [e2 ω] at ht'
  rw [← q2 k hk.1, e1] at hz2
  cases ht'
  cases hz2
  exact hle

/-- What `compute_delays_tf` does with one pair. -/
theorem delaysTf_one (o : Opts) (a b : String) (x y : List ℝ) (h1 : 0 < o.navgs) (h2 : o.navgs ≤ x.length) (h3 : 0 ≤ o.overlap) (h4 : o.overlap < 1) (cohLim : Option ℝ) (fl : ℝ)
    (method : String) (hm : method = "multi" ∨ method = "fit") :
    computeDelaysTf o [(a, x)] [(b, y)] cohLim (some fl) method =
      .ok [(if method = "fit" then fitDelay cohLim (some fl) (pairTf { o with detr := .none } (x.length / o.navgs) ⌊((x.length / o.navgs : ℕ) : ℝ) * o.overlap⌋₊ x y)
          else multiDelay cohLim (some fl) (pairTf { o with detr := .none } (x.length / o.navgs) ⌊((x.length / o.navgs : ℕ) : ℝ) * o.overlap⌋₊ x y),
        maskOf cohLim (some fl) (pairTf { o with detr := .none } (x.length / o.navgs) ⌊((x.length / o.navgs : ℕ) : ℝ) * o.overlap⌋₊ x y),
        meanCoh fl (pairTf { o with detr := .none } (x.length / o.navgs) ⌊((x.length / o.navgs : ℕ) : ℝ) * o.overlap⌋₊ x y))] := by
  unfold computeDelaysTf
  rw [if_neg (by simp), tf_eval { o with detr := .none } a b x y h1 h2 h3 h4]
  rcases hm with rfl | rfl
  · simp
  · simp

/-- A bin of the mask other than the first. -/
theorem mask_tail {o : Opts} {L ov : ℕ} (hdt : 0 < o.dt) (hL : 0 < L) {x y : List ℝ} {cohLim : Option ℝ} {fl : ℝ} (h : true ∈ (maskOf cohLim (some fl) (pairTf o L ov x y)).tail) :
    ∃ r ∈ pairTf o L ov x y, Coherent cohLim r ∧ Below (some fl) r ∧ 0 < r.f := by
  classical
  obtain ⟨i, hi⟩ := List.mem_iff_getElem?.1 h
  rw [List.getElem?_tail] at hi
  unfold maskOf at hi
  rw [List.getElem?_map] at hi
  obtain ⟨r, hr, hd⟩ := Option.map_eq_some_iff.1 hi
  rw [decide_eq_true_eq] at hd
  refine ⟨r, List.mem_of_getElem? hr, (cohOk_iff _ _).1 hd.1, ?_, ?_⟩
  · intro l hl
    rcases hd.2 with h0 | ⟨l', h0, h5⟩
    · cases h0
    · rw [h0] at hl; cases hl; exact h5
  · obtain ⟨-, rfl⟩ := pairTf_getElem hr
    show (0 : ℝ) < ((i + 1 : ℕ) : ℝ) / (L * o.dt)
    positivity

theorem length_le {T : ℝ} {l : List Row} (h1 : l.Pairwise fun a b => a.f < b.f) (h2 : ∀ r ∈ l, 0 ≤ r.f) (h3 : ∀ r ∈ l, 0 < r.f → 1 ≤ T * r.f) :
    (l.length : ℝ) ≤ 1 + T * ((l.tail).map Row.f).sum := by
  cases l with
  | nil => simp
  | cons a l =>
    rw [List.length_cons, List.tail_cons]
    rw [List.pairwise_cons] at h1
    have : (l.length : ℝ) ≤ T * (l.map Row.f).sum := by
      have h5 : ∀ r ∈ l, 1 ≤ T * r.f := fun r hr => h3 r (List.mem_cons_of_mem _ hr) ((h2 a List.mem_cons_self).trans_lt (h1.1 r hr))
      clear h1 h2 h3
      induction l with
      | nil => simp
      | cons b l ih =>
        rw [List.length_cons, List.map_cons, List.sum_cons, mul_add]
        push_cast
        have := ih fun r hr => h5 r (List.mem_cons_of_mem _ hr)
        have := h5 b List.mem_cons_self
        linarith
    push_cast
    linarith

/-- The number of bins is at most twice the sum of their numbers, if one of them is not bin 0. -/
theorem length_le_two {T : ℝ} (hT : 0 < T) {l : List Row} (h1 : l.Pairwise fun a b => a.f < b.f) (h2 : ∀ r ∈ l, 0 ≤ r.f) (h3 : ∀ r ∈ l, 0 < r.f → 1 ≤ T * r.f)
    (h4 : ∃ r ∈ l, 0 < r.f) : (l.length : ℝ) ≤ 2 * (T * (l.map Row.f).sum) ∧ 1 ≤ T * (l.map Row.f).sum := by
  have hn : ∀ v ∈ l.map Row.f, (0 : ℝ) ≤ v := by
    intro v hv
    obtain ⟨r, hr, rfl⟩ := List.mem_map.1 hv
    exact h2 r hr
  obtain ⟨r, hr, hr0⟩ := h4
  have hs : 1 ≤ T * (l.map Row.f).sum :=
    (h3 r hr hr0).trans (mul_le_mul_of_nonneg_left (List.single_le_sum hn _ (List.mem_map.2 ⟨r, hr, rfl⟩)) hT.le)
  refine ⟨?_, hs⟩
  have h5 := length_le h1 h2 h3
  have h6 : ((l.tail).map Row.f).sum ≤ (l.map Row.f).sum := by
    cases l with
    | nil => simp
    | cons a l =>
      rw [List.tail_cons, List.map_cons, List.sum_cons]
      linarith [h2 a List.mem_cons_self]
  nlinarith [mul_le_mul_of_nonneg_left h6 hT.le]

/-- **C232.**  White noise in the output record.  If without noise the transfer function has, below the frequency limit, the phase of a delay `τ` up to `ε`, the probability that
`compute_delays_tf` (method 'multi') returns a delay that is off by more than `ε T / π + ρ T / 2`, although a bin other than the first is usable, is at most the sum over the bins
below the limit of the noise-to-signal ratio over the number of averages and over `(ρ |H|)²`.  (`T` is the length of a segment in seconds, `m` the number of segments sharing a sample.) -/
theorem C232_multi (hw : WhiteNoise P e σ) (o : Opts) (a b : String) (x : List ℝ) (y : ℕ → ℝ) (m L : ℕ) (hLd : L = x.length / o.navgs)
    (h1 : 0 < o.navgs) (h2 : o.navgs ≤ x.length) (h3 : 0 ≤ o.overlap) (h4 : o.overlap < 1) (hdt : 0 < o.dt)
    (hl : (o.win L).length = L) (hm : L ≤ m * (L - ⌊(L : ℝ) * o.overlap⌋₊))
    (cohLim : Option ℝ) (fl τ ε ρ : ℝ) (hε : 0 ≤ ε) (hρ : 0 < ρ) (hρ1 : ρ < 1) (p A θ : ℕ → ℝ) (z : ℕ → Option ℂ)
    (hpsd : averagedPsd { o with detr := .none } false [(a, x)] "density" = .ok [(a, (List.range (L / 2 + 1)).map fun (k : ℕ) => ((k : ℝ) / (L * o.dt), p k))])
    (htf : tfColumn (averagedTf { o with detr := .none } [(a, x)] [(b, (List.range x.length).map y)]) =
      .ok [(a ++ "_" ++ b, (List.range (L / 2 + 1)).map fun (k : ℕ) => ((k : ℝ) / (L * o.dt), z k))])
    (hz : ∀ k : ℕ, k ≤ L / 2 → (k : ℝ) / (L * o.dt) < fl → 0 < A k ∧ |θ k| ≤ ε ∧ z k = some (A k * Complex.exp ((-(2 * Real.pi * (k / (L * o.dt)) * τ) + θ k : ℝ) * Complex.I)))
    (hsafe : 2 * Real.pi * |τ| / (L * o.dt) + 2 * (ε + Real.pi / 2 * ρ) < Real.pi) :
    P.real {ω | ∃ d mask mc, computeDelaysTf o [(a, x)] [(b, (List.range x.length).map fun i => y i + e i ω)] cohLim (some fl) "multi" = .ok [(some d, mask, mc)] ∧
        true ∈ mask.tail ∧ ε * (L * o.dt) / Real.pi + ρ * (L * o.dt) / 2 < |d - τ|} ≤
      ∑ k ∈ (Finset.range (L / 2 + 1)).filter (fun k : ℕ => (k : ℝ) / (L * o.dt) < fl), m / o.navgs * (noiseLevel o.dt σ L k / p k) / (ρ * A k) ^ 2 := by
  refine (measureReal_mono ?_ (measure_ne_top _ _)).trans
    (noisy_near hw { o with detr := .none } a b x y m L hLd h1 h2 h3 h4 hdt hl hm fl τ ε ρ hρ hρ1 p A θ z hpsd htf hz)
  rintro ω ⟨d, mask, mc, hd, hmask, hoff⟩
  rw [Set.mem_ofPred_eq]
  intro hnear
  have hL : 0 < L := hLd ▸ Nat.div_pos h2 h1
  have hLR : (0 : ℝ) < L := by exact_mod_cast hL
  have hT : 0 < (L : ℝ) * o.dt := by positivity
  have hpi := Real.pi_pos
  rw [delaysTf_one o a b x _ h1 h2 h3 h4 cohLim fl "multi" (Or.inl rfl), if_neg (by decide), ← hLd] at hd
  set rows := pairTf { o with detr := .none } L ⌊(L : ℝ) * o.overlap⌋₊ x ((List.range x.length).map fun i => y i + e i ω) with hrows
  simp only [Except.ok.injEq, List.cons.injEq, Prod.mk.injEq, and_true] at hd
  obtain ⟨hd, rfl, -⟩ := hd
  have hne := mask_tail (o := { o with detr := .none }) hdt hL hmask
  have hε' : 0 ≤ ε + Real.pi / 2 * ρ := by positivity
  obtain ⟨d', hd', hb⟩ := multi_near cohLim (some fl) τ (ε + Real.pi / 2 * ρ) rows (pairTf_sorted { o with detr := .none } hdt hL _ _ _)
    (by
      intro r hr
      obtain ⟨k, -, rfl⟩ := pairTf_mem hr
      show (0 : ℝ) ≤ (k : ℝ) / (L * o.dt); positivity)
    (fun r hr hB => hnear r hr (hB fl rfl))
    (by
      apply pairTf_chain
      intro k ra rb f1 f2 _
      unfold SafeStep
      rw [f1, f2]
      show |2 * Real.pi * (((k : ℝ) + 1) / (L * o.dt) - k / (L * o.dt)) * τ| + _ < _
      have e0 : 2 * Real.pi * (((k : ℝ) + 1) / (L * o.dt) - k / (L * o.dt)) * τ = 2 * Real.pi / (L * o.dt) * τ := by field_simp; ring
      rw [e0, abs_mul, abs_of_pos (by positivity)]
      have e1 : 2 * Real.pi / (L * o.dt) * |τ| = 2 * Real.pi * |τ| / (L * o.dt) := by ring
      rw [e1]
      exact hsafe)
    (by
      intro r hr
      rw [List.head?_eq_getElem?] at hr
      obtain ⟨-, rfl⟩ := pairTf_getElem hr
      have : 0 ≤ 2 * Real.pi * |τ| / (L * o.dt) := by positivity
      simp
      linarith) hne
  rw [hd'] at hd
  cases hd
  obtain ⟨r0, hr0, hc0, hB0, hf0⟩ := hne
  have hfreq : ∀ r ∈ rows, 0 ≤ r.f ∧ (0 < r.f → 1 ≤ (L * o.dt) * r.f) := by
    intro r hr
    obtain ⟨k, -, rfl⟩ := pairTf_mem hr
    refine ⟨show (0 : ℝ) ≤ (k : ℝ) / (L * o.dt) by positivity, fun h => ?_⟩
    have h : (0 : ℝ) < (k : ℝ) / (L * o.dt) := h
    show 1 ≤ (L * o.dt) * ((k : ℝ) / (L * o.dt))
    rw [mul_div_cancel₀ _ hT.ne']
    have : 0 < (k : ℝ) := by
      by_contra hk
      push Not at hk
      have : (k : ℝ) / (L * o.dt) ≤ 0 := div_nonpos_of_nonpos_of_nonneg hk hT.le
      linarith
    exact_mod_cast this
  obtain ⟨c1, c2⟩ := length_le_two hT (l := usable cohLim (some fl) rows)
    ((pairTf_sorted { o with detr := .none } hdt hL _ _ _).filter _)
    (fun r hr => (hfreq r (List.mem_filter.1 hr).1).1) (fun r hr => (hfreq r (List.mem_filter.1 hr).1).2)
    ⟨r0, by unfold usable; rw [List.mem_filter]; exact ⟨hr0, by simpa using ⟨hc0, hB0⟩⟩, hf0⟩
  set S := ((usable cohLim (some fl) rows).map Row.f).sum
  set n : ℝ := ((usable cohLim (some fl) rows).length : ℝ)
  have hS : 0 < S := by
    by_contra h
    push Not at h
    nlinarith
  have h7 : |d - τ| * (2 * Real.pi * S) ≤ (ε * (L * o.dt) / Real.pi + ρ * (L * o.dt) / 2) * (2 * Real.pi * S) := by
    refine hb.trans ?_
    have e8 : (ε * (L * o.dt) / Real.pi + ρ * (L * o.dt) / 2) * (2 * Real.pi * S) = 2 * ((L * o.dt) * S) * (ε + Real.pi / 2 * ρ) := by field_simp
    rw [e8]
    exact mul_le_mul_of_nonneg_right c1 hε'
  have h8 := le_of_mul_le_mul_right h7 (by positivity)
  linarith

/-- **C232.**  The same for method 'fit', within `ε T / 2π + ρ T / 4`, if the delay is shorter than half a period of all frequencies below the limit. -/
theorem C232_fit (hw : WhiteNoise P e σ) (o : Opts) (a b : String) (x : List ℝ) (y : ℕ → ℝ) (m L : ℕ) (hLd : L = x.length / o.navgs)
    (h1 : 0 < o.navgs) (h2 : o.navgs ≤ x.length) (h3 : 0 ≤ o.overlap) (h4 : o.overlap < 1) (hdt : 0 < o.dt)
    (hl : (o.win L).length = L) (hm : L ≤ m * (L - ⌊(L : ℝ) * o.overlap⌋₊))
    (cohLim : Option ℝ) (fl τ ε ρ : ℝ) (hε : 0 ≤ ε) (hρ : 0 < ρ) (hρ1 : ρ < 1) (p A θ : ℕ → ℝ) (z : ℕ → Option ℂ)
    (hpsd : averagedPsd { o with detr := .none } false [(a, x)] "density" = .ok [(a, (List.range (L / 2 + 1)).map fun (k : ℕ) => ((k : ℝ) / (L * o.dt), p k))])
    (htf : tfColumn (averagedTf { o with detr := .none } [(a, x)] [(b, (List.range x.length).map y)]) =
      .ok [(a ++ "_" ++ b, (List.range (L / 2 + 1)).map fun (k : ℕ) => ((k : ℝ) / (L * o.dt), z k))])
    (hz : ∀ k : ℕ, k ≤ L / 2 → (k : ℝ) / (L * o.dt) < fl → 0 < A k ∧ |θ k| ≤ ε ∧ z k = some (A k * Complex.exp ((-(2 * Real.pi * (k / (L * o.dt)) * τ) + θ k : ℝ) * Complex.I)))
    (hsafe : 2 * Real.pi * fl * |τ| + 2 * (ε + Real.pi / 2 * ρ) < Real.pi) :
    P.real {ω | ∃ d mask mc, computeDelaysTf o [(a, x)] [(b, (List.range x.length).map fun i => y i + e i ω)] cohLim (some fl) "fit" = .ok [(some d, mask, mc)] ∧
        true ∈ mask.tail ∧ ε * (L * o.dt) / (2 * Real.pi) + ρ * (L * o.dt) / 4 < |d - τ|} ≤
      ∑ k ∈ (Finset.range (L / 2 + 1)).filter (fun k : ℕ => (k : ℝ) / (L * o.dt) < fl), m / o.navgs * (noiseLevel o.dt σ L k / p k) / (ρ * A k) ^ 2 := by
  refine (measureReal_mono ?_ (measure_ne_top _ _)).trans
    (noisy_near hw { o with detr := .none } a b x y m L hLd h1 h2 h3 h4 hdt hl hm fl τ ε ρ hρ hρ1 p A θ z hpsd htf hz)
  rintro ω ⟨d, mask, mc, hd, hmask, hoff⟩
  rw [Set.mem_ofPred_eq]
  intro hnear
  have hL : 0 < L := hLd ▸ Nat.div_pos h2 h1
  have hLR : (0 : ℝ) < L := by exact_mod_cast hL
  have hT : 0 < (L : ℝ) * o.dt := by positivity
  have hpi := Real.pi_pos
  rw [delaysTf_one o a b x _ h1 h2 h3 h4 cohLim fl "fit" (Or.inr rfl), if_pos rfl, ← hLd] at hd
  set rows := pairTf { o with detr := .none } L ⌊(L : ℝ) * o.overlap⌋₊ x ((List.range x.length).map fun i => y i + e i ω) with hrows
  simp only [Except.ok.injEq, List.cons.injEq, Prod.mk.injEq, and_true] at hd
  obtain ⟨hd, rfl, -⟩ := hd
  obtain ⟨r0, hr0, hc0, hB0, hf0⟩ := mask_tail (o := { o with detr := .none }) hdt hL hmask
  have hε' : 0 ≤ ε + Real.pi / 2 * ρ := by positivity
  have hfreq : ∀ r ∈ rows, 0 ≤ r.f ∧ r.f ≤ (L * o.dt) * r.f ^ 2 := by
    intro r hr
    obtain ⟨k, -, rfl⟩ := pairTf_mem hr
    refine ⟨show (0 : ℝ) ≤ (k : ℝ) / (L * o.dt) by positivity, ?_⟩
    show (k : ℝ) / (L * o.dt) ≤ (L * o.dt) * ((k : ℝ) / (L * o.dt)) ^ 2
    have e0 : (L * o.dt) * ((k : ℝ) / (L * o.dt)) ^ 2 = k * k / (L * o.dt) := by field_simp
    rw [e0]
    apply div_le_div_of_nonneg_right _ hT.le
    exact_mod_cast Nat.le_mul_self k
  have husd : ∀ r ∈ usable cohLim (some fl) rows, r ∈ rows ∧ r.f < fl := by
    intro r hr
    classical
    unfold usable at hr
    rw [List.mem_filter] at hr
    have := hr.2
    rw [decide_eq_true_eq] at this
    exact ⟨hr.1, this.2 fl rfl⟩
  have hfl : 0 < fl := hf0.trans (hB0 fl rfl)
  obtain ⟨d', hd', hb⟩ := fit_near cohLim (some fl) τ (ε + Real.pi / 2 * ρ) rows (fun r hr => (hfreq r hr).1)
    (fun r hr => hnear r (husd r hr).1 (husd r hr).2)
    (by
      apply List.Pairwise.isChain
      apply ((pairTf_sorted { o with detr := .none } hdt hL _ _ _).filter _ : (usable cohLim (some fl) rows).Pairwise _).imp_of_mem
      intro ra rb ha hb hab
      unfold SafeStep
      have f1 := (hfreq ra (husd ra ha).1).1
      have f2 := (husd rb hb).2
      rw [abs_mul, abs_of_nonneg (by have : 0 ≤ rb.f - ra.f := by linarith
                                     positivity)]
      have : 2 * Real.pi * (rb.f - ra.f) * |τ| ≤ 2 * Real.pi * fl * |τ| := by
        apply mul_le_mul_of_nonneg_right _ (abs_nonneg _)
        apply mul_le_mul_of_nonneg_left _ (by positivity)
        linarith
      linarith)
    (by
      intro r hr
      have hru := List.mem_of_mem_head? hr
      have f1 := (hfreq r (husd r hru).1).1
      rw [abs_mul, abs_of_nonneg (by positivity)]
      have : 2 * Real.pi * r.f * |τ| ≤ 2 * Real.pi * fl * |τ| := by
        apply mul_le_mul_of_nonneg_right _ (abs_nonneg _)
        apply mul_le_mul_of_nonneg_left _ (by positivity)
        exact (husd r hru).2.le
      linarith)
    ⟨r0, by unfold usable; rw [List.mem_filter]; exact ⟨hr0, by simpa using ⟨hc0, hB0⟩⟩, hf0.ne'⟩
  rw [hd'] at hd
  cases hd
  set Q := ((usable cohLim (some fl) rows).map fun r => r.f ^ 2).sum with hQ
  have hQ0 : 0 < Q := by
    have hn : ∀ v ∈ (usable cohLim (some fl) rows).map (fun r => r.f ^ 2), (0 : ℝ) ≤ v := by
      intro v hv
      obtain ⟨r, -, rfl⟩ := List.mem_map.1 hv
      positivity
    have : r0.f ^ 2 ≤ Q := List.single_le_sum hn _ (List.mem_map.2 ⟨r0, by unfold usable; rw [List.mem_filter]; exact ⟨hr0, by simpa using ⟨hc0, hB0⟩⟩, rfl⟩)
    have : 0 < r0.f ^ 2 := by positivity
    linarith
  have hSQ : ((usable cohLim (some fl) rows).map Row.f).sum ≤ (L * o.dt) * Q := by
    rw [hQ, ← List.sum_map_mul_left]
    apply List.sum_le_sum
    intro r hr
    exact (hfreq r (husd r hr).1).2
  have h7 : |d - τ| * (2 * Real.pi * Q) ≤ (ε * (L * o.dt) / (2 * Real.pi) + ρ * (L * o.dt) / 4) * (2 * Real.pi * Q) := by
    refine hb.trans ((mul_le_mul_of_nonneg_left hSQ hε').trans (le_of_eq ?_))
    field_simp
    ring
  have h8 := le_of_mul_le_mul_right h7 (by positivity)
  linarith

/-- A pulse and the same pulse one sample later, in one segment of four samples with a flat window: a pure delay. -/
theorem demo_pure : let o : Opts := ⟨1, 1, 0, fun L => List.replicate L 1, .none⟩
    ∃ (p A θ : ℕ → ℝ) (z : ℕ → Option ℂ),
      averagedPsd o false [("a", [1, 0, 0, 0])] "density" = .ok [("a", (List.range (4 / 2 + 1)).map fun (k : ℕ) => ((k : ℝ) / ((4 : ℕ) * o.dt), p k))] ∧
      tfColumn (averagedTf o [("a", [1, 0, 0, 0])] [("b", (List.range 4).map fun i => if i = 1 then 1 else 0)]) =
        .ok [("a" ++ "_" ++ "b", (List.range (4 / 2 + 1)).map fun (k : ℕ) => ((k : ℝ) / ((4 : ℕ) * o.dt), z k))] ∧
      ∀ k : ℕ, k ≤ 4 / 2 → (k : ℝ) / ((4 : ℕ) * o.dt) < 1 → 0 < A k ∧ |θ k| ≤ 0 ∧
        z k = some (A k * Complex.exp ((-(2 * Real.pi * (k / ((4 : ℕ) * o.dt)) * 1) + θ k : ℝ) * Complex.I)) := by
  intro o
  have e1 := psd_eval o false "a" [1, 0, 0, 0] (by norm_num [o]) (by norm_num [o]) (by norm_num [o]) (by norm_num [o])
  have e2 := tf_eval o "a" "b" [1, 0, 0, 0] ((List.range 4).map fun i => if i = 1 then 1 else 0) (by norm_num [o]) (by norm_num [o]) (by norm_num [o]) (by norm_num [o])
  have hlen : ([1, 0, 0, 0] : List ℝ).length / o.navgs = 4 := by simp [o]
  have hfl : ⌊((4 : ℕ) : ℝ) * o.overlap⌋₊ = 0 := by simp [o]
  rw [hlen, hfl] at e1 e2
  have hX : ∀ k, spectra (o.win 4) o.detr 4 0 [1, 0, 0, 0] k = [1] := by
    intro k
    simp [spectra, segStarts, Tf.segment, Tf.spectrum, detrend, o, at0, Finset.sum_range_succ, twiddle, List.replicate]
  have hY : ∀ k, spectra (o.win 4) o.detr 4 0 ((List.range 4).map fun i => if i = 1 then 1 else 0) k = [twiddle 4 k] := by
    intro k
    simp [spectra, segStarts, Tf.segment, Tf.spectrum, detrend, o, at0, Finset.sum_range_succ, List.replicate, List.range, List.range.loop]
  have hc : ∀ k, psdScale (o.win 4) o.dt 4 k ≠ 0 := by
    intro k
    unfold psdScale
    split_ifs <;> norm_num [o, List.replicate]
  refine ⟨_, fun _ => 1, fun _ => 0, fun k => tfBin (psdScale (o.win 4) o.dt 4 k) (spectra (o.win 4) o.detr 4 0 [1, 0, 0, 0] k)
    (spectra (o.win 4) o.detr 4 0 ((List.range 4).map fun i => if i = 1 then 1 else 0) k), e1, ?_, ?_⟩
  · rw [e2]
    simp only [tfColumn, Except.map, List.map_cons, List.map_nil, pairTf, List.map_map]
    norm_num [o]
  · intro k _ _
    refine ⟨one_pos, by simp, ?_⟩
    have hk : ((psdScale (o.win 4) o.dt 4 k : ℝ) : ℂ) ≠ 0 := by exact_mod_cast hc k
    beta_reduce
    rw [hX, hY]
    unfold tfBin
    rw [if_neg (by simp [psd, hc k])]
    simp [psd, csd]
    rw [mul_div_cancel_left₀ _ hk]
    unfold twiddle
    congr 1
    push_cast
    simp [o]
    ring

example : WhiteNoise (Measure.infinitePi fun _ : ℕ => ProbabilityTheory.gaussianReal 0 1) (fun i ω => ω i) 1 ∧
    2 * Real.pi * |(1 : ℝ)| / ((4 : ℕ) * 1) + 2 * (0 + Real.pi / 2 * (1 / 4)) < Real.pi ∧ 2 * Real.pi * (1 / 3) * |(1 : ℝ)| + 2 * (0 + Real.pi / 2 * (1 / 4)) < Real.pi ∧
    4 ≤ 1 * (4 - ⌊((4 : ℕ) : ℝ) * 0⌋₊) := by
  have := Real.pi_pos
  refine ⟨gauss_white, ?_, ?_, by simp⟩ <;> norm_num <;> linarith

end SST.Props.NoiseTf
