import Verif.Spec.NoiseCmv
import Verif.Props.NoiseDelay
import Verif.Props.CmvTf

/-!
# C231: cloud motion from noisy records

Specification: `Spec/NoiseCmv.lean`.
-/

namespace SST.Props.NoiseCmv
open SST SST.Cmv SST.Spec SST.Spatial SST.Corr SST.Props.Cmv SST.Props.CmvTf SST.Props.NoiseDelay MeasureTheory

theorem noisy_filterMap (n : ℕ) (q : ℤ → ℝ) (c : ℝ) (m : ℤ) (u : ℕ → ℝ) :
    (noisyRecord n q c m u).filterMap id = List.zipWith (· + ·) (wave n q c m) ((List.range n).map u) := by
  simp [noisyRecord, wave, List.filterMap_map, List.zipWith_map]

theorem noisy_none (n : ℕ) (q : ℤ → ℝ) (c : ℝ) (m : ℤ) (u : ℕ → ℝ) : none ∉ noisyRecord n q c m u := by simp [noisyRecord]

theorem wave_conditioned (n : ℕ) (hn : 0 < n) (q : ℤ → ℝ) (c : ℝ) (m : ℤ) (h : ∑ k ∈ Finset.range n, q (k - m) = 0) :
    conditioned "coeff" (wave n q c m) = wave n q 0 m := by
  unfold conditioned
  rw [if_pos rfl]
  unfold demean
  rw [wave_sum n q c m h, wave_length, mul_div_cancel_left₀ _ (by exact_mod_cast hn.ne')]
  simp only [wave, List.map_map]
  apply List.map_congr_left
  intro k _
  simp

theorem wave_energy (n : ℕ) (q : ℤ → ℝ) (m : ℤ) : energyOf (wave n q 0 m) = patternEnergy n q m := by
  unfold energyOf patternEnergy
  rw [wave, List.map_map, Corr.sum_map_range]
  simp

theorem noise_energy (n : ℕ) (u : ℕ → ℝ) : energyOf ((List.range n).map u) = ∑ k ∈ Finset.range n, u k ^ 2 := by
  unfold energyOf
  rw [List.map_map, Corr.sum_map_range]
  simp

variable {ι : Type} [DecidableEq ι]

omit [DecidableEq ι] in
/-- The delay between two noisy records of one pattern. -/
theorem noisy_delay {n : ℕ} {dt : ℝ} {V : Vec} {q : ℤ → ℝ} {m : ι → ℤ} {η : ℝ} {pos : List (ι × Vec)} {ids : List ι} (hd : DistinctPattern n dt V q m η pos ids)
    (hη : 0 ≤ η) (c : ι → ℝ) (u : ι → ℕ → ℝ) (hq : ∀ i ∈ ids, ∑ k ∈ Finset.range n, u i k ^ 2 ≤ η ^ 2) {a b : ι} (ha : a ∈ ids) (hb : b ∈ ids)
    (nanD : List (Option ℝ) → List (Option ℝ) → Option ℝ) :
    (xcorrDelays nanD dt (noisyRecord n q (c a) (m a) (u a)) (noisyRecord n q (c b) (m b) (u b))).1 = some ((m b - m a : ℤ) * dt) ∨
      (xcorrDelays nanD dt (noisyRecord n q (c a) (m a) (u a)) (noisyRecord n q (c b) (m b) (u b))).1 = some 0 := by
  set E := patternEnergy n q (m a) with hE
  have hE0 : 0 ≤ E := Finset.sum_nonneg fun k _ => sq_nonneg _
  have hpos : 0 < E := by
    rcases hE0.eq_or_lt with h | h
    · exfalso
      have hz : ∀ k ∈ Finset.range n, q (k - m a) = 0 := fun k hk => by
        have := (Finset.sum_eq_zero_iff_of_nonneg (s := Finset.range n) (f := fun k : ℕ => q (k - m a) ^ 2) fun k _ => sq_nonneg _).1 h.symm k hk
        simpa using this
      have hm := hd.margin a ha 1 one_ne_zero
      rw [Finset.sum_eq_zero fun k hk => by rw [hz k hk, mul_zero], ← hE, ← h, Real.sqrt_zero] at hm
      nlinarith
    · exact h
  have hn : 0 < n := by
    rcases Nat.eq_zero_or_pos n with h | h
    · subst h
      simp [hE, patternEnergy] at hpos
    · exact h
  have hD := wave_delayed n q (m a) (m b) (hd.inside a ha) (hd.inside b hb)
  have h0 := wave_nonzero n q (m a) hpos
  have hfa := noisy_filterMap n q (c a) (m a) (u a)
  have hfb := noisy_filterMap n q (c b) (m b) (u b)
  have hl : ∀ i, ((List.range n).map (u i)).length = (wave n q (c a) (m a)).length := fun i => by rw [wave_length]; simp
  obtain ⟨rs, hrs, -⟩ := Corr.C42_total dt [(noisyRecord n q (c a) (m a) (u a)).filterMap id] [(noisyRecord n q (c b) (m b) (u b)).filterMap id] "loop" "coeff" rfl (Or.inl rfl) (Or.inl rfl)
  obtain ⟨r, lag, h1, hlag, h2, h3⟩ := C230_margin dt _ _ "loop" "coeff" rs hrs 0 (wave n q (c a) (m a)) (wave n q (c b) (m b)) ((List.range n).map (u a)) ((List.range n).map (u b))
    (by intro h; have := wave_length n q (c a) (m a); rw [h] at this; simp at this; omega) (by rw [wave_length, wave_length]) (hl a) (hl b) (by rw [hfa]; rfl) (by rw [hfb]; rfl)
  have hx : xcorrDelays nanD dt (noisyRecord n q (c a) (m a) (u a)) (noisyRecord n q (c b) (m b) (u b)) = (some r.delay, finiteOf r.peak, finiteOf r.meanCorr) := by
    unfold xcorrDelays
    rw [if_neg (by simp [noisy_none]), hrs]
    cases rs with
    | nil => simp at h1
    | cons r0 rest =>
      have : r0 = r := by simpa using h1
      subst this
      rfl
  rw [hx]
  simp only [Option.some.injEq]
  rcases h3 with h3 | ⟨h3, -⟩
  swap
  · exact Or.inr h3
  left
  rw [wave_conditioned n hn q _ _ (hd.balanced a ha), wave_conditioned n hn q _ _ (hd.balanced b hb)] at h2
  have hsz : ∀ i ∈ ids, size ((List.range n).map (u i)) ≤ η := by
    intro i hi
    unfold size
    rw [noise_energy]
    exact Real.sqrt_le_iff.2 ⟨hη, hq i hi⟩
  have hsa : size (wave n q 0 (m a)) = Real.sqrt E := by unfold size; rw [wave_energy]
  have hsb : size (wave n q 0 (m b)) = Real.sqrt E := by unfold size; rw [Corr.delayed_energy hD, wave_energy]
  have hauto : ∀ l, xcorrAt (wave n q 0 (m a)) (wave n q 0 (m b)) l = ∑ k ∈ Finset.range n, q (k + (l + (m b - m a)) - m a) * q (k - m a) := by
    intro l
    rw [Corr.delayed_xcorr hD]
    unfold xcorrAt
    rw [wave_length]
    exact Finset.sum_congr rfl fun k _ => by rw [wave_ext n q (m a) (hd.inside a ha), wave_ext n q (m a) (hd.inside a ha)]
  have hL : lag = -(m b - m a) := by
    by_contra hne
    have hil := Corr.delayed_isLag hD h0
    rw [wave_length] at hil hlag
    have h4 := h2 (-(m b - m a)) (by rw [wave_length]; exact hil)
    have h5 := hd.margin a ha (lag + (m b - m a)) (by omega)
    rw [hauto, hauto, hsa, hsb, neg_add_cancel] at h4
    have h6 : ∑ k ∈ Finset.range n, q (k + 0 - m a) * q (k - m a) = E := Finset.sum_congr rfl fun k _ => by rw [add_zero]; ring
    rw [h6] at h4
    have n1 : (0 : ℝ) ≤ size ((List.range n).map (u a)) := Real.sqrt_nonneg _
    have n2 : (0 : ℝ) ≤ size ((List.range n).map (u b)) := Real.sqrt_nonneg _
    have b1 := mul_le_mul_of_nonneg_right (hsz a ha) (Real.sqrt_nonneg E)
    have b2 := mul_le_mul_of_nonneg_left (hsz b hb) (Real.sqrt_nonneg E)
    have b3 := mul_le_mul (hsz a ha) (hsz b hb) n2 hη
    rw [← hE] at h5
    nlinarith
  rw [h3, hL]
  push_cast
  ring

/-- A GOOD row has a delay other than 0. -/
theorem good_delay {x : Ext} {ts : List (ι × List (Option ℝ))} {pos : List (ι × Vec)} {ref : RefArg ι} {method backend : String}
    {options : Option Dict} {out : Out ι} (h : (computeCmv x ts pos ref method backend options).1 = .ok out) (r : PairStat ι × Flag)
    (hr : r ∈ out.rows) (hg : r.2 = .good) : r.1.delay ≠ some 0 := by
  obtain ⟨stats, o, -, -, rfl, -⟩ := computeCmv_ok h
  have key : ∃ mth, pairFlag mth o r.1 = .good := by
    by_cases hm : method.toLower = "gagne"
    · rw [hm] at hr
      obtain ⟨t, -, hrows, -⟩ := C32_gagne_threshold x o stats
      rw [hrows] at hr
      obtain ⟨s, -, rfl⟩ := List.mem_map.1 hr
      simp only at hg
      split_ifs at hg
      exact ⟨_, hg⟩
    · rw [finish_rows, if_neg hm] at hr
      obtain ⟨s, -, rfl⟩ := List.mem_map.1 hr
      exact ⟨_, hg⟩
  obtain ⟨mth, hk⟩ := key
  exact ((C26_good_iff mth o r.1).1 hk).2.2.2.1

/-- **C231.**  Sites recording one pattern with disturbances smaller than its margin: every pair `compute_cmv` (backend 'xcorr') flags GOOD has exactly the travel time as its delay. -/
theorem C231_good (x : Ext) (nanD : List (Option ℝ) → List (Option ℝ) → Option ℝ) (dt : ℝ) (hx : ∀ a b, x.delays "xcorr" a b = xcorrDelays nanD dt a b)
    (n : ℕ) (V : Vec) (q : ℤ → ℝ) (m : ι → ℤ) (η : ℝ) (hη : 0 ≤ η) (pos : List (ι × Vec)) (ids : List ι) (hd : DistinctPattern n dt V q m η pos ids)
    (c : ι → ℝ) (u : ι → ℕ → ℝ) (hq : ∀ i ∈ ids, ∑ k ∈ Finset.range n, u i k ^ 2 ≤ η ^ 2)
    (ref : RefArg ι) (method backend : String) (hb : backend.toLower = "xcorr") (options : Option Dict) (out : Out ι)
    (h : (computeCmv x (noisySeries ids n q c m u) pos ref method backend options).1 = .ok out) (r : PairStat ι × Flag) (hr : r ∈ out.rows) (hg : r.2 = .good) :
    PlaneWave V r.1 := by
  obtain ⟨⟨a, b⟩, hp⟩ := rows_statOf h r hr
  rw [hb] at hp
  obtain ⟨hab, sa, sb, pa, pb, m1, m2, m3, m4, h1, -, h3⟩ := stat_fields hp
  simp only at m1 m2 m3 m4
  have hrec : ∀ {i : ι} {s : List (Option ℝ)}, (i, s) ∈ noisySeries ids n q c m u → i ∈ ids ∧ s = noisyRecord n q (c i) (m i) (u i) := by
    intro i s hs
    obtain ⟨j, hj, e⟩ := List.mem_map.1 hs
    cases e
    exact ⟨hj, rfl⟩
  obtain ⟨ia, ea⟩ := hrec m1
  obtain ⟨ib, eb⟩ := hrec m2
  have hnz : r.1.delay ≠ some 0 := good_delay h r hr hg
  rw [hx, ea, eb] at h1
  rcases noisy_delay hd hη c u hq ia ib nanD with h4 | h4
  swap
  · exact absurd (h1.trans h4) hnz
  obtain ⟨t0, ht⟩ := hd.arrival
  have ta := ht _ m3
  have tb := ht _ m4
  unfold PlaneWave
  rw [h1, h4, h3]
  push_cast
  simp only at ta tb ⊢
  rw [sub_mul, ta, tb]
  congr 1
  ring

/-- **C231.**  Hence gagne returns exactly the speed and the direction of the wind as soon as two GOOD pairs are not parallel. -/
theorem C231_gagne (x : Ext) (hls : ExactLsq x.leastsq) (nanD : List (Option ℝ) → List (Option ℝ) → Option ℝ) (dt : ℝ) (hx : ∀ a b, x.delays "xcorr" a b = xcorrDelays nanD dt a b)
    (n : ℕ) (V : Vec) (hV : V ≠ 0) (q : ℤ → ℝ) (m : ι → ℤ) (η : ℝ) (hη : 0 ≤ η) (pos : List (ι × Vec)) (ids : List ι) (hd : DistinctPattern n dt V q m η pos ids)
    (c : ι → ℝ) (u : ι → ℕ → ℝ) (hq : ∀ i ∈ ids, ∑ k ∈ Finset.range n, u i k ^ 2 ≤ η ^ 2)
    (ref : RefArg ι) (method backend : String) (hm : method.toLower = "gagne") (hb : backend.toLower = "xcorr") (options : Option Dict) (out : Out ι)
    (h : (computeCmv x (noisySeries ids n q c m u) pos ref method backend options).1 = .ok out)
    (hs : ∃ r ∈ out.rows, ∃ s ∈ out.rows, r.2 = .good ∧ s.2 = .good ∧ Independent r.1.vec s.1.vec) :
    out.speed = some (magnitude V) ∧ ∃ t, out.angle = some t ∧ 0 ≤ t ∧ t < 2 * Real.pi ∧ pol2rect (magnitude V) t = V :=
  C33_gagne_exact x hls _ pos ref method backend hm options out h V hV
    (fun r hr hg => C231_good x nanD dt hx n V q m η hη pos ids hd c u hq ref method backend hb options out h r hr hg) hs

/-- **C231.**  And so does jamaly, with an optimiser that finds a minimum of the variance. -/
theorem C231_jamaly (x : Ext) (hmin : LocalMinimizer x.minimizeScalar) (nanD : List (Option ℝ) → List (Option ℝ) → Option ℝ) (dt : ℝ) (hx : ∀ a b, x.delays "xcorr" a b = xcorrDelays nanD dt a b)
    (n : ℕ) (V : Vec) (hV : V ≠ 0) (q : ℤ → ℝ) (m : ι → ℤ) (η : ℝ) (hη : 0 ≤ η) (pos : List (ι × Vec)) (ids : List ι) (hd : DistinctPattern n dt V q m η pos ids)
    (c : ι → ℝ) (u : ι → ℕ → ℝ) (hq : ∀ i ∈ ids, ∑ k ∈ Finset.range n, u i k ^ 2 ≤ η ^ 2)
    (ref : RefArg ι) (method backend : String) (hm : method.toLower = "jamaly") (hb : backend.toLower = "xcorr") (options : Option Dict) (out : Out ι)
    (h : (computeCmv x (noisySeries ids n q c m u) pos ref method backend options).1 = .ok out)
    (hs : ∃ r ∈ out.rows, ∃ s ∈ out.rows, r.2 = .good ∧ s.2 = .good ∧ Independent r.1.vec s.1.vec) :
    out.speed = some (magnitude V) ∧ out.flag = .good ∧ ∃ t, out.angle = some t ∧ 0 ≤ t ∧ t < 2 * Real.pi ∧ pol2rect (magnitude V) t = V :=
  C34_jamaly_exact x hmin _ pos ref method backend hm options out h V hV
    (fun r hr hg => C231_good x nanD dt hx n V q m η hη pos ids hd c u hq ref method backend hb options out h r hr hg) hs

variable {Ω : Type} [MeasurableSpace Ω] {P : Measure Ω} [IsProbabilityMeasure P]

omit [DecidableEq ι] in
/-- White noise at the sites exceeds the size `η` somewhere with probability at most `N n σ² / η²`. -/
theorem noise_quiet {u : ι → ℕ → Ω → ℝ} {σ : ℝ} (hu : ∀ i, WhiteNoise P (u i) σ) (n : ℕ) (ids : List ι) {η : ℝ} (hη : 0 < η) :
    P.real {ω | ¬ ∀ i ∈ ids, ∑ k ∈ Finset.range n, u i k ω ^ 2 ≤ η ^ 2} ≤ ids.length * (n * σ ^ 2 / η ^ 2) := by
  have one : ∀ i, P.real {ω | η ^ 2 ≤ ∑ k ∈ Finset.range n, u i k ω ^ 2} ≤ n * σ ^ 2 / η ^ 2 := by
    intro i
    have hint : ∀ k, Integrable (fun ω => u i k ω ^ 2) P := fun k => by
      have := ((hu i).square k).integrable_sq
      exact this
    have hmk := mul_meas_ge_le_integral_of_nonneg (Filter.Eventually.of_forall fun ω => Finset.sum_nonneg fun k (_ : k ∈ Finset.range n) => sq_nonneg (u i k ω))
      (integrable_finsetSum _ fun k _ => hint k) (η ^ 2)
    rw [integral_finsetSum _ fun k _ => hint k] at hmk
    have hc : ∀ k ∈ Finset.range n, ∫ ω, u i k ω ^ 2 ∂P = σ ^ 2 := fun k _ => by
      have := (hu i).corr k k
      simp only [if_true] at this
      rw [← this]
      exact integral_congr_ae (Filter.Eventually.of_forall fun ω => by simp only; ring)
    rw [Finset.sum_congr rfl hc, Finset.sum_const, Finset.card_range, nsmul_eq_mul] at hmk
    rw [le_div_iff₀ (by positivity), mul_comm]
    exact hmk
  induction ids with
  | nil => simp
  | cons i l ih =>
    refine le_trans (measureReal_mono (s₂ := {ω | η ^ 2 ≤ ∑ k ∈ Finset.range n, u i k ω ^ 2} ∪ {ω | ¬ ∀ i ∈ l, ∑ k ∈ Finset.range n, u i k ω ^ 2 ≤ η ^ 2}) ?_ (measure_ne_top _ _)) ?_
    · intro ω hω
      rw [Set.mem_ofPred_eq] at hω
      rw [Set.mem_union, Set.mem_ofPred_eq, Set.mem_ofPred_eq]
      by_contra hc
      push Not at hc
      exact hω (List.forall_mem_cons.2 ⟨hc.1.le, hc.2⟩)
    · refine (measureReal_union_le _ _).trans ?_
      rw [List.length_cons]
      push_cast
      linarith [one i]

/-- **C231.**  If the noise at every site is white with standard deviation `σ`, the probability that `compute_cmv` flags a pair GOOD whose delay is not the travel time is at most
`N n σ² / η²`, for `N` sites, `n` samples and every `η` below the margin of the pattern. -/
theorem C231_probability {u : ι → ℕ → Ω → ℝ} {σ : ℝ} (hu : ∀ i, WhiteNoise P (u i) σ)
    (x : Ext) (nanD : List (Option ℝ) → List (Option ℝ) → Option ℝ) (dt : ℝ) (hx : ∀ a b, x.delays "xcorr" a b = xcorrDelays nanD dt a b)
    (n : ℕ) (V : Vec) (q : ℤ → ℝ) (m : ι → ℤ) (η : ℝ) (hη : 0 < η) (pos : List (ι × Vec)) (ids : List ι) (hd : DistinctPattern n dt V q m η pos ids)
    (c : ι → ℝ) (ref : RefArg ι) (method backend : String) (hb : backend.toLower = "xcorr") (options : Option Dict) :
    P.real {ω | ∃ out, (computeCmv x (noisySeries ids n q c m fun i k => u i k ω) pos ref method backend options).1 = .ok out ∧ ∃ r ∈ out.rows, r.2 = .good ∧ ¬ PlaneWave V r.1} ≤
      ids.length * (n * σ ^ 2 / η ^ 2) := by
  refine (measureReal_mono ?_ (measure_ne_top _ _)).trans (noise_quiet hu n ids hη)
  rintro ω ⟨out, h, r, hr, hg, hw⟩
  rw [Set.mem_ofPred_eq]
  intro hq
  exact hw (C231_good x nanD dt hx n V q m η hη.le pos ids hd c (fun i k => u i k ω) hq ref method backend hb options out h r hr hg)

/-! ## A concrete case -/

theorem three_mem {i : ℕ} (h : i ∈ [0, 1, 2]) : i = 0 ∨ i = 1 ∨ i = 2 := by simpa using h

/-- The pulse of C135 has a margin of 0.1. -/
theorem pulse_distinct : DistinctPattern 3 1 (5, 5) pulse arrives 0.1 threeSites [0, 1, 2] where
  arrival := three_frozen.arrival
  inside := by
    intro i hi
    exact three_frozen.inside (i, record 3 pulse 0.6 (arrives i)) (List.mem_map.2 ⟨i, hi, rfl⟩)
  balanced := by
    intro i hi
    exact three_frozen.balanced (i, record 3 pulse 0.6 (arrives i)) (List.mem_map.2 ⟨i, hi, rfl⟩)
  margin := by
    intro i hi l hl
    have hE : patternEnergy 3 pulse (arrives i) = 1 / 2 := by
      unfold patternEnergy
      rcases three_mem hi with h | h | h <;> rw [h] <;> simp [Finset.sum_range_succ, arrives, pulse] <;> norm_num
    rw [hE]
    have hs : Real.sqrt (1 / 2) < 1 := by rw [Real.sqrt_lt' (by norm_num)]; norm_num
    have e1 : pulse l ≤ 0 := by unfold pulse; rw [if_neg hl]; split_ifs <;> norm_num
    have e2 : 0 ≤ pulse (1 + l) := by
      unfold pulse
      rw [if_neg (show ¬ 1 + l = 1 by omega)]
      split_ifs <;> norm_num
    have p0 : pulse 0 = 1 / 2 := by simp [pulse]
    have p1 : pulse 1 = -1 / 2 := by simp [pulse]
    have p2 : pulse 2 = 0 := by simp [pulse]
    have p3 : pulse (-1) = 0 := by simp [pulse]
    have hsum : ∑ k ∈ Finset.range 3, pulse (k + l - arrives i) * pulse (k - arrives i) ≤ 0 := by
      have f1 : (1 : ℤ) + l - 1 = l := by ring
      have f2 : (2 : ℤ) + l - 1 = 1 + l := by ring
      rcases three_mem hi with h | h | h <;> rw [h] <;> simp [Finset.sum_range_succ, arrives, p0, p1, p2, p3, f1, f2] <;>
        linarith
    linarith

/-- The hypotheses of C231 hold in the concrete case: a disturbance of 0.05 in all samples, two independent GOOD pairs, and gagne finds the wind (5, 5). -/
example (x : Ext) (hls : ExactLsq x.leastsq) (nanD : List (Option ℝ) → List (Option ℝ) → Option ℝ) (hx : ∀ a b, x.delays "xcorr" a b = xcorrDelays nanD 1 a b) :
    ∃ out, (computeCmv x (noisySeries [0, 1, 2] 3 pulse (fun _ => 0.55) arrives fun _ _ => 0.05) threeSites .none "gagne" "xcorr" none).1 = .ok out ∧ out.speed = some (magnitude (5, 5)) := by
  have hse : noisySeries [0, 1, 2] 3 pulse (fun _ => 0.55) arrives (fun _ _ => 0.05) = threeSeries := by
    unfold noisySeries threeSeries
    apply List.map_congr_left
    intro i _
    unfold noisyRecord record
    congr 1
    apply List.map_congr_left
    intro k _
    congr 1
    ring
  obtain ⟨out, h1, -, h2⟩ := frozen_gagne x nanD 1 one_pos hx 3 (by norm_num) (5, 5) pulse arrives (fun _ => 0.6)
    threeSites (by simp [threeSites]) threeSeries three_frozen .none "gagne" "xcorr" (by decide +kernel) (by decide +kernel) none (by simp)
    (by
      intro r hr
      rcases threeSeries_mem hr with h | h | h <;> rw [h]
      · exact ⟨0, by norm_num, by norm_num [optionOf, dictGet?, pulse, arrives]⟩
      · exact ⟨1, by norm_num, by norm_num [optionOf, dictGet?, pulse, arrives]⟩
      · exact ⟨1, by norm_num, by norm_num [optionOf, dictGet?, pulse, arrives]⟩)
    0 1 0 2 (0, 0) (10, 0) (0, 0) (0, 10) (by simp [threeSites]) (by simp [threeSites]) (by simp [threeSites]) (by simp [threeSites])
    (Or.inl (by simp [RefArg.ids, threeSites])) (Or.inl (by simp [RefArg.ids, threeSites])) (by simp [arrives]) (by simp [arrives])
    (by simp [Independent])
  rw [← hse] at h1
  exact ⟨out, h1, (C231_gagne x hls nanD 1 hx 3 (5, 5) (by simp) pulse arrives 0.1 (by norm_num) threeSites [0, 1, 2] pulse_distinct _ _
    (fun i _ => by norm_num [Finset.sum_range_succ]) .none "gagne" "xcorr" (by decide +kernel) (by decide +kernel) none out h1 h2).1⟩

example : (∀ _ : ℕ, WhiteNoise (Measure.infinitePi fun _ : ℕ => ProbabilityTheory.gaussianReal 0 1) (fun i ω => ω i) 1) ∧ DistinctPattern 3 1 (5, 5) pulse arrives 0.1 threeSites [0, 1, 2] :=
  ⟨fun _ => Noise.gauss_white, pulse_distinct⟩

end SST.Props.NoiseCmv
