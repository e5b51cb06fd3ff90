import Verif.Props.PulseHamming
import Verif.Props.CmvTf

/-!
# C244: cloud motion from isolated pulses with backend 'tf' and the default window
-/

namespace SST.Props.CmvTf
open SST SST.Cmv SST.Spec SST.Spatial SST.Tf SST.Props.Cmv SST.Props.RobustCmv

variable {ι : Type} [DecidableEq ι]

/-- The statistics of a pair of sites under a frozen pattern whose delays are found exactly. -/
theorem statOf_exact {n : ℕ} {dt : ℝ} {V : Vec} {q : ℤ → ℝ} {m : ι → ℤ} {pos : List (ι × Vec)} {ts : List (ι × List (Option ℝ))}
    (hf : FrozenPattern n dt V q m (fun _ => 0) pos ts) (hdt : 0 < dt) (hn : 0 < n) (ham : ℕ → List ℝ) (x : Ext)
    (nanD : List (Option ℝ) → List (Option ℝ) → Option ℝ) (hx : ∀ a b, x.delays "tf" a b = tfDelays ham nanD dt a b)
    (hdel : ∀ r ∈ ts, ∀ r' ∈ ts, ∃ mask mc, computeDelaysTf ⟨dt, 5, 0.5, ham, .none⟩ [("A", recordOf q n (m r.1))] [("B", recordOf q n (m r'.1))]
      (some 0.6) (some 0.02) "multi" = .ok [(some ((m r'.1 - m r.1 : ℤ) * dt), mask, mc)])
    (a b : ι) (s : PairStat ι) (h : statOf x ts pos "tf" (a, b) = .ok s) :
    s.a = a ∧ s.b = b ∧ (∃ pa pb, (a, pa) ∈ pos ∧ (b, pb) ∈ pos ∧ s.vec = (pb.1 - pa.1, pb.2 - pa.2)) ∧
      s.sigA = record n q 0 (m a) ∧ s.sigB = record n q 0 (m b) ∧ (∃ r ∈ ts, r.1 = a) ∧ (∃ r ∈ ts, r.1 = b) ∧
      s.delay = some ((m b - m a : ℤ) * dt) ∧ s.peak = some 1 ∧ s.meanCorr = some 0 ∧ PlaneWave V s := by
  unfold statOf at h
  simp only at h
  split at h
  · rename_i sa sb pa pb h1 h2 h3 h4
    have m1 := dictGet?_mem h1
    have m2 := dictGet?_mem h2
    have m3 := dictGet?_mem h3
    have m4 := dictGet?_mem h4
    have e1 : sa = record n q 0 (m a) := hf.recorded _ m1
    have e2 : sb = record n q 0 (m b) := hf.recorded _ m2
    have hsq : ∀ r ∈ ts, (0 : ℝ) < ∑ k ∈ Finset.range n, q (k - m r.1) ^ 2 := by
      intro r hr
      refine lt_of_lt_of_le ?_ (hf.strong _ hr)
      have : (0 : ℝ) < n := by exact_mod_cast hn
      positivity
    have i1 := hf.inside _ m1
    have i2 := hf.inside _ m2
    have b1 := hf.balanced _ m1
    have b2 := hf.balanced _ m2
    have q1 := hsq _ m1
    have q2 := hsq _ m2
    simp only at i1 i2 b1 b2 q1 q2
    obtain ⟨mask, mc, hcd⟩ := hdel _ m1 _ m2
    simp only at hcd
    set d : ℝ := ((m b - m a : ℤ) : ℝ) * dt with hdd
    obtain ⟨e, hxe⟩ : ∃ e, xcorrExtras dt (recordOf q n (m a)) (recordOf q n (m b)) (some d) = .ok e := by
      unfold xcorrExtras
      rw [Corr.correlation_coeff (by decide +kernel)]
      exact ⟨_, rfl⟩
    have hd : tfDelays ham nanD dt ((recordOf q n (m a)).map some) ((recordOf q n (m b)).map some) = (some d, finiteOf e.1, finiteOf e.2.1) := by
      unfold tfDelays
      rw [if_neg (by simp)]
      simp only [List.filterMap_map, Function.comp_def, id, List.filterMap_some]
      rw [hcd]
      simp only [hxe]
    -- the correlation at the delay
    have hD := wave_delayed n q (m a) (m b) i1 i2
    have z1 := wave_nonzero n q (m a) q1
    have z2 := wave_nonzero n q (m b) q2
    have s1 : (wave n q 0 (m a)).sum = 0 := by rw [wave_sum n q 0 _ b1, mul_zero]
    have s2 : (wave n q 0 (m b)).sum = 0 := by rw [wave_sum n q 0 _ b2, mul_zero]
    obtain ⟨p, hp1, -, hp3⟩ := Tf.C102_extras dt hdt (wave n q 0 (m a)) (wave n q 0 (m b)) (by simp [wave_length]) (not_const z1 s1) (not_const z2 s2) (some d)
    have hlag := Corr.delayed_isLag hD z1
    have hpv := hp3 (m b - m a) (by rw [hdd]) (by unfold IsLag at hlag; rw [abs_lt]; omega)
    have hone : p = .fin 1 := by
      rw [hpv]
      have c1 : demean (wave n q 0 (m a)) = wave n q 0 (m a) := Corr.center_of_sum_zero s1
      have c2 : demean (wave n q 0 (m b)) = wave n q 0 (m b) := Corr.center_of_sum_zero s2
      have hE := Corr.energyOf_pos z1
      unfold normOf
      rw [if_pos rfl, c1, c2, Corr.delayed_energy hD, Corr.delayed_xcorr hD, neg_add_cancel, Corr.xcorrAt_zero_self, Real.mul_self_sqrt hE.le, div_self hE.ne']
    rw [wave_recordOf, wave_recordOf, hxe] at hp1
    have hp1 := Except.ok.inj hp1
    rw [hx, e1, e2, record_recordOf, record_recordOf, hd] at h
    have h := Except.ok.inj h
    subst h
    obtain ⟨t0, ht⟩ := hf.arrival
    have ha := ht _ m3
    have hb := ht _ m4
    refine ⟨rfl, rfl, ⟨pa, pb, m3, m4, rfl⟩, (record_recordOf n q _).symm, (record_recordOf n q _).symm, ⟨_, m1, rfl⟩, ⟨_, m2, rfl⟩, rfl, ?_, ?_, ?_⟩
    · simp only [hp1, hone, finiteOf]
    · simp only [hp1, finiteOf]
    simp only [PlaneWave, Option.some.injEq, hdd]
    push_cast
    simp only at ha hb
    rw [sub_mul, ha, hb]
    ring
  · cases h

omit [DecidableEq ι] in
/-- The delays of isolated pulses with the default window. -/
theorem pulse_delays {n h S K : ℕ} {dt : ℝ} {q : ℤ → ℝ} {m : ι → ℤ} {ts : List (ι × List (Option ℝ))} (hdt : 0 < dt) (hL : n / 5 = 2 * h)
    (hS : AsManyAsFit n (2 * h) h S) (hK : LastBin (2 * h) K dt) (hq : ∃ t, q t ≠ 0) (hown : OwnHalf q h S (ts.map fun r => m r.1))
    (hm : ∀ r ∈ ts, ∀ r' ∈ ts, 4 * |m r'.1 - m r.1| ≤ h) (method : String) (hmeth : method = "multi" ∨ method = "fit")
    (r : ι × List (Option ℝ)) (hr : r ∈ ts) (r' : ι × List (Option ℝ)) (hr' : r' ∈ ts) (u v : String) :
    ∃ mask mc, computeDelaysTf ⟨dt, 5, 0.5, hamming, .none⟩ [(u, recordOf q n (m r.1))] [(v, recordOf q n (m r'.1))]
      (some 0.6) (some 0.02) method = .ok [(some ((m r'.1 - m r.1 : ℤ) * dt), mask, mc)] := by
  obtain ⟨home, hhome⟩ := hown
  have hown' : OwnHalf q h S [m r.1, m r'.1] := by
    refine ⟨home, fun t ht => ?_⟩
    obtain ⟨h1, h2, h3, h4⟩ := hhome t ht
    refine ⟨h1, h2, fun z hz => h3 z ?_, h4⟩
    simp only [List.mem_cons, List.not_mem_nil, or_false] at hz
    rcases hz with rfl | rfl
    · exact List.mem_map.2 ⟨r, hr, rfl⟩
    · exact List.mem_map.2 ⟨r', hr', rfl⟩
  have hhalf : 2 * h / 2 = h := by omega
  obtain ⟨mask, γ, h1, -⟩ := C243_hamming u v q n 5 h S K (m r.1) (m r'.1) 1 1 dt 0.02 .none hdt one_pos one_pos hL.symm hS
    (hm r hr r' hr') hq hown' hK.1 (by have := hK.2.1; omega) hK.2.2.1 (by have := hK.2.2.2; rwa [hhalf] at this) method hmeth
  simp only [one_mul] at h1
  exact ⟨mask, _, h1⟩

/-- C244: a mean-free train of isolated pulses carried by a constant wind `V` over the sites: with backend 'tf' and its default
window, overlap and limits, the method gagne of compute_cmv returns exactly `V`. -/
theorem C244_exact (x : Ext) (hls : ExactLsq x.leastsq) (nanD : List (Option ℝ) → List (Option ℝ) → Option ℝ) (dt : ℝ) (hdt : 0 < dt)
    (hx : ∀ a b, x.delays "tf" a b = tfDelays hamming nanD dt a b) (n h S K : ℕ) (hL : n / 5 = 2 * h) (hS : AsManyAsFit n (2 * h) h S)
    (hK : LastBin (2 * h) K dt) (V : Vec) (hV : V ≠ 0) (q : ℤ → ℝ) (m : ι → ℤ)
    (pos : List (ι × Vec)) (hnd : (pos.map Prod.fst).Nodup) (ts : List (ι × List (Option ℝ))) (hf : FrozenPattern n dt V q m (fun _ => 0) pos ts)
    (hown : OwnHalf q h S (ts.map fun r => m r.1)) (hm8 : ∀ r ∈ ts, ∀ r' ∈ ts, 4 * |m r'.1 - m r.1| ≤ h)
    (ref : RefArg ι) (method backend : String) (hm : method.toLower = "gagne") (hb : backend.toLower = "tf") (options : Option Dict)
    (hopt : ∀ kv ∈ options.getD [], kv.1 ∈ (documented "gagne").map Prod.fst)
    (hbright : ∀ r ∈ ts, ∃ k : ℕ, k < n ∧ optionOf options "ktlim" 0.4 ≤ q (k - m r.1))
    (a b a' b' : ι) (pa pb pa' pb' : Vec) (ha : (a, pa) ∈ pos) (hb1 : (b, pb) ∈ pos) (ha' : (a', pa') ∈ pos) (hb' : (b', pb') ∈ pos)
    (href : IsRef ref a ∨ IsRef ref b) (href' : IsRef ref a' ∨ IsRef ref b')
    (hlag : m a ≠ m b) (hlag' : m a' ≠ m b') (hind : Independent (pb - pa) (pb' - pa')) :
    ∃ out, (computeCmv x ts pos ref method backend options).1 = .ok out ∧ 2 ≤ countFlag .good out.rows ∧ out.speed = some (magnitude V) ∧
      ∃ t, out.angle = some t ∧ 0 ≤ t ∧ t < 2 * Real.pi ∧ pol2rect (magnitude V) t = V := by
  have hn : 0 < n := by have := hK.1; have := hK.2.1; omega
  have hq : ∃ t, q t ≠ 0 := by
    obtain ⟨r, hr, -⟩ := List.mem_map.1 (hf.series a (List.mem_map.2 ⟨_, ha, rfl⟩))
    by_contra hc
    push Not at hc
    have h1 := hf.strong r hr
    have h2 : (0 : ℝ) < n := by exact_mod_cast hn
    have h3 : (0 : ℝ) < 0.001 ^ 2 * n := by positivity
    have h4 : ∑ k ∈ Finset.range n, q (k - m r.1) ^ 2 = 0 := Finset.sum_eq_zero fun k _ => by rw [hc]; norm_num
    linarith
  obtain ⟨out, hout, hwave, hpair⟩ := frozen_gagne_of x dt hdt n hn V q m (fun _ => 0) pos hnd ts hf ref method backend hm "tf" (Or.inr rfl) hb
    (fun a b s h => statOf_exact hf hdt hn hamming x nanD hx (fun r hr r' hr' => pulse_delays hdt hL hS hK hq hown hm8 "multi" (Or.inl rfl) r hr r' hr' "A" "B")
      a b s h) options hopt (by simpa using hbright) a b a' b' pa pb pa' pb' ha hb1 ha' hb'
    (href.imp (isRef_iff (List.mem_map.2 ⟨_, ha, rfl⟩)).1 (isRef_iff (List.mem_map.2 ⟨_, hb1, rfl⟩)).1)
    (href'.imp (isRef_iff (List.mem_map.2 ⟨_, ha', rfl⟩)).1 (isRef_iff (List.mem_map.2 ⟨_, hb', rfl⟩)).1) hlag hlag' hind
  exact ⟨out, hout, two_good hpair, C33_gagne_exact x hls ts pos ref method backend hm options out hout V hV (fun r hr _ => hwave r hr) hpair⟩

/-- C244: and so does jamaly (with an optimiser that finds a minimum of the variance), if moreover the two pairs are within the
velocity limits; the result is flagged GOOD. -/
theorem C244_jamaly (x : Ext) (hmin : LocalMinimizer x.minimizeScalar) (nanD : List (Option ℝ) → List (Option ℝ) → Option ℝ) (dt : ℝ) (hdt : 0 < dt)
    (hx : ∀ a b, x.delays "tf" a b = tfDelays hamming nanD dt a b) (n h S K : ℕ) (hL : n / 5 = 2 * h) (hS : AsManyAsFit n (2 * h) h S)
    (hK : LastBin (2 * h) K dt) (V : Vec) (hV : V ≠ 0) (q : ℤ → ℝ) (m : ι → ℤ)
    (pos : List (ι × Vec)) (hnd : (pos.map Prod.fst).Nodup) (ts : List (ι × List (Option ℝ))) (hf : FrozenPattern n dt V q m (fun _ => 0) pos ts)
    (hown : OwnHalf q h S (ts.map fun r => m r.1)) (hm8 : ∀ r ∈ ts, ∀ r' ∈ ts, 4 * |m r'.1 - m r.1| ≤ h)
    (ref : RefArg ι) (method backend : String) (hm : method.toLower = "jamaly") (hb : backend.toLower = "tf") (options : Option Dict)
    (hopt : ∀ kv ∈ options.getD [], kv.1 ∈ (documented "jamaly").map Prod.fst)
    (hvar : optionOf options "var_s_lim" 0.05 ≤ 1) (hcorr : optionOf options "mincorr" 0.8 ≤ 1)
    (hbright : ∀ r ∈ ts, ∃ k : ℕ, k < n ∧ optionOf options "ktlim" 0.4 ≤ q (k - m r.1) ∧ 0 < q (k - m r.1))
    (a b a' b' : ι) (pa pb pa' pb' : Vec) (ha : (a, pa) ∈ pos) (hb1 : (b, pb) ∈ pos) (ha' : (a', pa') ∈ pos) (hb' : (b', pb') ∈ pos)
    (href : IsRef ref a ∨ IsRef ref b) (href' : IsRef ref a' ∨ IsRef ref b')
    (hlag : m a ≠ m b) (hlag' : m a' ≠ m b')
    (hvel : optionOf options "minvelocity" 0 < magnitude (pb - pa) / |((m b - m a : ℤ) : ℝ) * dt| ∧
      magnitude (pb - pa) / |((m b - m a : ℤ) : ℝ) * dt| < optionOf options "maxvelocity" 70)
    (hvel' : optionOf options "minvelocity" 0 < magnitude (pb' - pa') / |((m b' - m a' : ℤ) : ℝ) * dt| ∧
      magnitude (pb' - pa') / |((m b' - m a' : ℤ) : ℝ) * dt| < optionOf options "maxvelocity" 70) (hind : Independent (pb - pa) (pb' - pa')) :
    ∃ out, (computeCmv x ts pos ref method backend options).1 = .ok out ∧ out.speed = some (magnitude V) ∧ out.flag = .good ∧
      ∃ t, out.angle = some t ∧ 0 ≤ t ∧ t < 2 * Real.pi ∧ pol2rect (magnitude V) t = V := by
  have hn : 0 < n := by have := hK.1; have := hK.2.1; omega
  have hq : ∃ t, q t ≠ 0 := by
    obtain ⟨r, hr, -⟩ := List.mem_map.1 (hf.series a (List.mem_map.2 ⟨_, ha, rfl⟩))
    by_contra hc
    push Not at hc
    have h1 := hf.strong r hr
    have h2 : (0 : ℝ) < n := by exact_mod_cast hn
    have h3 : (0 : ℝ) < 0.001 ^ 2 * n := by positivity
    have h4 : ∑ k ∈ Finset.range n, q (k - m r.1) ^ 2 = 0 := Finset.sum_eq_zero fun k _ => by rw [hc]; norm_num
    linarith
  exact frozen_jamaly_of x hmin dt hdt n hn V hV q m (fun _ => 0) pos hnd ts hf ref method backend hm "tf" (Or.inr rfl) hb
    (fun a b s h => statOf_exact hf hdt hn hamming x nanD hx (fun r hr r' hr' => pulse_delays hdt hL hS hK hq hown hm8 "multi" (Or.inl rfl) r hr r' hr' "A" "B")
      a b s h) options hopt hvar hcorr
    (fun r hr => by
      obtain ⟨k, h1, h2, h3⟩ := hbright r hr
      exact ⟨k, h1, by simpa using h2, by simpa using h3, by rw [zero_add]; exact mul_nonneg (by linarith) h3.le⟩)
    a b a' b' pa pb pa' pb' ha hb1 ha' hb' href href' hlag hlag' hvel hvel' hind

/-! ## A concrete case -/

/-- Forty samples at every site. -/
noncomputable def pulseSeries : List (ℕ × List (Option ℝ)) := [0, 1, 2].map fun i : ℕ => (i, record 40 twoPulses 0 (arrives i))

theorem pulseSeries_mem {r : ℕ × List (Option ℝ)} (hr : r ∈ pulseSeries) :
    r.2 = record 40 twoPulses 0 (arrives r.1) ∧ (arrives r.1 = 0 ∨ arrives r.1 = 1) := by
  simp only [pulseSeries, List.map_cons, List.map_nil, List.mem_cons, List.not_mem_nil, or_false] at hr
  rcases hr with rfl | rfl | rfl <;> exact ⟨rfl, by simp [arrives]⟩

theorem pulse_frozen : FrozenPattern 40 10 (1 / 2, 1 / 2) twoPulses arrives (fun _ : ℕ => 0) threeSites pulseSeries where
  series := by simp [threeSites, pulseSeries]
  recorded := fun r hr => (pulseSeries_mem hr).1
  arrival := by
    refine ⟨0, ?_⟩
    intro p hp
    simp only [threeSites, List.mem_cons, List.not_mem_nil, or_false] at hp
    rcases hp with rfl | rfl | rfl <;> norm_num [arrives]
  inside := by
    intro r hr k hk
    have h1 := twoPulses_ne hk
    rcases (pulseSeries_mem hr).2 with h | h <;> rw [h] at h1 <;> constructor <;> push_cast <;> omega
  balanced := by
    intro r hr
    rcases (pulseSeries_mem hr).2 with h | h <;> rw [h] <;> simp [Finset.sum_range_succ, twoPulses]
  strong := by
    intro r hr
    rcases (pulseSeries_mem hr).2 with h | h <;> rw [h] <;> simp [Finset.sum_range_succ, twoPulses] <;> norm_num

theorem pulse_own : OwnHalf twoPulses 4 9 (pulseSeries.map fun r => arrives r.1) := by
  obtain ⟨home, h⟩ := twoPulses_own 9 (by norm_num)
  refine ⟨home, fun t ht => ⟨(h t ht).1, (h t ht).2.1, fun z hz => (h t ht).2.2.1 z ?_, (h t ht).2.2.2⟩⟩
  obtain ⟨r, hr, rfl⟩ := List.mem_map.1 hz
  rcases (pulseSeries_mem hr).2 with h | h <;> rw [h] <;> simp

example (x : Ext) (hls : ExactLsq x.leastsq) (nanD : List (Option ℝ) → List (Option ℝ) → Option ℝ)
    (hx : ∀ a b, x.delays "tf" a b = tfDelays hamming nanD 10 a b) :
    ∃ out, (computeCmv x pulseSeries threeSites .none "gagne" "tf" none).1 = .ok out ∧ 2 ≤ countFlag .good out.rows ∧
      out.speed = some (magnitude (1 / 2, 1 / 2)) ∧
      ∃ t, out.angle = some t ∧ 0 ≤ t ∧ t < 2 * Real.pi ∧ pol2rect (magnitude (1 / 2, 1 / 2)) t = (1 / 2, 1 / 2) :=
  C244_exact x hls nanD 10 (by norm_num) hx 40 4 9 1 (by norm_num) ⟨by norm_num, by norm_num, by norm_num, by norm_num⟩
    (by unfold LastBin; norm_num) (1 / 2, 1 / 2) (by simp) twoPulses arrives
    threeSites (by simp [threeSites]) pulseSeries pulse_frozen pulse_own
    (by
      intro r hr r' hr'
      rcases (pulseSeries_mem hr).2 with h | h <;> rcases (pulseSeries_mem hr').2 with h' | h' <;> rw [h, h'] <;> norm_num)
    .none "gagne" "tf" (by decide +kernel) (by decide +kernel) none (by simp)
    (by
      intro r hr
      rcases (pulseSeries_mem hr).2 with h | h <;> rw [h]
      · exact ⟨6, by norm_num, by norm_num [optionOf, dictGet?, twoPulses]⟩
      · exact ⟨7, by norm_num, by norm_num [optionOf, dictGet?, twoPulses]⟩)
    0 1 0 2 (0, 0) (10, 0) (0, 0) (0, 10) (by simp [threeSites]) (by simp [threeSites]) (by simp [threeSites]) (by simp [threeSites])
    (Or.inl (by simp [IsRef])) (Or.inl (by simp [IsRef])) (by simp [arrives]) (by simp [arrives])
    (by simp [Independent])

example (x : Ext) (hmin : LocalMinimizer x.minimizeScalar) (nanD : List (Option ℝ) → List (Option ℝ) → Option ℝ)
    (hx : ∀ a b, x.delays "tf" a b = tfDelays hamming nanD 10 a b) :
    ∃ out, (computeCmv x pulseSeries threeSites .none "jamaly" "tf" none).1 = .ok out ∧
      out.speed = some (magnitude (1 / 2, 1 / 2)) ∧ out.flag = .good ∧
      ∃ t, out.angle = some t ∧ 0 ≤ t ∧ t < 2 * Real.pi ∧ pol2rect (magnitude (1 / 2, 1 / 2)) t = (1 / 2, 1 / 2) := by
  have e1 : magnitude (((10 : ℝ), (0 : ℝ)) - (0, 0)) = 10 := by
    unfold magnitude; rw [show ((10 : ℝ), (0 : ℝ)) - (0, 0) = (10, 0) by simp]; simp
  have e2 : magnitude (((0 : ℝ), (10 : ℝ)) - (0, 0)) = 10 := by
    unfold magnitude; rw [show ((0 : ℝ), (10 : ℝ)) - (0, 0) = (0, 10) by simp]; simp
  exact C244_jamaly x hmin nanD 10 (by norm_num) hx 40 4 9 1 (by norm_num) ⟨by norm_num, by norm_num, by norm_num, by norm_num⟩
    (by unfold LastBin; norm_num) (1 / 2, 1 / 2) (by simp) twoPulses arrives
    threeSites (by simp [threeSites]) pulseSeries pulse_frozen pulse_own
    (by
      intro r hr r' hr'
      rcases (pulseSeries_mem hr).2 with h | h <;> rcases (pulseSeries_mem hr').2 with h' | h' <;> rw [h, h'] <;> norm_num)
    .none "jamaly" "tf" (by decide +kernel) (by decide +kernel) none (by simp)
    (by norm_num [optionOf, dictGet?]) (by norm_num [optionOf, dictGet?])
    (by
      intro r hr
      rcases (pulseSeries_mem hr).2 with h | h <;> rw [h]
      · exact ⟨6, by norm_num, by norm_num [optionOf, dictGet?, twoPulses], by norm_num [twoPulses]⟩
      · exact ⟨7, by norm_num, by norm_num [optionOf, dictGet?, twoPulses], by norm_num [twoPulses]⟩)
    0 1 0 2 (0, 0) (10, 0) (0, 0) (0, 10) (by simp [threeSites]) (by simp [threeSites]) (by simp [threeSites]) (by simp [threeSites])
    (Or.inl (by simp [IsRef])) (Or.inl (by simp [IsRef])) (by simp [arrives]) (by simp [arrives])
    (by rw [e1]; norm_num [optionOf, dictGet?, arrives]) (by rw [e2]; norm_num [optionOf, dictGet?, arrives])
    (by simp [Independent])

end SST.Props.CmvTf
