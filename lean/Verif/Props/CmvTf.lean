import Verif.Model.CmvTf
import Verif.Spec.CmvTf
import Verif.Props.RobustTf
import Verif.Props.RobustCmv
import Verif.Props.CmvXcorr
import Verif.Props.TfDelay
import Mathlib.Algebra.Order.Floor.Semifield

/-!
# C222: cloud motion from the time series themselves, backend 'tf'

C204 starts from the delays; here the delays are those `compute_delays_tf` finds in the records of one pattern.
-/

namespace SST.Props.CmvTf
open SST SST.Cmv SST.Spec SST.Spatial SST.Tf SST.Props.Cmv SST.Props.RobustCmv

variable {ι : Type} [DecidableEq ι]

theorem recordOf_shift (q : ℤ → ℝ) (n : ℕ) (m m' : ℤ) : recordOf q n m' = recordOf (fun t => q (t - m)) n (m' - m) := by
  unfold recordOf
  apply List.map_congr_left
  intro j _
  congr 1
  ring

/-- The delay of a pair of records of one pattern. -/
theorem tfDelays_record (ham : ℕ → List ℝ) (nanD : List (Option ℝ) → List (Option ℝ) → Option ℝ) (dt ρ : ℝ) (hdt : 0 < dt) (hρ0 : 0 ≤ ρ)
    (hρ : 0.6 < ((1 - ρ) / (1 + ρ)) ^ 2) (q : ℤ → ℝ) (n S K : ℕ) (hK : LastBin (n / 5) K dt) (m m' : ℤ)
    (hS : AsManyAsFit n (n / 5) (n / 5 - n / 5 / 2) S) (hm : 2 * |((m' - m : ℤ) : ℝ)| < (1 - ρ) * (n / 5 : ℕ))
    (hedge : ∀ k : ℕ, k ≤ n / 5 / 2 → (k : ℝ) / ((n / 5 : ℕ) * dt) < 0.02 →
      0 < ∑ i ∈ Finset.range S, ‖patternSpec (ham (n / 5)) (fun t => q (t - m)) (n / 5) (i * (n / 5 - n / 5 / 2)) k‖ ^ 2 ∧
      ∑ i ∈ Finset.range S, edgeEffect (ham (n / 5)) (fun t => q (t - m)) (n / 5) (i * (n / 5 - n / 5 / 2)) (m' - m) ^ 2 ≤
        ρ ^ 2 * ∑ i ∈ Finset.range S, ‖patternSpec (ham (n / 5)) (fun t => q (t - m)) (n / 5) (i * (n / 5 - n / 5 / 2)) k‖ ^ 2) :
    ∃ d e, xcorrExtras dt (recordOf q n m) (recordOf q n m') (some d) = .ok e ∧
      tfDelays ham nanD dt ((recordOf q n m).map some) ((recordOf q n m').map some) = (some d, finiteOf e.1, finiteOf e.2.1) ∧
      |d - (m' - m : ℤ) * dt| ≤ ρ * ((n / 5 : ℕ) * dt) / (2 * K) := by
  have hh : n / 5 - n / 5 / 2 = n / 5 - ⌊((n / 5 : ℕ) : ℝ) * 0.5⌋₊ := by
    congr 1
    symm
    have h2 : ((n / 5 : ℕ) : ℝ) * 0.5 = ((n / 5 : ℕ) : ℝ) / ((2 : ℕ) : ℝ) := by push_cast; ring
    rw [h2, Nat.floor_div_eq_div]
  obtain ⟨⟨d, mask, mc, h1, h2⟩, -⟩ := C221_frozen "A" "B" (fun t => q (t - m)) n 5 (n / 5) (n / 5 - n / 5 / 2) S K (m' - m) dt 0.5 0.02 ρ ham .none
    (some 0.6) hdt (by norm_num) rfl hh hS hρ0 hm hedge (by intro l hl; cases hl; exact hρ) hK.1 hK.2.1 hK.2.2.1 hK.2.2.2
  rw [← recordOf_shift, show recordOf (fun t => q (t - m)) n 0 = recordOf q n m by rw [recordOf_shift q n m m, sub_self]] at h1
  have he : ∃ e, xcorrExtras dt (recordOf q n m) (recordOf q n m') (some d) = .ok e := by
    unfold xcorrExtras
    rw [Corr.correlation_coeff (by decide +kernel)]
    exact ⟨_, rfl⟩
  obtain ⟨e, he⟩ := he
  refine ⟨d, e, he, ?_, h2⟩
  unfold tfDelays
  rw [if_neg (by simp)]
  simp only [List.filterMap_map, Function.comp_def, id, List.filterMap_some]
  rw [h1]
  simp only [he]

/-- The rows of a table and their pairs. -/
theorem rows_statOf {x : Ext} {ts : List (ι × List (Option ℝ))} {pos : List (ι × Vec)} {ref : RefArg ι} {method backend : String}
    {options : Option Dict} {out : Out ι} (h : (computeCmv x ts pos ref method backend options).1 = .ok out) (r : PairStat ι × Flag)
    (hr : r ∈ out.rows) : ∃ p, statOf x ts pos backend.toLower p = .ok r.1 := by
  obtain ⟨stats, o, hprep, -, hfin, -⟩ := computeCmv_ok h
  have hrow := rows_stats x method.toLower o stats
  rw [← hfin] at hrow
  have hs : r.1 ∈ stats := by rw [← hrow]; exact List.mem_map.2 ⟨r, hr, rfl⟩
  unfold prepare at hprep
  simp only at hprep
  split_ifs at hprep
  obtain ⟨p, -, hp⟩ := mapM_mem hprep _ hs
  exact ⟨p, hp⟩

/-- C222: if all sites record one pattern moving with the speed `s₀` in the direction `θ₀`, the delay `compute_cmv` works with
for any pair of sites (backend 'tf') differs from the travel time by at most `ρ T / 2K`: `T` is the length of a segment,
a fifth of the record, `K` the number of its last bin below 0.02 Hz and `ρ` the relative size of the edge effects. -/
theorem C222_delays (x : Ext) (ham : ℕ → List ℝ) (nanD : List (Option ℝ) → List (Option ℝ) → Option ℝ) (dt ρ : ℝ) (hdt : 0 < dt)
    (hx : ∀ a b, x.delays "tf" a b = tfDelays ham nanD dt a b) (hρ0 : 0 ≤ ρ) (hρ : 0.6 < ((1 - ρ) / (1 + ρ)) ^ 2)
    (q : ℤ → ℝ) (n S K : ℕ) (hK : LastBin (n / 5) K dt) (m : ι → ℤ) (ts : List (ι × List (Option ℝ))) (hp : SeenPattern ham n S dt ρ q m ts)
    (pos : List (ι × Vec)) (s₀ θ₀ t₀ : ℝ) (harr : ∀ p ∈ pos, (m p.1 : ℝ) * dt = t₀ + travelTime s₀ θ₀ p.2)
    (ref : RefArg ι) (method backend : String) (hb : backend.toLower = "tf") (options : Option Dict) (out : Out ι)
    (hout : (computeCmv x ts pos ref method backend options).1 = .ok out) :
    ∀ r ∈ out.rows, ∃ τ, r.1.delay = some τ ∧ |τ - travelTime s₀ θ₀ r.1.vec| ≤ ρ * ((n / 5 : ℕ) * dt) / (2 * K) := by
  intro r hr
  obtain ⟨⟨a, b⟩, h⟩ := rows_statOf hout r hr
  rw [hb] at h
  obtain ⟨-, sa, sb, pa, pb, m1, m2, m3, m4, e1, -, e3⟩ := stat_fields h
  have ea := harr _ m3
  have eb := harr _ m4
  have r1 := hp.recorded _ m1
  have r2 := hp.recorded _ m2
  have hs := hp.short _ m1 _ m2
  have he := hp.edges _ m1 _ m2
  simp only at ea eb r1 r2 hs he
  obtain ⟨d, e, -, hd, hb'⟩ := tfDelays_record ham nanD dt ρ hdt hρ0 hρ q n S K hK (m a) (m b) hp.segments hs he
  refine ⟨d, by rw [e1, hx, r1, r2, hd], ?_⟩
  have : travelTime s₀ θ₀ r.1.vec = ((m b - m a : ℤ) : ℝ) * dt := by
    push_cast
    rw [sub_mul, ea, eb, e3]
    unfold travelTime
    simp only
    ring
  rw [this]
  exact hb'

/-- C222: the velocity gagne then returns, as in C204. -/
theorem C222_velocity (x : Ext) (hlsq : ExactLsq x.leastsq) (ham : ℕ → List ℝ) (nanD : List (Option ℝ) → List (Option ℝ) → Option ℝ) (dt ρ : ℝ)
    (hdt : 0 < dt) (hx : ∀ a b, x.delays "tf" a b = tfDelays ham nanD dt a b) (hρ0 : 0 ≤ ρ) (hρ : 0.6 < ((1 - ρ) / (1 + ρ)) ^ 2)
    (q : ℤ → ℝ) (n S K : ℕ) (hK : LastBin (n / 5) K dt) (m : ι → ℤ) (ts : List (ι × List (Option ℝ))) (hp : SeenPattern ham n S dt ρ q m ts)
    (pos : List (ι × Vec)) (s₀ θ₀ t₀ : ℝ) (hs₀ : 0 < s₀) (harr : ∀ p ∈ pos, (m p.1 : ℝ) * dt = t₀ + travelTime s₀ θ₀ p.2)
    (ref : RefArg ι) (method backend : String) (hm : method.toLower = "gagne") (hb : backend.toLower = "tf") (options : Option Dict)
    (out : Out ι) (hout : (computeCmv x ts pos ref method backend options).1 = .ok out) (h2 : 2 ≤ countFlag .good out.rows) :
    ((∃ r ∈ out.rows, r.2 = .good ∧ countFlag .good out.rows * (ρ * ((n / 5 : ℕ) * dt) / (2 * K)) ^ 2 < travelTime s₀ θ₀ r.1.vec ^ 2) →
      out.speed ≠ none) ∧
    ∀ s θ, out.speed = some s → out.angle = some θ → ∀ r ∈ out.rows, r.2 = .good → ∀ p ∈ out.rows, p.2 = .good →
      |r.1.vec.1 * p.1.vec.2 - r.1.vec.2 * p.1.vec.1| *
          pdist (s * Real.cos θ, s * Real.sin θ) (s₀ * Real.cos θ₀, s₀ * Real.sin θ₀) ≤
        s * s₀ * (ρ * ((n / 5 : ℕ) * dt) / (2 * K) * Real.sqrt (countFlag .good out.rows)) * (magnitude r.1.vec + magnitude p.1.vec) := by
  have h := C222_delays x ham nanD dt ρ hdt hx hρ0 hρ q n S K hK m ts hp pos s₀ θ₀ t₀ harr ref method backend hb options out hout
  refine C204_velocity x hlsq ts pos ref method backend hm options out hout h2 ?_ s₀ θ₀ _ hs₀ (by positivity) ?_
  · intro r hr _
    obtain ⟨τ, hτ, -⟩ := h r hr
    rw [hτ]; simp
  · intro r hr _ τ hτ
    obtain ⟨τ', hτ', hb'⟩ := h r hr
    rw [hτ] at hτ'
    cases hτ'
    exact hb'


/-! ## No edge effects -/

theorem record_recordOf (n : ℕ) (q : ℤ → ℝ) (m : ℤ) : record n q 0 m = (recordOf q n m).map some := by
  simp [record, recordOf, Function.comp_def]

theorem wave_recordOf (n : ℕ) (q : ℤ → ℝ) (m : ℤ) : wave n q 0 m = recordOf q n m := by
  simp [wave, recordOf]

/-- The statistics of a pair of sites under a frozen pattern that the windows do not cut. -/
theorem statOf_tf {n : ℕ} {dt : ℝ} {V : Vec} {q : ℤ → ℝ} {m : ι → ℤ} {pos : List (ι × Vec)} {ts : List (ι × List (Option ℝ))}
    (hf : FrozenPattern n dt V q m (fun _ => 0) pos ts) (hdt : 0 < dt) (hn : 0 < n) (ham : ℕ → List ℝ) (S K : ℕ) (hK : LastBin (n / 5) K dt)
    (hp : SeenPattern ham n S dt 0 q m ts) (x : Ext) (nanD : List (Option ℝ) → List (Option ℝ) → Option ℝ)
    (hx : ∀ a b, x.delays "tf" a b = tfDelays ham nanD dt a b) (a b : ι) (s : PairStat ι) (h : statOf x ts pos "tf" (a, b) = .ok s) :
    s.a = a ∧ s.b = b ∧ (∃ pa pb, (a, pa) ∈ pos ∧ (b, pb) ∈ pos ∧ s.vec = (pb.1 - pa.1, pb.2 - pa.2)) ∧
      s.sigA = record n q 0 (m a) ∧ s.sigB = record n q 0 (m b) ∧ (∃ r ∈ ts, r.1 = a) ∧ (∃ r ∈ ts, r.1 = b) ∧
      s.delay = some ((m b - m a : ℤ) * dt) ∧ s.peak = some 1 ∧ s.meanCorr = some 0 ∧ PlaneWave V s := by
  unfold statOf at h
  simp only at h
  split at h
  · rename_i sa sb pa pb h1 h2 h3 h4
    have m1 := dictGet?_mem h1
    have m2 := dictGet?_mem h2
    have m3 := dictGet?_mem h3
    have m4 := dictGet?_mem h4
    have e1 : sa = record n q 0 (m a) := hf.recorded _ m1
    have e2 : sb = record n q 0 (m b) := hf.recorded _ m2
    have hsq : ∀ r ∈ ts, (0 : ℝ) < ∑ k ∈ Finset.range n, q (k - m r.1) ^ 2 := by
      intro r hr
      refine lt_of_lt_of_le ?_ (hf.strong _ hr)
      have : (0 : ℝ) < n := by exact_mod_cast hn
      positivity
    have hs := hp.short _ m1 _ m2
    have he := hp.edges _ m1 _ m2
    have i1 := hf.inside _ m1
    have i2 := hf.inside _ m2
    have b1 := hf.balanced _ m1
    have b2 := hf.balanced _ m2
    have q1 := hsq _ m1
    have q2 := hsq _ m2
    simp only at hs he i1 i2 b1 b2 q1 q2
    obtain ⟨d, e, hxe, hd, hb'⟩ := tfDelays_record ham nanD dt 0 hdt le_rfl (by norm_num) q n S K hK (m a) (m b) hp.segments hs he
    have hdd : d = (m b - m a : ℤ) * dt := by
      rw [zero_mul, zero_div, abs_nonpos_iff, sub_eq_zero] at hb'
      exact hb'
    -- the correlation at the delay
    have hD := wave_delayed n q (m a) (m b) i1 i2
    have z1 := wave_nonzero n q (m a) q1
    have z2 := wave_nonzero n q (m b) q2
    have s1 : (wave n q 0 (m a)).sum = 0 := by rw [wave_sum n q 0 _ b1, mul_zero]
    have s2 : (wave n q 0 (m b)).sum = 0 := by rw [wave_sum n q 0 _ b2, mul_zero]
    obtain ⟨p, hp1, -, hp3⟩ := Tf.C102_extras dt hdt (wave n q 0 (m a)) (wave n q 0 (m b)) (by simp [wave_length]) (not_const z1 s1) (not_const z2 s2) (some d)
    have hlag := Corr.delayed_isLag hD z1
    have hpv := hp3 (m b - m a) (by rw [hdd]) (by unfold IsLag at hlag; rw [abs_lt]; omega)
    have hone : p = .fin 1 := by
      rw [hpv]
      have c1 : demean (wave n q 0 (m a)) = wave n q 0 (m a) := Corr.center_of_sum_zero s1
      have c2 : demean (wave n q 0 (m b)) = wave n q 0 (m b) := Corr.center_of_sum_zero s2
      have hE := Corr.energyOf_pos z1
      unfold normOf
      rw [if_pos rfl, c1, c2, Corr.delayed_energy hD, Corr.delayed_xcorr hD, neg_add_cancel, Corr.xcorrAt_zero_self, Real.mul_self_sqrt hE.le, div_self hE.ne']
    rw [wave_recordOf, wave_recordOf, hxe] at hp1
    have hp1 := Except.ok.inj hp1
    rw [hx, e1, e2, record_recordOf, record_recordOf, hd] at h
    have h := Except.ok.inj h
    subst h
    obtain ⟨t0, ht⟩ := hf.arrival
    have ha := ht _ m3
    have hb := ht _ m4
    refine ⟨rfl, rfl, ⟨pa, pb, m3, m4, rfl⟩, (record_recordOf n q _).symm, (record_recordOf n q _).symm, ⟨_, m1, rfl⟩, ⟨_, m2, rfl⟩, by rw [hdd], ?_, ?_, ?_⟩
    · simp only [hp1, hone, finiteOf]
    · simp only [hp1, finiteOf]
    simp only [PlaneWave, Option.some.injEq, hdd]
    push_cast
    simp only at ha hb
    rw [sub_mul, ha, hb]
    ring
  · cases h

omit [DecidableEq ι] in
theorem two_good {rows : List (PairStat ι × Flag)}
    (h : ∃ r ∈ rows, ∃ s ∈ rows, r.2 = .good ∧ s.2 = .good ∧ Independent r.1.vec s.1.vec) : 2 ≤ countFlag .good rows := by
  obtain ⟨r, hr, s, hs, gr, gs, hi⟩ := h
  unfold countFlag
  rw [List.countP_eq_length_filter]
  have hr' : r ∈ rows.filter fun r => r.2 = .good := List.mem_filter.2 ⟨hr, by simpa using gr⟩
  have hs' : s ∈ rows.filter fun r => r.2 = .good := List.mem_filter.2 ⟨hs, by simpa using gs⟩
  generalize (rows.filter fun r => decide (r.2 = .good)) = L at hr' hs'
  match L with
  | [] => cases hr'
  | [y] =>
    rw [List.mem_singleton.1 hr', List.mem_singleton.1 hs'] at hi
    exact (hi (by ring)).elim
  | y :: z :: L => simp

/-- C222: with backend 'tf', gagne recognises a mean-free pattern carried by a constant wind `V` exactly, if no window cuts the
pattern (no edge effects). -/
theorem C222_exact (x : Ext) (hls : ExactLsq x.leastsq) (ham : ℕ → List ℝ) (nanD : List (Option ℝ) → List (Option ℝ) → Option ℝ) (dt : ℝ) (hdt : 0 < dt)
    (hx : ∀ a b, x.delays "tf" a b = tfDelays ham nanD dt a b) (n S K : ℕ) (hK : LastBin (n / 5) K dt) (V : Vec) (hV : V ≠ 0) (q : ℤ → ℝ) (m : ι → ℤ)
    (pos : List (ι × Vec)) (hnd : (pos.map Prod.fst).Nodup) (ts : List (ι × List (Option ℝ))) (hf : FrozenPattern n dt V q m (fun _ => 0) pos ts)
    (hp : SeenPattern ham n S dt 0 q m ts)
    (ref : RefArg ι) (method backend : String) (hm : method.toLower = "gagne") (hb : backend.toLower = "tf") (options : Option Dict)
    (hopt : ∀ kv ∈ options.getD [], kv.1 ∈ (documented "gagne").map Prod.fst)
    (hbright : ∀ r ∈ ts, ∃ k : ℕ, k < n ∧ optionOf options "ktlim" 0.4 ≤ q (k - m r.1))
    (a b a' b' : ι) (pa pb pa' pb' : Vec) (ha : (a, pa) ∈ pos) (hb1 : (b, pb) ∈ pos) (ha' : (a', pa') ∈ pos) (hb' : (b', pb') ∈ pos)
    (href : IsRef ref a ∨ IsRef ref b) (href' : IsRef ref a' ∨ IsRef ref b')
    (hlag : m a ≠ m b) (hlag' : m a' ≠ m b') (hind : Independent (pb - pa) (pb' - pa')) :
    ∃ out, (computeCmv x ts pos ref method backend options).1 = .ok out ∧ 2 ≤ countFlag .good out.rows ∧ out.speed = some (magnitude V) ∧
      ∃ t, out.angle = some t ∧ 0 ≤ t ∧ t < 2 * Real.pi ∧ pol2rect (magnitude V) t = V := by
  have hn : 0 < n := by have := hK.1; have := hK.2.1; omega
  obtain ⟨out, hout, hwave, hpair⟩ := frozen_gagne_of x dt hdt n hn V q m (fun _ => 0) pos hnd ts hf ref method backend hm "tf" (Or.inr rfl) hb
    (fun a b s h => statOf_tf hf hdt hn ham S K hK hp x nanD hx a b s h) options hopt (by simpa using hbright) a b a' b' pa pb pa' pb' ha hb1 ha' hb'
    (href.imp (isRef_iff (List.mem_map.2 ⟨_, ha, rfl⟩)).1 (isRef_iff (List.mem_map.2 ⟨_, hb1, rfl⟩)).1)
    (href'.imp (isRef_iff (List.mem_map.2 ⟨_, ha', rfl⟩)).1 (isRef_iff (List.mem_map.2 ⟨_, hb', rfl⟩)).1) hlag hlag' hind
  exact ⟨out, hout, two_good hpair, C33_gagne_exact x hls ts pos ref method backend hm options out hout V hV (fun r hr _ => hwave r hr) hpair⟩

/-- C222: and so does jamaly (with an optimiser that finds a minimum of the variance), if moreover the two pairs are within the
velocity limits; the result is flagged GOOD. -/
theorem C222_jamaly (x : Ext) (hmin : LocalMinimizer x.minimizeScalar) (ham : ℕ → List ℝ) (nanD : List (Option ℝ) → List (Option ℝ) → Option ℝ) (dt : ℝ) (hdt : 0 < dt)
    (hx : ∀ a b, x.delays "tf" a b = tfDelays ham nanD dt a b) (n S K : ℕ) (hK : LastBin (n / 5) K dt) (V : Vec) (hV : V ≠ 0) (q : ℤ → ℝ) (m : ι → ℤ)
    (pos : List (ι × Vec)) (hnd : (pos.map Prod.fst).Nodup) (ts : List (ι × List (Option ℝ))) (hf : FrozenPattern n dt V q m (fun _ => 0) pos ts)
    (hp : SeenPattern ham n S dt 0 q m ts)
    (ref : RefArg ι) (method backend : String) (hm : method.toLower = "jamaly") (hb : backend.toLower = "tf") (options : Option Dict)
    (hopt : ∀ kv ∈ options.getD [], kv.1 ∈ (documented "jamaly").map Prod.fst)
    (hvar : optionOf options "var_s_lim" 0.05 ≤ 1) (hcorr : optionOf options "mincorr" 0.8 ≤ 1)
    (hbright : ∀ r ∈ ts, ∃ k : ℕ, k < n ∧ optionOf options "ktlim" 0.4 ≤ q (k - m r.1) ∧ 0 < q (k - m r.1))
    (a b a' b' : ι) (pa pb pa' pb' : Vec) (ha : (a, pa) ∈ pos) (hb1 : (b, pb) ∈ pos) (ha' : (a', pa') ∈ pos) (hb' : (b', pb') ∈ pos)
    (href : IsRef ref a ∨ IsRef ref b) (href' : IsRef ref a' ∨ IsRef ref b')
    (hlag : m a ≠ m b) (hlag' : m a' ≠ m b')
    (hvel : optionOf options "minvelocity" 0 < magnitude (pb - pa) / |((m b - m a : ℤ) : ℝ) * dt| ∧
      magnitude (pb - pa) / |((m b - m a : ℤ) : ℝ) * dt| < optionOf options "maxvelocity" 70)
    (hvel' : optionOf options "minvelocity" 0 < magnitude (pb' - pa') / |((m b' - m a' : ℤ) : ℝ) * dt| ∧
      magnitude (pb' - pa') / |((m b' - m a' : ℤ) : ℝ) * dt| < optionOf options "maxvelocity" 70) (hind : Independent (pb - pa) (pb' - pa')) :
    ∃ out, (computeCmv x ts pos ref method backend options).1 = .ok out ∧ out.speed = some (magnitude V) ∧ out.flag = .good ∧
      ∃ t, out.angle = some t ∧ 0 ≤ t ∧ t < 2 * Real.pi ∧ pol2rect (magnitude V) t = V := by
  have hn : 0 < n := by have := hK.1; have := hK.2.1; omega
  exact frozen_jamaly_of x hmin dt hdt n hn V hV q m (fun _ => 0) pos hnd ts hf ref method backend hm "tf" (Or.inr rfl) hb
    (fun a b s h => statOf_tf hf hdt hn ham S K hK hp x nanD hx a b s h) options hopt hvar hcorr
    (fun r hr => by
      obtain ⟨k, h1, h2, h3⟩ := hbright r hr
      exact ⟨k, h1, by simpa using h2, by simpa using h3, by rw [zero_add]; exact mul_nonneg (by linarith) h3.le⟩)
    a b a' b' pa pb pa' pb' ha hb1 ha' hb' href href' hlag hlag' hvel hvel' hind

/-! ## A concrete case -/

/-- A pulse up and one down. -/
noncomputable def upDown (t : ℤ) : ℝ := if t = 14 then 1 else if t = 20 then -1 else 0

/-- A window of length 6. -/
def flatTop (_ : ℕ) : List ℝ := [0, 1, 1, 1, 1, 0]

/-- Thirty samples at every site. -/
noncomputable def longSeries : List (ℕ × List (Option ℝ)) := [0, 1, 2].map fun i : ℕ => (i, record 30 upDown 0 (arrives i))

theorem longSeries_mem {r : ℕ × List (Option ℝ)} (hr : r ∈ longSeries) :
    r.2 = record 30 upDown 0 (arrives r.1) ∧ (arrives r.1 = 0 ∨ arrives r.1 = 1) := by
  simp only [longSeries, List.map_cons, List.map_nil, List.mem_cons, List.not_mem_nil, or_false] at hr
  rcases hr with rfl | rfl | rfl <;> exact ⟨rfl, by simp [arrives]⟩

theorem upDown_ne {t : ℤ} (h : upDown t ≠ 0) : t = 14 ∨ t = 20 := by
  by_contra hne
  push Not at hne
  exact h (by simp [upDown, hne.1, hne.2])

theorem long_frozen : FrozenPattern 30 10 (1 / 2, 1 / 2) upDown arrives (fun _ : ℕ => 0) threeSites longSeries where
  series := by simp [threeSites, longSeries]
  recorded := fun r hr => (longSeries_mem hr).1
  arrival := by
    refine ⟨0, ?_⟩
    intro p hp
    simp only [threeSites, List.mem_cons, List.not_mem_nil, or_false] at hp
    rcases hp with rfl | rfl | rfl <;> norm_num [arrives]
  inside := by
    intro r hr k hk
    have h1 := upDown_ne hk
    rcases (longSeries_mem hr).2 with h | h <;> rw [h] at h1 <;> constructor <;> push_cast <;> omega
  balanced := by
    intro r hr
    rcases (longSeries_mem hr).2 with h | h <;> rw [h] <;> simp [Finset.sum_range_succ, upDown]
  strong := by
    intro r hr
    rcases (longSeries_mem hr).2 with h | h <;> rw [h] <;> simp [Finset.sum_range_succ, upDown] <;> norm_num

theorem flat_edge (u v : ℤ) (hu : u = 0 ∨ u = 1) (hv : v = 0 ∨ v = 1) (i : ℕ) (hi : i < 9) :
    edgeEffect (flatTop 6) (fun t => upDown (t - u)) 6 (i * 3) (v - u) = 0 := by
  unfold edgeEffect
  apply Finset.sum_eq_zero
  intro j _
  beta_reduce
  by_cases h : upDown (((i * 3 : ℕ) : ℤ) + j - u) = 0
  · rw [h]; simp
  · have hj : j = 14 + u - (i * 3 : ℕ) ∨ j = 20 + u - (i * 3 : ℕ) := by
      rcases upDown_ne h with h | h <;> omega
    have : tap (flatTop 6) 6 (j + (v - u)) = tap (flatTop 6) 6 j := by
      rcases hu with rfl | rfl <;> rcases hv with rfl | rfl <;> rcases hj with rfl | rfl <;> interval_cases i <;> simp [tap, flatTop]
    rw [this]; simp

theorem flat_spec (u : ℤ) (hu : u = 0 ∨ u = 1) (k : ℕ) : ‖patternSpec (flatTop 6) (fun t => upDown (t - u)) 6 (4 * 3) k‖ = 1 := by
  have key : ∀ z : ℝ, ‖Complex.exp (-2 * Real.pi * Complex.I * z / 6)‖ = 1 := by
    intro z
    rw [show (-2 * Real.pi * Complex.I * z / 6 : ℂ) = ((-2 * Real.pi * z / 6 : ℝ) : ℂ) * Complex.I by push_cast; ring]
    exact Complex.norm_exp_ofReal_mul_I _
  unfold patternSpec
  rcases hu with rfl | rfl
  · have := key (2 * k)
    simp [Finset.sum_range_succ, upDown, flatTop]
    push_cast at this
    simpa using this
  · have := key (3 * k)
    simp [Finset.sum_range_succ, upDown, flatTop]
    push_cast at this
    simpa using this

theorem long_seen : SeenPattern flatTop 30 9 10 0 upDown arrives longSeries where
  recorded := fun r hr => by rw [(longSeries_mem hr).1, record_recordOf]
  segments := by norm_num [AsManyAsFit]
  short := by
    intro r hr r' hr'
    rcases (longSeries_mem hr).2 with h | h <;> rcases (longSeries_mem hr').2 with h' | h' <;> rw [h, h'] <;> norm_num
  edges := by
    intro r hr r' hr' k _ _
    have hu := (longSeries_mem hr).2
    have hv := (longSeries_mem hr').2
    simp only [show 30 / 5 = 6 from rfl, show 6 - 6 / 2 = 3 from rfl]
    constructor
    · refine lt_of_lt_of_le ?_ (Finset.single_le_sum (f := fun i => ‖patternSpec (flatTop 6) (fun t => upDown (t - arrives r.1)) 6 (i * 3) k‖ ^ 2)
        (fun i _ => by positivity) (Finset.mem_range.2 (show 4 < 9 by norm_num)))
      simp only [flat_spec _ hu]
      norm_num
    · refine le_of_eq ?_
      rw [Finset.sum_eq_zero]
      · ring
      · intro i hi
        rw [flat_edge _ _ hu hv i (Finset.mem_range.1 hi)]
        ring

/-- The hypotheses of C222 hold in the concrete case: gagne finds the wind (1/2, 1/2) in the three series. -/
example (x : Ext) (hls : ExactLsq x.leastsq) (nanD : List (Option ℝ) → List (Option ℝ) → Option ℝ)
    (hx : ∀ a b, x.delays "tf" a b = tfDelays flatTop nanD 10 a b) :
    ∃ out, (computeCmv x longSeries threeSites .none "gagne" "tf" none).1 = .ok out ∧ out.speed = some (magnitude (1 / 2, 1 / 2)) ∧
      ∀ s θ, out.speed = some s → out.angle = some θ → ∀ r ∈ out.rows, r.2 = .good → ∀ p ∈ out.rows, p.2 = .good →
      |r.1.vec.1 * p.1.vec.2 - r.1.vec.2 * p.1.vec.1| *
          pdist (s * Real.cos θ, s * Real.sin θ) (Real.sqrt (1 / 2) * Real.cos (Real.pi / 4), Real.sqrt (1 / 2) * Real.sin (Real.pi / 4)) ≤ 0 := by
  have hK : LastBin (30 / 5) 1 10 := by unfold LastBin; norm_num
  obtain ⟨out, h1, h2, h3, -⟩ := C222_exact x hls flatTop nanD 10 (by norm_num) hx 30 9 1 hK (1 / 2, 1 / 2) (by simp) upDown arrives
    threeSites (by simp [threeSites]) longSeries long_frozen long_seen .none "gagne" "tf" (by decide +kernel) (by decide +kernel) none (by simp)
    (by
      intro r hr
      rcases (longSeries_mem hr).2 with h | h <;> rw [h]
      · exact ⟨14, by norm_num, by norm_num [optionOf, dictGet?, upDown]⟩
      · exact ⟨15, by norm_num, by norm_num [optionOf, dictGet?, upDown]⟩)
    0 1 0 2 (0, 0) (10, 0) (0, 0) (0, 10) (by simp [threeSites]) (by simp [threeSites]) (by simp [threeSites]) (by simp [threeSites])
    (Or.inl (by simp [IsRef])) (Or.inl (by simp [IsRef])) (by simp [arrives]) (by simp [arrives])
    (by simp [Independent])
  have hpos : 0 < Real.sqrt (1 / 2) := by positivity
  have h4 := (C222_velocity x hls flatTop nanD 10 0 (by norm_num) hx le_rfl (by norm_num) upDown 30 9 1 hK arrives longSeries long_seen threeSites
    (Real.sqrt (1 / 2)) (Real.pi / 4) 0 hpos (by
      intro p hp
      simp only [threeSites, List.mem_cons, List.not_mem_nil, or_false] at hp
      rcases hp with rfl | rfl | rfl <;> simp only [travelTime, arrives, Real.cos_pi_div_four, Real.sin_pi_div_four]
      · norm_num
      · norm_num
        nlinarith [Real.mul_self_sqrt (show (0 : ℝ) ≤ 2 by norm_num)]
      · norm_num
        nlinarith [Real.mul_self_sqrt (show (0 : ℝ) ≤ 2 by norm_num)]) .none "gagne" "tf" (by decide +kernel) (by decide +kernel) none out h1 h2).2
  refine ⟨out, h1, h3, fun s θ hs hθ r hr hg p hp hg' => (h4 s θ hs hθ r hr hg p hp hg').trans (le_of_eq ?_)⟩
  ring

/-- The hypotheses of C222 for jamaly hold in the concrete case. -/
example (x : Ext) (hmin : LocalMinimizer x.minimizeScalar) (nanD : List (Option ℝ) → List (Option ℝ) → Option ℝ)
    (hx : ∀ a b, x.delays "tf" a b = tfDelays flatTop nanD 10 a b) :
    ∃ out, (computeCmv x longSeries threeSites .none "jamaly" "tf" none).1 = .ok out ∧ out.speed = some (magnitude (1 / 2, 1 / 2)) ∧ out.flag = .good := by
  have hK : LastBin (30 / 5) 1 10 := by unfold LastBin; norm_num
  have e1 : magnitude (((10 : ℝ), (0 : ℝ)) - (0, 0)) = 10 := by
    unfold magnitude; rw [show ((10 : ℝ), (0 : ℝ)) - (0, 0) = (10, 0) by simp]; simp
  have e2 : magnitude (((0 : ℝ), (10 : ℝ)) - (0, 0)) = 10 := by
    unfold magnitude; rw [show ((0 : ℝ), (10 : ℝ)) - (0, 0) = (0, 10) by simp]; simp
  obtain ⟨out, h1, h2, h3, -⟩ := C222_jamaly x hmin flatTop nanD 10 (by norm_num) hx 30 9 1 hK (1 / 2, 1 / 2) (by simp) upDown arrives
    threeSites (by simp [threeSites]) longSeries long_frozen long_seen .none "jamaly" "tf" (by decide +kernel) (by decide +kernel) none (by simp)
    (by norm_num [optionOf, dictGet?]) (by norm_num [optionOf, dictGet?])
    (by
      intro r hr
      rcases (longSeries_mem hr).2 with h | h <;> rw [h]
      · exact ⟨14, by norm_num, by norm_num [optionOf, dictGet?, upDown], by norm_num [upDown]⟩
      · exact ⟨15, by norm_num, by norm_num [optionOf, dictGet?, upDown], by norm_num [upDown]⟩)
    0 1 0 2 (0, 0) (10, 0) (0, 0) (0, 10) (by simp [threeSites]) (by simp [threeSites]) (by simp [threeSites]) (by simp [threeSites])
    (Or.inl (by simp [IsRef])) (Or.inl (by simp [IsRef])) (by simp [arrives]) (by simp [arrives])
    (by rw [e1]; norm_num [optionOf, dictGet?, arrives]) (by rw [e2]; norm_num [optionOf, dictGet?, arrives])
    (by simp [Independent])
  exact ⟨out, h1, h2, h3⟩

end SST.Props.CmvTf
