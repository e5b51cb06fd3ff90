import Verif.Proofs.Apply
import Verif.Proofs.Filters
import Verif.Proofs.TfAvg
import Mathlib.Analysis.Real.Pi.Bounds

/-!
# Properties C51, C52, C54, C109, C111, C112: applying filters, the Marcos filter, `cleanfreq`
-/

namespace SST.Props.Apply
open SST SST.Dft SST.Tf SST.Corr SST.Filters

/-! ## C51 -/

/-- C51: a filter with the same gain `g ≥ 0` everywhere multiplies the series by `g`; `g = 1` is the identity. -/
theorem C51_unity (dt : ℝ) (x : List ℝ) (hx : 2 ≤ x.length) (filt : List (ℝ × ℂ)) (hd : (filt.map Prod.fst).Nodup) (hl : 2 ≤ filt.length)
    (g : ℝ) (hg : 0 ≤ g) (hc : ∀ p ∈ filt, p.2 = (g : ℂ))
    (hr : ∀ f ∈ fftfreq x.length dt, (∃ p ∈ filt, p.1 ≤ f) ∧ (∃ p ∈ filt, f ≤ p.1)) :
    applyFilter dt x filt = .ok (x.map fun (v : ℝ) => g * v) := by
  obtain ⟨H, hH⟩ := (Props.Tf.C53_range filt hd hl _).2 hr
  rw [applyFilter_core hx (not_above hr) hH]
  congr 1
  have hlen : H.length = x.length := by rw [interpTf_length hH]; simp [fftfreq]
  apply list_ext_at0 (by simp)
  intro m hm
  simp only [List.length_map, List.length_range] at hm
  rw [at0_range_map _ hm, at0_map _ (by simp)]
  unfold outC
  have : ∀ k ∈ Finset.range x.length, dftR x k * at0 H k * twiddle x.length (-(k * m)) = (g : ℂ) * (dftR x k * twiddle x.length (-(k * m))) := by
    intro k hk
    have hk' := Finset.mem_range.1 hk
    rw [at0_of_lt (by omega), interpTf_const hg hc hH _ (List.getElem_mem (by omega))]
    ring
  rw [Finset.sum_congr rfl this, ← Finset.mul_sum, mul_div_assoc, inverse_dftR x hm, ← Complex.ofReal_mul, Complex.ofReal_re]

theorem dftR_comb (a b : ℝ) (x y : List ℝ) (h : x.length = y.length) (k : ℕ) :
    dftR (List.zipWith (fun (u v : ℝ) => a * u + b * v) x y) k = (a : ℂ) * dftR x k + (b : ℂ) * dftR y k := by
  unfold dftR
  have hz : (List.zipWith (fun (u v : ℝ) => a * u + b * v) x y).length = x.length := by simp [h]
  rw [hz, ← h, Finset.mul_sum, Finset.mul_sum, ← Finset.sum_add_distrib]
  apply Finset.sum_congr rfl
  intro j hj
  have hj' := Finset.mem_range.1 hj
  rw [at0_of_lt (by rw [hz]; exact hj'), at0_of_lt hj', at0_of_lt (by omega), List.getElem_zipWith]
  push_cast
  ring

/-- C51: the filtered series is linear in the input series. -/
theorem C51_linear (dt : ℝ) (x y : List ℝ) (hxy : x.length = y.length) (a b : ℝ) (filt : List (ℝ × ℂ)) (hd : (filt.map Prod.fst).Nodup)
    (hl : 2 ≤ filt.length) (u v : List ℝ) (hu : applyFilter dt x filt = .ok u) (hv : applyFilter dt y filt = .ok v) :
    applyFilter dt (List.zipWith (fun (p q : ℝ) => a * p + b * q) x y) filt = .ok (List.zipWith (fun (p q : ℝ) => a * p + b * q) u v) := by
  obtain ⟨hx, H, hH, rfl⟩ := applyFilter_inv hu
  obtain ⟨hy, H', hH', rfl⟩ := applyFilter_inv hv
  rw [← hxy, hH] at hH'
  obtain rfl := Except.ok.inj hH'
  have hz : (List.zipWith (fun (p q : ℝ) => a * p + b * q) x y).length = x.length := by simp [hxy]
  rw [applyFilter_core (H := H) (by omega) (by rw [hz]; exact not_above (inside_of_ok hd hl hH)) (by rw [hz]; exact hH)]
  rw [hz, ← hxy, List.zipWith_map, List.zipWith_self]
  congr 1
  apply List.map_congr_left
  intro m _
  unfold outC
  rw [hz, ← hxy]
  have : ∀ k ∈ Finset.range x.length, dftR (List.zipWith (fun (p q : ℝ) => a * p + b * q) x y) k * at0 H k * twiddle x.length (-(k * m)) =
      (a : ℂ) * (dftR x k * at0 H k * twiddle x.length (-(k * m))) + (b : ℂ) * (dftR y k * at0 H k * twiddle x.length (-(k * m))) := by
    intro k _
    rw [dftR_comb a b x y hxy]; ring
  rw [Finset.sum_congr rfl this, Finset.sum_add_distrib, ← Finset.mul_sum, ← Finset.mul_sum, add_div, mul_div_assoc, mul_div_assoc,
    Complex.add_re, Complex.re_ofReal_mul, Complex.re_ofReal_mul]

/-- C51: with the row (0, z) in the filter the sum (hence the mean) of the series is multiplied by the real part of `z`. -/
theorem C51_mean (dt : ℝ) (x : List ℝ) (filt : List (ℝ × ℂ)) (hd : (filt.map Prod.fst).Nodup) (hl : 2 ≤ filt.length) (z : ℂ)
    (hz : ((0 : ℝ), z) ∈ filt) (out : List ℝ) (h : applyFilter dt x filt = .ok out) : out.length = x.length ∧ out.sum = z.re * x.sum := by
  obtain ⟨hx, H, hH, rfl⟩ := applyFilter_inv h
  refine ⟨by simp, ?_⟩
  have h0 : (fftfreq x.length dt)[0]? = some 0 := by
    rw [fftfreq_get (by omega)]
    simp [binNumber]
  have hH0 := node_value hd hl hH h0 hz
  have h1 : ((List.range x.length).map fun (m : ℕ) => (outC x H m).re).sum = (∑ m ∈ Finset.range x.length, outC x H m).re := by
    rw [Complex.re_sum]; rfl
  rw [h1, sum_outC x H (by omega), hH0, dftR_zero, Complex.re_ofReal_mul, mul_comm]

/-- C51: for at least two samples the call raises ValueError exactly when some frequency of the transform, negative ones
included, lies outside the range of the filter's frequencies. -/
theorem C51_range (dt : ℝ) (x : List ℝ) (hx : 2 ≤ x.length) (filt : List (ℝ × ℂ)) (hd : (filt.map Prod.fst).Nodup) (hl : 2 ≤ filt.length) :
    (Raises (applyFilter dt x filt) .valueError ↔
      ∃ f ∈ fftfreq x.length dt, (∀ p ∈ filt, f < p.1) ∨ (∀ p ∈ filt, p.1 < f)) ∧
    ((¬ ∃ f ∈ fftfreq x.length dt, (∀ p ∈ filt, f < p.1) ∨ (∀ p ∈ filt, p.1 < f)) → ∃ out, applyFilter dt x filt = .ok out) := by
  have hok : (¬ ∃ f ∈ fftfreq x.length dt, (∀ p ∈ filt, f < p.1) ∨ (∀ p ∈ filt, p.1 < f)) → ∃ out, applyFilter dt x filt = .ok out := by
    intro hn
    have hr : ∀ f ∈ fftfreq x.length dt, (∃ p ∈ filt, p.1 ≤ f) ∧ (∃ p ∈ filt, f ≤ p.1) := by
      intro f hf
      by_contra hc
      exact hn ⟨f, hf, by rw [not_and_or] at hc; push Not at hc; exact hc⟩
    obtain ⟨H, hH⟩ := (Props.Tf.C53_range filt hd hl _).2 hr
    exact ⟨_, applyFilter_core hx (not_above hr) hH⟩
  refine ⟨⟨?_, ?_⟩, hok⟩
  · intro h
    by_contra hn
    obtain ⟨out, ho⟩ := hok hn
    unfold Raises at h
    rw [ho] at h
    cases h
  · intro h
    unfold Raises applyFilter
    rw [if_neg (by omega)]
    simp only
    by_cases hm : ∃ f ∈ fftfreq x.length dt, ∀ p ∈ filt, p.1 < f
    · rw [if_pos hm]
    · rw [if_neg hm]
      have := (Props.Tf.C53_range filt hd hl _).1 h
      unfold Raises at this
      rw [this]; rfl

example : ([((-1 : ℝ), (1 : ℂ)), (1, 1)].map Prod.fst).Nodup ∧ (∀ p ∈ [((-1 : ℝ), (1 : ℂ)), (1, 1)], p.2 = ((1 : ℝ) : ℂ)) ∧
    ∀ f ∈ fftfreq 2 1, (∃ p ∈ [((-1 : ℝ), (1 : ℂ)), (1, 1)], p.1 ≤ f) ∧ (∃ p ∈ [((-1 : ℝ), (1 : ℂ)), (1, 1)], f ≤ p.1) := by
  refine ⟨by norm_num, by simp, ?_⟩
  intro f hf
  unfold fftfreq at hf
  simp [List.range_succ, binNumber] at hf
  rcases hf with rfl | rfl <;> norm_num

/-! ## C111 -/

/-- C111: a filter of magnitude at most 1 never increases the energy of the series. -/
theorem C111_energy (dt : ℝ) (x : List ℝ) (filt : List (ℝ × ℂ)) (hd : (filt.map Prod.fst).Nodup) (hp : ∀ p ∈ filt, ‖p.2‖ ≤ 1)
    (out : List ℝ) (h : applyFilter dt x filt = .ok out) :
    (out.map fun (v : ℝ) => v ^ 2).sum ≤ (x.map fun (v : ℝ) => v ^ 2).sum := by
  obtain ⟨hx, H, hH, rfl⟩ := applyFilter_inv h
  have hn : 0 < x.length := by omega
  have hnr : (0 : ℝ) < x.length := by exact_mod_cast hn
  have hHn : ∀ k, Complex.normSq (at0 H k) ≤ 1 := by
    intro k
    have hm := Props.Tf.C53_magnitude filt hd _ H hH
    by_cases hk : k < H.length
    · rw [List.forall₂_iff_get] at hm
      have hk' : k < (fftfreq x.length dt).length := by rw [← interpTf_length hH]; exact hk
      obtain ⟨a, ha, b, hb, -, -, -, -, -, -, hz⟩ := hm.2 k hk' hk
      have : ‖at0 H k‖ ≤ 1 := by
        rw [at0_of_lt hk]
        exact hz.trans (max_le (hp a ha) (hp b hb))
      rw [Complex.normSq_eq_norm_sq]
      have := norm_nonneg (at0 H k)
      nlinarith
    · rw [at0_of_ge (by omega)]; simp
  have h1 : (((List.range x.length).map fun (m : ℕ) => (outC x H m).re).map fun (v : ℝ) => v ^ 2).sum ≤
      ∑ m ∈ Finset.range x.length, Complex.normSq (outC x H m) := by
    rw [List.map_map]
    show ∑ m ∈ Finset.range x.length, (outC x H m).re ^ 2 ≤ _
    apply Finset.sum_le_sum
    intro m _
    rw [Complex.normSq_apply]
    nlinarith [sq_nonneg (outC x H m).im]
  have h2 : (x.map fun (v : ℝ) => v ^ 2).sum = ∑ j ∈ Finset.range x.length, at0 x j ^ 2 := by
    have : x = (List.range x.length).map fun (j : ℕ) => at0 x j := by
      apply List.ext_getElem (by simp)
      intro i h1 h2
      rw [List.getElem_map, List.getElem_range, at0_of_lt h1]
    conv_lhs => rw [this]
    rw [List.map_map]; rfl
  have h3 := parseval x hn
  rw [h2]
  refine h1.trans ?_
  rw [outC_energy x H hn, div_le_iff₀ hnr, mul_comm, ← h3]
  apply Finset.sum_le_sum
  intro k _
  calc Complex.normSq (dftR x k) * Complex.normSq (at0 H k) ≤ Complex.normSq (dftR x k) * 1 :=
        mul_le_mul_of_nonneg_left (hHn k) (Complex.normSq_nonneg _)
    _ = _ := by rw [mul_one]; rfl

example : ∀ p ∈ [((-1 : ℝ), (Complex.I : ℂ)), (1, 1 / 2)], ‖p.2‖ ≤ 1 := by simp; norm_num

/-! ## C112 -/

theorem dftR_roll (x : List ℝ) (s : ℤ) (k : ℕ) (hn : 0 < x.length) : dftR (roll x s) k = twiddle x.length (s * k) * dftR x k := by
  have := dft_roll x s k hn
  unfold dftR
  rw [roll_length]
  exact this

/-- C112: filtering commutes with circular shifts of the series. -/
theorem C112_shift (dt : ℝ) (x : List ℝ) (s : ℤ) (filt : List (ℝ × ℂ)) (hd : (filt.map Prod.fst).Nodup) (hl : 2 ≤ filt.length)
    (out : List ℝ) (h : applyFilter dt x filt = .ok out) : applyFilter dt (roll x s) filt = .ok (roll out s) := by
  obtain ⟨hx, H, hH, rfl⟩ := applyFilter_inv h
  have hn : 0 < x.length := by omega
  have hn' : (0 : ℤ) < x.length := by exact_mod_cast hn
  have hz : (roll x s).length = x.length := roll_length _ _
  rw [applyFilter_core (H := H) (by omega) (by rw [hz]; exact not_above (inside_of_ok hd hl hH)) (by rw [hz]; exact hH)]
  congr 1
  rw [hz]
  apply list_ext_at0 (by rw [roll_length]; simp)
  intro m hm
  simp only [List.length_map, List.length_range] at hm
  rw [at0_range_map _ hm, at0_roll _ _ (by simpa using hm)]
  simp only [List.length_map, List.length_range]
  have h1 := Int.emod_lt_of_pos ((m : ℤ) - s) hn'
  have h2 := Int.emod_nonneg ((m : ℤ) - s) hn'.ne'
  rw [at0_range_map _ (by omega)]
  unfold outC
  rw [hz]
  congr 2
  apply Finset.sum_congr rfl
  intro k _
  rw [dftR_roll x s k hn]
  have : twiddle x.length (-(k * ((((m : ℤ) - s) % x.length).toNat : ℤ))) = twiddle x.length (s * k) * twiddle x.length (-(k * m)) := by
    rw [← twiddle_add]
    apply twiddle_period _ hn
    rw [Int.toNat_of_nonneg h2, Int.emod_def]
    rw [show -((k : ℤ) * (((m : ℤ) - s) - x.length * (((m : ℤ) - s) / x.length))) - (s * k + -(k * m)) = x.length * (k * (((m : ℤ) - s) / x.length)) by ring]
    exact dvd_mul_right _ _
  rw [this]; ring

/-- C112: a filter that is the delay `exp(-2πi f m dt)` at the frequencies of the data shifts the series circularly
by `m` samples. -/
theorem C112_delay (dt : ℝ) (hdt : dt ≠ 0) (x : List ℝ) (hx : 2 ≤ x.length) (m : ℤ) (filt : List (ℝ × ℂ)) (hd : (filt.map Prod.fst).Nodup)
    (hf : ∀ f ∈ fftfreq x.length dt, (f, Complex.exp (-(2 * Real.pi * f * (m * dt) : ℝ) * Complex.I)) ∈ filt) :
    applyFilter dt x filt = .ok (roll x m) := by
  have hn : 0 < x.length := by omega
  have hn' : (0 : ℤ) < x.length := by exact_mod_cast hn
  have hnr : (x.length : ℝ) ≠ 0 := by exact_mod_cast hn.ne'
  have hl : 2 ≤ filt.length := by
    have h0 : (0 : ℝ) ∈ fftfreq x.length dt := by
      refine List.mem_of_getElem? (i := 0) ?_
      rw [fftfreq_get hn]; simp [binNumber]
    have h1 : ((binNumber x.length 1 : ℤ) : ℝ) / (x.length * dt) ∈ fftfreq x.length dt :=
      List.mem_of_getElem? (i := 1) (fftfreq_get (by omega))
    have hne : ((binNumber x.length 1 : ℤ) : ℝ) / (x.length * dt) ≠ 0 := by
      refine div_ne_zero ?_ (mul_ne_zero hnr hdt)
      unfold binNumber
      split_ifs with h
      · simp
      · have : x.length = 2 := by omega
        rw [this]; norm_num
    have m0 := hf _ h0
    have m1 := hf _ h1
    rcases filt with _ | ⟨a, _ | ⟨b, rest⟩⟩
    · simp at m0
    · exfalso
      rw [List.mem_singleton] at m0 m1
      apply hne
      rw [← m0] at m1
      exact (Prod.mk.inj m1).1
    · simp
  have hr : ∀ f ∈ fftfreq x.length dt, (∃ p ∈ filt, p.1 ≤ f) ∧ (∃ p ∈ filt, f ≤ p.1) :=
    fun f h => ⟨⟨_, hf f h, le_rfl⟩, ⟨_, hf f h, le_rfl⟩⟩
  obtain ⟨H, hH⟩ := (Props.Tf.C53_range filt hd hl _).2 hr
  rw [applyFilter_core hx (not_above hr) hH]
  congr 1
  apply list_ext_at0 (by rw [roll_length]; simp)
  intro j hj
  simp only [List.length_map, List.length_range] at hj
  rw [at0_range_map _ hj]
  have hinv := inverse_dftR (roll x m) (m := j) (by rw [roll_length]; exact hj)
  rw [roll_length] at hinv
  have : outC x H j = ((at0 (roll x m) j : ℝ) : ℂ) := by
    rw [← hinv]
    unfold outC
    congr 1
    apply Finset.sum_congr rfl
    intro k hk
    have hk' := Finset.mem_range.1 hk
    have hg := fftfreq_get (dt := dt) hk'
    rw [node_value hd hl hH hg (hf _ (List.mem_of_getElem? hg)), dftR_roll x m k hn]
    have : Complex.exp (-(2 * Real.pi * ((binNumber x.length k : ℝ) / (x.length * dt)) * (m * dt) : ℝ) * Complex.I) = twiddle x.length (m * k) := by
      rw [twiddle_period x.length hn (m * k) (m * binNumber x.length k)
        (by rw [← mul_sub]; exact Dvd.dvd.mul_left (binNumber_dvd _ _) _)]
      unfold twiddle
      congr 1
      have hc : (x.length : ℂ) ≠ 0 := by exact_mod_cast hn.ne'
      have hdc : (dt : ℂ) ≠ 0 := by exact_mod_cast hdt
      push_cast
      field_simp
    rw [this]; ring
  rw [this, Complex.ofReal_re]

example : ((fftfreq 2 1).map fun (f : ℝ) => (f, Complex.exp (-(2 * Real.pi * f * ((1 : ℤ) * 1) : ℝ) * Complex.I))).length = 2 ∧
    ∀ f ∈ fftfreq 2 1, (f, Complex.exp (-(2 * Real.pi * f * ((1 : ℤ) * 1) : ℝ) * Complex.I)) ∈
      (fftfreq 2 1).map fun (f : ℝ) => (f, Complex.exp (-(2 * Real.pi * f * ((1 : ℤ) * 1) : ℝ) * Complex.I)) := by
  refine ⟨by simp [fftfreq], fun f hf => List.mem_map.2 ⟨f, hf, rfl⟩⟩

/-! ## C52 -/

theorem marcos_mem {s : ℝ} {freq : List ℝ} {p : ℝ × ℂ} (h : p ∈ marcosFilter s (some freq)) :
    p.1 ∈ freq ∧ p.2 = 1 / (Complex.I * (p.1 : ℂ) / ((0.02 / Real.sqrt s : ℝ) : ℂ) + 1) := by
  unfold marcosFilter at h
  simp only [Option.getD_some] at h
  obtain ⟨f, hf, rfl⟩ := List.mem_map.1 h
  exact ⟨hf, rfl⟩

/-- C52: value of each entry, gain 1 at 0, and Hermitian symmetry. -/
theorem C52_value (s : ℝ) (freq : List ℝ) :
    (marcosFilter s (some freq)).map Prod.fst = freq ∧
    ∀ p ∈ marcosFilter s (some freq), ‖p.2‖ = 1 / Real.sqrt (1 + (p.1 / (0.02 / Real.sqrt s)) ^ 2) ∧ (p.1 = 0 → p.2 = 1) ∧
      ∀ q ∈ marcosFilter s (some freq), q.1 = -p.1 → q.2 = (starRingEnd ℂ) p.2 := by
  have key : ∀ f c : ℝ, (Complex.I * f / (c : ℂ) + 1) = ⟨1, f / c⟩ := by
    intro f c
    rw [show Complex.I * f / (c : ℂ) + 1 = 1 + ((f / c : ℝ) : ℂ) * Complex.I by push_cast; ring]
    apply Complex.ext <;> simp
  refine ⟨by unfold marcosFilter; simp [List.map_map, Function.comp_def], ?_⟩
  intro p hp
  obtain ⟨-, h2⟩ := marcos_mem hp
  refine ⟨?_, ?_, ?_⟩
  · rw [h2, key, norm_div, norm_one]
    congr 1
    rw [← Real.sqrt_sq (norm_nonneg _), ← Complex.normSq_eq_norm_sq, Complex.normSq_apply]
    congr 1
    ring
  · intro h; rw [h2, h]; simp
  · intro q hq hqf
    obtain ⟨-, h2'⟩ := marcos_mem hq
    rw [h2', h2, hqf, key, key, map_div₀, map_one]
    congr 1
    apply Complex.ext <;> simp
    ring

/-- C52: the magnitude strictly decreases with |f|. -/
theorem C52_decreasing (s : ℝ) (hs : 0 < s) (freq : List ℝ) (p q : ℝ × ℂ) (hp : p ∈ marcosFilter s (some freq)) (hq : q ∈ marcosFilter s (some freq))
    (h : |p.1| < |q.1|) : ‖q.2‖ < ‖p.2‖ := by
  rw [((C52_value s freq).2 p hp).1, ((C52_value s freq).2 q hq).1]
  have hc : 0 < 0.02 / Real.sqrt s := by have := Real.sqrt_pos.2 hs; positivity
  apply one_div_lt_one_div_of_lt (Real.sqrt_pos.2 (by positivity))
  apply Real.sqrt_lt_sqrt (by positivity)
  have : (p.1 / (0.02 / Real.sqrt s)) ^ 2 < (q.1 / (0.02 / Real.sqrt s)) ^ 2 := by
    rw [div_pow p.1, div_pow q.1]
    exact div_lt_div_of_pos_right (sq_lt_sq.2 h) (pow_pos hc 2)
  linarith

/-- C52: magnitude 1/√2 exactly at ± the cutoff. -/
theorem C52_cutoff (s : ℝ) (hs : 0 < s) (freq : List ℝ) (p : ℝ × ℂ) (hp : p ∈ marcosFilter s (some freq)) :
    ‖p.2‖ = 1 / Real.sqrt 2 ↔ |p.1| = 0.02 / Real.sqrt s := by
  rw [((C52_value s freq).2 p hp).1]
  have hc : 0 < 0.02 / Real.sqrt s := by have := Real.sqrt_pos.2 hs; positivity
  have hpos : 0 < 1 + (p.1 / (0.02 / Real.sqrt s)) ^ 2 := by positivity
  constructor
  · intro h
    have h1 : Real.sqrt (1 + (p.1 / (0.02 / Real.sqrt s)) ^ 2) = Real.sqrt 2 := by
      rw [one_div, one_div] at h
      exact inv_injective h
    have h2 : 1 + (p.1 / (0.02 / Real.sqrt s)) ^ 2 = 2 := (Real.sqrt_inj hpos.le (by norm_num)).1 h1
    have h3 : (p.1 / (0.02 / Real.sqrt s)) ^ 2 = 1 ^ 2 := by linarith
    have h4 := (sq_eq_sq_iff_abs_eq_abs _ _).1 h3
    rw [abs_div, abs_of_pos hc, abs_one, div_eq_one_iff_eq hc.ne'] at h4
    exact h4
  · intro h
    have : (p.1 / (0.02 / Real.sqrt s)) ^ 2 = 1 := by
      rw [← sq_abs, abs_div, abs_of_pos hc, h, div_self hc.ne', one_pow]
    rw [this]; norm_num

/-- C52: at each frequency a larger plant filters at least as much, and strictly more away from 0. -/
theorem C52_area (s s' : ℝ) (hs : 0 < s) (h : s < s') (freq freq' : List ℝ) (p q : ℝ × ℂ) (hp : p ∈ marcosFilter s (some freq))
    (hq : q ∈ marcosFilter s' (some freq')) (hpq : p.1 = q.1) : ‖q.2‖ ≤ ‖p.2‖ ∧ (p.1 ≠ 0 → ‖q.2‖ < ‖p.2‖) := by
  have hlt : p.1 ≠ 0 → ‖q.2‖ < ‖p.2‖ := by
    intro hne
    rw [((C52_value s freq).2 p hp).1, ((C52_value s' freq').2 q hq).1, ← hpq]
    have h1 := Real.sqrt_pos.2 hs
    have h2 := Real.sqrt_lt_sqrt hs.le h
    apply one_div_lt_one_div_of_lt (Real.sqrt_pos.2 (by positivity))
    apply Real.sqrt_lt_sqrt (by positivity)
    have e : ∀ t : ℝ, 0 < t → (p.1 / (0.02 / t)) ^ 2 = p.1 ^ 2 / 0.02 ^ 2 * t ^ 2 := by
      intro t ht; field_simp
    rw [e _ h1, e _ (h1.trans h2)]
    have : Real.sqrt s ^ 2 < Real.sqrt s' ^ 2 := by nlinarith
    have hp2 : 0 < p.1 ^ 2 / 0.02 ^ 2 := by positivity
    nlinarith
  refine ⟨?_, hlt⟩
  by_cases h0 : p.1 = 0
  · rw [((C52_value s freq).2 p hp).2.1 h0, ((C52_value s' freq').2 q hq).2.1 (by rw [← hpq]; exact h0)]
  · exact (hlt h0).le

example : ((0.02 : ℝ), (1 / (Complex.I * (0.02 : ℝ) / ((0.02 / Real.sqrt 4 : ℝ) : ℂ) + 1) : ℂ)) ∈ marcosFilter 4 (some [0, 0.02]) := by
  simp [marcosFilter]

/-! ## C109 -/

/-- C109 (violated): the Marcos filter in its default form can not be applied to any series: whatever the plant size,
the sampling and the data, `apply_filter` raises ValueError. -/
theorem C109_violated_default (s dt : ℝ) (hdt : 0 < dt) (x : List ℝ) (hx : 2 ≤ x.length) :
    Raises (applyFilter dt x (marcosFilter s none)) .valueError := by
  have hfst : (marcosFilter s none).map Prod.fst = (List.range 100).map fun (i : ℕ) => (i : ℝ) * (0.5 / 99) := by
    unfold marcosFilter
    rw [List.map_map]
    simp only [Function.comp_def, Option.getD_none, List.map_id']
  have hd : ((marcosFilter s none).map Prod.fst).Nodup := by
    rw [hfst]
    apply List.Nodup.map _ List.nodup_range
    intro a b h
    simp only at h
    have : (a : ℝ) = b := mul_right_cancel₀ (by norm_num) h
    exact_mod_cast this
  have hl : 2 ≤ (marcosFilter s none).length := by
    rw [← List.length_map (f := Prod.fst), hfst]; simp
  rw [(C51_range dt x hx _ hd hl).1]
  refine ⟨(binNumber x.length (x.length - 1) : ℝ) / (x.length * dt), List.mem_of_getElem? (fftfreq_get (by omega)), Or.inl ?_⟩
  intro p hp
  have hp1 : 0 ≤ p.1 := by
    have : p.1 ∈ (marcosFilter s none).map Prod.fst := List.mem_map_of_mem hp
    rw [hfst] at this
    obtain ⟨i, -, hi⟩ := List.mem_map.1 this
    rw [← hi]; positivity
  refine lt_of_lt_of_le ?_ hp1
  have hb : binNumber x.length (x.length - 1) = -1 := by
    unfold binNumber
    rw [if_neg (by omega)]
    omega
  rw [hb]
  have : (0 : ℝ) < x.length := by
    have : 0 < x.length := by omega
    exact_mod_cast this
  have : 0 < x.length * dt := by positivity
  rw [div_lt_iff₀ this]
  norm_num

/-- C109 (partial: for a frequency vector that covers the frequencies of the data, negative ones included): the filter is
applied, keeps the mean and never increases the energy. -/
theorem C109_covering_partial (s dt : ℝ) (x : List ℝ) (hx : 2 ≤ x.length) (freq : List ℝ) (hd : freq.Nodup) (hl : 2 ≤ freq.length)
    (h0 : (0 : ℝ) ∈ freq) (hr : ∀ f ∈ fftfreq x.length dt, (∃ g ∈ freq, g ≤ f) ∧ (∃ g ∈ freq, f ≤ g)) :
    ∃ out, applyFilter dt x (marcosFilter s (some freq)) = .ok out ∧ out.length = x.length ∧ out.sum = x.sum ∧
      (out.map fun (v : ℝ) => v ^ 2).sum ≤ (x.map fun (v : ℝ) => v ^ 2).sum := by
  have hfst := (C52_value s freq).1
  have hd' : ((marcosFilter s (some freq)).map Prod.fst).Nodup := by rw [hfst]; exact hd
  have hl' : 2 ≤ (marcosFilter s (some freq)).length := by
    rw [← List.length_map (f := Prod.fst), hfst]; exact hl
  have hex : ∀ g ∈ freq, ∃ p ∈ marcosFilter s (some freq), p.1 = g := by
    intro g hg
    rw [← hfst] at hg
    exact List.mem_map.1 hg
  have hok := (C51_range dt x hx _ hd' hl').2 (by
    rintro ⟨f, hf, h⟩
    obtain ⟨⟨a, ha, ha'⟩, ⟨b, hb, hb'⟩⟩ := hr f hf
    obtain ⟨p, hp, rfl⟩ := hex a ha
    obtain ⟨q, hq, rfl⟩ := hex b hb
    rcases h with h | h
    · linarith [h p hp]
    · linarith [h q hq])
  obtain ⟨out, ho⟩ := hok
  obtain ⟨p, hp, hp0⟩ := hex 0 h0
  have hm : ((0 : ℝ), (1 : ℂ)) ∈ marcosFilter s (some freq) := by
    have : p = (0, 1) := Prod.ext hp0 (((C52_value s freq).2 p hp).2.1 hp0)
    rw [← this]; exact hp
  obtain ⟨hlen, hsum⟩ := C51_mean dt x _ hd' hl' 1 hm out ho
  refine ⟨out, ho, hlen, by rw [hsum]; simp, C111_energy dt x _ hd' ?_ out ho⟩
  intro q hq
  rw [((C52_value s freq).2 q hq).1, div_le_one (Real.sqrt_pos.2 (by positivity))]
  rw [Real.one_le_sqrt]
  nlinarith [sq_nonneg (q.1 / (0.02 / Real.sqrt s))]

example : ([-1, 0, 1] : List ℝ).Nodup ∧ ∀ f ∈ fftfreq 2 1, (∃ g ∈ ([-1, 0, 1] : List ℝ), g ≤ f) ∧ (∃ g ∈ ([-1, 0, 1] : List ℝ), f ≤ g) := by
  refine ⟨by norm_num, ?_⟩
  intro f hf
  unfold fftfreq at hf
  simp [List.range_succ, binNumber] at hf
  rcases hf with rfl | rfl <;> norm_num

/-! ## C54 -/

/-- C54: exactly the label at position `len // 2` is blanked in the argument, every other label stays and the
function returns None. -/
theorem C54_blank {α : Type} (index : List (Option α)) (h : index ≠ []) :
    ∃ out, cleanfreq index = .ok (out, ()) ∧ out.length = index.length ∧ out[index.length / 2]? = some none ∧
      ∀ i : ℕ, i ≠ index.length / 2 → out[i]? = index[i]? := by
  have hl : 0 < index.length := List.length_pos_iff.2 h
  refine ⟨index.set (index.length / 2) none, by unfold cleanfreq; rw [if_neg (by omega)], by simp, ?_, ?_⟩
  · rw [List.getElem?_set_self (by omega)]
  · intro i hi
    rw [List.getElem?_set_ne (Ne.symm hi)]

example := C54_blank [some (0 : ℝ), some 1, some (-1)] (by simp)

/-- C54: on the frequencies of an fft of even length the blanked label is the most negative frequency, the first negative
one in the list; for odd length it is the highest positive frequency. -/
theorem C54_fft (n : ℕ) (hn : 2 ≤ n) (d : ℝ) (hd : 0 < d) :
    (n % 2 = 0 → (fftfreq n d)[n / 2]? = some (-(1 / (2 * d))) ∧ (∀ f ∈ fftfreq n d, -(1 / (2 * d)) ≤ f) ∧
      ∀ (i : ℕ) (f : ℝ), i < n / 2 → (fftfreq n d)[i]? = some f → 0 ≤ f) ∧
    (n % 2 = 1 → ∃ g, (fftfreq n d)[n / 2]? = some g ∧ 0 < g ∧ ∀ f ∈ fftfreq n d, f ≤ g) := by
  have hn0 : (0 : ℝ) < n := by
    have : 0 < n := by omega
    exact_mod_cast this
  have hnd : (0 : ℝ) < n * d := by positivity
  have hmem : ∀ f ∈ fftfreq n d, ∃ k, k < n ∧ f = (binNumber n k : ℝ) / (n * d) := by
    intro f hf
    unfold fftfreq at hf
    obtain ⟨k, hk, rfl⟩ := List.mem_map.1 hf
    exact ⟨k, List.mem_range.1 hk, rfl⟩
  constructor
  · intro he
    obtain ⟨m, rfl⟩ : ∃ m, n = 2 * m := ⟨n / 2, by omega⟩
    have hb : binNumber (2 * m) (2 * m / 2) = -(m : ℤ) := by unfold binNumber; rw [if_neg (by omega)]; push_cast; omega
    have hm : (m : ℝ) ≠ 0 := by
      have : m ≠ 0 := by omega
      exact_mod_cast this
    have hval : -(1 / (2 * d)) = ((-(m : ℤ) : ℤ) : ℝ) / (((2 * m : ℕ) : ℝ) * d) := by push_cast; field_simp
    refine ⟨?_, ?_, ?_⟩
    · rw [fftfreq_get (by omega), hb, hval]
    · intro f hf
      obtain ⟨k, hk, rfl⟩ := hmem f hf
      rw [hval, div_le_div_iff_of_pos_right hnd]
      have : -(m : ℤ) ≤ binNumber (2 * m) k := by unfold binNumber; split_ifs <;> omega
      exact_mod_cast this
    · intro i f hi hf
      rw [fftfreq_get (by omega)] at hf
      rw [← Option.some.inj hf]
      have : 0 ≤ binNumber (2 * m) i := by unfold binNumber; rw [if_pos (by omega)]; omega
      have : (0 : ℝ) ≤ (binNumber (2 * m) i : ℝ) := by exact_mod_cast this
      positivity
  · intro ho
    obtain ⟨m, rfl⟩ : ∃ m, n = 2 * m + 1 := ⟨n / 2, by omega⟩
    refine ⟨_, fftfreq_get (by omega), ?_, ?_⟩
    · have : 0 < binNumber (2 * m + 1) ((2 * m + 1) / 2) := by unfold binNumber; rw [if_pos (by omega)]; omega
      have : (0 : ℝ) < (binNumber (2 * m + 1) ((2 * m + 1) / 2) : ℝ) := by exact_mod_cast this
      positivity
    · intro f hf
      obtain ⟨k, hk, rfl⟩ := hmem f hf
      rw [div_le_div_iff_of_pos_right hnd]
      have : binNumber (2 * m + 1) k ≤ binNumber (2 * m + 1) ((2 * m + 1) / 2) := by
        unfold binNumber; rw [if_pos (show 2 * ((2 * m + 1) / 2) < 2 * m + 1 by omega)]; split_ifs <;> omega
      exact_mod_cast this

example := C54_fft 6 (by norm_num) 10 (by norm_num)

/-- C54: an empty signal raises IndexError. -/
theorem C54_empty {α : Type} : Raises (cleanfreq ([] : List (Option α))) .indexError := rfl

example : ([some (0 : ℝ), some 1] : List (Option ℝ)) ≠ [] := by simp

/-- The two frequencies of two samples at 1 s are within a filter given from -1 to 1 Hz. -/
theorem two_covered (a b c : ℂ) : ∀ f ∈ fftfreq 2 1, (∃ p ∈ [((-1 : ℝ), a), (0, b), (1, c)], p.1 ≤ f) ∧ (∃ p ∈ [((-1 : ℝ), a), (0, b), (1, c)], f ≤ p.1) := by
  intro f hf
  unfold fftfreq at hf
  simp [List.range_succ, binNumber] at hf
  rcases hf with rfl | rfl <;> norm_num

theorem two_filtered (a b c : ℂ) (x : List ℝ) (hx : x.length = 2) : ∃ out, applyFilter 1 x [(-1, a), (0, b), (1, c)] = .ok out := by
  refine (C51_range 1 x (by omega) [(-1, a), (0, b), (1, c)] (by norm_num) (by simp)).2 ?_
  rintro ⟨f, hf, h⟩
  rw [hx] at hf
  obtain ⟨⟨p, hp, h1⟩, q, hq, h2⟩ := two_covered a b c f hf
  rcases h with h | h
  · exact absurd (h p hp) (not_lt.2 h1)
  · exact absurd (h q hq) (not_lt.2 h2)

example : applyFilter 1 [4, 7] [(-1, 3), (0, 3), (1, 3)] = .ok ([4, 7].map fun (v : ℝ) => 3 * v) :=
  C51_unity 1 [4, 7] (by simp) [(-1, 3), (0, 3), (1, 3)] (by norm_num) (by simp) 3 (by norm_num) (by simp) (two_covered 3 3 3)

example : ∃ u v, applyFilter 1 [4, 7] [(-1, Complex.I), (0, 2), (1, 1 / 2)] = .ok u ∧ applyFilter 1 [0, 1] [(-1, Complex.I), (0, 2), (1, 1 / 2)] = .ok v ∧
    applyFilter 1 (List.zipWith (fun (p q : ℝ) => 2 * p + 5 * q) [4, 7] [0, 1]) [(-1, Complex.I), (0, 2), (1, 1 / 2)] =
      .ok (List.zipWith (fun (p q : ℝ) => 2 * p + 5 * q) u v) ∧ u.sum = 2 * (4 + 7) := by
  obtain ⟨u, hu⟩ := two_filtered Complex.I 2 (1 / 2) [4, 7] rfl
  obtain ⟨v, hv⟩ := two_filtered Complex.I 2 (1 / 2) [0, 1] rfl
  have h1 := C51_mean 1 [4, 7] _ (by norm_num) (by simp) 2 (by simp) u hu
  exact ⟨u, v, hu, hv, C51_linear 1 [4, 7] [0, 1] rfl 2 5 _ (by norm_num) (by simp) u v hu hv, by simpa using h1.2⟩

example : ∃ out, applyFilter 1 [4, 7] [(-1, Complex.I), (0, -1), (1, 1 / 2)] = .ok out ∧
    (out.map fun (v : ℝ) => v ^ 2).sum ≤ ([4, 7].map fun (v : ℝ) => v ^ 2).sum ∧
    applyFilter 1 (roll [4, 7] 1) [(-1, Complex.I), (0, -1), (1, 1 / 2)] = .ok (roll out 1) := by
  obtain ⟨out, h⟩ := two_filtered Complex.I (-1) (1 / 2) [4, 7] rfl
  exact ⟨out, h, C111_energy 1 [4, 7] _ (by norm_num) (by simp; norm_num) out h, C112_shift 1 [4, 7] 1 _ (by norm_num) (by simp) out h⟩

example : applyFilter 1 [4, 7] ((fftfreq 2 1).map fun (f : ℝ) => (f, Complex.exp (-(2 * Real.pi * f * ((1 : ℤ) * 1) : ℝ) * Complex.I))) =
    .ok (roll [4, 7] 1) :=
  C112_delay 1 one_ne_zero [4, 7] (by simp) 1 _ (by simp [fftfreq, List.range_succ, binNumber]; norm_num) (fun f hf => List.mem_map.2 ⟨f, hf, rfl⟩)

theorem marcos_at (s f : ℝ) (freq : List ℝ) (hf : f ∈ freq) :
    (f, (1 / (Complex.I * (f : ℝ) / ((0.02 / Real.sqrt s : ℝ) : ℂ) + 1) : ℂ)) ∈ marcosFilter s (some freq) := by
  simp [marcosFilter]
  exact hf

example := C52_decreasing 4 (by norm_num) [0, 0.01, -0.02] _ _ (marcos_at 4 0.01 _ (by simp)) (marcos_at 4 (-0.02) _ (by simp)) (by norm_num)

example := C52_cutoff 4 (by norm_num) [0, 0.01, -0.02] _ (marcos_at 4 0.01 _ (by simp))

example := C52_area 4 9 (by norm_num) (by norm_num) [0, 0.01] [0.01] _ _ (marcos_at 4 0.01 _ (by simp)) (marcos_at 9 0.01 _ (by simp)) rfl

example : ∃ out, applyFilter 1 [4, 7] (marcosFilter 4 (some [-1, 0, 1])) = .ok out ∧ out.sum = 4 + 7 := by
  obtain ⟨out, h, -, h2, -⟩ := C109_covering_partial 4 1 [4, 7] (by simp) [-1, 0, 1] (by norm_num) (by simp) (by simp)
    (fun f hf => by simpa using two_covered 0 0 0 f hf)
  exact ⟨out, h, by simpa using h2⟩

end SST.Props.Apply
