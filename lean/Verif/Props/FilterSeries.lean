import Verif.Proofs.Gain
import Verif.Props.PlantMean
import Verif.Spec.FilterSeries

/-!
# Properties C246–C249: filters as convolutions, filters in series, measuring a filter, applying a measurement
-/

namespace SST.Props.FilterSeries
open SST SST.Dft SST.Tf SST.Corr SST.Filters SST.Props.Apply SST.Spec.FilterSeries

/-! ## C246 -/

theorem impulse_length (n : ℕ) : (impulse n).length = n := by simp [impulse]

theorem dftR_impulse {n : ℕ} (hn : 0 < n) (k : ℕ) : dftR (impulse n) k = 1 := by
  unfold dftR
  rw [impulse_length, Finset.sum_eq_single 0]
  · unfold impulse
    rw [at0_range_map _ hn]
    simp [twiddle_zero]
  · intro j hj h0
    unfold impulse
    rw [at0_range_map _ (Finset.mem_range.1 hj)]
    simp [h0]
  · intro h; exact absurd (Finset.mem_range.2 hn) h

theorem dftR_convolve {x r : List ℝ} (hl : r.length = x.length) (hn : 0 < x.length) (k : ℕ) :
    dftR (convolve x r) k = dftR x k * dftR r k := by
  have hlen : (convolve x r).length = x.length := by simp [convolve]
  have h1 : ∀ m ∈ Finset.range x.length, ((at0 (convolve x r) m : ℝ) : ℂ) * twiddle x.length (m * k) =
      ∑ j ∈ Finset.range x.length, ((at0 x j : ℝ) : ℂ) * (((at0 (roll r j) m : ℝ) : ℂ) * twiddle x.length (m * k)) := by
    intro m hm
    have hm' := Finset.mem_range.1 hm
    unfold convolve
    rw [at0_range_map _ hm']
    have : ((List.range x.length).map fun (j : ℕ) => (x[j]?).getD 0 * (r[(((m : ℤ) - j) % x.length).toNat]?).getD 0).sum =
        ∑ j ∈ Finset.range x.length, at0 x j * at0 (roll r j) m := by
      show ∑ j ∈ Finset.range x.length, _ = _
      apply Finset.sum_congr rfl
      intro j _
      rw [at0_roll r j (by omega), hl]; rfl
    rw [this]
    push_cast
    rw [Finset.sum_mul]
    apply Finset.sum_congr rfl
    intro j _
    ring
  unfold dftR
  rw [hlen, Finset.sum_congr rfl h1, Finset.sum_comm, Finset.sum_mul]
  apply Finset.sum_congr rfl
  intro j _
  rw [← Finset.mul_sum]
  have := dft_roll r j k (by omega)
  rw [hl] at this
  rw [this, hl]
  push_cast
  ring

/-- C246: whatever the filter, the result is the circular convolution of the series with the response to a unit impulse. -/
theorem C246_convolution (dt : ℝ) (x out : List ℝ) (filt : List (ℝ × ℂ)) (h : applyFilter dt x filt = .ok out) :
    ∃ r, applyFilter dt (impulse x.length) filt = .ok r ∧ r.length = x.length ∧ out = convolve x r := by
  obtain ⟨hx, hl, H, hH, hs⟩ := filtered_spectrum h
  have hn : 0 < x.length := by omega
  have hm := not_above_of_ok h
  have hi := impulse_length x.length
  obtain ⟨r, hr, hrl, hs'⟩ := filtered_ok (x := impulse x.length) (by omega) (by rw [hi]; exact hm) (by rw [hi]; exact hH)
  rw [hi] at hrl hs'
  refine ⟨r, hr, hrl, ?_⟩
  apply eq_of_dftR (by rw [hl]; simp [convolve])
  intro k hk
  rw [hs k (by omega), dftR_convolve hrl hn, hs' k (by omega), dftR_impulse hn, one_mul]

/-- C246: two filters can be applied in either order. -/
theorem C246_order (dt : ℝ) (x u v : List ℝ) (A B : List (ℝ × ℂ)) (hu : applyFilter dt x A = .ok u) (hv : applyFilter dt u B = .ok v) :
    ∃ w, applyFilter dt x B = .ok w ∧ applyFilter dt w A = .ok v := by
  obtain ⟨hx, hl, H, hH, hs⟩ := filtered_spectrum hu
  have hma := not_above_of_ok hu
  have hmb := not_above_of_ok hv
  obtain ⟨-, hl', K, hK, hs'⟩ := filtered_spectrum hv
  rw [hl] at hmb hl' hK hs'
  refine ⟨_, applyFilter_core hx hmb hK, ?_⟩
  have hwl : ((List.range x.length).map fun (m : ℕ) => (outC x K m).re).length = x.length := by simp
  apply filtered_of_spectrum (H := H) (by rw [hwl]; exact hx) (by rw [hwl, hl']) (by rw [hwl]; exact hma) (by rw [hwl]; exact hH)
  intro k hk
  rw [hwl] at hk ⊢
  rw [hs' k hk, hs k hk, dftR_filtered x K hk]
  ring

example : ∃ u v, applyFilter 1 [1, 2, 3] [((-1 : ℝ), (2 : ℂ)), (1, 2)] = .ok u ∧ applyFilter 1 u [((-1 : ℝ), (3 : ℂ)), (1, 3)] = .ok v := by
  have h3 : ∀ f ∈ fftfreq 3 1, -1 ≤ f ∧ f ≤ 1 := by
    intro f hf
    unfold fftfreq at hf
    simp [List.range_succ, binNumber] at hf
    rcases hf with rfl | rfl | rfl <;> norm_num
  have key : ∀ (x : List ℝ) (g : ℝ), x.length = 3 → 0 ≤ g → applyFilter 1 x [((-1 : ℝ), (g : ℂ)), (1, (g : ℂ))] = .ok (x.map fun (v : ℝ) => g * v) := by
    intro x g hx hg
    refine C51_unity 1 x (by omega) _ (by norm_num) (by simp) g hg (by simp) ?_
    rw [hx]
    intro f hf
    exact ⟨⟨_, List.mem_cons_self, (h3 f hf).1⟩, ⟨(1, (g : ℂ)), by simp, (h3 f hf).2⟩⟩
  exact ⟨_, _, by simpa using key [1, 2, 3] 2 rfl (by norm_num), by simpa using key [2 * 1, 2 * 2, 2 * 3] 3 rfl (by norm_num)⟩

/-! ## C247 -/

theorem freq_nodup {n : ℕ} {dt : ℝ} (hdt : dt ≠ 0) : (fftfreq n dt).Nodup := by
  unfold fftfreq
  refine (List.nodup_map_iff_inj_on List.nodup_range).2 ?_
  intro a ha b hb hab
  rw [List.mem_range] at ha hb
  have hn : (n : ℝ) ≠ 0 := by have : n ≠ 0 := by omega
                              exact_mod_cast this
  rw [div_left_inj' (mul_ne_zero hn hdt)] at hab
  have h1 : binNumber n a = binNumber n b := by exact_mod_cast hab
  unfold binNumber at h1
  split_ifs at h1 <;> omega

theorem freq_neg_mem {n k : ℕ} {dt : ℝ} (hdt : dt ≠ 0) (hk : k < n) :
    (2 * k ≠ n → -((binNumber n k : ℝ) / (n * dt)) = (binNumber n (oppBin n k) : ℝ) / (n * dt) ∧ -((binNumber n k : ℝ) / (n * dt)) ∈ fftfreq n dt) ∧
    (2 * k = n → -((binNumber n k : ℝ) / (n * dt)) ∉ fftfreq n dt) := by
  have hn : (n : ℝ) ≠ 0 := by have : n ≠ 0 := by omega
                              exact_mod_cast this
  constructor
  · intro h
    have e : -((binNumber n k : ℝ) / (n * dt)) = (binNumber n (oppBin n k) : ℝ) / (n * dt) := by
      rw [binNumber_opp hk h]; push_cast; ring
    refine ⟨e, ?_⟩
    rw [e]
    exact List.mem_of_getElem? (fftfreq_get (opp_lt (by omega)))
  · intro h hm
    unfold fftfreq at hm
    obtain ⟨l, hl, he⟩ := List.mem_map.1 hm
    rw [List.mem_range] at hl
    rw [← neg_div, div_left_inj' (mul_ne_zero hn hdt)] at he
    have h1 : binNumber n l = -binNumber n k := by exact_mod_cast he
    unfold binNumber at h1
    split_ifs at h1 <;> omega

theorem freq_mem {n k : ℕ} {dt : ℝ} (hk : k < n) : (binNumber n k : ℝ) / (n * dt) ∈ fftfreq n dt := List.mem_of_getElem? (fftfreq_get hk)

/-- What a tabulated filter does to each bin. -/
theorem table_gain {n : ℕ} {dt : ℝ} {filt : List (ℝ × ℂ)} {A : ℝ → ℂ} (hd : (filt.map Prod.fst).Nodup) (hl : 2 ≤ filt.length)
    (hf : ∀ f ∈ fftfreq n dt, (f, A f) ∈ filt) {H : List ℂ} (hH : interpTf (fftfreq n dt) filt = .ok H) {k : ℕ} (hk : k < n) :
    gain n H k = (A ((binNumber n k : ℝ) / (n * dt)) + (starRingEnd ℂ) (A ((binNumber n (oppBin n k) : ℝ) / (n * dt)))) / 2 := by
  unfold gain
  have ho := opp_lt (n := n) (k := k) (by omega)
  rw [node_value hd hl hH (fftfreq_get hk) (hf _ (freq_mem hk)), node_value hd hl hH (fftfreq_get ho) (hf _ (freq_mem ho))]

theorem real_gain {n : ℕ} {dt : ℝ} (hdt : dt ≠ 0) {A : ℝ → ℂ} (hA : RealAt (fftfreq n dt) A) {k : ℕ} (hk : k < n) :
    (A ((binNumber n k : ℝ) / (n * dt)) + (starRingEnd ℂ) (A ((binNumber n (oppBin n k) : ℝ) / (n * dt)))) / 2 =
      A ((binNumber n k : ℝ) / (n * dt)) := by
  obtain ⟨h1, h2⟩ := hA _ (freq_mem hk)
  by_cases h : 2 * k = n
  · rw [opp_half hk h]
    have := h2 ((freq_neg_mem hdt hk).2 h)
    rw [Complex.conj_eq_iff_im.2 this]
    ring
  · obtain ⟨e, hm⟩ := (freq_neg_mem hdt hk).1 h
    rw [← e, h1 hm, Complex.conj_conj]
    ring

theorem table_two {fs : List ℝ} {n : ℕ} {dt : ℝ} (hdt : dt ≠ 0) (hn : 2 ≤ n) (hf : ∀ f ∈ fftfreq n dt, f ∈ fs) : 2 ≤ fs.length := by
  have hsub : (fftfreq n dt) ⊆ fs := hf
  have h2 := (List.Nodup.subperm (freq_nodup (n := n) hdt) hsub).length_le
  have : (fftfreq n dt).length = n := by simp [fftfreq]
  omega

/-- C247: filters of real systems, given at frequencies that include those of the data's transform: applying one after
the other is applying their product. -/
theorem C247_product_partial (dt : ℝ) (hdt : dt ≠ 0) (x : List ℝ) (hx : 2 ≤ x.length) (fs : List ℝ) (hd : fs.Nodup)
    (hf : ∀ f ∈ fftfreq x.length dt, f ∈ fs) (A B : ℝ → ℂ) (hA : RealAt (fftfreq x.length dt) A) (hB : RealAt (fftfreq x.length dt) B) :
    ∃ u v, applyFilter dt x (table fs A) = .ok u ∧ applyFilter dt u (table fs B) = .ok v ∧
      applyFilter dt x (table fs fun f => A f * B f) = .ok v := by
  have hlen := table_two hdt hx hf
  have hfst : ∀ A : ℝ → ℂ, (table fs A).map Prod.fst = fs := fun A => by simp [table, List.map_map, Function.comp_def]
  have hd' : ∀ A : ℝ → ℂ, ((table fs A).map Prod.fst).Nodup := fun A => by rw [hfst]; exact hd
  have hl' : ∀ A : ℝ → ℂ, 2 ≤ (table fs A).length := fun A => by simpa [table] using hlen
  have hmem : ∀ A : ℝ → ℂ, ∀ f ∈ fftfreq x.length dt, (f, A f) ∈ table fs A := fun A f hfm => List.mem_map.2 ⟨f, hf f hfm, rfl⟩
  have hr : ∀ A : ℝ → ℂ, ∀ f ∈ fftfreq x.length dt, (∃ p ∈ table fs A, p.1 ≤ f) ∧ (∃ p ∈ table fs A, f ≤ p.1) :=
    fun A f hfm => ⟨⟨_, hmem A f hfm, le_refl _⟩, ⟨_, hmem A f hfm, le_refl _⟩⟩
  have hH : ∀ A : ℝ → ℂ, ∃ H, interpTf (fftfreq x.length dt) (table fs A) = .ok H := fun A => (Props.Tf.C53_range _ (hd' A) (hl' A) _).2 (hr A)
  obtain ⟨HA, hHA⟩ := hH A
  obtain ⟨HB, hHB⟩ := hH B
  obtain ⟨HC, hHC⟩ := hH fun f => A f * B f
  obtain ⟨u, hu, hul, hsu⟩ := filtered_ok hx (not_above (hr A)) hHA
  obtain ⟨v, hv, hvl, hsv⟩ := filtered_ok (x := u) (by rw [hul]; exact hx) (by rw [hul]; exact not_above (hr B)) (by rw [hul]; exact hHB)
  rw [hul] at hvl hsv
  refine ⟨u, v, hu, hv, ?_⟩
  apply filtered_of_spectrum hx hvl (not_above (hr _)) hHC
  intro k hk
  have hC : RealAt (fftfreq x.length dt) fun f => A f * B f := by
    intro f hfm
    obtain ⟨a1, a2⟩ := hA f hfm
    obtain ⟨b1, b2⟩ := hB f hfm
    refine ⟨fun hm => by simp only; rw [a1 hm, b1 hm, map_mul], fun hm => ?_⟩
    simp only
    rw [Complex.mul_im, a2 hm, b2 hm]; ring
  rw [hsv k hk, hsu k hk, table_gain (hd' _) (hl' _) (hmem fun f => A f * B f) hHC hk, table_gain (hd' _) (hl' _) (hmem A) hHA hk,
    table_gain (hd' _) (hl' _) (hmem B) hHB hk, real_gain hdt hA hk, real_gain hdt hB hk, real_gain hdt hC hk]
  ring

/-- A first-order low-pass with a real value at half the sampling rate. -/
example : RealAt (fftfreq 2 1) (fun f => if f = 0 then 1 else 1 / 2) ∧ (fftfreq 2 1).Nodup := by
  refine ⟨?_, freq_nodup (by norm_num)⟩
  intro f hf
  unfold fftfreq at hf
  simp [List.range_succ, binNumber] at hf
  rcases hf with rfl | rfl
  · norm_num
  · refine ⟨fun _ => ?_, fun _ => ?_⟩
    · norm_num [Complex.conj_ofNat]
    · norm_num

/-- C247 is false without that: the Marcos filter has a complex value at half the sampling rate, of which only the real
part is effective.  Applied twice to an alternating series it does not act as its square, whatever the plant area. -/
theorem C247_violated_half (s : ℝ) (hs : 0 < s) :
    ∃ u v w : List ℝ, applyFilter 1 [1, -1] (marcosFilter s (some (fftfreq 2 1))) = .ok u ∧
      applyFilter 1 u (marcosFilter s (some (fftfreq 2 1))) = .ok v ∧
      applyFilter 1 [1, -1] ((marcosFilter s (some (fftfreq 2 1))).map fun p => (p.1, p.2 * p.2)) = .ok w ∧ v ≠ w := by
  set A : ℝ → ℂ := fun f => 1 / (Complex.I * f / ((0.02 / Real.sqrt s : ℝ) : ℂ) + 1) with hA
  have e1 : marcosFilter s (some (fftfreq 2 1)) = table (fftfreq 2 1) A := rfl
  have e2 : (marcosFilter s (some (fftfreq 2 1))).map (fun p => (p.1, p.2 * p.2)) = table (fftfreq 2 1) fun f => A f * A f := by
    rw [e1]; unfold table; rw [List.map_map]; rfl
  rw [e2, e1]
  have hfst : ∀ A : ℝ → ℂ, (table (fftfreq 2 1) A).map Prod.fst = fftfreq 2 1 := fun A => by simp [table, List.map_map, Function.comp_def]
  have hd' : ∀ A : ℝ → ℂ, ((table (fftfreq 2 1) A).map Prod.fst).Nodup := fun A => by rw [hfst]; exact freq_nodup (by norm_num)
  have hl' : ∀ A : ℝ → ℂ, 2 ≤ (table (fftfreq 2 1) A).length := fun A => by simp [table, fftfreq]
  have hmem : ∀ A : ℝ → ℂ, ∀ f ∈ fftfreq 2 1, (f, A f) ∈ table (fftfreq 2 1) A := fun A f hfm => List.mem_map.2 ⟨f, hfm, rfl⟩
  have hr : ∀ A : ℝ → ℂ, ∀ f ∈ fftfreq 2 1, (∃ p ∈ table (fftfreq 2 1) A, p.1 ≤ f) ∧ (∃ p ∈ table (fftfreq 2 1) A, f ≤ p.1) :=
    fun A f hfm => ⟨⟨_, hmem A f hfm, le_refl _⟩, ⟨_, hmem A f hfm, le_refl _⟩⟩
  have hH : ∀ A : ℝ → ℂ, ∃ H, interpTf (fftfreq 2 1) (table (fftfreq 2 1) A) = .ok H := fun A => (Props.Tf.C53_range _ (hd' A) (hl' A) _).2 (hr A)
  obtain ⟨HA, hHA⟩ := hH A
  obtain ⟨HC, hHC⟩ := hH fun f => A f * A f
  obtain ⟨u, hu, hul, hsu⟩ := filtered_ok (x := [1, -1]) (le_refl _) (not_above (hr A)) hHA
  simp only [List.length_cons, List.length_nil, zero_add, Nat.reduceAdd] at hul hsu
  obtain ⟨v, hv, hvl, hsv⟩ := filtered_ok (x := u) (by omega) (by rw [hul]; exact not_above (hr A)) (by rw [hul]; exact hHA)
  rw [hul] at hvl hsv
  obtain ⟨w, hw, hwl, hsw⟩ := filtered_ok (x := [1, -1]) (le_refl _) (not_above (hr fun f => A f * A f)) hHC
  simp only [List.length_cons, List.length_nil, zero_add, Nat.reduceAdd] at hwl hsw
  refine ⟨u, v, w, hu, hv, hw, ?_⟩
  intro he
  have h1 : dftR v 1 = dftR w 1 := by rw [he]
  have hX : dftR [1, -1] 1 = 2 := by
    unfold dftR
    simp only [List.length_cons, List.length_nil, zero_add, Nat.reduceAdd]
    have h2 : twiddle 2 1 = -1 := by
      unfold twiddle
      rw [show (-2 * Real.pi * Complex.I * ((1 : ℤ) : ℂ) / ((2 : ℕ) : ℂ) : ℂ) = -(Real.pi * Complex.I) by push_cast; ring,
        Complex.exp_neg, Complex.exp_pi_mul_I]
      norm_num
    simp [Finset.sum_range_succ, at0, twiddle_zero, h2]
    norm_num
  have g : ∀ (B : ℝ → ℂ) (H : List ℂ), interpTf (fftfreq 2 1) (table (fftfreq 2 1) B) = .ok H →
      gain 2 H 1 = (((B (-(1 / 2))).re : ℝ) : ℂ) := by
    intro B H hB
    rw [table_gain (hd' B) (hl' B) (hmem B) hB (by norm_num), opp_half (by norm_num) (by norm_num), Complex.re_eq_add_conj]
    have : ((binNumber 2 1 : ℝ) / ((2 : ℕ) * 1)) = -(1 / 2) := by
      have hb : binNumber 2 1 = -1 := by decide
      rw [hb]; norm_num
    rw [this]
  rw [hsv 1 (by norm_num), hsu 1 (by norm_num), hsw 1 (by norm_num), hX, g A HA hHA, g _ HC hHC] at h1
  set z := A (-(1 / 2)) with hz
  have h3 : z.re * z.re = (z * z).re := by
    have : (2 : ℂ) * ((z.re : ℝ) : ℂ) * ((z.re : ℝ) : ℂ) = 2 * (((z * z).re : ℝ) : ℂ) := h1
    have h4 : 2 * z.re * z.re = 2 * (z * z).re := by exact_mod_cast this
    linarith
  rw [Complex.mul_re] at h3
  have him : z.im = 0 := by
    have : z.im * z.im = 0 := by linarith
    exact mul_self_eq_zero.1 this
  have hc : 0 < 0.02 / Real.sqrt s := by have := Real.sqrt_pos.2 hs; positivity
  have hzv : z * (Complex.I * ((-(1 / 2) : ℝ) : ℂ) / ((0.02 / Real.sqrt s : ℝ) : ℂ) + 1) = 1 := by
    rw [hz, hA]
    simp only
    rw [one_div, inv_mul_cancel₀]
    intro h0
    have h5 := congrArg Complex.re h0
    rw [show Complex.I * ((-(1 / 2) : ℝ) : ℂ) / ((0.02 / Real.sqrt s : ℝ) : ℂ) = (((-(1 / 2)) / (0.02 / Real.sqrt s) : ℝ) : ℂ) * Complex.I by
      push_cast; ring] at h5
    rw [Complex.add_re, Complex.re_ofReal_mul, Complex.I_re, mul_zero, Complex.one_re, Complex.zero_re] at h5
    norm_num at h5
  rw [show Complex.I * ((-(1 / 2) : ℝ) : ℂ) / ((0.02 / Real.sqrt s : ℝ) : ℂ) = (((-(1 / 2)) / (0.02 / Real.sqrt s) : ℝ) : ℂ) * Complex.I by
    push_cast; ring] at hzv
  have hre := congrArg Complex.re hzv
  have him2 := congrArg Complex.im hzv
  simp only [Complex.mul_re, Complex.mul_im, Complex.add_re, Complex.add_im, Complex.ofReal_re, Complex.ofReal_im, Complex.I_re, Complex.I_im,
    Complex.one_re, Complex.one_im, him] at hre him2
  have hzr : z.re = 1 := by linarith
  rw [hzr] at him2
  have : (-(1 / 2)) / (0.02 / Real.sqrt s) ≠ 0 := div_ne_zero (by norm_num) hc.ne'
  apply this
  linarith

/-! ## C248 -/

theorem single_bin {c : ℝ} (hc : c ≠ 0) (X Y : ℂ) :
    tfBin c [X] [Y] = (if X = 0 then none else some (Y / X)) ∧ cohBin c [X] [Y] = (if X = 0 ∨ Y = 0 then none else some 1) := by
  have hp : ∀ Z : ℂ, psd c [Z] = c * Complex.normSq Z := by intro Z; simp [psd]
  have hs : csd c [X] [Y] = c * ((starRingEnd ℂ) X * Y) := by simp [csd]
  have hnz : ∀ Z : ℂ, c * Complex.normSq Z = 0 ↔ Z = 0 := by
    intro Z
    rw [mul_eq_zero, or_iff_right hc, Complex.normSq_eq_zero]
  have hcc : (c : ℂ) ≠ 0 := by exact_mod_cast hc
  constructor
  · unfold tfBin
    rw [hp, hs]
    by_cases hX : X = 0
    · rw [if_pos ((hnz X).2 hX), if_pos hX]
    · rw [if_neg (fun h => hX ((hnz X).1 h)), if_neg hX]
      congr 1
      push_cast
      rw [Complex.normSq_eq_conj_mul_self, mul_div_mul_left _ _ hcc, mul_div_mul_left]
      rw [map_ne_zero]; exact hX
  · unfold cohBin
    rw [hp, hp, hs]
    by_cases h : X = 0 ∨ Y = 0
    · rw [if_pos h, if_pos]
      rw [mul_eq_zero, hnz, hnz]; exact h
    · rw [if_neg h, if_neg (by rw [mul_eq_zero, hnz, hnz]; exact h)]
      congr 1
      rw [map_mul, map_mul, Complex.normSq_conj, Complex.normSq_ofReal]
      push Not at h
      have h1 := (Complex.normSq_eq_zero (z := X)).not.2 h.1
      have h2 := (Complex.normSq_eq_zero (z := Y)).not.2 h.2
      field_simp

/-- One block, rectangular window, no detrending: the transfer function is the quotient of the transforms. -/
theorem one_block {dt ov : ℝ} (hdt : dt ≠ 0) {x y : List ℝ} (hx : 0 < x.length) (hl : y.length = x.length) {a b : String} {cols : List (String × List Row)}
    (htf : averagedTf ⟨dt, 1, ov, fun L => List.replicate L 1, .none⟩ [(a, x)] [(b, y)] = .ok cols) :
    ∃ rows, cols = [(a ++ "_" ++ b, rows)] ∧ rows.length = x.length / 2 + 1 ∧ ∀ (k : ℕ) (r : Row), rows[k]? = some r →
      r.f = k / (x.length * dt) ∧ r.tf = (if dftR x k = 0 then none else some (dftR y k / dftR x k)) ∧
      r.coh = (if dftR x k = 0 ∨ dftR y k = 0 then none else some 1) := by
  obtain ⟨-, -, hov, rfl⟩ := averagedTf_pair _ a b x _ htf
  simp only [Nat.div_one] at hov ⊢
  have hovn : (pyInt ((x.length : ℝ) * ov)).toNat < x.length := by omega
  set ovn := (pyInt ((x.length : ℝ) * ov)).toNat with hovn'
  refine ⟨_, rfl, by simp [pairTf], ?_⟩
  intro k r hr
  obtain ⟨hk, rfl⟩ := pairTf_getElem hr
  have eX : spectra (List.replicate x.length 1) .none x.length ovn x k = [dftR x k] := by
    unfold spectra
    rw [segStarts_one hovn]
    simp only [List.map_cons, List.map_nil]
    rw [segment_all, spectrum_plain]; rfl
  have eY : spectra (List.replicate x.length 1) .none x.length ovn y k = [dftR y k] := by
    unfold spectra
    rw [hl, segStarts_one hovn]
    simp only [List.map_cons, List.map_nil]
    have h1 := segment_all y
    have h2 := spectrum_plain y k
    rw [hl] at h1 h2
    rw [h1, h2]
    unfold dftR
    rw [hl]
  have hc : psdScale (List.replicate x.length 1) dt x.length k ≠ 0 := by
    unfold psdScale
    have : ((List.replicate x.length (1 : ℝ)).map fun (v : ℝ) => v ^ 2).sum = (x.length : ℝ) := by simp
    rw [this]
    have : (x.length : ℝ) ≠ 0 := by exact_mod_cast hx.ne'
    exact mul_ne_zero (by split_ifs <;> norm_num) (div_ne_zero hdt this)
  obtain ⟨h1, h2⟩ := single_bin hc (dftR x k) (dftR y k)
  refine ⟨rfl, ?_, ?_⟩
  · simp only
    rw [eX, eY, h1]
  · simp only
    rw [eX, eY, h2]

/-- C248: the transfer function from a series to the filtered series (one block, rectangular window, no detrending) is
NaN exactly where the series has no power.  Elsewhere it is the value of the filter, more precisely the mean of the value
at `f` and the conjugate of the value at `-f` (which is the value at `f` for a filter of a real system), and the real part of
the value at half the sampling rate; the coherence is 1. -/
theorem C248_measured (dt : ℝ) (hdt : dt ≠ 0) (x out : List ℝ) (filt : List (ℝ × ℂ)) (hd : (filt.map Prod.fst).Nodup) (hl : 2 ≤ filt.length)
    (h : applyFilter dt x filt = .ok out) (a b : String) (ov : ℝ) (cols : List (String × List Row))
    (htf : averagedTf ⟨dt, 1, ov, fun L => List.replicate L 1, .none⟩ [(a, x)] [(b, out)] = .ok cols) :
    ∃ rows, cols = [(a ++ "_" ++ b, rows)] ∧ rows.length = x.length / 2 + 1 ∧ ∀ (k : ℕ) (r : Row), rows[k]? = some r →
      r.f = k / (x.length * dt) ∧
      (r.tf = none ↔ ∑ j ∈ Finset.range x.length, (((x[j]?).getD 0 : ℝ) : ℂ) *
            Complex.exp (-2 * Real.pi * Complex.I * ((j * k : ℤ) : ℂ) / x.length) = 0) ∧
      (r.tf ≠ none → (2 * k < x.length → ∀ z z', (r.f, z) ∈ filt → (-r.f, z') ∈ filt → r.tf = some ((z + (starRingEnd ℂ) z') / 2)) ∧
        (2 * k = x.length → ∀ z, (-r.f, z) ∈ filt → r.tf = some ((z.re : ℝ) : ℂ)) ∧
        ∀ z, r.tf = some z → z ≠ 0 → r.coh = some 1) := by
  obtain ⟨hx, hol, H, hH, hs⟩ := filtered_spectrum h
  obtain ⟨rows, rfl, hrl, hrow⟩ := one_block hdt (by omega) hol htf
  refine ⟨rows, rfl, hrl, ?_⟩
  intro k r hr
  obtain ⟨hf, ht, hco⟩ := hrow k r hr
  have hk : k < x.length / 2 + 1 := by
    have := List.getElem?_eq_some_iff.1 hr
    obtain ⟨h1, -⟩ := this
    omega
  have hkn : k < x.length := by omega
  have hX : (∑ j ∈ Finset.range x.length, (((x[j]?).getD 0 : ℝ) : ℂ) *
            Complex.exp (-2 * Real.pi * Complex.I * ((j * k : ℤ) : ℂ) / x.length)) = dftR x k := rfl
  rw [hX]
  refine ⟨hf, ?_, ?_⟩
  · rw [ht]
    split_ifs with h0 <;> simp [h0]
  intro hne
  have h0 : dftR x k ≠ 0 := by
    intro h0
    rw [ht, if_pos h0] at hne
    exact hne rfl
  rw [if_neg h0, hs k hkn, mul_div_cancel_left₀ _ h0] at ht
  refine ⟨?_, ?_, ?_⟩
  · intro h2 z z' hz hz'
    rw [ht]
    congr 1
    unfold gain
    have hb : binNumber x.length k = k := by unfold binNumber; rw [if_pos h2]
    have e1 : r.f = (binNumber x.length k : ℝ) / (x.length * dt) := by rw [hf, hb]; simp
    have e2 := ((freq_neg_mem hdt hkn).1 (by omega)).1
    rw [← e1] at e2
    rw [node_value hd hl hH (fftfreq_get hkn) (by rw [← e1]; exact hz), node_value hd hl hH (fftfreq_get (opp_lt (by omega))) (by rw [← e2]; exact hz')]
  · intro h2 z hz
    rw [ht]
    congr 1
    unfold gain
    rw [opp_half hkn h2]
    have hb : binNumber x.length k = -(k : ℤ) := by unfold binNumber; rw [if_neg (by omega)]; omega
    have e1 : -r.f = (binNumber x.length k : ℝ) / (x.length * dt) := by rw [hf, hb]; push_cast; ring
    rw [node_value hd hl hH (fftfreq_get hkn) (by rw [← e1]; exact hz), Complex.re_eq_add_conj]
  · intro z hz hz0
    rw [hco, if_neg]
    rw [not_or]
    refine ⟨h0, ?_⟩
    rw [hs k hkn]
    rw [ht] at hz
    have := Option.some.inj hz
    rw [this]
    exact mul_ne_zero h0 hz0

/-- The filter 2 measured on a series of three samples: the calls succeed. -/
example : ∃ out cols, applyFilter 1 [1, 2, 3] [((-1 : ℝ), (2 : ℂ)), (1, 2)] = .ok out ∧
    averagedTf ⟨1, 1, 0, fun L => List.replicate L 1, .none⟩ [("a", [1, 2, 3])] [("b", out)] = .ok cols := by
  have h3 : ∀ f ∈ fftfreq 3 1, -1 ≤ f ∧ f ≤ 1 := by
    intro f hf
    unfold fftfreq at hf
    simp [List.range_succ, binNumber] at hf
    rcases hf with rfl | rfl | rfl <;> norm_num
  have hu := C51_unity 1 [1, 2, 3] (by simp) [((-1 : ℝ), ((2 : ℝ) : ℂ)), (1, ((2 : ℝ) : ℂ))] (by norm_num) (by simp) 2 (by norm_num) (by simp) (by
    intro f hf
    exact ⟨⟨_, List.mem_cons_self, (h3 f hf).1⟩, ⟨(1, ((2 : ℝ) : ℂ)), by simp, (h3 f hf).2⟩⟩)
  have ht := Props.Tf.C103_succeeds ⟨1, 1, 0, fun L => List.replicate L 1, .none⟩ 3 [("a", [1, 2, 3])] [("b", [1, 2, 3].map fun (v : ℝ) => 2 * v)]
    (by simp) (by simp) (by simp) (by norm_num) (by norm_num) (by norm_num) (by norm_num)
  obtain ⟨cols, hc⟩ := ht
  exact ⟨_, cols, by simpa using hu, by simpa using hc⟩

/-! ## C249 -/

theorem getRow {rows : List Row} {filt : List (ℝ × ℂ)} (he : rows.map (fun r => (r.f, r.tf)) = filt.map fun p => (p.1, some p.2)) {k : ℕ} (hk : k < rows.length) :
    ∃ r z, rows[k]? = some r ∧ r.tf = some z ∧ filt[k]? = some (r.f, z) := by
  have hl : filt.length = rows.length := by have := congrArg List.length he; simpa using this.symm
  have h1 : (rows.map fun r => (r.f, r.tf))[k]? = (filt.map fun p => (p.1, some p.2))[k]? := by rw [he]
  rw [List.getElem?_map, List.getElem?_map, List.getElem?_eq_getElem hk, List.getElem?_eq_getElem (by omega)] at h1
  simp only [Option.map_some, Option.some.injEq, Prod.mk.injEq] at h1
  refine ⟨rows[k], (filt[k]'(by omega)).2, List.getElem?_eq_getElem hk, h1.2, ?_⟩
  rw [List.getElem?_eq_getElem (by omega), h1.1]

theorem rows_nodup {n : ℕ} {dt : ℝ} (hdt : 0 < dt) {rows : List Row} {filt : List (ℝ × ℂ)} (hn : 2 ≤ n)
    (he : rows.map (fun r => (r.f, r.tf)) = filt.map fun p => (p.1, some p.2)) (hl : rows.length = n / 2 + 1)
    (hrow : ∀ (k : ℕ) (r : Row), rows[k]? = some r → r.f = k / (n * dt)) : filt.map Prod.fst = (List.range (n / 2 + 1)).map fun (k : ℕ) => (k : ℝ) / (n * dt) := by
  have hlf : filt.length = rows.length := by have := congrArg List.length he; simpa using this.symm
  apply List.ext_getElem?
  intro k
  by_cases hk : k < rows.length
  · obtain ⟨r, z, h1, -, h3⟩ := getRow he hk
    rw [List.getElem?_map, h3, List.getElem?_map, List.getElem?_range (by omega), Option.map_some, Option.map_some, ← hrow k r h1]
  · rw [List.getElem?_eq_none (by simp; omega), List.getElem?_eq_none (by simp; omega)]

/-- C249 is false: a measured transfer function has no negative frequencies, so it can never be used as a filter, although
it is complete. -/
theorem C249_violated (dt : ℝ) (hdt : 0 < dt) (x y : List ℝ) (hx : 2 ≤ x.length) (hl : y.length = x.length) (a b : String) (ov : ℝ)
    (rows : List Row) (filt : List (ℝ × ℂ))
    (htf : averagedTf ⟨dt, 1, ov, fun L => List.replicate L 1, .none⟩ [(a, x)] [(b, y)] = .ok [(a ++ "_" ++ b, rows)])
    (hc : rows.map (fun r => (r.f, r.tf)) = filt.map fun p => (p.1, some p.2)) : Raises (applyFilter dt x filt) .valueError := by
  obtain ⟨rows', he, hrl, hrow⟩ := one_block hdt.ne' (by omega) hl htf
  simp only [List.cons.injEq, Prod.mk.injEq, true_and, and_true] at he
  subst he
  have hfst := rows_nodup hdt hx hc hrl fun k r h => (hrow k r h).1
  have hnr : (0 : ℝ) < x.length := by have : 0 < x.length := by omega
                                      exact_mod_cast this
  have hlf : filt.length = x.length / 2 + 1 := by have := congrArg List.length hfst; simpa using this
  refine (C51_range dt x hx filt ?_ (by omega)).1.2 ?_
  · rw [hfst]
    refine (List.nodup_map_iff_inj_on List.nodup_range).2 ?_
    intro a _ b _ hab
    rw [div_left_inj' (by positivity)] at hab
    exact_mod_cast hab
  · refine ⟨_, freq_mem (k := x.length - 1) (by omega), Or.inl ?_⟩
    intro p hp
    have hp' : p.1 ∈ filt.map Prod.fst := List.mem_map_of_mem hp
    rw [hfst] at hp'
    obtain ⟨k, -, hk⟩ := List.mem_map.1 hp'
    have h1 : (0 : ℝ) ≤ p.1 := by rw [← hk]; positivity
    have h2 : binNumber x.length (x.length - 1) < 0 := by
      unfold binNumber
      rw [if_neg (by omega)]; omega
    have h3 : ((binNumber x.length (x.length - 1) : ℤ) : ℝ) < 0 := by exact_mod_cast h2
    have : ((binNumber x.length (x.length - 1) : ℤ) : ℝ) / (x.length * dt) < 0 := div_neg_of_neg_of_pos h3 (by positivity)
    linarith

/-- C249: continued to negative frequencies with the conjugate values, it gives back the output it was measured with. -/
theorem C249_twosided_partial (dt : ℝ) (hdt : 0 < dt) (x y : List ℝ) (hx : 2 ≤ x.length) (hl : y.length = x.length) (a b : String) (ov : ℝ)
    (rows : List Row) (filt : List (ℝ × ℂ))
    (htf : averagedTf ⟨dt, 1, ov, fun L => List.replicate L 1, .none⟩ [(a, x)] [(b, y)] = .ok [(a ++ "_" ++ b, rows)])
    (hc : rows.map (fun r => (r.f, r.tf)) = filt.map fun p => (p.1, some p.2)) : applyFilter dt x (twoSided filt) = .ok y := by
  obtain ⟨rows', he, hrl, hrow⟩ := one_block hdt.ne' (by omega) hl htf
  simp only [List.cons.injEq, Prod.mk.injEq, true_and, and_true] at he
  subst he
  have hfst := rows_nodup hdt hx hc hrl fun k r h => (hrow k r h).1
  have hn : 0 < x.length := by omega
  have hnr : (0 : ℝ) < x.length := by exact_mod_cast hn
  have hlf : filt.length = x.length / 2 + 1 := by have := congrArg List.length hfst; simpa using this
  have hD : 0 < (x.length : ℝ) * dt := by positivity
  have hinj : ∀ a b : ℕ, (a : ℝ) / (x.length * dt) = b / (x.length * dt) → a = b := by
    intro a b hab
    rw [div_left_inj' hD.ne'] at hab
    exact_mod_cast hab
  have hpos : ∀ p ∈ filt, 0 ≤ p.1 := by
    intro p hp
    have hp' : p.1 ∈ filt.map Prod.fst := List.mem_map_of_mem hp
    rw [hfst] at hp'
    obtain ⟨k, -, hk⟩ := List.mem_map.1 hp'
    rw [← hk]; positivity
  have hnd0 : (filt.map Prod.fst).Nodup := by
    rw [hfst]
    exact (List.nodup_map_iff_inj_on List.nodup_range).2 fun a _ b _ hab => hinj a b hab
  have hnd : ((twoSided filt).map Prod.fst).Nodup := by
    unfold twoSided
    rw [List.map_append, List.nodup_append]
    refine ⟨hnd0, ?_, ?_⟩
    · rw [List.map_map]
      have : ((filt.filter fun p => p.1 ≠ 0).map Prod.fst).Nodup := hnd0.sublist (List.filter_sublist.map _)
      have h2 := this.map (f := fun (v : ℝ) => -v) neg_injective
      rw [List.map_map] at h2
      exact h2
    · intro u hu v hv huv
      rw [List.map_map] at hv
      obtain ⟨p, hp, rfl⟩ := List.mem_map.1 hu
      obtain ⟨q, hq, hqv⟩ := List.mem_map.1 hv
      have hq' := List.mem_filter.1 hq
      have h0 : q.1 ≠ 0 := by simpa using hq'.2
      have h1 := hpos p hp
      have h2 := hpos q hq'.1
      have h3 : -q.1 = v := hqv
      have : 0 < q.1 := lt_of_le_of_ne h2 (Ne.symm h0)
      linarith
  have hl2 : 2 ≤ (twoSided filt).length := by
    unfold twoSided
    rw [List.length_append]; omega
  -- values in the table
  have hval : ∀ k, k < x.length / 2 + 1 → dftR x k ≠ 0 ∧ ((k : ℝ) / (x.length * dt), dftR y k / dftR x k) ∈ filt := by
    intro k hk
    obtain ⟨r, z, h1, h2, h3⟩ := getRow hc (k := k) (by omega)
    obtain ⟨hf, ht, -⟩ := hrow k r h1
    have h0 : dftR x k ≠ 0 := by
      intro h0
      rw [ht, if_pos h0] at h2
      cases h2
    rw [if_neg h0, h2] at ht
    rw [Option.some.inj ht, hf] at h3
    exact ⟨h0, List.mem_of_getElem? h3⟩
  -- the two-sided table holds the quotient of the transforms at every bin
  have hall : ∀ k, k < x.length → dftR x k ≠ 0 ∧ ((binNumber x.length k : ℝ) / (x.length * dt), dftR y k / dftR x k) ∈ twoSided filt := by
    intro k hk
    by_cases h2 : 2 * k < x.length
    · obtain ⟨h0, hm⟩ := hval k (by omega)
      have hb : binNumber x.length k = k := by unfold binNumber; rw [if_pos h2]
      rw [hb]
      exact ⟨h0, List.mem_append_left _ hm⟩
    · have ho : oppBin x.length k = x.length - k := by unfold oppBin; rw [Nat.mod_eq_of_lt (by omega)]
      obtain ⟨h0, hm⟩ := hval (x.length - k) (by omega)
      have cx := dftR_conj x hk
      have cy := dftR_conj y (k := k) (by omega)
      rw [hl] at cy
      rw [ho] at cx cy
      refine ⟨by rw [← cx, map_ne_zero]; exact h0, List.mem_append_right _ (List.mem_map.2 ⟨_, List.mem_filter.2 ⟨hm, ?_⟩, ?_⟩)⟩
      · have : (((x.length - k : ℕ) : ℝ)) ≠ 0 := Nat.cast_ne_zero.2 (by omega)
        simpa only [decide_eq_true_eq] using div_ne_zero this hD.ne'
      · have hb : binNumber x.length k = -((x.length - k : ℕ) : ℤ) := by unfold binNumber; rw [if_neg h2]; omega
        simp only
        rw [hb, map_div₀, cx, cy]
        push_cast
        rw [neg_div]
  have hr : ∀ f ∈ fftfreq x.length dt, (∃ p ∈ twoSided filt, p.1 ≤ f) ∧ (∃ p ∈ twoSided filt, f ≤ p.1) := by
    intro f hf
    unfold fftfreq at hf
    obtain ⟨k, hk, rfl⟩ := List.mem_map.1 hf
    have hm := (hall k (List.mem_range.1 hk)).2
    exact ⟨⟨_, hm, le_refl _⟩, ⟨_, hm, le_refl _⟩⟩
  obtain ⟨H, hH⟩ := (Props.Tf.C53_range _ hnd hl2 _).2 hr
  apply filtered_of_spectrum hx hl (not_above hr) hH
  intro k hk
  have ho := opp_lt (n := x.length) (k := k) hn
  obtain ⟨h0, hm⟩ := hall k hk
  obtain ⟨-, hm'⟩ := hall _ ho
  unfold gain
  rw [node_value hnd hl2 hH (fftfreq_get hk) hm, node_value hnd hl2 hH (fftfreq_get ho) hm', map_div₀, dftR_conj x hk]
  have cy := dftR_conj y (k := k) (by omega)
  rw [hl] at cy
  rw [cy]
  field_simp
  norm_num

/-- Power at both bins of two samples: the transfer function is complete. -/
example : ∃ (rows : List Row) (filt : List (ℝ × ℂ)), averagedTf ⟨1, 1, 0, fun L => List.replicate L 1, .none⟩ [("a", [1, 0])] [("b", [0, 1])] = .ok [("a" ++ "_" ++ "b", rows)] ∧
    rows.map (fun r => (r.f, r.tf)) = filt.map fun p => (p.1, some p.2) := by
  obtain ⟨cols, hc⟩ := Props.Tf.C103_succeeds ⟨1, 1, 0, fun L => List.replicate L 1, .none⟩ 2 [("a", [1, 0])] [("b", [0, 1])]
    (by simp) (by simp) (by simp) (by norm_num) (by norm_num) (by norm_num) (by norm_num)
  obtain ⟨rows, rfl, hl, hrow⟩ := one_block (by norm_num) (by simp) (by simp) hc
  refine ⟨rows, rows.map fun r => (r.f, r.tf.getD 0), hc, ?_⟩
  rw [List.map_map]
  apply List.map_congr_left
  intro r hr
  obtain ⟨k, hk⟩ := List.mem_iff_getElem?.1 hr
  obtain ⟨-, ht, -⟩ := hrow k r hk
  have h1 : dftR [1, 0] k = 1 := by
    have := dftR_impulse (n := 2) (by norm_num) k
    have e : impulse 2 = [1, 0] := by simp [impulse, List.range_succ]
    rwa [e] at this
  rw [h1] at ht
  simp only [one_ne_zero, if_false] at ht
  simp [ht]

end SST.Props.FilterSeries
