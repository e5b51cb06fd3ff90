import Verif.Proofs.CorrPair

/-!
# Properties C37-C42, C89-C96: cross-correlation and delays (`signalproc.py`)

Specifications: `Spec/Corr.lean`.
-/

namespace SST.Props.Corr
open SST SST.Corr SST.Spec SST.Dft

/-! ## C37 -/

/-- C37: with 'coeff' scaling every value of the correlation of two equally long non-constant signals
is a finite number in [-1, 1]. -/
theorem C37_bounded (x y : List ℝ) (hl : x.length = y.length) (hx : ¬ IsConst x) (hy : ¬ IsConst y)
    (s : String) (hs : s.toLower = "coeff") :
    ∃ c lags, correlation x y s = .ok (c, lags) ∧ ∀ v ∈ c, ∃ r : ℝ, v = .fin r ∧ |r| ≤ 1 := by
  refine ⟨_, _, correlation_coeff hs x y, ?_⟩
  have hd := den_pos hx hy
  have hd2 := divisor_norm "coeff" x y hl
  rw [divisor_coeff] at hd2
  intro v hv
  obtain ⟨w, hw, rfl⟩ := List.mem_map.1 hv
  rw [correlate_eq] at hw
  obtain ⟨lag, -, rfl⟩ := List.mem_map.1 hw
  refine ⟨_, div_pos_fin _ hd.ne', ?_⟩
  rw [abs_div, abs_of_pos hd, div_le_one hd, hd2]
  unfold normOf
  rw [if_pos rfl]
  exact abs_xcorrAt_le _ _ lag

theorem varying_01 : ¬ IsConst [0, 1] := fun h => by have := h 0 (by simp) 1 (by simp); norm_num at this

theorem varying_35 : ¬ IsConst [3, 5] := fun h => by have := h 3 (by simp) 5 (by simp); norm_num at this

example := C37_bounded [0, 1] [3, 5] rfl varying_01 varying_35 "Coeff" (by decide +kernel)

example : ¬ IsConst [0, 1] := by
  intro h; have := h 0 (by simp) 1 (by simp); norm_num at this

/-- C37 for different lengths: values are bounded by √(len(estimation)/len(baseline)). -/
theorem C37_general_bound (x y : List ℝ) (hx : ¬ IsConst x) (hy : ¬ IsConst y) (s : String) (hs : s.toLower = "coeff") :
    ∃ c lags, correlation x y s = .ok (c, lags) ∧
      ∀ v ∈ c, ∃ r : ℝ, v = .fin r ∧ |r| ≤ Real.sqrt (y.length / x.length) := by
  refine ⟨_, _, correlation_coeff hs x y, ?_⟩
  have hd := den_pos hx hy
  intro v hv
  obtain ⟨w, hw, rfl⟩ := List.mem_map.1 hv
  rw [correlate_eq] at hw
  obtain ⟨lag, -, rfl⟩ := List.mem_map.1 hw
  refine ⟨_, div_pos_fin _ hd.ne', ?_⟩
  rw [abs_div, abs_of_pos hd, div_le_iff₀ hd]
  refine (abs_xcorrAt_le _ _ lag).trans (le_of_eq ?_)
  have hn : (0 : ℝ) < x.length := by
    have h0 : x ≠ [] := by rintro rfl; apply hx; intro a ha; simp at ha
    exact_mod_cast List.length_pos_iff.2 h0
  have hq : Real.sqrt x.length ≠ 0 := (Real.sqrt_pos.2 hn).ne'
  rw [sqrt_energy_center, sqrt_energy_center, Real.sqrt_div (by positivity)]
  have := Real.mul_self_sqrt hn.le
  field_simp
  rw [sq, this]
  ring

example := C37_general_bound [0, 1] [3, 5] varying_01 varying_35 "coeff" (by decide +kernel)

/-- C37: the value at lag zero is Pearson's correlation coefficient. -/
theorem C37_pearson (x y : List ℝ) (hl : x.length = y.length) (hx : ¬ IsConst x) (hy : ¬ IsConst y)
    (s : String) (hs : s.toLower = "coeff") :
    ∃ c lags, correlation x y s = .ok (c, lags) ∧ ∀ k : ℕ, lags[k]? = some 0 →
      c[k]? = some (.fin ((List.zipWith (· * ·) (demean x) (demean y)).sum /
        Real.sqrt (energyOf (demean x) * energyOf (demean y)))) := by
  refine ⟨_, _, correlation_coeff hs x y, ?_⟩
  have hd := den_pos hx hy
  have hd2 := divisor_norm "coeff" x y hl
  rw [divisor_coeff] at hd2
  intro k hk
  have hkl : k < x.length + y.length - 1 := by
    have := (List.getElem?_eq_some_iff.1 hk).1; simpa using this
  rw [lagsOf_get hkl] at hk
  have hz := Option.some.inj hk
  rw [List.getElem?_map, correlate_get (by simpa using hkl)]
  simp only [center_length, hz, Option.map_some]
  rw [div_pos_fin _ hd.ne', hd2]
  unfold normOf
  rw [if_pos rfl, Real.sqrt_mul (energyOf_nonneg _), center_demean, center_demean]
  congr 3
  have hlen : (List.zipWith (· * ·) (demean x) (demean y)).length = (demean y).length := by simp [demean, hl]
  rw [← sum_ext, hlen]
  unfold xcorrAt
  apply Finset.sum_congr rfl
  intro i hi
  have hi' : i < (demean y).length := Finset.mem_range.1 hi
  have hi2 : i < (demean x).length := by simpa [demean, hl] using hi'
  rw [add_zero, ext_get hi', ext_get hi2, ext_get (by rw [hlen]; exact hi')]
  simp

example := C37_pearson [0, 1] [3, 5] rfl varying_01 varying_35 "coeff" (by decide +kernel)

/-- C37: the autocorrelation coefficient at lag zero is 1. -/
theorem C37_self (x : List ℝ) (hx : ¬ IsConst x) (s : String) (hs : s.toLower = "coeff") :
    ∃ c lags, correlation x x s = .ok (c, lags) ∧ ∀ k : ℕ, lags[k]? = some 0 → c[k]? = some (.fin 1) := by
  refine ⟨_, _, correlation_coeff hs x x, ?_⟩
  have hd := den_pos hx hx
  have hd2 := divisor_norm "coeff" x x rfl
  rw [divisor_coeff] at hd2
  intro k hk
  have hkl : k < x.length + x.length - 1 := by
    have := (List.getElem?_eq_some_iff.1 hk).1; simpa using this
  rw [lagsOf_get hkl] at hk
  have hz := Option.some.inj hk
  rw [List.getElem?_map, correlate_get (by simpa using hkl)]
  simp only [center_length, hz, Option.map_some]
  rw [div_pos_fin _ hd.ne', xcorrAt_zero_self]
  rw [hd2] at hd ⊢
  unfold normOf at hd ⊢
  rw [if_pos rfl, Real.mul_self_sqrt (energyOf_nonneg _)] at hd ⊢
  rw [center_demean, div_self hd.ne']

example := C37_self [3, 5] varying_35 "COEFF" (by decide +kernel)

/-- C37: if either signal is constant every value is NaN. -/
theorem C37_constant (x y : List ℝ) (h : IsConst x ∨ IsConst y) (s : String) (hs : s.toLower = "coeff") :
    ∃ c lags, correlation x y s = .ok (c, lags) ∧ ∀ v ∈ c, v = .nan := by
  refine ⟨_, _, correlation_coeff hs x y, ?_⟩
  intro v hv
  obtain ⟨w, hw, rfl⟩ := List.mem_map.1 hv
  rw [correlate_eq] at hw
  obtain ⟨lag, -, rfl⟩ := List.mem_map.1 hw
  have h0 : xcorrAt (center x) (center y) lag = 0 := by
    unfold xcorrAt
    apply Finset.sum_eq_zero
    intro i _
    rcases h with h | h
    · rw [ext_zero (center_const h), zero_mul]
    · rw [ext_zero (center_const h), mul_zero]
  have hd : (x.length : ℝ) * (std x * std y) = 0 := by
    rcases h with h | h <;> simp [std_zero h]
  rw [h0, hd, div_zero_zero]

example := C37_constant [3, 3, 3] [1, 2, 4] (Or.inl (by intro a ha b hb; simp at ha hb; rw [ha, hb])) "coeff" (by decide +kernel)

example : IsConst [3, 3, 3] := by
  intro a ha b hb; simp at ha hb; rw [ha, hb]

/-- C37, 'energy' scaling: values are the correlation divided by Σ x², hence bounded by
√(Σ y² / Σ x²), and 1 at lag zero of a signal with itself. -/
theorem C37_energy (x y : List ℝ) (hx : ∃ v ∈ x, v ≠ 0) (s : String) (hs : s.toLower = "energy") :
    ∃ c lags, correlation x y s = .ok (c, lags) ∧ c = lags.map (fun l => XR.fin (xcorrAt x y l / energyOf x)) ∧
      ∀ v ∈ c, ∃ r : ℝ, v = .fin r ∧ |r| ≤ Real.sqrt (energyOf y / energyOf x) := by
  have hne : x ≠ [] := by rintro rfl; simp at hx
  have hE := energyOf_pos hx
  refine ⟨_, _, correlation_energy hs x y, ?_, ?_⟩
  · rw [max_autocorr hne, correlate_eq, List.map_map]
    apply List.map_congr_left
    intro l _
    exact div_pos_fin _ hE.ne'
  · intro v hv
    obtain ⟨w, hw, rfl⟩ := List.mem_map.1 hv
    rw [correlate_eq] at hw
    obtain ⟨lag, -, rfl⟩ := List.mem_map.1 hw
    rw [max_autocorr hne]
    refine ⟨_, div_pos_fin _ hE.ne', ?_⟩
    rw [abs_div, abs_of_pos hE, div_le_iff₀ hE, Real.sqrt_div (energyOf_nonneg y)]
    refine (abs_xcorrAt_le _ _ lag).trans (le_of_eq ?_)
    have hq : Real.sqrt (energyOf x) ≠ 0 := (Real.sqrt_pos.2 hE).ne'
    have := Real.mul_self_sqrt hE.le
    field_simp
    rw [sq, this]
    ring

example := C37_energy [0, 2] [1, 5, 3] ⟨2, by simp, by norm_num⟩ "energy" (by decide +kernel)

/-! ## C38 -/

/-- C38: number of entries, the lag axis and the value at each lag. -/
theorem C38_entries (x y : List ℝ) (hx : x ≠ []) (hy : y ≠ []) (s : String) (hs : s.toLower = "none") :
    ∃ c lags, correlation x y s = .ok (c, lags) ∧ c.length = x.length + y.length - 1 ∧
      lags.length = x.length + y.length - 1 ∧
      ∀ k, k < x.length + y.length - 1 → lags[k]? = some ((k : ℤ) - (y.length - 1)) ∧
        c[k]? = some (.fin (xcorrAt x y ((k : ℤ) - (y.length - 1)))) := by
  refine ⟨_, _, correlation_none hs x y, by simp, by simp, ?_⟩
  intro k hk
  refine ⟨lagsOf_get hk, ?_⟩
  rw [List.getElem?_map, correlate_get hk]; rfl

/-- The hypotheses of C38 hold in a concrete case: signals of different lengths, the scaling named in capitals. -/
example : ∃ c lags, correlation [1, 2, 4] [3, 5] "None" = .ok (c, lags) ∧ c.length = 4 ∧ lags.length = 4 := by
  obtain ⟨c, lags, h, h1, h2, -⟩ := C38_entries [1, 2, 4] [3, 5] (by simp) (by simp) "None" (by decide +kernel)
  exact ⟨c, lags, h, h1, h2⟩

/-- C38: swapping the signals reverses the values and reverses and negates the lags. -/
theorem C38_swap (x y : List ℝ) (hx : x ≠ []) (hy : y ≠ []) (s : String)
    (hs : s.toLower = "none" ∨ (s.toLower = "coeff" ∧ x.length = y.length)) :
    ∃ c lags, correlation x y s = .ok (c, lags) ∧
      correlation y x s = .ok (c.reverse, lags.reverse.map fun l => -l) := by
  have hxl : 0 < x.length := List.length_pos_iff.2 hx
  have hyl : 0 < y.length := List.length_pos_iff.2 hy
  have hlag : lagsOf y.length x.length = (lagsOf x.length y.length).reverse.map fun l => -l := by
    apply List.ext_getElem?
    intro k
    by_cases hk : k < y.length + x.length - 1
    · rw [lagsOf_get hk, List.getElem?_map, List.getElem?_reverse (by simp; omega), lagsOf_length, lagsOf_get (by omega)]
      simp only [Option.map_some]
      congr 1; omega
    · rw [List.getElem?_eq_none (by simp; omega), List.getElem?_eq_none (by simp; omega)]
  have hcor : ∀ a b : List ℝ, a.length = x.length → b.length = y.length → correlate b a = (correlate a b).reverse := by
    intro a b ha hb
    rw [correlate_eq, correlate_eq, ha, hb, hlag, List.map_map, ← List.map_reverse]
    apply List.map_congr_left
    intro l _
    exact xcorrAt_swap a b l
  rcases hs with hs | ⟨hs, hl⟩
  · refine ⟨_, _, correlation_none hs x y, ?_⟩
    rw [correlation_none hs, hlag, hcor x y rfl rfl, List.map_reverse]
  · refine ⟨_, _, correlation_coeff hs x y, ?_⟩
    rw [correlation_coeff hs, hlag, hcor _ _ (center_length x) (center_length y), List.map_reverse, hl, mul_comm (std x)]

example : ∃ c lags, correlation [1, 2, 4] [3, 5, 0] "coeff" = .ok (c, lags) ∧
    correlation [3, 5, 0] [1, 2, 4] "coeff" = .ok (c.reverse, lags.reverse.map fun l => -l) :=
  C38_swap [1, 2, 4] [3, 5, 0] (by simp) (by simp) "coeff" (Or.inr ⟨by decide +kernel, rfl⟩)

/-- C38: with 'none' the correlation is bilinear: it is linear in the first signal (with `C38_swap`
also in the second). -/
theorem C38_linear (x x' y : List ℝ) (a b : ℝ) (hl : x.length = x'.length) (s : String) (hs : s.toLower = "none") :
    ∃ c c' : List ℝ, ∃ lags, correlation x y s = .ok (c.map .fin, lags) ∧ correlation x' y s = .ok (c'.map .fin, lags) ∧
      correlation (List.zipWith (fun u v => a * u + b * v) x x') y s =
        .ok ((List.zipWith (fun u v => a * u + b * v) c c').map .fin, lags) := by
  refine ⟨_, _, _, correlation_none hs x y, by rw [correlation_none hs, hl], ?_⟩
  have hlen : (List.zipWith (fun u v => a * u + b * v) x x').length = x.length := by simp [hl]
  rw [correlation_none hs, hlen]
  congr 3
  rw [correlate_eq, correlate_eq, correlate_eq, hlen, ← hl, List.zipWith_map, List.zipWith_self]
  apply List.map_congr_left
  intro lag _
  unfold xcorrAt
  rw [Finset.mul_sum, Finset.mul_sum, ← Finset.sum_add_distrib]
  apply Finset.sum_congr rfl
  intro i _
  have he : ∀ j : ℤ, ext (List.zipWith (fun u v => a * u + b * v) x x') j = a * ext x j + b * ext x' j := by
    intro j
    unfold ext
    by_cases hj : 0 ≤ j ∧ j.toNat < x.length
    · rw [dif_pos hj, dif_pos (by rw [hlen]; exact hj), dif_pos (by rw [← hl]; exact hj)]
      simp
    · rw [dif_neg hj, dif_neg (by rw [hlen]; exact hj), dif_neg (by rw [← hl]; exact hj)]
      ring
  rw [he]; ring

example := C38_linear [1, 2] [0, 5] [3, 4, 4] 2 (-1) rfl "none" (by decide +kernel)

/-! ## C39 -/

/-- C39: with 'none' each row of the FFT-based correlation is the direct correlation of that pair of
columns, on the same lags. -/
theorem C39_fft_none (n : ℕ) (hn : 0 < n) (ins outs : List (List ℝ)) (hc : ins.length = outs.length) (h0 : ins ≠ [])
    (hi : ∀ x ∈ ins, x.length = n) (ho : ∀ y ∈ outs, y.length = n) :
    ∃ rows lags, fftCorrelate ins outs "none" = .ok (rows, lags) ∧ rows.length = ins.length ∧
      ∀ (i : ℕ) (x y : List ℝ), ins[i]? = some x → outs[i]? = some y →
        ∃ c, correlation x y "none" = .ok (c, lags) ∧ rows[i]? = some c := by
  obtain ⟨x0, t, rfl⟩ := List.exists_cons_of_ne_nil h0
  obtain ⟨y0, t', rfl⟩ : ∃ y0 t', outs = y0 :: t' := by
    cases outs with
    | nil => simp at hc
    | cons a b => exact ⟨a, b, rfl⟩
  have hn1 := hi x0 (by simp)
  have hn2 := ho y0 (by simp)
  unfold fftCorrelate
  simp only [List.headD_cons, hn1, hn2]
  rw [if_neg (by simp), if_neg (by simpa using hc), if_pos trivial]
  refine ⟨_, _, rfl, by simpa using hc.le, ?_⟩
  intro i x y hx hy
  have hxl := hi x (List.mem_of_getElem? hx)
  have hyl := ho y (List.mem_of_getElem? hy)
  refine ⟨(correlate x y).map .fin, ?_, ?_⟩
  · rw [correlation_none (by decide +kernel), hxl, hyl]
  · have hne : x ≠ [] := by rintro rfl; simp at hxl; omega
    rw [List.getElem?_map, List.getElem?_zipWith, hx, hy]
    simp only [Option.map_some]
    have := fft_roll x y (by rw [hxl, hyl]) hne
    rw [hxl] at this
    rw [roll_map, show cond "none" x = x from rfl, show cond "none" y = y from rfl, this]

/-- The hypotheses of C39 hold in a concrete case: two pairs of signals of length 2. -/
example : ∃ rows lags, fftCorrelate [[1, 2], [0, 5]] [[3, 1], [2, 2]] "none" = .ok (rows, lags) ∧ rows.length = 2 := by
  obtain ⟨rows, lags, h, h1, -⟩ := C39_fft_none 2 (by norm_num) [[1, 2], [0, 5]] [[3, 1], [2, 2]] rfl (by simp) (by simp) (by simp)
  exact ⟨rows, lags, h, h1⟩

/-- C39: with 'coeff' the same for one pair of columns (several columns: see C93). -/
theorem C39_fft_coeff (x y : List ℝ) (hx : x ≠ []) (hl : x.length = y.length) :
    ∃ c lags, correlation x y "coeff" = .ok (c, lags) ∧ fftCorrelate [x] [y] "coeff" = .ok ([c], lags) := by
  refine ⟨_, _, correlation_coeff (by decide +kernel) x y, ?_⟩
  unfold fftCorrelate
  rw [if_neg (by simp), if_neg (by simp)]
  simp only []
  rw [if_neg (by decide), if_pos (show [x].length = 1 from rfl)]
  simp only [List.headD_cons]
  have hcl : (center x).length = (center y).length := by simp [hl]
  have hne : center x ≠ [] := by intro h; have := congrArg List.length h; simp at this; exact hx this
  have := fft_roll (center x) (center y) hcl hne
  rw [center_length] at this
  simp only [List.zipWith_cons_cons, List.zipWith_nil_left, List.map_cons, List.map_nil, List.headD_cons]
  rw [roll_map, show cond "coeff" x = center x from rfl, show cond "coeff" y = center y from rfl, this, divisor_coeff]

example : ∃ c lags, correlation [1, 2, 4] [3, 5, 0] "coeff" = .ok (c, lags) ∧ fftCorrelate [[1, 2, 4]] [[3, 5, 0]] "coeff" = .ok ([c], lags) :=
  C39_fft_coeff [1, 2, 4] [3, 5, 0] (by simp) rfl

/-! ## C42 -/

/-- C42: for every pair of columns the reported delay is 0 if the peak value is below 1e-10 and
otherwise minus the peak lag times dt; among equal maxima mode 'loop' takes the smallest lag and
mode 'fft' the first in the order 0, 1, .., n-1, -(n-1), .., -1; the delay lies within ±(n-1)dt. -/
theorem C42_delay (dt : ℝ) (hdt : 0 < dt) (ins outs : List (List ℝ)) (mode s : String) (rs : List PairDelay)
    (h : computeDelays dt ins outs mode s = .ok rs) (i : ℕ) (x y : List ℝ) (hi : ins[i]? = some x) (ho : outs[i]? = some y)
    (hl : x.length = y.length) (hx : x ≠ []) (hnc : s = "coeff" → ¬ IsConst x ∧ ¬ IsConst y) :
    ∃ r lag, rs[i]? = some r ∧
      IsPeak x.length (xcorrAt (conditioned s x) (conditioned s y)) lag ∧
      (∀ l, IsLag x.length l →
        (if mode = "loop" then l < lag else (0 ≤ l ∧ (l < lag ∨ lag < 0)) ∨ (l < lag ∧ lag < 0)) →
        xcorrAt (conditioned s x) (conditioned s y) l < xcorrAt (conditioned s x) (conditioned s y) lag) ∧
      r.peak = .fin (xcorrAt (conditioned s x) (conditioned s y) lag / normOf s x y) ∧
      (xcorrAt (conditioned s x) (conditioned s y) lag / normOf s x y < 1e-10 → r.delay = 0) ∧
      (1e-10 ≤ xcorrAt (conditioned s x) (conditioned s y) lag / normOf s x y → r.delay = -((lag : ℝ) * dt)) ∧
      r.zeroCorr = .fin (xcorrAt (conditioned s x) (conditioned s y) 0 / normOf s x y) ∧
      |r.delay| ≤ (x.length - 1) * dt := by
  obtain ⟨hr, hm, -⟩ := computeDelays_ok h hi ho
  obtain ⟨lag, h1, h2, h3⟩ := pair_spec hm dt s x y hl hx
  have hN := normOf_pos hnc
  rw [div_pos_fin _ hN.ne', div_pos_fin _ hN.ne', div_pos_fin _ hN.ne'] at h3
  have hn : (1 : ℝ) ≤ x.length := by exact_mod_cast List.length_pos_iff.2 hx
  refine ⟨_, lag, hr, h1, h2, ?_, ?_, ?_, ?_, ?_⟩
  · rw [(dropWeak_meanCorr _).2.1, h3]
  · intro hw
    apply dropWeak_delay_weak
    rw [h3]; exact hw
  · intro hst
    rw [dropWeak_delay_strong, h3]
    rw [h3]; exact not_lt.2 hst
  · rw [(dropWeak_meanCorr _).2.2, h3]
  · by_cases hw : (pairOf mode dt s x y).peak.lt (.fin 1e-10)
    · rw [dropWeak_delay_weak hw, abs_zero]
      have : (0 : ℝ) ≤ x.length - 1 := by linarith
      positivity
    · rw [dropWeak_delay_strong hw, h3]
      simp only
      rw [abs_neg, abs_mul, abs_of_pos hdt]
      apply mul_le_mul_of_nonneg_right _ hdt.le
      obtain ⟨⟨h4, h5⟩, -⟩ := h1
      rw [abs_le]
      constructor
      · have : -(x.length : ℤ) + 1 ≤ lag := by omega
        have : ((-(x.length : ℤ) + 1 : ℤ) : ℝ) ≤ lag := by exact_mod_cast this
        push_cast at this; linarith
      · have : lag ≤ (x.length : ℤ) - 1 := by omega
        have : (lag : ℝ) ≤ (((x.length : ℤ) - 1 : ℤ) : ℝ) := by exact_mod_cast this
        push_cast at this; linarith

/-- C42: with equally many columns and valid options there is one result per column. -/
theorem C42_total (dt : ℝ) (ins outs : List (List ℝ)) (mode s : String) (hc : ins.length = outs.length)
    (hm : mode = "loop" ∨ mode = "fft") (hs : s = "coeff" ∨ s = "none") :
    ∃ rs, computeDelays dt ins outs mode s = .ok rs ∧ rs.length = ins.length :=
  ⟨_, computeDelays_equal hc hm hs, by simp [hc]⟩

example : ∃ rs, computeDelays 1 [[0, 1]] [[1, 0]] "fft" "coeff" = .ok rs ∧ rs.length = 1 :=
  C42_total 1 [[0, 1]] [[1, 0]] "fft" "coeff" rfl (Or.inr rfl) (Or.inl rfl)

/-- C42 for `xcorr_delay`: minus the smallest maximal lag, and the value there. -/
theorem C42_xcorr (dt : ℝ) (x y : List ℝ) (s : String) (hs : s.toLower = "coeff") (hl : x.length = y.length)
    (hx : ¬ IsConst x) (hy : ¬ IsConst y) :
    ∃ lag, IsPeak x.length (xcorrAt (demean x) (demean y)) lag ∧
      (∀ l, IsLag x.length l → l < lag → xcorrAt (demean x) (demean y) l < xcorrAt (demean x) (demean y) lag) ∧
      xcorrDelay dt x y s = .ok (-((lag : ℝ) * dt), .fin (xcorrAt (demean x) (demean y) lag / normOf "coeff" x y)) := by
  have hd := den_pos hx hy
  have hd2 := divisor_norm "coeff" x y hl
  rw [divisor_coeff] at hd2
  have hx0 : center x ≠ [] := by
    intro h
    have h0 : x = [] := by have := congrArg List.length h; simpa using this
    subst h0; apply hx; intro a ha; simp at ha
  obtain ⟨lag, h1, h2, h3, h4⟩ := argmax_correlate (center x) (center y) (by simp [hl]) hx0
  simp only [center_length] at h1 h2 h3
  refine ⟨lag, h1, h2, ?_⟩
  unfold xcorrDelay
  rw [correlation_coeff hs]
  have e : (correlate (center x) (center y)).map (fun v => XR.div v (x.length * (std x * std y))) =
      ((correlate (center x) (center y)).map fun v => (x.length * (std x * std y))⁻¹ * v).map .fin := by
    rw [List.map_map]
    apply List.map_congr_left
    intro v _
    rw [div_pos_fin _ hd.ne']; simp only [Function.comp]
    congr 1; field_simp
  simp only [Except.map, e, argmaxX_fin, argmax_map_mono (strictMono_mul (inv_pos.2 hd)), List.getElem?_map, h3, h4,
    Option.map_some, Option.getD_some]
  rw [hd2, ← center_demean, ← center_demean]
  congr 2
  congr 1
  field_simp

example := C42_xcorr 10 [0, 1] [3, 5] "coeff" (by decide +kernel) rfl varying_01 varying_35

/-- C42 for `xcorr_delay` with 'none'. -/
theorem C42_xcorr_none (dt : ℝ) (x y : List ℝ) (s : String) (hs : s.toLower = "none") (hl : x.length = y.length) (hx : x ≠ []) :
    ∃ lag, IsPeak x.length (xcorrAt x y) lag ∧ (∀ l, IsLag x.length l → l < lag → xcorrAt x y l < xcorrAt x y lag) ∧
      xcorrDelay dt x y s = .ok (-((lag : ℝ) * dt), .fin (xcorrAt x y lag)) := by
  obtain ⟨lag, h1, h2, h3, h4⟩ := argmax_correlate x y hl hx
  refine ⟨lag, h1, h2, ?_⟩
  unfold xcorrDelay
  rw [correlation_none hs]
  simp only [Except.map, argmaxX_fin, List.getElem?_map, h3, h4, Option.map_some, Option.getD_some]

example := C42_xcorr_none 10 [0, 1] [3, 5] "none" (by decide +kernel) rfl (by simp)

/-! ## C40 -/

/-- C40: for an output that is the input delayed by m samples, `compute_delays` reports m·dt in both
modes, with scaling 'none' for a signal of energy at least 1e-10, and with 'coeff' for a signal of
zero mean (then the peak is 1). -/
theorem C40_delays (dt : ℝ) (hdt : 0 < dt) (ins outs : List (List ℝ)) (mode s : String) (rs : List PairDelay)
    (h : computeDelays dt ins outs mode s = .ok rs) (i : ℕ) (x y : List ℝ) (hi : ins[i]? = some x) (ho : outs[i]? = some y)
    (m : ℤ) (hd : Delayed x y m) (h0 : ∃ v ∈ x, v ≠ 0)
    (hs : (s = "none" ∧ 1e-10 ≤ energyOf x) ∨ (s = "coeff" ∧ x.sum = 0)) :
    ∃ r, rs[i]? = some r ∧ r.delay = m * dt ∧ r.peak = .fin (if s = "coeff" then 1 else energyOf x) := by
  have hx : x ≠ [] := by rintro rfl; simp at h0
  have hE := energyOf_pos h0
  have hcx : conditioned s x = x := by
    rcases hs with ⟨rfl, -⟩ | ⟨rfl, h1⟩
    · rfl
    · exact center_of_sum_zero h1
  have hcy : conditioned s y = y := by
    rcases hs with ⟨rfl, -⟩ | ⟨rfl, h1⟩
    · rfl
    · exact center_of_sum_zero (by rw [delayed_sum hd, h1])
  have key : ∀ z : List ℝ, z.sum = 0 → 0 < energyOf z → ¬ IsConst z := by
    intro z hz hp hc
    have h1 := energy_center z
    rw [center_of_sum_zero hz, (variance_zero_iff z).2 hc, mul_zero] at h1
    exact hp.ne' h1
  have hnc : s = "coeff" → ¬ IsConst x ∧ ¬ IsConst y := by
    intro hsc
    rcases hs with ⟨rfl, -⟩ | ⟨-, h1⟩
    · exact absurd hsc (by decide)
    · exact ⟨key x h1 hE, key y (by rw [delayed_sum hd, h1]) (by rw [delayed_energy hd]; exact hE)⟩
  obtain ⟨r, lag, hr, hp, -, hpk, -, hst, -⟩ := C42_delay dt hdt ins outs mode s rs h i x y hi ho hd.1 hx hnc
  rw [hcx, hcy] at hp hpk hst
  have hlag : lag = -m := by
    by_contra hne
    have h1 := delayed_peak hd h0 hne
    have h2 := hp.2 (-m) (delayed_isLag hd h0)
    linarith
  have hval : xcorrAt x y lag = energyOf x := by
    rw [hlag, delayed_xcorr hd, neg_add_cancel, xcorrAt_zero_self]
  rw [hval] at hpk hst
  have hN : energyOf x / normOf s x y = if s = "coeff" then 1 else energyOf x := by
    unfold normOf
    split_ifs with hsc
    · subst hsc
      have e1 : demean x = x := hcx
      have e2 : demean y = y := hcy
      rw [e1, e2, delayed_energy hd, Real.mul_self_sqrt hE.le, div_self hE.ne']
    · rw [div_one]
  rw [hN] at hpk hst
  refine ⟨r, hr, ?_, hpk⟩
  rw [hst, hlag]
  · push_cast; ring
  · split_ifs with hsc
    · norm_num
    · rcases hs with ⟨-, h1⟩ | ⟨h1, -⟩
      · exact h1
      · exact absurd h1 hsc

/-- C40: the same for `xcorr_delay` (which has no threshold): 'none' for every nonzero signal and
'coeff' for every nonzero signal of zero mean. -/
theorem C40_xcorr (dt : ℝ) (x y : List ℝ) (s : String) (m : ℤ) (hd : Delayed x y m) (h0 : ∃ v ∈ x, v ≠ 0)
    (hs : s.toLower = "none" ∨ (s.toLower = "coeff" ∧ x.sum = 0)) :
    ∃ p, xcorrDelay dt x y s = .ok (m * dt, p) := by
  have hx : x ≠ [] := by rintro rfl; simp at h0
  have hE := energyOf_pos h0
  have hlagOf : ∀ lag, IsPeak x.length (xcorrAt x y) lag → lag = -m := by
    intro lag hp
    by_contra hne
    have h1 := delayed_peak hd h0 hne
    have h2 := hp.2 (-m) (delayed_isLag hd h0)
    linarith
  rcases hs with hs | ⟨hs, hz⟩
  · obtain ⟨lag, h1, -, h3⟩ := C42_xcorr_none dt x y s hs hd.1 hx
    have he : -((lag : ℝ) * dt) = m * dt := by rw [hlagOf lag h1]; push_cast; ring
    rw [he] at h3
    exact ⟨_, h3⟩
  · have hzy : y.sum = 0 := by rw [delayed_sum hd, hz]
    have key : ∀ z : List ℝ, z.sum = 0 → 0 < energyOf z → ¬ IsConst z := by
      intro z hz hp hc
      have h1 := energy_center z
      rw [center_of_sum_zero hz, (variance_zero_iff z).2 hc, mul_zero] at h1
      exact hp.ne' h1
    obtain ⟨lag, h1, -, h3⟩ := C42_xcorr dt x y s hs hd.1 (key x hz hE) (key y hzy (by rw [delayed_energy hd]; exact hE))
    rw [← center_demean, ← center_demean, center_of_sum_zero hz, center_of_sum_zero hzy] at h1
    have he : -((lag : ℝ) * dt) = m * dt := by rw [hlagOf lag h1]; push_cast; ring
    rw [he] at h3
    exact ⟨_, h3⟩

/-- A zero-mean pulse inside its record and the same pulse one sample later. -/
example : Delayed [1, -1, 0] [0, 1, -1] 1 ∧ (∃ v ∈ ([1, -1, 0] : List ℝ), v ≠ 0) ∧ ([1, -1, 0] : List ℝ).sum = 0 := by
  refine ⟨⟨rfl, ?_⟩, ⟨1, by simp, by norm_num⟩, by norm_num⟩
  intro i
  rcases lt_or_ge i 0 with h | h
  · rw [ext_of_neg h, ext_of_neg (by omega)]
  · rcases lt_or_ge i 4 with h4 | h4
    · interval_cases i <;> simp [ext]
    · rw [ext_of_ge (by simpa using by omega), ext_of_ge (by simpa using by omega)]

/-- C40: with a unique peak, exchanging the signals negates the delay. -/
theorem C40_antisymm (dt : ℝ) (x y : List ℝ) (s : String) (hl : x.length = y.length) (hx : x ≠ [])
    (hs : s.toLower = "none") (lag : ℤ) (hp : IsPeak x.length (xcorrAt x y) lag)
    (hu : ∀ l, IsLag x.length l → l ≠ lag → xcorrAt x y l < xcorrAt x y lag) :
    ∃ d p, xcorrDelay dt x y s = .ok (d, p) ∧ xcorrDelay dt y x s = .ok (-d, p) := by
  have hy : y ≠ [] := by intro h; apply hx; apply List.length_eq_zero_iff.1; rw [hl, h]; rfl
  obtain ⟨l1, h1, -, h3⟩ := C42_xcorr_none dt x y s hs hl hx
  obtain ⟨l2, h4, -, h6⟩ := C42_xcorr_none dt y x s hs hl.symm hy
  have e1 : l1 = lag := by
    by_contra hne
    have := hu l1 h1.1 hne; have := h1.2 lag hp.1; linarith
  have hneg : ∀ l, IsLag x.length l → IsLag x.length (-l) := by rintro l ⟨a, b⟩; constructor <;> omega
  rw [← hl] at h4
  have e2 : l2 = -lag := by
    by_contra hne
    have ha := hu (-l2) (hneg l2 h4.1) (by omega)
    have hb := h4.2 (-lag) (hneg lag hp.1)
    rw [xcorrAt_swap x y lag] at hb
    have hc := xcorrAt_swap x y (-l2)
    rw [neg_neg] at hc
    linarith
  refine ⟨_, _, h3, ?_⟩
  rw [h6, e1, e2, xcorrAt_swap]
  congr 2
  push_cast; ring

/-! ## C41 -/

/-- C41: positive factors and offsets on either signal change neither the delay nor the coefficient
of `xcorr_delay` with 'coeff' scaling. -/
theorem C41_xcorr (dt : ℝ) (x x' y y' : List ℝ) (hx : PosAffine x x') (hy : PosAffine y y') (s : String)
    (hs : s.toLower = "coeff") : xcorrDelay dt x' y' s = xcorrDelay dt x y s := by
  obtain ⟨a, b, ha, rfl⟩ := hx
  obtain ⟨c, d, hc, rfl⟩ := hy
  unfold xcorrDelay
  rw [correlation_coeff hs, correlation_coeff hs, center_affine, center_affine, correlate_smul, std_affine a b ha,
    std_affine c d hc, List.length_map, List.length_map, List.map_map]
  congr 2
  congr 1
  apply List.map_congr_left
  intro v _
  simp only [Function.comp]
  rw [show (x.length : ℝ) * (a * std x * (c * std y)) = (a * c) * (x.length * (std x * std y)) by ring]
  exact div_scale (mul_pos ha hc) _ _

/-- C41: the same for every result of `compute_delays` with 'coeff', each column with its own factor
and offset. -/
theorem C41_delays (dt : ℝ) (ins ins' outs outs' : List (List ℝ)) (mode : String)
    (hi : List.Forall₂ PosAffine ins ins') (ho : List.Forall₂ PosAffine outs outs') (hc : ins.length = outs.length)
    (hm : mode = "loop" ∨ mode = "fft") :
    computeDelays dt ins' outs' mode "coeff" = computeDelays dt ins outs mode "coeff" := by
  have hc' : ins'.length = outs'.length := by rw [← hi.length_eq, ← ho.length_eq, hc]
  rw [computeDelays_equal hc' hm (Or.inl rfl), computeDelays_equal hc hm (Or.inl rfl)]
  congr 1
  clear hc hc'
  induction hi generalizing outs outs' with
  | nil => simp
  | cons h _ ih =>
    cases ho with
    | nil => simp
    | cons h' hrest =>
      obtain ⟨a, b, ha, rfl⟩ := h
      obtain ⟨c, d, hc, rfl⟩ := h'
      simp only [List.zipWith_cons_cons]
      rw [pairOf_affine mode dt ha hc, ih _ _ hrest]

example : PosAffine [0, 1] [5, 7] := ⟨2, 5, by norm_num, by norm_num⟩

/-- C41, 'none': positive factors keep the delay of `xcorr_delay` and multiply the peak. -/
theorem C41_none (dt : ℝ) (x y : List ℝ) (a c : ℝ) (ha : 0 < a) (hc : 0 < c) (s : String) (hs : s.toLower = "none")
    (hl : x.length = y.length) (hx : x ≠ []) :
    ∃ d p : ℝ, xcorrDelay dt x y s = .ok (d, .fin p) ∧
      xcorrDelay dt (x.map fun v => a * v) (y.map fun v => c * v) s = .ok (d, .fin (a * c * p)) := by
  obtain ⟨lag, h1, h2, h3, h4⟩ := argmax_correlate x y hl hx
  refine ⟨-((lag : ℝ) * dt), xcorrAt x y lag, ?_, ?_⟩
  · unfold xcorrDelay
    rw [correlation_none hs]
    simp only [Except.map, argmaxX_fin, List.getElem?_map, h3, h4, Option.map_some, Option.getD_some]
  · unfold xcorrDelay
    rw [correlation_none hs]
    simp only [Except.map, argmaxX_fin, correlate_smul, argmax_map_mono (strictMono_mul (mul_pos ha hc)), List.getElem?_map,
      List.length_map, h3, h4, Option.map_some, Option.getD_some]

example := C41_none 10 [0, 1] [3, 5] 2 7 (by norm_num) (by norm_num) "none" (by decide +kernel) rfl (by simp)

/-! ## C89: delay of a shifted pulse with the default scaling -/

/-- C89 is false of the code: the pulse [1, 1, 0] delayed by one sample is reported as advanced by two
samples, because the mean is removed before the implicit zero padding. -/
theorem C89_violated_pulse : ∃ (x y : List ℝ) (m : ℤ), Delayed x y m ∧ (∃ v ∈ x, v ≠ 0) ∧ m = 1 ∧
    ∀ dt : ℝ, ∃ p, xcorrDelay dt x y "coeff" = .ok (-2 * dt, p) := by
  have hD : Delayed [1, 1, 0] [0, 1, 1] 1 := by
    refine ⟨rfl, ?_⟩
    intro i
    rcases lt_or_ge i 0 with h | h
    · rw [ext_of_neg h, ext_of_neg (by omega)]
    · rcases lt_or_ge i 4 with h4 | h4
      · interval_cases i <;> simp [ext]
      · rw [ext_of_ge (by simpa using by omega), ext_of_ge (by simpa using by omega)]
  refine ⟨[1, 1, 0], [0, 1, 1], 1, hD, ⟨1, by simp, by norm_num⟩, rfl, ?_⟩
  intro dt
  have hx : ¬ IsConst ([1, 1, 0] : List ℝ) := by
    intro h; have := h 1 (by simp) 0 (by simp); norm_num at this
  have hy : ¬ IsConst ([0, 1, 1] : List ℝ) := by
    intro h; have := h 0 (by simp) 1 (by simp); norm_num at this
  obtain ⟨lag, h1, -, h3⟩ := C42_xcorr dt [1, 1, 0] [0, 1, 1] "coeff" (by decide +kernel) rfl hx hy
  have ex : demean [1, 1, 0] = [1/3, 1/3, -2/3] := by norm_num [demean]
  have ey : demean [0, 1, 1] = [-2/3, 1/3, 1/3] := by norm_num [demean]
  rw [ex, ey] at h1
  have hlag : lag = 2 := by
    obtain ⟨⟨ha, hb⟩, hmax⟩ := h1
    have h2 := hmax 2 (by constructor <;> simp)
    simp only [List.length_cons, List.length_nil] at ha hb
    by_contra hne
    have hr : lag = -2 ∨ lag = -1 ∨ lag = 0 ∨ lag = 1 := by omega
    rcases hr with rfl | rfl | rfl | rfl <;>
      (simp [xcorrAt, Finset.sum_range_succ, ext] at h2; norm_num at h2)
  have he : -((lag : ℝ) * dt) = -2 * dt := by rw [hlag]; push_cast; ring
  rw [he] at h3
  exact ⟨_, h3⟩

/-- C89, part that holds: pulses with zero mean (`C40_xcorr`), restated for the default scaling. -/
theorem C89_zero_mean_partial (dt : ℝ) (x y : List ℝ) (m : ℤ) (hd : Delayed x y m) (h0 : ∃ v ∈ x, v ≠ 0) (hz : x.sum = 0) :
    ∃ p, xcorrDelay dt x y "coeff" = .ok (m * dt, p) :=
  C40_xcorr dt x y "coeff" m hd h0 (Or.inr ⟨by decide +kernel, hz⟩)

/-- The hypotheses of C89 hold in a concrete case: a pulse of mean zero, one sample later. -/
example : ∃ p, xcorrDelay 10 [1, -1, 0] [0, 1, -1] "coeff" = .ok ((1 : ℤ) * 10, p) :=
  C89_zero_mean_partial 10 [1, -1, 0] [0, 1, -1] 1 ⟨rfl, fun i => by
    rcases lt_or_ge i 0 with h | h
    · rw [ext_of_neg h, ext_of_neg (by omega)]
    · rcases lt_or_ge i 4 with h4 | h4
      · interval_cases i <;> simp [ext]
      · rw [ext_of_ge (by simpa using by omega), ext_of_ge (by simpa using by omega)]⟩ ⟨1, by simp, by norm_num⟩ (by norm_num)

/-! ## C90: the two modes of `compute_delays` -/

/-- C90, part that holds: peak, mean and zero-lag values are the same in both modes, and so is the
delay when only one lag attains the maximum. -/
theorem C90_modes_partial (dt : ℝ) (s : String) (hs : s = "coeff" ∨ s = "none") (ins outs : List (List ℝ))
    (hc : ins.length = outs.length) (i : ℕ) (x y : List ℝ) (hi : ins[i]? = some x) (ho : outs[i]? = some y)
    (hl : x.length = y.length) (hx : x ≠ []) :
    ∃ rs rs' r r', computeDelays dt ins outs "loop" s = .ok rs ∧ computeDelays dt ins outs "fft" s = .ok rs' ∧
      rs[i]? = some r ∧ rs'[i]? = some r' ∧ r.peak = r'.peak ∧ r.meanCorr = r'.meanCorr ∧ r.zeroCorr = r'.zeroCorr ∧
      ((∃ lag, IsPeak x.length (xcorrAt (conditioned s x) (conditioned s y)) lag ∧
        ∀ l, IsLag x.length l → l ≠ lag →
          xcorrAt (conditioned s x) (conditioned s y) l < xcorrAt (conditioned s x) (conditioned s y) lag) → r = r') := by
  have e1 := computeDelays_equal (dt := dt) (mode := "loop") hc (Or.inl rfl) hs
  have e2 := computeDelays_equal (dt := dt) (mode := "fft") hc (Or.inr rfl) hs
  refine ⟨_, _, _, _, e1, e2, (computeDelays_ok e1 hi ho).1, (computeDelays_ok e2 hi ho).1, ?_⟩
  obtain ⟨l1, h1, -, h2⟩ := pair_spec (Or.inl rfl) dt s x y hl hx
  obtain ⟨l2, h3, -, h4⟩ := pair_spec (Or.inr rfl) dt s x y hl hx
  have hv : xcorrAt (conditioned s x) (conditioned s y) l1 = xcorrAt (conditioned s x) (conditioned s y) l2 :=
    le_antisymm (h3.2 _ h1.1) (h1.2 _ h3.1)
  simp only [(dropWeak_meanCorr _).1, (dropWeak_meanCorr _).2.1, (dropWeak_meanCorr _).2.2]
  rw [h2, h4, hv]
  refine ⟨rfl, rfl, rfl, ?_⟩
  rintro ⟨lag, hp, hu⟩
  have a1 : l1 = lag := by
    by_contra hne; have := hu l1 h1.1 hne; have := h1.2 lag hp.1; linarith
  have a2 : l2 = lag := by
    by_contra hne; have := hu l2 h3.1 hne; have := h3.2 lag hp.1; linarith
  rw [a1, a2]

/-- The hypotheses of C90 hold in a concrete case: two pairs, the second one looked at. -/
example : ∃ rs rs' r r', computeDelays 1 [[0, 1], [2, 5]] [[1, 0], [7, 1]] "loop" "coeff" = .ok rs ∧
    computeDelays 1 [[0, 1], [2, 5]] [[1, 0], [7, 1]] "fft" "coeff" = .ok rs' ∧ rs[1]? = some r ∧ rs'[1]? = some r' ∧ r.peak = r'.peak := by
  obtain ⟨rs, rs', r, r', h1, h2, h3, h4, h5, -⟩ := C90_modes_partial 1 "coeff" (Or.inl rfl) [[0, 1], [2, 5]] [[1, 0], [7, 1]] rfl 1 [2, 5] [7, 1] rfl rfl rfl (by simp)
  exact ⟨rs, rs', r, r', h1, h2, h3, h4, h5⟩

/-- C90 is false of the code when several lags attain the maximum: the modes then report different
delays. -/
theorem C90_violated_ties : ∃ x y : List ℝ, x.length = y.length ∧ ∀ dt : ℝ, 0 < dt →
    ∃ r r', computeDelays dt [x] [y] "loop" "none" = .ok [r] ∧ computeDelays dt [x] [y] "fft" "none" = .ok [r'] ∧
      r.delay = 2 * dt ∧ r'.delay = 0 := by
  refine ⟨[1, 0, 0], [1, 0, 1], rfl, ?_⟩
  intro dt hdt
  have e1 := computeDelays_equal (dt := dt) (ins := [[1, 0, 0]]) (outs := [[1, 0, 1]]) (mode := "loop") rfl (Or.inl rfl) (Or.inr rfl)
  have e2 := computeDelays_equal (dt := dt) (ins := [[1, 0, 0]]) (outs := [[1, 0, 1]]) (mode := "fft") rfl (Or.inr rfl) (Or.inr rfl)
  refine ⟨_, _, e1, e2, ?_, ?_⟩
  · obtain ⟨r, lag, hr, hp, ht, -, -, hst, -⟩ := C42_delay dt hdt _ _ _ _ _ e1 0 [1, 0, 0] [1, 0, 1] rfl rfl rfl (by simp)
      (fun h => absurd h (by decide))
    simp only [List.zipWith_cons_cons, List.zipWith_nil_left, List.getElem?_cons_zero, Option.some.injEq] at hr
    rw [← hr] at hst
    have hc : ∀ z : List ℝ, conditioned "none" z = z := fun z => rfl
    have hN : ∀ a b : List ℝ, normOf "none" a b = 1 := fun a b => rfl
    simp only [hc, hN, div_one, if_true] at hst ht hp
    obtain ⟨⟨ha, hb⟩, hmax⟩ := hp
    simp only [List.length_cons, List.length_nil] at ha hb
    have h2 := hmax (-2) (by constructor <;> simp)
    have hl2 : lag = -2 := by
      by_contra hne
      have hlt := ht (-2) (by constructor <;> simp) (by omega)
      have hr : lag = 2 ∨ lag = -1 ∨ lag = 0 ∨ lag = 1 := by omega
      rcases hr with rfl | rfl | rfl | rfl <;>
        (simp [xcorrAt, Finset.sum_range_succ, ext] at hlt; try norm_num at hlt)
    subst hl2
    rw [hst]
    · push_cast; ring
    · simp [xcorrAt, Finset.sum_range_succ, ext]; norm_num
  · obtain ⟨r, lag, hr, hp, ht, -, -, hst, -⟩ := C42_delay dt hdt _ _ _ _ _ e2 0 [1, 0, 0] [1, 0, 1] rfl rfl rfl (by simp)
      (fun h => absurd h (by decide))
    simp only [List.zipWith_cons_cons, List.zipWith_nil_left, List.getElem?_cons_zero, Option.some.injEq] at hr
    rw [← hr] at hst
    have hc : ∀ z : List ℝ, conditioned "none" z = z := fun z => rfl
    have hN : ∀ a b : List ℝ, normOf "none" a b = 1 := fun a b => rfl
    have hm : ("fft" : String) ≠ "loop" := by decide
    simp only [hc, hN, div_one, if_neg hm] at hst ht hp
    obtain ⟨⟨ha, hb⟩, hmax⟩ := hp
    simp only [List.length_cons, List.length_nil] at ha hb
    have hl2 : lag = 0 := by
      by_contra hne
      have hlt := ht 0 (by constructor <;> simp) (by omega)
      have hr : lag = 2 ∨ lag = -1 ∨ lag = -2 ∨ lag = 1 := by omega
      rcases hr with rfl | rfl | rfl | rfl <;>
        (simp [xcorrAt, Finset.sum_range_succ, ext] at hlt; try norm_num at hlt)
    subst hl2
    rw [hst]
    · push_cast; ring
    · simp [xcorrAt, Finset.sum_range_succ, ext]; norm_num

/-! ## C91: mean_corr -/

/-- C91: the mean correlation reported with 'coeff' is exactly 0 for every pair of non-constant
columns in both modes, so the ratio `1 - mean/peak` tested by the 'jamaly' quality check is always 1
when the peak is nonzero. -/
theorem C91_mean_corr (dt : ℝ) (ins outs : List (List ℝ)) (mode : String) (rs : List PairDelay)
    (h : computeDelays dt ins outs mode "coeff" = .ok rs) (i : ℕ) (x y : List ℝ) (hi : ins[i]? = some x)
    (ho : outs[i]? = some y) (hl : x.length = y.length) (hx : ¬ IsConst x) (hy : ¬ IsConst y) :
    ∃ r, rs[i]? = some r ∧ r.meanCorr = .fin 0 ∧
      ∀ p : ℝ, p ≠ 0 → XR.oneSub (XR.divO (some 0) (some p)) = .fin 1 := by
  obtain ⟨hr, hm, -⟩ := computeDelays_ok h hi ho
  have hx0 : x ≠ [] := by rintro rfl; apply hx; intro a ha; simp at ha
  obtain ⟨lag, -, -, h3⟩ := pair_spec hm dt "coeff" x y hl hx0
  refine ⟨_, hr, ?_, ?_⟩
  · rw [(dropWeak_meanCorr _).1, h3]
    simp only
    have hN := normOf_pos (s := "coeff") (x := x) (y := y) (fun _ => ⟨hx, hy⟩)
    have : cond "coeff" x = center x := rfl
    rw [div_pos_fin _ hN.ne', mean_correlate, this, center_sum]
    simp
  · intro p hp
    simp [XR.divO, XR.div, hp, XR.oneSub]

/-- The hypotheses of C91 hold in a concrete case. -/
example : ∃ rs r, computeDelays 1 [[0, 1]] [[1, 0]] "fft" "coeff" = .ok rs ∧ rs[0]? = some r ∧ r.meanCorr = .fin 0 := by
  obtain ⟨-, rs, -, -, -, h, -⟩ := C90_modes_partial 1 "coeff" (Or.inl rfl) [[0, 1]] [[1, 0]] rfl 0 [0, 1] [1, 0] rfl rfl rfl (by simp)
  obtain ⟨r, h1, h2, -⟩ := C91_mean_corr 1 [[0, 1]] [[1, 0]] "fft" rs h 0 [0, 1] [1, 0] rfl rfl rfl
    (fun hc => by have := hc 0 (by simp) 1 (by simp); norm_num at this) (fun hc => by have := hc 0 (by simp) 1 (by simp); norm_num at this)
  exact ⟨rs, r, h, h1, h2⟩

/-! ## C92: number of columns -/

/-- C92 is false of the code: in mode 'loop' with scaling 'none' (or a single output column) surplus
input columns are silently given delay 0. -/
theorem C92_violated_surplus (dt : ℝ) (ins outs : List (List ℝ)) (s : String) (hs : s = "none" ∨ s = "coeff" ∧ outs.length = 1)
    (hlt : outs.length < ins.length) :
    ∃ rs, computeDelays dt ins outs "loop" s = .ok rs ∧ rs.length = ins.length ∧
      ∀ i, outs.length ≤ i → i < ins.length → ∃ r, rs[i]? = some r ∧ r.delay = 0 := by
  have hlen : ∀ f : List ℝ → List ℝ → PairDelay, (List.zipWith f ins outs).length = outs.length := by
    intro f; rw [List.length_zipWith]; omega
  unfold computeDelays
  rw [if_neg (by tauto), if_neg (by rcases hs with rfl | ⟨rfl, h⟩; exact (by simp); tauto), if_pos rfl, if_neg (by omega)]
  refine ⟨_, rfl, ?_, ?_⟩
  · rw [List.length_append, hlen, List.length_map, List.length_drop]; omega
  · intro i h1 h2
    rw [List.getElem?_append_right (by rw [hlen]; exact h1), hlen, List.getElem?_map, List.getElem?_drop]
    have : outs.length + (i - outs.length) = i := by omega
    rw [this, List.getElem?_eq_getElem h2]
    exact ⟨_, rfl, dropWeak_untouched _⟩

example : (([[1, 0]] : List (List ℝ)).length < ([[1, 0], [0, 1]] : List (List ℝ)).length) := by decide

/-- C92, part that holds: more outputs than inputs, and any mismatch in mode 'fft', raise. -/
theorem C92_mismatch_partial (dt : ℝ) (ins outs : List (List ℝ)) (mode s : String)
    (h : (mode = "fft" ∧ ins.length ≠ outs.length) ∨ (mode = "loop" ∧ ins.length < outs.length)) :
    ∃ e, Raises (computeDelays dt ins outs mode s) e := by
  unfold computeDelays Raises
  split_ifs <;> first | exact ⟨_, rfl⟩ | (exfalso; rcases h with ⟨rfl, h⟩ | ⟨rfl, h⟩ <;> simp_all <;> omega)

example := C92_mismatch_partial 10 [[1, 0]] [[1, 0], [0, 1]] "loop" "none" (Or.inr ⟨rfl, by simp⟩)

/-! ## C93: `_fftcorrelate` with several columns -/

/-- C93 is false of the code: 'coeff' scaling of several columns raises ValueError (for every frame of
k > 1 columns of length n with k ≠ 2n - 1). -/
theorem C93_violated_columns (ins outs : List (List ℝ)) (hc : ins.length = outs.length) (h1 : 1 < ins.length)
    (n : ℕ) (hn : (ins.headD []).length = n) (hk : ins.length ≠ 2 * n - 1) :
    Raises (fftCorrelate ins outs "coeff") .valueError := by
  unfold fftCorrelate Raises
  simp only [hn]
  rw [if_neg (by simp), if_neg (by omega), if_neg (by decide), if_neg (by omega), if_neg hk]

example : (1 < ([[1, 0, 1], [0, 1, 1]] : List (List ℝ)).length) ∧ ([[1, 0, 1], [0, 1, 1]] : List (List ℝ)).length ≠ 2 * 3 - 1 := by
  decide

/-- C93 is also false when the number of columns is 2n - 1: entry (i, j) is then scaled by the factor of
column j, and a signal correlated with itself can have coefficient 4 at lag zero. -/
theorem C93_violated_scaling : ∃ (ins : List (List ℝ)) (rows : List (List XR)) (lags : List ℤ),
    (∀ x ∈ ins, x.length = 2 ∧ ¬ IsConst x) ∧ fftCorrelate ins ins "coeff" = .ok (rows, lags) ∧
    lags[1]? = some 0 ∧ ∃ row, rows[2]? = some row ∧ row[1]? = some (.fin 4) := by
  have hstd1 : std [1, -1] = 1 := by
    have : variance [1, -1] = 1 := by norm_num [variance, mean]
    unfold std; rw [this]; simp
  have hnc : ∀ c : ℝ, c ≠ 0 → ¬ IsConst [c, -c] := by
    intro c hc h
    have := h c (by simp) (-c) (by simp)
    apply hc; linarith
  have heq : fftCorrelate [[1, -1], [1, -1], [2, -2]] [[1, -1], [1, -1], [2, -2]] "coeff" =
      .ok ((List.zipWith (fun x y => fftXcorr (pad (cond "coeff" x)) (pad (cond "coeff" y))) [[1, -1], [1, -1], [2, -2]]
        [[1, -1], [1, -1], [2, -2]]).map fun r => roll (List.zipWith XR.div r
          [divisor "coeff" [1, -1] [1, -1], divisor "coeff" [1, -1] [1, -1], divisor "coeff" [2, -2] [2, -2]])
            (Int.fdiv (2 * ((2 : ℕ) : ℤ) - 1) 2), lagsOf 2 2) := by
    unfold fftCorrelate
    rw [if_neg (by simp), if_neg (by simp)]
    simp only []
    rw [if_neg (by decide), if_neg (by decide), if_pos (by decide)]
    rfl
  refine ⟨[[1, -1], [1, -1], [2, -2]], _, _, ?_, heq, ?_, ?_⟩
  · intro x hx
    simp only [List.mem_cons, List.not_mem_nil, or_false] at hx
    rcases hx with rfl | rfl | rfl
    · exact ⟨rfl, hnc 1 one_ne_zero⟩
    · exact ⟨rfl, hnc 1 one_ne_zero⟩
    · exact ⟨rfl, hnc 2 two_ne_zero⟩
  · simp [lagsOf]
  · simp only [List.zipWith_cons_cons, List.zipWith_nil_left, List.map_cons, List.map_nil]
    refine ⟨_, rfl, ?_⟩
    have hz : (center [2, -2] : List ℝ).length = 2 := rfl
    have hlen : (fftXcorr (pad (cond "coeff" [2, -2])) (pad (cond "coeff" [2, -2]))).length = 3 := by
      rw [fft_length' _ _ rfl (by simp [SST.Corr.cond, center])]; simp
    rw [roll_get _ _ (by rw [List.length_zipWith, hlen]; simp)]
    have hi : ((((1 : ℕ) : ℤ) - Int.fdiv (2 * ((2 : ℕ) : ℤ) - 1) 2) %
      ((List.zipWith XR.div (fftXcorr (pad (cond "coeff" [2, -2])) (pad (cond "coeff" [2, -2])))
        [divisor "coeff" [1, -1] [1, -1], divisor "coeff" [1, -1] [1, -1], divisor "coeff" [2, -2] [2, -2]]).length : ℤ)).toNat = 0 := by
      rw [List.length_zipWith, hlen]; rfl
    rw [hi, List.getElem?_zipWith, fft_get _ _ rfl (by simp)]
    simp only [List.getElem?_cons_zero, cond_length]
    have hd : divisor "coeff" [1, -1] [1, -1] = 2 := by
      rw [divisor_coeff, hstd1]; norm_num
    rw [hd, div_pos_fin _ (by norm_num)]
    have hc : cond "coeff" [2, -2] = [2, -2] := by
      show center [2, -2] = _
      exact center_of_sum_zero (by norm_num)
    rw [hc]
    have hf : fftLag [(2 : ℝ), -2].length 0 = 0 := fftLag_zero (by simp)
    rw [hf, xcorrAt_zero_self]
    norm_num [energyOf]

/-- C93, part that holds: one pair of columns (`C39_fft_coeff`). -/
theorem C93_single_partial (x y : List ℝ) (hx : x ≠ []) (hl : x.length = y.length) :
    ∃ c lags, correlation x y "coeff" = .ok (c, lags) ∧ fftCorrelate [x] [y] "coeff" = .ok ([c], lags) :=
  C39_fft_coeff x y hx hl

example := C93_single_partial [1, 2, 4] [3, 5, 0] (by simp) rfl

/-! ## C94: constant signals -/

/-- C94 is false of the code in mode 'loop': with a constant signal the reported delay is the maximal
possible one, (n-1)dt. -/
theorem C94_violated_loop (dt : ℝ) (x y : List ℝ) (hl : x.length = y.length) (hx : x ≠ []) (hc : IsConst x ∨ IsConst y) :
    ∃ r, computeDelays dt [x] [y] "loop" "coeff" = .ok [r] ∧ r.peak = .nan ∧ r.delay = (x.length - 1) * dt := by
  have e := computeDelays_equal (dt := dt) (ins := [x]) (outs := [y]) (mode := "loop") rfl (Or.inl rfl) (Or.inl rfl)
  refine ⟨_, e, ?_⟩
  obtain ⟨lag, h1, h2, h3⟩ := pair_spec (mode := "loop") (Or.inl rfl) dt "coeff" x y hl hx
  have h0 : ∀ l, xcorrAt (conditioned "coeff" x) (conditioned "coeff" y) l = 0 := by
    intro l
    unfold xcorrAt
    apply Finset.sum_eq_zero
    intro i _
    rcases hc with h | h
    · rw [show conditioned "coeff" x = center x from rfl, ext_zero (center_const h), zero_mul]
    · rw [show conditioned "coeff" y = center y from rfl, ext_zero (center_const h), mul_zero]
  have hN : normOf "coeff" x y = 0 := by
    rw [← divisor_norm "coeff" x y hl, divisor_coeff]
    rcases hc with h | h <;> simp [std_zero h]
  have hn : 0 < x.length := List.length_pos_iff.2 hx
  have hlag : lag = -((x.length : ℤ) - 1) := by
    by_contra hne
    have := h2 (-((x.length : ℤ) - 1)) (by constructor <;> omega) (by
      rw [if_pos rfl]; have := h1.1.1; omega)
    rw [h0, h0] at this
    exact lt_irrefl _ this
  rw [(dropWeak_meanCorr _).2.1, h3, h0, hN, div_zero_zero]
  refine ⟨rfl, ?_⟩
  show (dropWeak _).delay = _
  rw [dropWeak_delay_strong (by rw [h3]; simp only [h0, hN, div_zero_zero]; exact fun h => h), h3]
  simp only [hlag]
  push_cast; ring

example : IsConst [1, 1] ∧ ¬ IsConst [0, 1] := by
  refine ⟨?_, ?_⟩
  · intro a ha b hb; simp at ha hb; rw [ha, hb]
  · intro h; have := h 0 (by simp) 1 (by simp); norm_num at this

/-- C94, part that holds: mode 'fft' reports delay 0 (and a NaN peak). -/
theorem C94_fft_partial (dt : ℝ) (x y : List ℝ) (hl : x.length = y.length) (hx : x ≠ []) (hc : IsConst x ∨ IsConst y) :
    ∃ r, computeDelays dt [x] [y] "fft" "coeff" = .ok [r] ∧ r.peak = .nan ∧ r.delay = 0 := by
  have e := computeDelays_equal (dt := dt) (ins := [x]) (outs := [y]) (mode := "fft") rfl (Or.inr rfl) (Or.inl rfl)
  refine ⟨_, e, ?_⟩
  obtain ⟨lag, h1, h2, h3⟩ := pair_spec (mode := "fft") (Or.inr rfl) dt "coeff" x y hl hx
  have h0 : ∀ l, xcorrAt (conditioned "coeff" x) (conditioned "coeff" y) l = 0 := by
    intro l
    unfold xcorrAt
    apply Finset.sum_eq_zero
    intro i _
    rcases hc with h | h
    · rw [show conditioned "coeff" x = center x from rfl, ext_zero (center_const h), zero_mul]
    · rw [show conditioned "coeff" y = center y from rfl, ext_zero (center_const h), mul_zero]
  have hN : normOf "coeff" x y = 0 := by
    rw [← divisor_norm "coeff" x y hl, divisor_coeff]
    rcases hc with h | h <;> simp [std_zero h]
  have hn : 0 < x.length := List.length_pos_iff.2 hx
  have hlag : lag = 0 := by
    by_contra hne
    have := h2 0 (by constructor <;> omega) (by
      rw [if_neg (by decide)]; omega)
    rw [h0, h0] at this
    exact lt_irrefl _ this
  rw [(dropWeak_meanCorr _).2.1, h3, h0, hN, div_zero_zero]
  refine ⟨rfl, ?_⟩
  show (dropWeak _).delay = _
  rw [dropWeak_delay_strong (by rw [h3]; simp only [h0, hN, div_zero_zero]; exact fun h => h), h3]
  simp [hlag]

example := C94_fft_partial 10 [1, 1] [0, 1] rfl (by simp) (Or.inl (by intro a ha b hb; simp at ha hb; rw [ha, hb]))

/-! ## C95: option validation -/

/-- C95: `correlation` raises ValueError exactly for a scaling whose lower-case form is not one of the
five names. -/
theorem C95_correlation (x y : List ℝ) (s : String) :
    Raises (correlation x y s) .valueError ↔
      s.toLower ∉ ["energy", "coeff", "unbiased_energy", "unbiased_coeff", "none"] := by
  unfold correlation Raises
  simp only [List.mem_cons, List.not_mem_nil, or_false]
  split_ifs <;> simp_all

/-- C95: `compute_delays` on frames with equal column counts raises ValueError exactly for an unknown
mode or a scaling other than the exact strings 'coeff' and 'none', and raises nothing else. -/
theorem C95_delays (dt : ℝ) (ins outs : List (List ℝ)) (hc : ins.length = outs.length) (mode s : String) :
    (Raises (computeDelays dt ins outs mode s) .valueError ↔ ¬ ((mode = "loop" ∨ mode = "fft") ∧ (s = "coeff" ∨ s = "none"))) ∧
    ∀ e, Raises (computeDelays dt ins outs mode s) e → e = .valueError := by
  by_cases h : (mode = "loop" ∨ mode = "fft") ∧ (s = "coeff" ∨ s = "none")
  · rw [computeDelays_equal hc h.1 h.2]
    simp [Raises, h]
  · have : computeDelays dt ins outs mode s = .error .valueError := by
      unfold computeDelays
      split_ifs <;> first | rfl | (exfalso; tauto) | (exfalso; omega)
    rw [this]
    simp only [Raises, true_iff]
    exact ⟨h, fun e he => (Except.error.inj he).symm⟩

/-- The hypothesis of C95 holds in a concrete case. -/
example : Raises (computeDelays 1 [[0, 1]] [[1, 0]] "fast" "coeff") .valueError :=
  (C95_delays 1 [[0, 1]] [[1, 0]] rfl "fast" "coeff").1.2 (by decide)

/-! ## C96: unbiased scaling -/

/-- C96, part that holds: when the second signal is not longer than the first, the unbiased value at
each lag is the biased value times n/(n-|lag|): same sign, at least the magnitude, equal at lag 0. -/
theorem C96_unbiased_partial (x y : List ℝ) (hlen : y.length ≤ x.length) (hx : ¬ IsConst x) (hy : ¬ IsConst y) :
    ∃ c u : List ℝ, ∃ lags : List ℤ, correlation x y "coeff" = .ok (c.map .fin, lags) ∧
      correlation x y "unbiased_coeff" = .ok (u.map .fin, lags) ∧
      ∀ (k : ℕ) (cv : ℝ) (lag : ℤ), c[k]? = some cv → lags[k]? = some lag → |(lag : ℝ)| < x.length ∧
        u[k]? = some (cv * (x.length / (x.length - |(lag : ℝ)|))) := by
  have hd := den_pos hx hy
  have hx0 : x ≠ [] := by rintro rfl; apply hx; intro a ha; simp at ha
  have hy0 : y ≠ [] := by rintro rfl; apply hy; intro a ha; simp at ha
  have hxl : 0 < x.length := List.length_pos_iff.2 hx0
  have hyl : 0 < y.length := List.length_pos_iff.2 hy0
  set den := x.length * (std x * std y) with hden
  set c := (correlate (center x) (center y)).map fun v => v / den with hc
  have ec : (correlate (center x) (center y)).map (fun v => XR.div v den) = c.map .fin := by
    rw [hc, List.map_map]
    apply List.map_congr_left
    intro v _
    rw [div_pos_fin _ hd.ne']; rfl
  have hlagb : ∀ (k : ℕ) (lag : ℤ), (lagsOf x.length y.length)[k]? = some lag → |(lag : ℝ)| < x.length := by
    intro k lag hk
    have hkl : k < x.length + y.length - 1 := by
      have := (List.getElem?_eq_some_iff.1 hk).1; simpa using this
    rw [lagsOf_get hkl] at hk
    have := Option.some.inj hk
    rw [abs_lt]
    constructor
    · have : -(x.length : ℤ) < lag := by omega
      exact_mod_cast this
    · have : lag < (x.length : ℤ) := by omega
      exact_mod_cast this
  refine ⟨c, List.zipWith (fun v (lag : ℤ) => v * (x.length / (x.length - |(lag : ℝ)|))) c (lagsOf x.length y.length), _,
    by rw [correlation_coeff (by decide +kernel), ec], ?_, ?_⟩
  · have : correlation x y "unbiased_coeff" = .ok (unbias x.length (c.map .fin) (lagsOf x.length y.length), lagsOf x.length y.length) := by
      have hs : "unbiased_coeff".toLower = "unbiased_coeff" := by decide +kernel
      rw [← ec]
      unfold correlation; simp [hs, hden]
    rw [this]
    congr 2
    unfold unbias
    rw [List.map_zipWith]
    apply List.ext_getElem?
    intro k
    simp only [List.getElem?_zipWith, List.getElem?_map]
    cases hck : c[k]? with
    | none => simp
    | some v =>
      cases hlk : (lagsOf x.length y.length)[k]? with
      | none => simp
      | some lag =>
        simp only [Option.map_some]
        have hb := hlagb k lag hlk
        have hn : (0 : ℝ) < x.length := by exact_mod_cast hxl
        have h1 : (0 : ℝ) < x.length - |(lag : ℝ)| := by linarith
        rw [div_pos_fin _ (by positivity)]
        congr 2
        field_simp
  · intro k cv lag hcv hlag
    refine ⟨hlagb k lag hlag, ?_⟩
    rw [List.getElem?_zipWith, hcv, hlag]

example := C96_unbiased_partial [0, 1] [3, 5] le_rfl varying_01 varying_35

/-- The hypotheses of C96 hold in a concrete case. -/
example : ([1, 0] : List ℝ).length ≤ ([0, 1, 1] : List ℝ).length ∧ ¬ IsConst [0, 1, 1] ∧ ¬ IsConst [1, 0] :=
  ⟨by simp, fun hc => by have := hc 0 (by simp) 1 (by simp); norm_num at this, fun hc => by have := hc 0 (by simp) 1 (by simp); norm_num at this⟩

/-- C96 is false of the code for a second signal longer than the first: at lags beyond the first
signal's length the scale factor is negative and the sign of the value flips. -/
theorem C96_violated_sign : ∃ (x y : List ℝ) (k : ℕ) (a b : ℝ), (∃ c lags, correlation x y "energy" = .ok (c, lags) ∧ c[k]? = some (.fin a)) ∧
    (∃ c lags, correlation x y "unbiased_energy" = .ok (c, lags) ∧ c[k]? = some (.fin b)) ∧ 0 < a ∧ b < 0 := by
  have hE : ((correlate [1] [1]).max?).getD 0 = 1 := by
    rw [max_autocorr (by simp)]; norm_num [energyOf]
  have hg : (correlate [1] [1, 1, 1])[0]? = some 1 := by
    rw [correlate_get (by simp)]
    simp [xcorrAt, Finset.sum_range_succ, ext]
  have heq : correlation [1] [1, 1, 1] "unbiased_energy" =
      .ok (unbias 1 ((correlate [1] [1, 1, 1]).map fun v => XR.div v (((correlate [1] [1]).max?).getD 0)) (lagsOf 1 3), lagsOf 1 3) := by
    have hs : "unbiased_energy".toLower = "unbiased_energy" := by decide +kernel
    unfold correlation; simp [hs]
  refine ⟨[1], [1, 1, 1], 0, 1, -1, ⟨_, _, correlation_energy (by decide +kernel) _ _, ?_⟩, ⟨_, _, heq, ?_⟩, by norm_num, by norm_num⟩
  · rw [List.getElem?_map, hg, hE]
    simp [XR.div]
  · unfold unbias
    rw [List.getElem?_zipWith, List.getElem?_map, hg, hE]
    simp [lagsOf, XR.div]
    norm_num

/-- The hypotheses of C42 hold in a concrete case: two pairs in mode 'fft', the second one looked at. -/
example : ∃ rs r, computeDelays 10 [[0, 1], [3, 5]] [[1, 0], [0, 1]] "fft" "coeff" = .ok rs ∧ rs[1]? = some r ∧ |r.delay| ≤ (2 - 1) * 10 := by
  obtain ⟨rs, h, -⟩ := C42_total 10 [[0, 1], [3, 5]] [[1, 0], [0, 1]] "fft" "coeff" rfl (Or.inr rfl) (Or.inl rfl)
  obtain ⟨r, lag, h1, -, -, -, -, -, -, h2⟩ := C42_delay 10 (by norm_num) _ _ "fft" "coeff" rs h 1 [3, 5] [0, 1] rfl rfl rfl (by simp)
    (fun _ => ⟨varying_35, varying_01⟩)
  exact ⟨rs, r, h, h1, by simpa using h2⟩

/-- The pulse `[1, -1, 0]` and the same pulse one sample later. -/
theorem pulse_later : Delayed [1, -1, 0] [0, 1, -1] 1 := by
  refine ⟨rfl, fun i => ?_⟩
  rcases lt_or_ge i 0 with h | h
  · rw [ext_of_neg h, ext_of_neg (by omega)]
  · rcases lt_or_ge i 4 with h4 | h4
    · interval_cases i <;> simp [ext]
    · rw [ext_of_ge (by simpa using by omega), ext_of_ge (by simpa using by omega)]

/-- The hypotheses of C40 hold in a concrete case, with either scaling. -/
example (mode s : String) (hm : mode = "loop" ∨ mode = "fft") (hs : s = "coeff" ∨ s = "none") :
    ∃ rs r, computeDelays 10 [[1, -1, 0]] [[0, 1, -1]] mode s = .ok rs ∧ rs[0]? = some r ∧ r.delay = 10 := by
  obtain ⟨rs, h, -⟩ := C42_total 10 [[1, -1, 0]] [[0, 1, -1]] mode s rfl hm hs
  obtain ⟨r, h1, h2, -⟩ := C40_delays 10 (by norm_num) _ _ mode s rs h 0 [1, -1, 0] [0, 1, -1] rfl rfl 1 pulse_later ⟨1, by simp, by norm_num⟩
    (by rcases hs with rfl | rfl
        · exact Or.inr ⟨rfl, by norm_num⟩
        · exact Or.inl ⟨rfl, by norm_num [energyOf]⟩)
  exact ⟨rs, r, h, h1, by simpa using h2⟩

example := C40_xcorr 10 [1, -1, 0] [0, 1, -1] "coeff" 1 pulse_later ⟨1, by simp, by norm_num⟩ (Or.inr ⟨by decide +kernel, by norm_num⟩)

example : xcorrDelay 10 [5, 7] [3, 4] "coeff" = xcorrDelay 10 [0, 1] [3, 4] "coeff" :=
  C41_xcorr 10 [0, 1] [5, 7] [3, 4] [3, 4] ⟨2, 5, by norm_num, by norm_num⟩ ⟨1, 0, by norm_num, by norm_num⟩ "coeff" (by decide +kernel)

example : computeDelays 10 [[5, 7]] [[3, 4]] "loop" "coeff" = computeDelays 10 [[0, 1]] [[3, 4]] "loop" "coeff" :=
  C41_delays 10 [[0, 1]] [[5, 7]] [[3, 4]] [[3, 4]] "loop" (.cons ⟨2, 5, by norm_num, by norm_num⟩ .nil)
    (.cons ⟨1, 0, by norm_num, by norm_num⟩ .nil) rfl (Or.inl rfl)

end SST.Props.Corr
