import Verif.Props.Noise
import Verif.Props.Corr

/-!
# Property C230: delays from the cross-correlation of noisy records

Specifications: `Spec/Corr.lean` and `Spec/Noise.lean`.
-/

namespace SST.Props.NoiseDelay
open SST SST.Tf SST.Dft SST.Corr SST.Spec MeasureTheory

theorem ext_add {x f : List ℝ} (h : x.length = f.length) (i : ℤ) : ext (List.zipWith (· + ·) x f) i = ext x i + ext f i := by
  unfold ext
  by_cases hi : 0 ≤ i ∧ i.toNat < x.length
  · rw [dif_pos (by rw [List.length_zipWith]; omega), dif_pos hi, dif_pos (by omega), List.getElem_zipWith]
  · rw [dif_neg (by rw [List.length_zipWith]; omega), dif_neg hi, dif_neg (by omega), add_zero]

theorem xcorr_add_left {x f y : List ℝ} (h : x.length = f.length) (l : ℤ) :
    xcorrAt (List.zipWith (· + ·) x f) y l = xcorrAt x y l + xcorrAt f y l := by
  unfold xcorrAt
  rw [← Finset.sum_add_distrib]
  exact Finset.sum_congr rfl fun i _ => by rw [ext_add h]; ring

theorem xcorr_add_right {x y e : List ℝ} (h : y.length = e.length) (l : ℤ) :
    xcorrAt x (List.zipWith (· + ·) y e) l = xcorrAt x y l + xcorrAt x e l := by
  unfold xcorrAt
  rw [List.length_zipWith, ← h, min_self, ← Finset.sum_add_distrib]
  exact Finset.sum_congr rfl fun i _ => by rw [ext_add h]; ring

theorem sum_add {x f : List ℝ} (h : x.length = f.length) : (List.zipWith (· + ·) x f).sum = x.sum + f.sum := by
  rw [← sum_ext, ← sum_ext x, ← sum_ext f, List.length_zipWith, ← h, min_self, ← Finset.sum_add_distrib]
  exact Finset.sum_congr rfl fun i _ => ext_add h i

theorem conditioned_length (s : String) (x : List ℝ) : (conditioned s x).length = x.length := by
  unfold conditioned demean
  split_ifs <;> simp

theorem conditioned_add (s : String) {x f : List ℝ} (h : x.length = f.length) :
    conditioned s (List.zipWith (· + ·) x f) = List.zipWith (· + ·) (conditioned s x) (conditioned s f) := by
  unfold conditioned
  split_ifs with hs
  · unfold demean
    rw [sum_add h, List.length_zipWith, ← h, min_self, List.map_zipWith, List.zipWith_map]
    congr 1
    funext a b
    ring
  · rfl

/-- Conditioning as detrending. -/
def condDetrend (s : String) : Detrend := if s = "coeff" then .constant else .none

theorem conditioned_detrend (s : String) (x : List ℝ) : conditioned s x = detrend (condDetrend s) x := by
  unfold conditioned condDetrend
  split_ifs <;> rfl

theorem conditioned_proj (s : String) (x : List ℝ) {i : ℕ} (hi : i < x.length) :
    ext (conditioned s x) i = proj (condDetrend s) x.length (fun j => ext x j) i := by
  rw [conditioned_detrend, ← at0_ext, detrend_proj _ rfl hi]
  congr 1
  funext j
  exact at0_ext x j

theorem energy_conditioned (s : String) (x : List ℝ) : energyOf (conditioned s x) ≤ energyOf x := by
  rw [← sum_ext_sq, ← sum_ext_sq x, conditioned_length]
  refine le_trans (le_of_eq ?_) (proj_energy (condDetrend s) x.length fun j => ext x j)
  exact Finset.sum_congr rfl fun i hi => by rw [conditioned_proj s x (Finset.mem_range.1 hi)]

/-- The pair of columns of `compute_delays`: the lag of a largest correlation, or 0 for a weak peak. -/
theorem delay_cases {mode s : String} (hm : mode = "loop" ∨ mode = "fft") (dt : ℝ) (x y : List ℝ) (hl : x.length = y.length) (hx : x ≠ []) :
    ∃ lag, IsPeak x.length (xcorrAt (conditioned s x) (conditioned s y)) lag ∧
      ((dropWeak (pairOf mode dt s x y)).delay = -((lag : ℝ) * dt) ∨
        ((dropWeak (pairOf mode dt s x y)).delay = 0 ∧ (dropWeak (pairOf mode dt s x y)).peak.lt (.fin (1e-10)))) := by
  obtain ⟨lag, h1, -, h3⟩ := pair_spec hm dt s x y hl hx
  refine ⟨lag, h1, ?_⟩
  by_cases hp : (pairOf mode dt s x y).peak.lt (.fin (1e-10))
  · right
    exact ⟨dropWeak_delay_weak hp, by rw [(dropWeak_meanCorr _).2.1]; exact hp⟩
  · left
    rw [dropWeak_delay_strong hp, h3]

/-! ## C230 -/

/-- Root of the energy of a record. -/
noncomputable def size (x : List ℝ) : ℝ := Real.sqrt (energyOf x)

/-- **C230.**  `compute_delays` on records `x + f` and `y + e`: the lag it finds maximises the correlation of `x` and `y` up to `2 (|f| |y| + |x| |e| + |f| |e|)`, where `x`
and `y` count without their means for the scaling 'coeff'. -/
theorem C230_margin (dt : ℝ) (ins outs : List (List ℝ)) (mode s : String) (rs : List PairDelay) (h : computeDelays dt ins outs mode s = .ok rs)
    (i : ℕ) (x y f e : List ℝ) (hx : x ≠ []) (hy : y.length = x.length) (hf : f.length = x.length) (he : e.length = x.length)
    (hi : ins[i]? = some (List.zipWith (· + ·) x f)) (ho : outs[i]? = some (List.zipWith (· + ·) y e)) :
    ∃ r lag, rs[i]? = some r ∧ IsLag x.length lag ∧
      (∀ l, IsLag x.length l → xcorrAt (conditioned s x) (conditioned s y) l - 2 * (size f * size (conditioned s y) + size (conditioned s x) * size e + size f * size e) ≤
        xcorrAt (conditioned s x) (conditioned s y) lag) ∧
      (r.delay = -((lag : ℝ) * dt) ∨ (r.delay = 0 ∧ r.peak.lt (.fin (1e-10)))) := by
  obtain ⟨hr, hm, -⟩ := computeDelays_ok h hi ho
  have hlx : (List.zipWith (· + ·) x f).length = x.length := by rw [List.length_zipWith]; omega
  have hly : (List.zipWith (· + ·) y e).length = x.length := by rw [List.length_zipWith]; omega
  obtain ⟨lag, h1, h2⟩ := delay_cases (s := s) hm dt (List.zipWith (· + ·) x f) (List.zipWith (· + ·) y e) (by rw [hlx, hly]) (by
    intro h0
    rw [h0] at hlx
    exact hx (List.length_eq_zero_iff.1 hlx.symm))
  rw [hlx] at h1
  refine ⟨_, lag, hr, h1.1, fun l hl => ?_, h2⟩
  have hsf : ∀ u : List ℝ, size (conditioned s u) ≤ size u := fun u => Real.sqrt_le_sqrt (energy_conditioned s u)
  have h0 : ∀ u : List ℝ, 0 ≤ size u := fun u => Real.sqrt_nonneg _
  have hsz : ∀ u v : List ℝ, ∀ k, |xcorrAt (conditioned s u) (conditioned s v) k| ≤ size (conditioned s u) * size (conditioned s v) := fun u v k => abs_xcorrAt_le _ _ _
  have hexp : ∀ k, xcorrAt (conditioned s (List.zipWith (· + ·) x f)) (conditioned s (List.zipWith (· + ·) y e)) k =
      xcorrAt (conditioned s x) (conditioned s y) k + (xcorrAt (conditioned s f) (conditioned s y) k + xcorrAt (conditioned s x) (conditioned s e) k + xcorrAt (conditioned s f) (conditioned s e) k) := by
    intro k
    rw [conditioned_add s hf.symm, conditioned_add s (by omega : y.length = e.length), xcorr_add_left (by rw [conditioned_length, conditioned_length]; exact hf.symm),
      xcorr_add_right (by rw [conditioned_length, conditioned_length]; omega), xcorr_add_right (by rw [conditioned_length, conditioned_length]; omega)]
    ring
  have hb : ∀ k, |xcorrAt (conditioned s f) (conditioned s y) k + xcorrAt (conditioned s x) (conditioned s e) k + xcorrAt (conditioned s f) (conditioned s e) k| ≤
      size f * size (conditioned s y) + size (conditioned s x) * size e + size f * size e := fun k =>
    (abs_add_three _ _ _).trans (add_le_add (add_le_add ((hsz f y k).trans (mul_le_mul_of_nonneg_right (hsf f) (h0 _)))
      ((hsz x e k).trans (mul_le_mul_of_nonneg_left (hsf e) (h0 _)))) ((hsz f e k).trans (mul_le_mul (hsf f) (hsf e) (h0 _) (h0 _))))
  have h3 := h1.2 l hl
  rw [hexp, hexp] at h3
  have a := abs_le.1 (hb l)
  have b := abs_le.1 (hb lag)
  linarith [a.1, b.2]

example : ∃ rs, computeDelays 1 [List.zipWith (· + ·) [0, 3, 0] [0, 0.1, 0]] [List.zipWith (· + ·) [0, 0, 3] [0.1, 0, 0]] "loop" "coeff" = .ok rs := by
  obtain ⟨rs, h, -⟩ := Corr.C42_total 1 [List.zipWith (· + ·) [0, 3, 0] [0, 0.1, 0]] [List.zipWith (· + ·) [0, 0, 3] [0.1, 0, 0]] "loop" "coeff" rfl (Or.inl rfl) (Or.inl rfl)
  exact ⟨rs, h⟩

variable {Ω : Type} [MeasurableSpace Ω] {P : Measure Ω} [IsProbabilityMeasure P] {e : ℕ → Ω → ℝ} {σ : ℝ}

/-- The correlation of a record with conditioned noise, as a combination of the samples of the noise. -/
theorem xcorr_noise (s : String) (x : List ℝ) (n : ℕ) (g : ℕ → ℝ) (l l' : ℤ) :
    xcorrAt x (conditioned s ((List.range n).map g)) l - xcorrAt x (conditioned s ((List.range n).map g)) l' =
      ∑ i ∈ Finset.range n, g i * proj (condDetrend s) n (fun i => ext x ((i : ℤ) + l) - ext x ((i : ℤ) + l')) i := by
  unfold xcorrAt
  rw [conditioned_length, List.length_map, List.length_range, ← Finset.sum_sub_distrib]
  have e1 : ∀ i ∈ Finset.range n, ext x ((i : ℤ) + l) * ext (conditioned s ((List.range n).map g)) i - ext x ((i : ℤ) + l') * ext (conditioned s ((List.range n).map g)) i =
      proj (condDetrend s) n g i * (ext x ((i : ℤ) + l) - ext x ((i : ℤ) + l')) := by
    intro i hi
    have hi' := Finset.mem_range.1 hi
    have hc : ext (conditioned s ((List.range n).map g)) i = proj (condDetrend s) n g i := by
      rw [conditioned_detrend, ← at0_ext, detrend_proj (L := n) _ (by simp) hi']
      have hg : ∀ j ∈ Finset.range n, at0 ((List.range n).map g) j = g j := fun j hj => at0_range_map g (Finset.mem_range.1 hj)
      unfold proj
      cases condDetrend s with
      | none => exact hg i hi
      | constant => simp only; rw [hg i hi, Finset.sum_congr rfl hg]
      | linear =>
        have hg' : ∀ j ∈ Finset.range n, mid n j * at0 ((List.range n).map g) j = mid n j * g j := fun j hj => by rw [hg j hj]
        simp only
        rw [hg i hi, Finset.sum_congr rfl hg, Finset.sum_congr rfl hg']
    rw [hc]
    ring
  rw [Finset.sum_congr rfl e1, proj_symm]

theorem shift_energy (x : List ℝ) (n : ℕ) (l : ℤ) : ∑ i ∈ Finset.range n, ext x ((i : ℤ) + l) ^ 2 ≤ energyOf x := by
  have hs : ∑ i ∈ Finset.range n, ext x ((i : ℤ) + l) ^ 2 = ∑ z ∈ (win n).map (addRightEmbedding l), ext x z ^ 2 := by
    rw [Finset.sum_map, sum_win n fun z => ext x (addRightEmbedding l z) ^ 2]
    rfl
  rw [hs, ← sum_ext_sq, ← sum_win x.length fun z => ext x z ^ 2]
  refine le_trans (le_of_eq (Finset.sum_filter_of_ne (p := fun z => z ∈ win x.length) fun z _ hz => ext_support fun h0 => hz (by rw [h0]; ring)).symm) ?_
  exact Finset.sum_le_sum_of_subset_of_nonneg (fun z hz => (Finset.mem_filter.1 hz).2) fun z _ _ => sq_nonneg _

/-- **C230.**  White noise in the output record: the probability that `compute_delays` misses the lag of the largest correlation without noise is at most the sum over all other lags of
`4 σ² |x|² / gap²`, where the gap is the amount by which the correlation at that lag falls short of the largest one. -/
theorem C230_probability (hw : WhiteNoise P e σ) (dt : ℝ) (mode s : String) (hm : mode = "loop" ∨ mode = "fft") (hs : s = "coeff" ∨ s = "none")
    (x y : List ℝ) (hy : y.length = x.length) (lag : ℤ) (hlag : IsLag x.length lag)
    (hpeak : ∀ l, IsLag x.length l → l ≠ lag → xcorrAt (conditioned s x) (conditioned s y) l < xcorrAt (conditioned s x) (conditioned s y) lag) :
    ∃ r : Ω → PairDelay, (∀ ω, computeDelays dt [x] [List.zipWith (· + ·) y ((List.range x.length).map fun i => e i ω)] mode s = .ok [r ω]) ∧
      P.real {ω | ¬ ((r ω).delay = -((lag : ℝ) * dt) ∨ ((r ω).delay = 0 ∧ (r ω).peak.lt (.fin (1e-10))))} ≤
        ∑ l ∈ (Finset.Ioo (-(x.length : ℤ)) x.length).erase lag,
          4 * σ ^ 2 * energyOf (conditioned s x) / (xcorrAt (conditioned s x) (conditioned s y) lag - xcorrAt (conditioned s x) (conditioned s y) l) ^ 2 := by
  set n := x.length with hn
  have hx : x ≠ [] := by
    rintro rfl
    have := hlag.1
    have := hlag.2
    simp at hn
    omega
  set rec : Ω → List ℝ := fun ω => (List.range n).map fun i => e i ω with hrec
  have hre : ∀ ω, (rec ω).length = n := fun ω => by simp [hrec]
  refine ⟨fun ω => dropWeak (pairOf mode dt s x (List.zipWith (· + ·) y (rec ω))), fun ω => by rw [computeDelays_equal (by simp) hm hs]; rfl, ?_⟩
  set C : ℤ → ℝ := fun l => xcorrAt (conditioned s x) (conditioned s y) l with hC
  set D : ℤ → Ω → ℝ := fun l ω => xcorrAt (conditioned s x) (conditioned s (rec ω)) l - xcorrAt (conditioned s x) (conditioned s (rec ω)) lag with hD
  have hsub : {ω | ¬ ((dropWeak (pairOf mode dt s x (List.zipWith (· + ·) y (rec ω)))).delay = -((lag : ℝ) * dt) ∨
      ((dropWeak (pairOf mode dt s x (List.zipWith (· + ·) y (rec ω)))).delay = 0 ∧ (dropWeak (pairOf mode dt s x (List.zipWith (· + ·) y (rec ω)))).peak.lt (.fin (1e-10))))} ⊆
      ⋃ l ∈ (Finset.Ioo (-(n : ℤ)) n).erase lag, {ω | (C lag - C l) ^ 2 ≤ D l ω ^ 2} := by
    intro ω hω
    rw [Set.mem_ofPred_eq] at hω
    have hly : (List.zipWith (· + ·) y (rec ω)).length = n := by rw [List.length_zipWith, hre]; omega
    obtain ⟨k, h1, h2⟩ := delay_cases (s := s) hm dt x (List.zipWith (· + ·) y (rec ω)) (by rw [hly]) hx
    have hk : k ≠ lag := by
      rintro rfl
      exact hω h2
    rw [Set.mem_iUnion₂]
    refine ⟨k, Finset.mem_erase.2 ⟨hk, Finset.mem_Ioo.2 h1.1⟩, ?_⟩
    rw [Set.mem_ofPred_eq]
    have h3 := h1.2 lag hlag
    have hexp : ∀ j, xcorrAt (conditioned s x) (conditioned s (List.zipWith (· + ·) y (rec ω))) j = C j + xcorrAt (conditioned s x) (conditioned s (rec ω)) j := by
      intro j
      rw [conditioned_add s (by rw [hre, hy]), xcorr_add_right (by rw [conditioned_length, conditioned_length, hre, hy])]
    rw [hexp, hexp] at h3
    have h4 : 0 < C lag - C k := sub_pos.2 (hpeak k h1.1 hk)
    exact pow_le_pow_left₀ h4.le (by simp only [hD]; linarith) 2
  refine (measureReal_mono hsub (measure_ne_top _ _)).trans ((measureReal_biUnion_finset_le _ _).trans (Finset.sum_le_sum fun l hl => ?_))
  rw [Finset.mem_erase, Finset.mem_Ioo] at hl
  have hgap : 0 < C lag - C l := sub_pos.2 (hpeak l hl.2 hl.1)
  set a : ℕ → ℝ := fun i => proj (condDetrend s) n (fun i => ext (conditioned s x) ((i : ℤ) + l) - ext (conditioned s x) ((i : ℤ) + lag)) i with ha
  have hDa : ∀ ω, D l ω = ∑ i ∈ Finset.range n, e i ω * a i := fun ω => xcorr_noise s (conditioned s x) n (fun i => e i ω) l lag
  obtain ⟨i1, i2⟩ := noise_sq hw a (Finset.range n)
  have hen : ∑ i ∈ Finset.range n, a i ^ 2 ≤ 4 * energyOf (conditioned s x) := by
    refine (proj_energy _ _ _).trans ?_
    have b1 := shift_energy (conditioned s x) n l
    have b2 := shift_energy (conditioned s x) n lag
    have b3 : ∑ i ∈ Finset.range n, (ext (conditioned s x) ((i : ℤ) + l) - ext (conditioned s x) ((i : ℤ) + lag)) ^ 2 ≤
        ∑ i ∈ Finset.range n, (2 * ext (conditioned s x) ((i : ℤ) + l) ^ 2 + 2 * ext (conditioned s x) ((i : ℤ) + lag) ^ 2) :=
      Finset.sum_le_sum fun i _ => by nlinarith [sq_nonneg (ext (conditioned s x) ((i : ℤ) + l) + ext (conditioned s x) ((i : ℤ) + lag))]
    rw [Finset.sum_add_distrib, ← Finset.mul_sum, ← Finset.mul_sum] at b3
    linarith
  have hmk := mul_meas_ge_le_integral_of_nonneg (Filter.Eventually.of_forall fun ω => sq_nonneg (∑ i ∈ Finset.range n, e i ω * a i)) i1 ((C lag - C l) ^ 2)
  simp only [hDa]
  rw [le_div_iff₀ (by positivity), mul_comm]
  refine hmk.trans ?_
  rw [i2]
  nlinarith [sq_nonneg σ]

/-- **C230.**  For a record that repeats the input `m` samples later, the probability of missing the delay `m dt` is at most the sum of `4 σ² E / (E - a)²` over the autocorrelations `a` of the
pattern at all other lags, `E` its energy. -/
theorem C230_shift (hw : WhiteNoise P e σ) (dt : ℝ) (mode s : String) (hm : mode = "loop" ∨ mode = "fft")
    (x y : List ℝ) (m : ℤ) (hd : Delayed x y m) (h0 : ∃ v ∈ x, v ≠ 0) (hs : s = "none" ∨ (s = "coeff" ∧ x.sum = 0)) :
    ∃ r : Ω → PairDelay, (∀ ω, computeDelays dt [x] [List.zipWith (· + ·) y ((List.range x.length).map fun i => e i ω)] mode s = .ok [r ω]) ∧
      P.real {ω | ¬ ((r ω).delay = m * dt ∨ ((r ω).delay = 0 ∧ (r ω).peak.lt (.fin (1e-10))))} ≤
        ∑ l ∈ (Finset.Ioo (-(x.length : ℤ)) x.length).erase (-m), 4 * σ ^ 2 * energyOf x / (energyOf x - xcorrAt x x (l + m)) ^ 2 := by
  have hcx : conditioned s x = x := by
    rcases hs with rfl | ⟨rfl, h1⟩
    · rfl
    · exact center_of_sum_zero h1
  have hcy : conditioned s y = y := by
    rcases hs with rfl | ⟨rfl, h1⟩
    · rfl
    · exact center_of_sum_zero (by rw [delayed_sum hd, h1])
  obtain ⟨r, h1, h2⟩ := C230_probability hw dt mode s hm (by tauto) x y hd.1.symm (-m) (delayed_isLag hd h0) (by
    intro l _ hl
    rw [hcx, hcy]
    exact delayed_peak hd h0 hl)
  refine ⟨r, h1, ?_⟩
  rw [hcx, hcy] at h2
  simp only [delayed_xcorr hd, neg_add_cancel, xcorrAt_zero_self] at h2
  have e1 : -(((-m : ℤ) : ℝ) * dt) = m * dt := by push_cast; ring
  rw [e1] at h2
  exact h2

example : WhiteNoise (Measure.infinitePi fun _ : ℕ => ProbabilityTheory.gaussianReal 0 1) (fun i ω => ω i) 1 ∧
    Delayed [3, 0, 0] [0, 3, 0] 1 ∧ ∃ v ∈ ([3, 0, 0] : List ℝ), v ≠ 0 := by
  refine ⟨Noise.gauss_white, ⟨rfl, fun i => ?_⟩, 3, by simp, by norm_num⟩
  rcases lt_or_ge i 0 with h | h
  · rw [ext_of_neg h, ext_of_neg (by omega)]
  rcases lt_or_ge i 4 with h' | h'
  · interval_cases i <;> simp [ext]
  · rw [ext_of_ge (by simpa using by omega), ext_of_ge (by simpa using by omega)]

end SST.Props.NoiseDelay
