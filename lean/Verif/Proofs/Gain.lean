import Verif.Props.Apply

/-! # Helper lemmas: the transform of a filtered series -/

namespace SST.Filters
open SST SST.Dft SST.Tf SST.Corr SST.Props.Apply

/-- Number of the bin of the opposite frequency. -/
def oppBin (n k : ℕ) : ℕ := (n - k) % n

/-- What a filter does to bin `k` of a real series: the mean of its value and the conjugate of its value at the
opposite frequency. -/
noncomputable def gain (n : ℕ) (H : List ℂ) (k : ℕ) : ℂ := (at0 H k + (starRingEnd ℂ) (at0 H (oppBin n k))) / 2

theorem opp_lt {n k : ℕ} (hn : 0 < n) : oppBin n k < n := Nat.mod_lt _ hn

theorem opp_dvd {n k : ℕ} (hn : 0 < n) (hk : k < n) : (n : ℤ) ∣ (oppBin n k : ℤ) + k := by
  unfold oppBin
  rcases Nat.eq_zero_or_pos k with rfl | h
  · simp
  · rw [Nat.mod_eq_of_lt (by omega)]
    push_cast [hk.le]
    simp

/-- A sum of harmonics has the harmonics as its transform. -/
theorem transform_harmonics {n : ℕ} (hn : 0 < n) (c : ℕ → ℂ) {k : ℕ} (hk : k < n) :
    ∑ m ∈ Finset.range n, ((∑ l ∈ Finset.range n, c l * twiddle n (-(l * m))) / n) * twiddle n (m * k) = c k := by
  have hn' : (n : ℂ) ≠ 0 := by exact_mod_cast hn.ne'
  have h1 : ∀ m ∈ Finset.range n, ((∑ l ∈ Finset.range n, c l * twiddle n (-(l * m))) / n) * twiddle n (m * k) =
      (∑ l ∈ Finset.range n, c l * twiddle n (m * ((k : ℤ) - l))) / n := by
    intro m _
    rw [div_mul_eq_mul_div, Finset.sum_mul]
    congr 1
    apply Finset.sum_congr rfl
    intro l _
    rw [mul_assoc, ← twiddle_add]
    congr 2; ring
  rw [Finset.sum_congr rfl h1, ← Finset.sum_div, Finset.sum_comm, div_eq_iff hn']
  rw [Finset.sum_eq_single k]
  · simp [twiddle_zero, mul_comm]
  · intro l hl hlk
    rw [← Finset.mul_sum, sum_twiddle hn, if_neg, mul_zero]
    intro hd
    have hl' := Finset.mem_range.1 hl
    have := Int.eq_zero_of_abs_lt_dvd hd (by rw [abs_lt]; constructor <;> omega)
    omega
  · intro h; exact absurd (Finset.mem_range.2 hk) h

theorem transform_conj {n : ℕ} (hn : 0 < n) (c : ℕ → ℂ) {k : ℕ} (hk : k < n) :
    ∑ m ∈ Finset.range n, (starRingEnd ℂ) ((∑ l ∈ Finset.range n, c l * twiddle n (-(l * m))) / n) * twiddle n (m * k) =
      (starRingEnd ℂ) (c (oppBin n k)) := by
  rw [← transform_harmonics hn c (opp_lt (k := k) hn), map_sum]
  apply Finset.sum_congr rfl
  intro m _
  rw [map_mul]
  congr 1
  rw [← twiddle_neg]
  apply twiddle_period n hn
  obtain ⟨d, hd⟩ := opp_dvd hn hk
  exact ⟨m * d, by linear_combination (m : ℤ) * hd⟩

theorem dftR_conj (x : List ℝ) {k : ℕ} (hk : k < x.length) : (starRingEnd ℂ) (dftR x (oppBin x.length k)) = dftR x k := by
  have hn : 0 < x.length := by omega
  unfold dftR
  rw [map_sum]
  apply Finset.sum_congr rfl
  intro j _
  rw [map_mul, Complex.conj_ofReal, ← twiddle_neg]
  congr 1
  apply twiddle_period _ hn
  obtain ⟨d, hd⟩ := opp_dvd hn hk
  exact ⟨-(j * d), by linear_combination -(j : ℤ) * hd⟩

/-- The transform of a filtered series. -/
theorem dftR_filtered (x : List ℝ) (H : List ℂ) {k : ℕ} (hk : k < x.length) :
    dftR ((List.range x.length).map fun (m : ℕ) => (outC x H m).re) k = dftR x k * gain x.length H k := by
  have hn : 0 < x.length := by omega
  have h1 : dftR ((List.range x.length).map fun (m : ℕ) => (outC x H m).re) k =
      (∑ m ∈ Finset.range x.length, outC x H m * twiddle x.length (m * k) +
        ∑ m ∈ Finset.range x.length, (starRingEnd ℂ) (outC x H m) * twiddle x.length (m * k)) / 2 := by
    rw [← Finset.sum_add_distrib, Finset.sum_div]
    unfold dftR
    simp only [List.length_map, List.length_range]
    apply Finset.sum_congr rfl
    intro m hm
    rw [at0_range_map _ (Finset.mem_range.1 hm), Complex.re_eq_add_conj]
    ring
  have h2 := transform_harmonics hn (fun l => dftR x l * at0 H l) hk
  have h3 := transform_conj hn (fun l => dftR x l * at0 H l) hk
  beta_reduce at h2 h3
  rw [h1]
  unfold outC
  rw [h2, h3, map_mul, dftR_conj x hk]
  unfold gain
  ring

/-- A real series is determined by its transform. -/
theorem eq_of_dftR {x y : List ℝ} (hl : x.length = y.length) (h : ∀ k < x.length, dftR x k = dftR y k) : x = y := by
  apply list_ext_at0 hl
  intro j hj
  have h1 := inverse_dftR x hj
  have h2 := inverse_dftR y (m := j) (by omega)
  have : ((at0 x j : ℝ) : ℂ) = ((at0 y j : ℝ) : ℂ) := by
    rw [← h1, ← h2, ← hl]
    congr 1
    apply Finset.sum_congr rfl
    intro k hk
    rw [h k (Finset.mem_range.1 hk)]
  exact_mod_cast this

/-- A successful call, in terms of transforms. -/
theorem filtered_spectrum {dt : ℝ} {x : List ℝ} {filt : List (ℝ × ℂ)} {out : List ℝ} (h : applyFilter dt x filt = .ok out) :
    2 ≤ x.length ∧ out.length = x.length ∧ ∃ H, interpTf (fftfreq x.length dt) filt = .ok H ∧
      ∀ k < x.length, dftR out k = dftR x k * gain x.length H k := by
  obtain ⟨hx, H, hH, rfl⟩ := applyFilter_inv h
  exact ⟨hx, by simp, H, hH, fun k hk => dftR_filtered x H hk⟩

theorem filtered_ok {dt : ℝ} {x : List ℝ} {filt : List (ℝ × ℂ)} {H : List ℂ} (hx : 2 ≤ x.length)
    (hm : ¬ ∃ f ∈ fftfreq x.length dt, ∀ p ∈ filt, p.1 < f) (h : interpTf (fftfreq x.length dt) filt = .ok H) :
    ∃ out, applyFilter dt x filt = .ok out ∧ out.length = x.length ∧ ∀ k < x.length, dftR out k = dftR x k * gain x.length H k :=
  ⟨_, applyFilter_core hx hm h, by simp, fun _ hk => dftR_filtered x H hk⟩

/-- Conversely a series of the same length with this transform is the result. -/
theorem filtered_of_spectrum {dt : ℝ} {x out : List ℝ} {filt : List (ℝ × ℂ)} {H : List ℂ} (hx : 2 ≤ x.length) (hl : out.length = x.length)
    (hm : ¬ ∃ f ∈ fftfreq x.length dt, ∀ p ∈ filt, p.1 < f) (h : interpTf (fftfreq x.length dt) filt = .ok H)
    (hs : ∀ k < x.length, dftR out k = dftR x k * gain x.length H k) : applyFilter dt x filt = .ok out := by
  rw [applyFilter_core hx hm h]
  congr 1
  apply eq_of_dftR (by simp [hl])
  intro k hk
  simp only [List.length_map, List.length_range] at hk
  rw [dftR_filtered x H hk, hs k hk]

theorem not_above_of_ok {dt : ℝ} {x out : List ℝ} {filt : List (ℝ × ℂ)} (h : applyFilter dt x filt = .ok out) :
    ¬ ∃ f ∈ fftfreq x.length dt, ∀ p ∈ filt, p.1 < f := by
  intro hm
  have hx := (applyFilter_inv h).1
  unfold applyFilter at h
  rw [if_neg (by omega)] at h
  simp only at h
  rw [if_pos hm] at h
  cases h

/-- The frequency of the opposite bin, except at half the sampling rate. -/
theorem binNumber_opp {n k : ℕ} (hk : k < n) (h : 2 * k ≠ n) : binNumber n (oppBin n k) = -binNumber n k := by
  unfold oppBin
  rcases Nat.eq_zero_or_pos k with rfl | h0
  · simp [binNumber, hk]
  · rw [Nat.mod_eq_of_lt (by omega)]
    unfold binNumber
    split_ifs <;> omega

theorem opp_half {n k : ℕ} (hk : k < n) (h : 2 * k = n) : oppBin n k = k := by
  unfold oppBin
  rw [Nat.mod_eq_of_lt (by omega)]; omega

end SST.Filters
