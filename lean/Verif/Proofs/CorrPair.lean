import Verif.Proofs.Corr

/-! # Helper lemmas: delays from cross-correlation -/

namespace SST.Corr
open SST SST.Dft SST.Spec SST.Cmv

theorem center_demean (x : List ℝ) : center x = demean x := rfl

theorem cond_conditioned (s : String) (x : List ℝ) : cond s x = conditioned s x := rfl

@[simp] theorem cond_length (s : String) (x : List ℝ) : (cond s x).length = x.length := by
  unfold cond; split_ifs <;> simp

theorem div_pos_fin (v : ℝ) {d : ℝ} (hd : d ≠ 0) : XR.div v d = .fin (v / d) := by
  unfold XR.div; rw [if_neg hd]

theorem div_zero_zero : XR.div 0 0 = .nan := by unfold XR.div; simp

theorem lt_fin (a b : ℝ) : XR.lt (.fin a) (.fin b) ↔ a < b := Iff.rfl

/-! ## Values of the pair functions -/

theorem lagsOf_idx {n : ℕ} (hn : 0 < n) : (lagsOf n n).idxOf 0 = n - 1 := by
  have hnd : (lagsOf n n).Nodup := by
    unfold lagsOf
    apply List.Nodup.map
    · intro a b h; simpa using h
    · exact List.nodup_range
  have hlen : n - 1 < (lagsOf n n).length := by simp; omega
  have hget : (lagsOf n n)[n - 1] = 0 := by
    simp [lagsOf]; omega
  have := List.Nodup.idxOf_getElem hnd (n - 1) hlen
  rw [hget] at this
  exact this

/-- The lag at position `m` in fft order. -/
def fftLag (n m : ℕ) : ℤ := if m < n then (m : ℤ) else (m : ℤ) - (2 * n - 1)

theorem fdiv_neg_odd (n : ℕ) (hn : 0 < n) : Int.fdiv (-(2 * (n : ℤ) - 1)) 2 + 1 = -(n : ℤ) + 1 := by
  rw [Int.fdiv_eq_ediv_of_nonneg _ (by norm_num)]; omega

theorem fdiv_odd (n : ℕ) (hn : 0 < n) : Int.fdiv (2 * (n : ℤ) - 1) 2 = (n : ℤ) - 1 := by
  rw [Int.fdiv_eq_ediv_of_nonneg _ (by norm_num)]; omega

theorem emod_shift {a N : ℤ} (h0 : 0 ≤ a) (h1 : a < N) : a % N = a := Int.emod_eq_of_lt h0 h1

theorem ilags_get {n m : ℕ} (hn : 0 < n) (hm : m < 2 * n - 1) :
    (roll (lagsOf n n) (Int.fdiv (-(2 * (n : ℤ) - 1)) 2 + 1))[m]? = some (fftLag n m) := by
  have hl : (lagsOf n n).length = 2 * n - 1 := by simp; omega
  rw [roll_get _ _ (by rw [hl]; exact hm), fdiv_neg_odd n hn, hl]
  unfold fftLag
  by_cases h : m < n
  · rw [if_pos h]
    have : ((m : ℤ) - (-(n : ℤ) + 1)) % ((2 * n - 1 : ℕ) : ℤ) = m + n - 1 := by
      rw [emod_shift] <;> omega
    rw [this, lagsOf_get (by omega)]
    congr 1; omega
  · rw [if_neg h]
    have : ((m : ℤ) - (-(n : ℤ) + 1)) % ((2 * n - 1 : ℕ) : ℤ) = m - n := by
      have e : (m : ℤ) - (-(n : ℤ) + 1) = (m - n) + ((2 * n - 1 : ℕ) : ℤ) := by omega
      rw [e, Int.add_emod_right, emod_shift] <;> omega
    rw [this, lagsOf_get (by omega)]
    congr 1; omega

theorem fftLag_zero {n : ℕ} (hn : 0 < n) : fftLag n 0 = 0 := by simp [fftLag, hn]

theorem idxOf_head {l : List ℤ} (h : l[0]? = some 0) : l.idxOf 0 = 0 := by
  cases l with
  | nil => simp at h
  | cons a l => simp at h; subst h; simp

/-- All entries of the circular correlation of the padded records. -/
theorem fft_get (x y : List ℝ) (hl : x.length = y.length) {m : ℕ} (hm : m < 2 * x.length - 1) :
    (fftXcorr (pad x) (pad y))[m]? = some (xcorrAt x y (fftLag x.length m)) := by
  have hx : x ≠ [] := by rintro rfl; simp at hm
  have hy : y ≠ [] := by rintro rfl; simp at hl; exact hx hl
  have hlen : (fftXcorr (pad x) (pad y)).length = 2 * x.length - 1 := by
    rw [fftXcorr_length (by rw [pad_length hx, pad_length hy, hl]), pad_length hx]
  have hm' : m < (fftXcorr (pad x) (pad y)).length := by rw [hlen]; exact hm
  have := fftXcorr_pad x y hl hm
  rw [at0_of_lt hm'] at this
  rw [List.getElem?_eq_getElem hm', this]
  rfl

theorem fft_length' (x y : List ℝ) (hl : x.length = y.length) (hx : x ≠ []) :
    (fftXcorr (pad x) (pad y)).length = 2 * x.length - 1 := by
  have hy : y ≠ [] := by
    intro h; apply hx; apply List.length_eq_zero_iff.1; rw [hl, h]; rfl
  rw [fftXcorr_length (by rw [pad_length hx, pad_length hy, hl]), pad_length hx]

theorem fftLag_isLag {n m : ℕ} (hm : m < 2 * n - 1) : IsLag n (fftLag n m) := by
  unfold IsLag fftLag; split_ifs <;> omega

theorem fftLag_surj {n : ℕ} {lag : ℤ} (h : IsLag n lag) : ∃ m, m < 2 * n - 1 ∧ fftLag n m = lag := by
  obtain ⟨h1, h2⟩ := h
  by_cases h0 : 0 ≤ lag
  · refine ⟨lag.toNat, by omega, ?_⟩
    unfold fftLag; rw [if_pos (by omega)]; omega
  · refine ⟨(lag + (2 * n - 1)).toNat, by omega, ?_⟩
    unfold fftLag; rw [if_neg (by omega)]; omega

theorem roll_perm {α : Type} (l : List α) (s : ℤ) : (roll l s).Perm l := by
  unfold roll
  simp only
  have := List.perm_append_comm (l₁ := l.drop ((-s) % l.length).toNat) (l₂ := l.take ((-s) % l.length).toNat)
  rwa [List.take_append_drop] at this

/-- The circular correlation is the direct one in fft order. -/
theorem fft_roll (x y : List ℝ) (hl : x.length = y.length) (hx : x ≠ []) :
    roll (fftXcorr (pad x) (pad y)) (Int.fdiv (2 * (x.length : ℤ) - 1) 2) = correlate x y := by
  have hn : 0 < x.length := List.length_pos_iff.2 hx
  have hlen := fft_length' x y hl hx
  apply List.ext_getElem?
  intro k
  by_cases hk : k < 2 * x.length - 1
  · rw [roll_get _ _ (by rw [hlen]; exact hk), correlate_get (by omega), hlen, fdiv_odd _ hn]
    by_cases hc : k < x.length - 1
    · have e : ((k : ℤ) - (x.length - 1)) % ((2 * x.length - 1 : ℕ) : ℤ) = k + x.length := by
        have e2 : (k : ℤ) - (x.length - 1) = (k + x.length) - ((2 * x.length - 1 : ℕ) : ℤ) := by omega
        rw [e2, Int.sub_emod_right, emod_shift] <;> omega
      rw [e, fft_get x y hl (by omega)]
      congr 2
      unfold fftLag; rw [if_neg (by omega)]; omega
    · have e : ((k : ℤ) - (x.length - 1)) % ((2 * x.length - 1 : ℕ) : ℤ) = k - (x.length - 1) := by
        rw [emod_shift] <;> omega
      rw [e, fft_get x y hl (by omega)]
      congr 2
      unfold fftLag; rw [if_pos (by omega)]; omega
  · rw [List.getElem?_eq_none (by rw [roll_length, hlen]; omega), List.getElem?_eq_none (by simp; omega)]

theorem mean_perm {l l' : List ℝ} (h : l.Perm l') : mean l = mean l' := by
  rw [mean_def, mean_def, h.sum_eq, h.length_eq]

theorem mean_fft (x y : List ℝ) (hl : x.length = y.length) (hx : x ≠ []) :
    mean (fftXcorr (pad x) (pad y)) = mean (correlate x y) := by
  rw [← fft_roll x y hl hx]
  exact (mean_perm (roll_perm _ _)).symm

theorem mean_correlate (x y : List ℝ) : mean (correlate x y) = x.sum * y.sum / ((x.length + y.length - 1 : ℕ) : ℝ) := by
  rw [mean_def, sum_correlate, correlate_length]

/-! ## Peaks -/

/-- Direct mode: the position of the maximum is the first in lag order. -/
theorem argmax_correlate (x y : List ℝ) (hl : x.length = y.length) (hx : x ≠ []) :
    ∃ lag, IsPeak x.length (xcorrAt x y) lag ∧ (∀ l, IsLag x.length l → l < lag → xcorrAt x y l < xcorrAt x y lag) ∧
      (lagsOf x.length y.length)[argmax (correlate x y)]? = some lag ∧
      (correlate x y)[argmax (correlate x y)]? = some (xcorrAt x y lag) := by
  have hn : 0 < x.length := List.length_pos_iff.2 hx
  have hne : correlate x y ≠ [] := by
    intro h; have := congrArg List.length h; simp at this; omega
  obtain ⟨hk, h1, h2⟩ := argmax_spec hne
  have hk' : argmax (correlate x y) < x.length + y.length - 1 := by simpa using hk
  set k := argmax (correlate x y) with hkd
  have hval : (correlate x y)[k] = xcorrAt x y ((k : ℤ) - (y.length - 1)) := by
    have := correlate_get hk'
    rw [List.getElem?_eq_getElem hk] at this
    exact Option.some.inj this
  have hget : ∀ l, IsLag x.length l → ∃ j, ∃ hj : j < (correlate x y).length, (j : ℤ) = l + (y.length - 1) ∧ (correlate x y)[j] = xcorrAt x y l := by
    rintro l ⟨hl1, hl2⟩
    have hj : (l + (y.length - 1)).toNat < x.length + y.length - 1 := by omega
    refine ⟨(l + (y.length - 1)).toNat, by simpa using hj, by omega, ?_⟩
    have := correlate_get hj
    rw [List.getElem?_eq_getElem (by simpa using hj)] at this
    rw [Option.some.inj this]
    congr 1; omega
  refine ⟨(k : ℤ) - (y.length - 1), ⟨⟨by omega, by omega⟩, ?_⟩, ?_, lagsOf_get hk', correlate_get hk'⟩
  · intro l hlag
    obtain ⟨j, hj, -, e⟩ := hget l hlag
    rw [← hval, ← e]
    exact h1 _ (List.getElem_mem hj)
  · intro l hlag hlt
    obtain ⟨j, hj, hj2, e⟩ := hget l hlag
    rw [← hval, ← e]
    exact h2 j (by omega)

/-- FFT mode: the first in the order 0, 1, .., n-1, -(n-1), .., -1. -/
theorem argmax_fft (x y : List ℝ) (hl : x.length = y.length) (hx : x ≠ []) :
    ∃ lag, IsPeak x.length (xcorrAt x y) lag ∧
      (∀ l, IsLag x.length l → ((0 ≤ l ∧ (l < lag ∨ lag < 0)) ∨ (l < lag ∧ lag < 0)) → xcorrAt x y l < xcorrAt x y lag) ∧
      (roll (lagsOf x.length x.length) (Int.fdiv (-(2 * (x.length : ℤ) - 1)) 2 + 1))[argmax (fftXcorr (pad x) (pad y))]? = some lag ∧
      (fftXcorr (pad x) (pad y))[argmax (fftXcorr (pad x) (pad y))]? = some (xcorrAt x y lag) := by
  have hn : 0 < x.length := List.length_pos_iff.2 hx
  have hlen := fft_length' x y hl hx
  have hne : fftXcorr (pad x) (pad y) ≠ [] := by
    intro h; rw [h] at hlen; simp at hlen; omega
  obtain ⟨hk, h1, h2⟩ := argmax_spec hne
  set c := fftXcorr (pad x) (pad y) with hc
  set k := argmax c with hkd
  have hk' : k < 2 * x.length - 1 := by omega
  have hget : ∀ j (hj : j < c.length), c[j] = xcorrAt x y (fftLag x.length j) := by
    intro j hj
    have := fft_get x y hl (m := j) (by omega)
    rw [← hc, List.getElem?_eq_getElem hj] at this
    exact Option.some.inj this
  refine ⟨fftLag x.length k, ⟨fftLag_isLag hk', ?_⟩, ?_, ilags_get hn hk', fft_get x y hl hk'⟩
  · intro l hlag
    obtain ⟨j, hj, rfl⟩ := fftLag_surj hlag
    rw [← hget k hk, ← hget j (by omega)]
    exact h1 _ (List.getElem_mem _)
  · intro l hlag hor
    obtain ⟨j, hj, rfl⟩ := fftLag_surj hlag
    rw [← hget k hk, ← hget j (by omega)]
    have hjk : j < k := by
      unfold fftLag at hor
      split_ifs at hor <;> omega
    exact h2 j hjk

/-- All values of mode 'loop'. -/
theorem loopPair_spec (dt : ℝ) (s : String) (x y : List ℝ) (hl : x.length = y.length) (hx : x ≠ []) :
    ∃ lag, IsPeak x.length (xcorrAt (conditioned s x) (conditioned s y)) lag ∧
      (∀ l, IsLag x.length l → l < lag →
        xcorrAt (conditioned s x) (conditioned s y) l < xcorrAt (conditioned s x) (conditioned s y) lag) ∧
      loopPair dt s x y = ⟨-((lag : ℝ) * dt), XR.div (xcorrAt (conditioned s x) (conditioned s y) lag) (divisor s x y),
        XR.div (mean (correlate (cond s x) (cond s y))) (divisor s x y),
        XR.div (xcorrAt (conditioned s x) (conditioned s y) 0) (divisor s x y)⟩ := by
  have hn : 0 < x.length := List.length_pos_iff.2 hx
  have hx' : cond s x ≠ [] := by intro h; have := congrArg List.length h; simp at this; exact hx this
  obtain ⟨lag, h1, h2, h3, h4⟩ := argmax_correlate (cond s x) (cond s y) (by simp [hl]) hx'
  simp only [cond_length] at h1 h2 h3
  refine ⟨lag, h1, h2, ?_⟩
  have h0 : (correlate (cond s x) (cond s y))[x.length - 1]? = some (xcorrAt (cond s x) (cond s y) 0) := by
    rw [correlate_get (by simp; omega)]
    congr 2
    simp; omega
  have h3' : (lagsOf x.length x.length)[argmax (correlate (cond s x) (cond s y))]? = some lag := by
    conv at h3 => lhs; rw [← hl]
    exact h3
  unfold loopPair
  simp only [List.getElem?_map, h3', h4, lagsOf_idx hn, h0, Option.map_some, Option.getD_some]
  rfl

/-- All values of mode 'fft'. -/
theorem fftPair_spec (dt : ℝ) (s : String) (x y : List ℝ) (hl : x.length = y.length) (hx : x ≠ []) :
    ∃ lag, IsPeak x.length (xcorrAt (conditioned s x) (conditioned s y)) lag ∧
      (∀ l, IsLag x.length l → ((0 ≤ l ∧ (l < lag ∨ lag < 0)) ∨ (l < lag ∧ lag < 0)) →
        xcorrAt (conditioned s x) (conditioned s y) l < xcorrAt (conditioned s x) (conditioned s y) lag) ∧
      fftPair dt s x y = ⟨-((lag : ℝ) * dt), XR.div (xcorrAt (conditioned s x) (conditioned s y) lag) (divisor s x y),
        XR.div (mean (correlate (cond s x) (cond s y))) (divisor s x y),
        XR.div (xcorrAt (conditioned s x) (conditioned s y) 0) (divisor s x y)⟩ := by
  have hn : 0 < x.length := List.length_pos_iff.2 hx
  have hx' : cond s x ≠ [] := by intro h; have := congrArg List.length h; simp at this; exact hx this
  obtain ⟨lag, h1, h2, h3, h4⟩ := argmax_fft (cond s x) (cond s y) (by simp [hl]) hx'
  simp only [cond_length] at h1 h2 h3
  refine ⟨lag, h1, h2, ?_⟩
  have h0 : (fftXcorr (pad (cond s x)) (pad (cond s y)))[0]? = some (xcorrAt (cond s x) (cond s y) 0) := by
    rw [fft_get _ _ (by simp [hl]) (by simp; omega), fftLag_zero (by simpa using hn)]
  have hi : (roll (lagsOf x.length x.length) (Int.fdiv (-(2 * (x.length : ℤ) - 1)) 2 + 1)).idxOf 0 = 0 :=
    idxOf_head (by rw [ilags_get hn (by omega), fftLag_zero hn])
  unfold fftPair
  simp only [List.getElem?_map, h3, h4, hi, h0, Option.map_some, Option.getD_some, mean_fft _ _ (show (cond s x).length = (cond s y).length by simp [hl]) hx']
  rfl

/-! ## argmax of floats -/

theorem leX_fin (a b : ℝ) : leX (.fin a) (.fin b) ↔ a ≤ b := by
  unfold leX
  rw [lt_fin, XR.fin.injEq, le_iff_lt_or_eq]

theorem argmaxX_fin (l : List ℝ) : argmaxX (l.map XR.fin) = argmax l := by
  induction l with
  | nil => rfl
  | cons a l ih =>
    rw [List.map_cons, argmaxX, argmax, ih]
    have hn : XR.nan ∉ XR.fin a :: l.map XR.fin := by simp
    rw [if_neg hn]
    have : (∀ y ∈ l.map XR.fin, leX y (.fin a)) ↔ ∀ y ∈ l, y ≤ a := by
      simp [leX_fin]
    by_cases hc : ∀ y ∈ l, y ≤ a
    · rw [if_pos (this.2 hc), if_pos hc]
    · rw [if_neg (fun h => hc (this.1 h)), if_neg hc]

theorem argmaxX_nan {l : List XR} (h : ∀ v ∈ l, v = XR.nan) : argmaxX l = 0 := by
  cases l with
  | nil => rfl
  | cons a l =>
    have := h a (by simp)
    subst this
    rw [argmaxX, if_pos (by simp)]
    simp

/-! ## `correlation` for the two scalings of `compute_delays` -/

theorem correlation_none {s : String} (hs : s.toLower = "none") (x y : List ℝ) :
    correlation x y s = .ok ((correlate x y).map .fin, lagsOf x.length y.length) := by
  unfold correlation; simp [hs]

theorem correlation_coeff {s : String} (hs : s.toLower = "coeff") (x y : List ℝ) :
    correlation x y s = .ok ((correlate (center x) (center y)).map fun v => XR.div v (x.length * (std x * std y)),
      lagsOf x.length y.length) := by
  unfold correlation; simp [hs]

theorem correlation_energy {s : String} (hs : s.toLower = "energy") (x y : List ℝ) :
    correlation x y s = .ok ((correlate x y).map fun v => XR.div v (((correlate x x).max?).getD 0),
      lagsOf x.length y.length) := by
  unfold correlation; simp [hs]

theorem max_autocorr {x : List ℝ} (hx : x ≠ []) : ((correlate x x).max?).getD 0 = energyOf x := by
  have hn : 0 < x.length := List.length_pos_iff.2 hx
  have : (correlate x x).max? = some (energyOf x) := by
    rw [List.max?_eq_some_iff]
    constructor
    · rw [List.mem_iff_getElem?]
      refine ⟨x.length - 1, ?_⟩
      rw [correlate_get (by omega), ← xcorrAt_zero_self]
      congr 2; omega
    · intro b hb
      rw [correlate_eq] at hb
      obtain ⟨lag, -, rfl⟩ := List.mem_map.1 hb
      have := abs_xcorrAt_le x x lag
      rw [Real.mul_self_sqrt (energyOf_nonneg x)] at this
      exact (abs_le.1 this).2
  rw [this]; rfl

theorem den_pos {x y : List ℝ} (hx : ¬ IsConst x) (hy : ¬ IsConst y) : 0 < x.length * (std x * std y) := by
  have h0 : x ≠ [] := by rintro rfl; apply hx; intro a ha; simp at ha
  have hn : (0 : ℝ) < x.length := by exact_mod_cast List.length_pos_iff.2 h0
  have := std_pos hx; have := std_pos hy
  positivity

theorem divisor_coeff (x y : List ℝ) : divisor "coeff" x y = x.length * (std x * std y) := by
  unfold divisor; rw [if_pos rfl]; ring

/-! ## Delayed signals -/

theorem delayed_xcorr {x y : List ℝ} {m : ℤ} (h : Delayed x y m) (lag : ℤ) : xcorrAt x y lag = xcorrAt x x (lag + m) := by
  rw [xcorrAt_finsum', xcorrAt_finsum']
  congr 1
  funext i
  rw [h.2, sub_sub]

theorem sum_finsum (x : List ℝ) : x.sum = ∑ᶠ i : ℤ, ext x i := by
  rw [finsum_win (n := x.length) (fun z hz => ext_support hz), sum_ext]

theorem delayed_sum {x y : List ℝ} {m : ℤ} (h : Delayed x y m) : y.sum = x.sum := by
  rw [sum_finsum, sum_finsum, ← finsum_comp_equiv (Equiv.subRight m) (f := fun i : ℤ => ext x i)]
  congr 1
  funext i
  rw [h.2]; rfl

theorem delayed_energy {x y : List ℝ} {m : ℤ} (h : Delayed x y m) : energyOf y = energyOf x := by
  have e : ∀ z : List ℝ, energyOf z = ∑ᶠ i : ℤ, ext z i ^ 2 := by
    intro z
    rw [finsum_win (n := z.length) (fun w hz => ext_support (by intro h0; apply hz; simp [h0])), sum_ext_sq]
  rw [e, e, ← finsum_comp_equiv (Equiv.subRight m) (f := fun i : ℤ => ext x i ^ 2)]
  congr 1
  funext i
  rw [h.2]; rfl

theorem delayed_isLag {x y : List ℝ} {m : ℤ} (h : Delayed x y m) (h0 : ∃ v ∈ x, v ≠ 0) : IsLag x.length (-m) := by
  obtain ⟨v, hv, hv0⟩ := h0
  obtain ⟨i, hi, rfl⟩ := List.mem_iff_getElem.1 hv
  have h1 : ext y ((i : ℤ) + m) ≠ 0 := by
    rw [h.2, add_sub_cancel_right, ext_get hi]; exact hv0
  have := mem_win.1 (ext_support h1)
  rw [← h.1] at this
  constructor <;> omega

theorem delayed_peak {x y : List ℝ} {m : ℤ} (h : Delayed x y m) (h0 : ∃ v ∈ x, v ≠ 0) {lag : ℤ} (hl : lag ≠ -m) :
    xcorrAt x y lag < xcorrAt x y (-m) := by
  rw [delayed_xcorr h, delayed_xcorr h, neg_add_cancel, xcorrAt_zero_self]
  exact autocorr_lt h0 (by omega)

theorem center_of_sum_zero {x : List ℝ} (h : x.sum = 0) : center x = x := by
  unfold center mean
  rw [h]; simp

end SST.Corr

namespace SST.Corr
open SST SST.Dft SST.Spec SST.Cmv

theorem divisor_norm (s : String) (x y : List ℝ) (hl : x.length = y.length) : divisor s x y = normOf s x y := by
  unfold divisor normOf
  split_ifs with h
  · rw [← center_demean, ← center_demean, sqrt_energy_center, sqrt_energy_center, ← hl]
    have := Real.mul_self_sqrt (show (0 : ℝ) ≤ x.length by positivity)
    calc (x.length : ℝ) * std x * std y = (Real.sqrt x.length * Real.sqrt x.length) * std x * std y := by rw [this]
      _ = _ := by ring
  · rfl

theorem normOf_pos {s : String} {x y : List ℝ} (h : s = "coeff" → ¬ IsConst x ∧ ¬ IsConst y) : 0 < normOf s x y := by
  unfold normOf
  split_ifs with hs
  · obtain ⟨hx, hy⟩ := h hs
    have hx0 : x ≠ [] := by rintro rfl; apply hx; intro a ha; simp at ha
    have hy0 : y ≠ [] := by rintro rfl; apply hy; intro a ha; simp at ha
    rw [← center_demean, ← center_demean, sqrt_energy_center, sqrt_energy_center]
    have h1 : (0 : ℝ) < x.length := by exact_mod_cast List.length_pos_iff.2 hx0
    have h2 : (0 : ℝ) < y.length := by exact_mod_cast List.length_pos_iff.2 hy0
    have h3 := std_pos hx; have h4 := std_pos hy
    positivity
  · norm_num

/-- One pair of columns, either mode. -/
noncomputable def pairOf (mode : String) (dt : ℝ) (s : String) (x y : List ℝ) : PairDelay :=
  if mode = "loop" then loopPair dt s x y else fftPair dt s x y

theorem computeDelays_ok {dt : ℝ} {ins outs : List (List ℝ)} {mode s : String} {rs : List PairDelay}
    (h : computeDelays dt ins outs mode s = .ok rs) {i : ℕ} {x y : List ℝ} (hi : ins[i]? = some x) (ho : outs[i]? = some y) :
    rs[i]? = some (dropWeak (pairOf mode dt s x y)) ∧ (mode = "loop" ∨ mode = "fft") ∧ (s = "coeff" ∨ s = "none") := by
  unfold computeDelays at h
  have hz : ∀ (f : List ℝ → List ℝ → PairDelay), (List.zipWith f ins outs)[i]? = some (f x y) := by
    intro f; rw [List.getElem?_zipWith, hi, ho]
  have hlt : i < (List.zipWith (fun x y => dropWeak (loopPair dt s x y)) ins outs).length := by
    have h1 := (List.getElem?_eq_some_iff.1 hi).1
    have h2 := (List.getElem?_eq_some_iff.1 ho).1
    rw [List.length_zipWith]; omega
  split_ifs at h with h1 h2 h3 h4 h5 h6
  · obtain rfl := Except.ok.inj h
    refine ⟨?_, Or.inl h3, by tauto⟩
    rw [List.getElem?_append_left hlt, hz]
    unfold pairOf; rw [if_pos h3]
  · obtain rfl := Except.ok.inj h
    refine ⟨?_, Or.inr h5, by tauto⟩
    rw [hz]
    unfold pairOf; rw [if_neg h3]

theorem computeDelays_equal {dt : ℝ} {ins outs : List (List ℝ)} {mode s : String} (hc : ins.length = outs.length)
    (hm : mode = "loop" ∨ mode = "fft") (hs : s = "coeff" ∨ s = "none") :
    computeDelays dt ins outs mode s = .ok (List.zipWith (fun x y => dropWeak (pairOf mode dt s x y)) ins outs) := by
  unfold computeDelays
  rw [if_neg (by tauto), if_neg (by tauto)]
  rcases hm with rfl | rfl
  · rw [if_pos rfl, if_neg (by omega)]
    rw [← hc]
    simp [pairOf]
  · rw [if_neg (by decide), if_pos rfl, if_neg (by omega)]
    simp [pairOf]

theorem pair_spec {mode : String} (hm : mode = "loop" ∨ mode = "fft") (dt : ℝ) (s : String) (x y : List ℝ)
    (hl : x.length = y.length) (hx : x ≠ []) :
    ∃ lag, IsPeak x.length (xcorrAt (conditioned s x) (conditioned s y)) lag ∧
      (∀ l, IsLag x.length l →
        (if mode = "loop" then l < lag else (0 ≤ l ∧ (l < lag ∨ lag < 0)) ∨ (l < lag ∧ lag < 0)) →
        xcorrAt (conditioned s x) (conditioned s y) l < xcorrAt (conditioned s x) (conditioned s y) lag) ∧
      pairOf mode dt s x y = ⟨-((lag : ℝ) * dt), XR.div (xcorrAt (conditioned s x) (conditioned s y) lag) (normOf s x y),
        XR.div (mean (correlate (cond s x) (cond s y))) (normOf s x y),
        XR.div (xcorrAt (conditioned s x) (conditioned s y) 0) (normOf s x y)⟩ := by
  rw [← divisor_norm s x y hl]
  rcases hm with rfl | rfl
  · obtain ⟨lag, h1, h2, h3⟩ := loopPair_spec dt s x y hl hx
    exact ⟨lag, h1, by simpa using h2, by simpa [pairOf] using h3⟩
  · obtain ⟨lag, h1, h2, h3⟩ := fftPair_spec dt s x y hl hx
    exact ⟨lag, h1, by simpa using h2, by simpa [pairOf] using h3⟩

theorem dropWeak_meanCorr (r : PairDelay) : (dropWeak r).meanCorr = r.meanCorr ∧ (dropWeak r).peak = r.peak ∧
    (dropWeak r).zeroCorr = r.zeroCorr := by
  unfold dropWeak; split_ifs <;> simp

theorem dropWeak_delay_weak {r : PairDelay} (h : r.peak.lt (.fin 1e-10)) : (dropWeak r).delay = 0 := by
  unfold dropWeak; rw [if_pos h]

theorem dropWeak_untouched (d : ℝ) : (dropWeak (untouched d)).delay = 0 := by
  unfold dropWeak; split_ifs <;> rfl

theorem dropWeak_delay_strong {r : PairDelay} (h : ¬ r.peak.lt (.fin 1e-10)) : dropWeak r = r := by
  unfold dropWeak; rw [if_neg h]

/-! ## Scaling of the fft -/

theorem fft_smul (c : ℂ) (x : List ℂ) : fft (x.map fun v => c * v) = (fft x).map fun v => c * v := by
  unfold fft
  rw [List.map_map, List.length_map]
  apply List.map_congr_left
  intro k _
  simp only [Function.comp]
  rw [Finset.mul_sum]
  apply Finset.sum_congr rfl
  intro j _
  rw [at0_map _ (by ring)]; ring

theorem ifft_smul (c : ℂ) (x : List ℂ) : ifft (x.map fun v => c * v) = (ifft x).map fun v => c * v := by
  unfold ifft
  rw [List.map_map, List.length_map]
  apply List.map_congr_left
  intro k _
  simp only [Function.comp]
  rw [← mul_div_assoc, Finset.mul_sum]
  congr 1
  apply Finset.sum_congr rfl
  intro j _
  rw [at0_map _ (by ring)]; ring

theorem fftXcorr_smul (a c : ℝ) (x y : List ℝ) :
    fftXcorr (x.map fun v => a * v) (y.map fun v => c * v) = (fftXcorr x y).map fun v => a * c * v := by
  have e : ∀ (k : ℝ) (z : List ℝ), (z.map fun v => k * v).map (fun (v : ℝ) => (v : ℂ)) =
      (z.map fun (v : ℝ) => (v : ℂ)).map fun v => (k : ℂ) * v := by
    intro k z
    rw [List.map_map, List.map_map]
    apply List.map_congr_left
    intro v _
    simp
  unfold fftXcorr
  rw [e, e, fft_smul, fft_smul, List.zipWith_map]
  have e2 : List.zipWith (fun (u v : ℂ) => (a : ℂ) * u * (starRingEnd ℂ) ((c : ℂ) * v)) (fft (x.map fun (v : ℝ) => (v : ℂ)))
      (fft (y.map fun (v : ℝ) => (v : ℂ))) =
      (List.zipWith (fun u v => u * (starRingEnd ℂ) v) (fft (x.map fun (v : ℝ) => (v : ℂ))) (fft (y.map fun (v : ℝ) => (v : ℂ)))).map
        fun v => ((a * c : ℝ) : ℂ) * v := by
    rw [List.map_zipWith]
    congr 1
    funext u v
    rw [map_mul, Complex.conj_ofReal]; push_cast; ring
  rw [e2, ifft_smul, List.map_map, List.map_map]
  apply List.map_congr_left
  intro v _
  simp

theorem pad_map (a : ℝ) (x : List ℝ) : pad (x.map fun v => a * v) = (pad x).map fun v => a * v := by
  unfold pad; simp

theorem div_scale {k : ℝ} (hk : 0 < k) (v d : ℝ) : XR.div (k * v) (k * d) = XR.div v d := by
  unfold XR.div
  by_cases hd : d = 0
  · subst hd
    simp only [mul_zero, if_true]
    by_cases hv : v = 0
    · simp [hv]
    · rw [if_neg hv, if_neg (mul_ne_zero hk.ne' hv)]
      by_cases h : 0 < v
      · rw [if_pos h, if_pos (mul_pos hk h)]
      · rw [if_neg h, if_neg (by nlinarith [mul_pos hk (lt_of_le_of_ne (not_lt.1 h) hv |> neg_pos.2)])]
  · rw [if_neg hd, if_neg (mul_ne_zero hk.ne' hd)]
    congr 1
    field_simp

theorem getD_map_mul (k : ℝ) (l : List ℝ) (i : ℕ) : ((l.map fun v => k * v)[i]?).getD 0 = k * (l[i]?).getD 0 := by
  rw [List.getElem?_map]
  cases l[i]? <;> simp

theorem mean_smul (k : ℝ) (l : List ℝ) : mean (l.map fun v => k * v) = k * mean l := by
  rw [mean_def, mean_def, List.sum_map_mul_left, List.length_map]
  simp [mul_div_assoc]

theorem divisor_affine {a b c d : ℝ} (ha : 0 < a) (hc : 0 < c) (x y : List ℝ) :
    divisor "coeff" (x.map fun v => a * v + b) (y.map fun v => c * v + d) = (a * c) * divisor "coeff" x y := by
  rw [divisor_coeff, divisor_coeff, std_affine a b ha, std_affine c d hc, List.length_map]; ring

theorem strictMono_mul {k : ℝ} (hk : 0 < k) : StrictMono fun v : ℝ => k * v := fun _ _ h => mul_lt_mul_of_pos_left h hk

theorem pairOf_affine (mode : String) (dt : ℝ) {a b c d : ℝ} (ha : 0 < a) (hc : 0 < c) (x y : List ℝ) :
    pairOf mode dt "coeff" (x.map fun v => a * v + b) (y.map fun v => c * v + d) = pairOf mode dt "coeff" x y := by
  have hk : 0 < a * c := mul_pos ha hc
  have e1 : cond "coeff" (x.map fun v => a * v + b) = (cond "coeff" x).map fun v => a * v := by
    simp only [cond, if_true]; exact center_affine a b x
  have e2 : cond "coeff" (y.map fun v => c * v + d) = (cond "coeff" y).map fun v => c * v := by
    simp only [cond, if_true]; exact center_affine c d y
  unfold pairOf
  split_ifs
  · unfold loopPair
    simp only [e1, e2, correlate_smul, divisor_affine ha hc, List.length_map, argmax_map_mono (strictMono_mul hk),
      getD_map_mul, mean_smul, div_scale hk]
  · unfold fftPair
    simp only [e1, e2, pad_map, fftXcorr_smul, divisor_affine ha hc, List.length_map, argmax_map_mono (strictMono_mul hk),
      getD_map_mul, mean_smul, div_scale hk]

theorem roll_map {α β : Type} (f : α → β) (l : List α) (s : ℤ) : roll (l.map f) s = (roll l s).map f := by
  unfold roll; simp

end SST.Corr
