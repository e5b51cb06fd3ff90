import Verif.Proofs.RobustTf
import Verif.Proofs.TfAvg
import Verif.Proofs.Dft
import Verif.Spec.Segments
import Mathlib.Analysis.SpecialFunctions.Trigonometric.Bounds

/-! # Helper lemmas: transfer function of a record and the same record delayed -/

namespace SST.Tf
open SST SST.Dft SST.Corr

theorem segs_fit {n L ov : ℕ} (hn : L ≤ n) (hov : ov < L) : AsManyAsFit n L (L - ov) ((n - ov) / (L - ov)) := by
  have hh : 0 < L - ov := by omega
  have h1 : L - ov ≤ n - ov := by omega
  have hS : 0 < (n - ov) / (L - ov) := Nat.div_pos h1 hh
  have a1 := Nat.div_mul_le_self (n - ov) (L - ov)
  have a2 := Nat.lt_mul_div_succ (n - ov) hh
  refine ⟨hh, hS, ?_, ?_⟩
  · obtain ⟨S, hS'⟩ : ∃ S, (n - ov) / (L - ov) = S + 1 := ⟨_, (Nat.succ_pred_eq_of_pos hS).symm⟩
    rw [hS'] at a1 ⊢
    rw [Nat.add_sub_cancel]
    rw [Nat.add_mul] at a1
    omega
  · rw [Nat.mul_succ] at a2
    rw [Nat.mul_comm]
    omega

theorem segs_unique {n L h S S' : ℕ} (h1 : AsManyAsFit n L h S) (h2 : AsManyAsFit n L h S') : S = S' := by
  obtain ⟨a, b, c, d⟩ := h1
  obtain ⟨-, b', c', d'⟩ := h2
  have key : ∀ p q : ℕ, 0 < q → (q - 1) * h + L ≤ n → n < p * h + L → q ≤ p := by
    intro p q hq h1 h2
    have : (q - 1) * h < p * h := by omega
    have := Nat.lt_of_mul_lt_mul_right this
    omega
  exact le_antisymm (key _ _ b c d') (key _ _ b' c' d)

/-- Spectrum of one segment of a delayed record. -/
theorem spectrum_record (w : List ℝ) (a : ℤ → ℝ) (n L s k : ℕ) (m : ℤ) (hs : s + L ≤ n) :
    spectrum w .none (segment (recordOf a n m) L s) k =
      ∑ j ∈ Finset.range L, ((a (s + j - m) * at0 w j : ℝ) : ℂ) * twiddle L (j * k) := by
  have hl : (segment (recordOf a n m) L s).length = L := by
    simp only [segment, recordOf, List.length_take, List.length_drop, List.length_map, List.length_range]
    omega
  unfold spectrum
  rw [hl]
  apply Finset.sum_congr rfl
  intro j hj
  rw [Finset.mem_range] at hj
  have : at0 (detrend .none (segment (recordOf a n m) L s)) j = a (s + j - m) := by
    show at0 (segment (recordOf a n m) L s) j = _
    unfold at0 segment recordOf
    rw [List.getElem?_take_of_lt hj, List.getElem?_drop, List.getElem?_map, List.getElem?_range (by omega)]
    simp
  rw [this]

theorem spectrum_pattern (w : List ℝ) (a : ℤ → ℝ) (n L s k : ℕ) (hs : s + L ≤ n) :
    spectrum w .none (segment (recordOf a n 0) L s) k = patternSpec w a L s k := by
  rw [spectrum_record w a n L s k 0 hs]
  unfold patternSpec twiddle at0
  simp only [sub_zero]

/-- Sum over a segment as a sum over a longer stretch. -/
theorem sum_tap (w : List ℝ) (L : ℕ) (m : ℤ) (g : ℤ → ℂ) :
    ∑ j ∈ Finset.range L, g (j - m) * (at0 w j : ℝ) = ∑ i ∈ Finset.Ico (-|m|) (L + |m|), g i * (tap w L (i + m) : ℝ) := by
  have h1 : ∑ i ∈ Finset.Ico (-|m|) (L + |m|), g i * (tap w L (i + m) : ℝ) = ∑ i ∈ Finset.Ico (-m) (L - m), g i * (tap w L (i + m) : ℝ) := by
    symm
    apply Finset.sum_subset
    · intro i hi
      rw [Finset.mem_Ico] at hi ⊢
      have := neg_abs_le m
      have := le_abs_self m
      constructor <;> omega
    · intro i _ hi
      rw [Finset.mem_Ico, not_and_or, not_le, not_lt] at hi
      have : tap w L (i + m) = 0 := by
        unfold tap
        rw [if_neg]
        omega
      rw [this]; simp
  rw [h1]
  apply Finset.sum_bij (fun (j : ℕ) _ => (j : ℤ) - m)
  · intro j hj
    rw [Finset.mem_range] at hj
    rw [Finset.mem_Ico]
    omega
  · intro j _ j' _ h
    omega
  · intro i hi
    rw [Finset.mem_Ico] at hi
    exact ⟨(i + m).toNat, by rw [Finset.mem_range]; omega, by omega⟩
  · intro j hj
    rw [Finset.mem_range] at hj
    have : tap w L ((j : ℤ) - m + m) = at0 w j := by
      unfold tap at0
      rw [sub_add_cancel, if_pos (by omega)]
      simp
    rw [this]

/-- The spectrum of a segment of the delayed record is that of the record, turned, up to the effect of the edges. -/
theorem spectrum_shift (w : List ℝ) (a : ℤ → ℝ) (n L s k : ℕ) (m : ℤ) (hs : s + L ≤ n) :
    ‖spectrum w .none (segment (recordOf a n m) L s) k - twiddle L (m * k) * patternSpec w a L s k‖ ≤ edgeEffect w a L s m := by
  rw [spectrum_record w a n L s k m hs, ← spectrum_pattern w a n L s k hs, spectrum_record w a n L s k 0 hs]
  have e1 : ∑ j ∈ Finset.range L, ((a (s + j - m) * at0 w j : ℝ) : ℂ) * twiddle L (j * k) =
      ∑ i ∈ Finset.Ico (-|m|) (L + |m|), ((a (s + i) : ℝ) : ℂ) * twiddle L ((i + m) * k) * (tap w L (i + m) : ℝ) := by
    rw [← sum_tap w L m (fun i => ((a (s + i) : ℝ) : ℂ) * twiddle L ((i + m) * k))]
    apply Finset.sum_congr rfl
    intro j _
    rw [sub_add_cancel, add_sub_assoc]
    push_cast
    ring
  have e2 : ∑ j ∈ Finset.range L, ((a (s + j - 0) * at0 w j : ℝ) : ℂ) * twiddle L (j * k) =
      ∑ i ∈ Finset.Ico (-|m|) (L + |m|), ((a (s + i) : ℝ) : ℂ) * twiddle L (i * k) * (tap w L i : ℝ) := by
    have h := sum_tap w L 0 (fun i => ((a (s + i) : ℝ) : ℂ) * twiddle L (i * k))
    have h1 : ∑ i ∈ Finset.Ico (-|m|) (L + |m|), ((a (s + i) : ℝ) : ℂ) * twiddle L (i * k) * (tap w L i : ℝ) =
        ∑ i ∈ Finset.Ico (-|(0 : ℤ)|) (L + |(0 : ℤ)|), ((a (s + i) : ℝ) : ℂ) * twiddle L (i * k) * (tap w L (i + 0) : ℝ) := by
      symm
      simp only [add_zero, abs_zero, neg_zero]
      apply Finset.sum_subset
      · intro i hi
        rw [Finset.mem_Ico] at hi ⊢
        have := abs_nonneg m
        constructor <;> omega
      · intro i _ hi
        rw [Finset.mem_Ico, not_and_or, not_le, not_lt] at hi
        have : tap w L i = 0 := by
          unfold tap
          rw [if_neg]
          omega
        rw [this]; simp
    rw [h1, ← h]
    apply Finset.sum_congr rfl
    intro j _
    simp only [sub_zero]
    push_cast
    ring
  rw [e1, e2, Finset.mul_sum, ← Finset.sum_sub_distrib]
  unfold edgeEffect
  refine (norm_sum_le _ _).trans (Finset.sum_le_sum fun i _ => ?_)
  have e3 : ((a (s + i) : ℝ) : ℂ) * twiddle L ((i + m) * k) * (tap w L (i + m) : ℝ) -
      twiddle L (m * k) * (((a (s + i) : ℝ) : ℂ) * twiddle L (i * k) * (tap w L i : ℝ)) =
      ((a (s + i) : ℝ) : ℂ) * twiddle L ((i + m) * k) * ((tap w L (i + m) - tap w L i : ℝ) : ℂ) := by
    rw [add_mul, twiddle_add]
    push_cast
    ring
  rw [e3, norm_mul, norm_mul, norm_twiddle, Complex.norm_real, Complex.norm_real, Real.norm_eq_abs, Real.norm_eq_abs, mul_one, mul_comm]

/-- The phase of a number close to 1. -/
theorem arg_near {ρ : ℝ} (h1 : ρ < 1) {δ : ℂ} (hδ : ‖δ‖ ≤ ρ) : |Complex.arg (1 + δ)| ≤ Real.pi / 2 * ρ := by
  have h0 : 0 ≤ ρ := (norm_nonneg _).trans hδ
  have hre : |δ.re| ≤ ρ := (Complex.abs_re_le_norm δ).trans hδ
  have hpos : 0 < (1 + δ).re := by
    rw [Complex.add_re, Complex.one_re]
    rw [abs_le] at hre
    linarith
  have hsq : δ.re ^ 2 + δ.im ^ 2 ≤ ρ ^ 2 := by
    have h2 := Complex.sq_norm δ
    rw [Complex.normSq_apply] at h2
    have : ‖δ‖ ^ 2 ≤ ρ ^ 2 := pow_le_pow_left₀ (norm_nonneg _) hδ 2
    nlinarith
  have hne : (1 + δ) ≠ 0 := by
    intro h; rw [h] at hpos; simp at hpos
  have hn : 0 < ‖1 + δ‖ := norm_pos_iff.2 hne
  have hsin : |Real.sin (Complex.arg (1 + δ))| ≤ ρ := by
    rw [Complex.sin_arg, abs_div, abs_of_pos hn, div_le_iff₀ hn]
    apply abs_le_of_sq_le_sq _ (by positivity)
    rw [mul_pow, Complex.sq_norm, Complex.normSq_apply]
    simp only [Complex.add_re, Complex.add_im, Complex.one_re, Complex.one_im, zero_add]
    have h5 : ρ ^ 2 ≤ 1 := by nlinarith
    nlinarith [sq_nonneg (δ.re + ρ ^ 2), mul_nonneg (sub_nonneg.2 hsq) (sub_nonneg.2 h5)]
  have hhalf : |Complex.arg (1 + δ)| < Real.pi / 2 := Complex.abs_arg_lt_pi_div_two_iff.2 (Or.inl hpos)
  have hj := Real.mul_le_sin (abs_nonneg (Complex.arg (1 + δ))) hhalf.le
  have hs' : Real.sin |Complex.arg (1 + δ)| ≤ ρ := by
    rcases abs_cases (Complex.arg (1 + δ)) with ⟨e, -⟩ | ⟨e, -⟩
    · rw [e]; exact (le_abs_self _).trans hsin
    · rw [e, Real.sin_neg]; exact (neg_le_abs _).trans hsin
  have hpi := Real.pi_pos
  have h6 : 2 / Real.pi * |Complex.arg (1 + δ)| ≤ ρ := hj.trans hs'
  rw [div_mul_eq_mul_div, div_le_iff₀ hpi] at h6
  linarith

theorem zip_sum (l : List ℕ) (X Y : ℕ → ℂ) :
    (List.zipWith (fun x y => (starRingEnd ℂ) x * y) (l.map X) (l.map Y)).sum = (l.map fun s => (starRingEnd ℂ) (X s) * Y s).sum := by
  induction l with
  | nil => rfl
  | cons a l ih => simp

theorem sum_norm_sq (l : List ℕ) (X E : ℕ → ℂ) (z : ℂ) :
    (l.map fun s => (starRingEnd ℂ) (X s) * (z * X s + E s)).sum =
      z * ((l.map fun s => Complex.normSq (X s)).sum : ℝ) + (l.map fun s => (starRingEnd ℂ) (X s) * E s).sum := by
  induction l with
  | nil => simp
  | cons a l ih =>
    simp only [List.map_cons, List.sum_cons, ih]
    push_cast
    rw [Complex.normSq_eq_conj_mul_self]
    ring

/-- Transfer function and coherence of spectra that are nearly a fixed multiple of each other. -/
theorem bins_near (l : List ℕ) (X Y : ℕ → ℂ) (z : ℂ) (hz : ‖z‖ = 1) (c ρ : ℝ) (hc : 0 < c) (h0 : 0 ≤ ρ) (h1 : ρ < 1) (e : ℕ → ℝ)
    (he : ∀ s ∈ l, ‖Y s - z * X s‖ ≤ e s) (hX : 0 < (l.map fun s => Complex.normSq (X s)).sum)
    (hρ : (l.map fun s => e s ^ 2).sum ≤ ρ ^ 2 * (l.map fun s => Complex.normSq (X s)).sum) :
    (∃ δ : ℂ, ‖δ‖ ≤ ρ ∧ tfBin c (l.map X) (l.map Y) = some (z * (1 + δ))) ∧
    ∃ v, cohBin c (l.map X) (l.map Y) = some v ∧ ((1 - ρ) / (1 + ρ)) ^ 2 ≤ v := by
  set P := (l.map fun s => Complex.normSq (X s)).sum with hP
  set Q := (l.map fun s => Complex.normSq (Y s)).sum with hQ
  set E : ℕ → ℂ := fun s => Y s - z * X s with hE
  set F := (l.map fun s => Complex.normSq (E s)).sum with hF
  have hlen : (0 : ℝ) < l.length := by
    rcases l with _ | ⟨a, l⟩
    · rw [hP] at hX
      simp at hX
    · simp; positivity
  have hzn : Complex.normSq z = 1 := by rw [Complex.normSq_eq_norm_sq, hz]; norm_num
  have hFle : F ≤ ρ ^ 2 * P := by
    refine le_trans ?_ hρ
    apply List.sum_le_sum
    intro s hs
    rw [Complex.normSq_eq_norm_sq]
    exact pow_le_pow_left₀ (norm_nonneg _) (he s hs) 2
  have hYe : Y = fun s => z * X s + E s := by funext s; simp [hE]
  set C := (l.map fun s => (starRingEnd ℂ) (X s) * E s).sum with hC
  have hcs : Complex.normSq C ≤ P * F := by
    have := cs_complex (l.map X) (l.map E)
    rw [zip_sum, List.map_map, List.map_map] at this
    exact this
  have hCn : ‖C‖ ≤ ρ * P := by
    apply le_of_sq_le_sq _ (by positivity)
    rw [← Complex.normSq_eq_norm_sq]
    calc _ ≤ P * F := hcs
      _ ≤ P * (ρ ^ 2 * P) := by gcongr
      _ = _ := by ring
  have hcross : (List.zipWith (fun x y => (starRingEnd ℂ) x * y) (l.map X) (l.map Y)).sum = z * (P : ℂ) + C := by
    rw [zip_sum, hYe, sum_norm_sq]
  have hpsd : psd c (l.map X) = c * (P / l.length) := by
    unfold psd; rw [List.map_map, List.length_map]; rfl
  have hpsdY : psd c (l.map Y) = c * (Q / l.length) := by
    unfold psd; rw [List.map_map, List.length_map]; rfl
  have hcsd : csd c (l.map X) (l.map Y) = c * ((z * (P : ℂ) + C) / l.length) := by
    unfold csd; rw [hcross, List.length_map]
  have hPc : (P : ℂ) ≠ 0 := by exact_mod_cast hX.ne'
  have hcc : (c : ℂ) ≠ 0 := by exact_mod_cast hc.ne'
  have hlc : (l.length : ℂ) ≠ 0 := by
    have : (l.length : ℝ) ≠ 0 := hlen.ne'
    exact_mod_cast this
  have hz0 : z ≠ 0 := by intro h; rw [h] at hz; simp at hz
  constructor
  · refine ⟨C / (z * P), ?_, ?_⟩
    · rw [norm_div, norm_mul, hz, one_mul, Complex.norm_real, Real.norm_of_nonneg hX.le, div_le_iff₀ hX]
      exact hCn
    · unfold tfBin
      rw [if_neg (by rw [hpsd]; positivity), hcsd, hpsd]
      congr 1
      push_cast
      field_simp
  · -- the power of the second record
    have hCl : (1 - ρ) * P ≤ ‖z * (P : ℂ) + C‖ := by
      have := norm_sub_norm_le (z * (P : ℂ)) (-C)
      rw [sub_neg_eq_add, norm_neg, norm_mul, hz, one_mul, Complex.norm_real, Real.norm_of_nonneg hX.le] at this
      linarith
    have hQe : Q = P + 2 * ((starRingEnd ℂ) z * C).re + F := by
      rw [hQ, hYe, hP, hC, hF]
      clear_value E
      clear hcross hcsd hCn hcs hFle hYe hX hρ he hCl hP hQ hE hF hC hpsd hpsdY hPc hlen hlc
      induction l with
      | nil => simp
      | cons a l ih =>
        simp only [List.map_cons, List.sum_cons, ih]
        rw [Complex.normSq_add, Complex.normSq_mul, hzn, mul_add, Complex.add_re]
        have : (starRingEnd ℂ) z * ((starRingEnd ℂ) (X a) * E a) = (starRingEnd ℂ) (z * X a * (starRingEnd ℂ) (E a)) := by
          simp; ring
        rw [this, Complex.conj_re]
        ring
    have hQ1 : Q ≤ (1 + ρ) ^ 2 * P := by
      have : ((starRingEnd ℂ) z * C).re ≤ ρ * P := by
        refine (Complex.re_le_norm _).trans ?_
        rw [norm_mul, Complex.norm_conj, hz, one_mul]; exact hCn
      nlinarith
    have hnorm : Complex.normSq (csd c (l.map X) (l.map Y)) = (c / l.length) ^ 2 * ‖z * (P : ℂ) + C‖ ^ 2 := by
      rw [hcsd, Complex.normSq_eq_norm_sq, norm_mul, norm_div, Complex.norm_real, Complex.norm_natCast, Real.norm_of_nonneg hc.le]
      field_simp
    have hCS : ‖z * (P : ℂ) + C‖ ^ 2 ≤ P * Q := by
      have := cs_complex (l.map X) (l.map Y)
      rw [hcross, List.map_map, List.map_map, Complex.normSq_eq_norm_sq] at this
      exact this
    have hm : 0 < (1 - ρ) * P := by
      have : 0 < 1 - ρ := by linarith
      positivity
    have hQpos : 0 < Q := by
      have : 0 < P * Q := lt_of_lt_of_le (by positivity) ((pow_le_pow_left₀ hm.le hCl 2).trans hCS)
      exact (pos_iff_pos_of_mul_pos this).1 hX
    refine ⟨_, by unfold cohBin; rw [if_neg (by rw [hpsd, hpsdY]; positivity)], ?_⟩
    rw [hnorm, hpsd, hpsdY, div_pow, div_le_div_iff₀ (by positivity) (by positivity)]
    have h7 : ((1 - ρ) * P) ^ 2 ≤ ‖z * (P : ℂ) + C‖ ^ 2 := pow_le_pow_left₀ hm.le hCl 2
    calc (1 - ρ) ^ 2 * (c * (P / l.length) * (c * (Q / l.length))) = (c / l.length) ^ 2 * ((1 - ρ) ^ 2 * P * Q) := by ring
      _ ≤ (c / l.length) ^ 2 * ((1 - ρ) ^ 2 * P * ((1 + ρ) ^ 2 * P)) := by gcongr
      _ = (c / l.length) ^ 2 * ((1 + ρ) ^ 2 * ((1 - ρ) * P) ^ 2) := by ring
      _ ≤ (c / l.length) ^ 2 * ((1 + ρ) ^ 2 * ‖z * (P : ℂ) + C‖ ^ 2) := by gcongr
      _ = _ := by ring

end SST.Tf
