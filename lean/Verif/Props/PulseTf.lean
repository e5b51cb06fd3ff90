import Verif.Proofs.TfBins
import Verif.Spec.PulseTf
import Verif.Model.Window

/-!
# C243: delays of isolated pulses

If no segment sees two pulses, the window weighs the pulses but does not change their phases: the delay is exact.
-/

namespace SST.Tf
open SST SST.Dft SST.Corr

theorem range_sum {M : Type} [AddCommMonoid M] (S : ℕ) (f : ℕ → M) : ((List.range S).map f).sum = ∑ i ∈ Finset.range S, f i := by
  induction S with
  | zero => simp
  | succ S ih => rw [List.range_succ, List.map_append, List.sum_append, ih, Finset.sum_range_succ]; simp

/-- One bin of two records whose spectra agree in phase, up to one rotation for all segments. -/
theorem bins_aligned (S : ℕ) (X Y : ℕ → ℂ) (p q : ℕ → ℝ) (W : ℂ) (hW : ‖W‖ = 1) (c : ℝ) (hc : 0 < c)
    (hX : ∀ i < S, Complex.normSq (X i) = p i ^ 2) (hY : ∀ i < S, Complex.normSq (Y i) = q i ^ 2)
    (hXY : ∀ i < S, (starRingEnd ℂ) (X i) * Y i = ((p i * q i : ℝ) : ℂ) * W) (hpos : 0 < ∑ i ∈ Finset.range S, p i * q i) :
    0 < ∑ i ∈ Finset.range S, p i ^ 2 ∧ 0 < ∑ i ∈ Finset.range S, q i ^ 2 ∧
    tfBin c ((List.range S).map X) ((List.range S).map Y) =
      some (((∑ i ∈ Finset.range S, p i * q i) / ∑ i ∈ Finset.range S, p i ^ 2 : ℝ) * W) ∧
    cohBin c ((List.range S).map X) ((List.range S).map Y) =
      some ((∑ i ∈ Finset.range S, p i * q i) ^ 2 / ((∑ i ∈ Finset.range S, p i ^ 2) * ∑ i ∈ Finset.range S, q i ^ 2)) := by
  have hS : 0 < S := by
    by_contra h
    have : S = 0 := by omega
    subst this
    simp at hpos
  have hSR : (0 : ℝ) < S := by exact_mod_cast hS
  have hSC : (S : ℂ) ≠ 0 := by exact_mod_cast hS.ne'
  have hcC : (c : ℂ) ≠ 0 := by exact_mod_cast hc.ne'
  have hcs := Finset.sum_mul_sq_le_sq_mul_sq (Finset.range S) p q
  set N := ∑ i ∈ Finset.range S, p i * q i with hN
  set P := ∑ i ∈ Finset.range S, p i ^ 2 with hP
  set Q := ∑ i ∈ Finset.range S, q i ^ 2 with hQ
  have hP0 : 0 ≤ P := Finset.sum_nonneg fun i _ => sq_nonneg _
  have hQ0 : 0 ≤ Q := Finset.sum_nonneg fun i _ => sq_nonneg _
  have hPQ : 0 < P * Q := lt_of_lt_of_le (by positivity) hcs
  have hP1 : 0 < P := by
    rcases hP0.lt_or_eq with h | h
    · exact h
    · rw [← h] at hPQ; simp at hPQ
  have hQ1 : 0 < Q := by
    rcases hQ0.lt_or_eq with h | h
    · exact h
    · rw [← h] at hPQ; simp at hPQ
  have e1 : psd c ((List.range S).map X) = c * (P / S) := by
    unfold psd
    rw [List.map_map, range_sum, List.length_map, List.length_range, hP]
    congr 2
    exact Finset.sum_congr rfl fun i hi => hX i (Finset.mem_range.1 hi)
  have e2 : psd c ((List.range S).map Y) = c * (Q / S) := by
    unfold psd
    rw [List.map_map, range_sum, List.length_map, List.length_range, hQ]
    congr 2
    exact Finset.sum_congr rfl fun i hi => hY i (Finset.mem_range.1 hi)
  have e3 : csd c ((List.range S).map X) ((List.range S).map Y) = c * ((N : ℂ) * W / S) := by
    unfold csd
    rw [zip_sum, range_sum, List.length_map, List.length_range, hN]
    congr 2
    rw [Complex.ofReal_sum, Finset.sum_mul]
    exact Finset.sum_congr rfl fun i hi => hXY i (Finset.mem_range.1 hi)
  have hPC : (P : ℂ) ≠ 0 := by exact_mod_cast hP1.ne'
  refine ⟨hP1, hQ1, ?_, ?_⟩
  · unfold tfBin
    rw [e1, e3, if_neg (by positivity)]
    congr 1
    push_cast
    field_simp
  · unfold cohBin
    rw [e1, e2, e3, if_neg (by positivity)]
    congr 1
    have : Complex.normSq (c * ((N : ℂ) * W / S)) = (c * (N / S)) ^ 2 := by
      rw [Complex.normSq_eq_norm_sq, norm_mul, norm_div, norm_mul, hW, Complex.norm_real, Complex.norm_real, Complex.norm_natCast, mul_one,
        Real.norm_eq_abs, Real.norm_eq_abs, abs_of_pos hc, abs_of_pos hpos]
    rw [this]
    field_simp

/-- The spectrum of a segment with one pulse. -/
theorem spec_single (w : List ℝ) (a : ℤ → ℝ) (L s k : ℕ) (t : ℤ) (ht : ∀ j : ℕ, j < L → (s : ℤ) + j ≠ t → a (s + j) = 0) :
    patternSpec w a L s k = ((a t * tap w L (t - s) : ℝ) : ℂ) * twiddle L ((t - s) * k) := by
  unfold patternSpec tap
  by_cases hin : 0 ≤ t - s ∧ t - s < L
  · rw [if_pos hin, Finset.sum_eq_single (t - s).toNat]
    · have e : ((t - s).toNat : ℤ) = t - s := Int.toNat_of_nonneg hin.1
      have e' : (s : ℤ) + ((t - s).toNat : ℤ) = t := by omega
      rw [e', e]
      unfold twiddle
      rfl
    · intro j hj hne
      rw [ht j (Finset.mem_range.1 hj) (by omega)]
      simp
    · intro h
      exfalso
      apply h
      rw [Finset.mem_range]
      omega
  · rw [if_neg hin]
    simp only [mul_zero, Complex.ofReal_zero, zero_mul]
    apply Finset.sum_eq_zero
    intro j hj
    rw [Finset.mem_range] at hj
    rw [ht j hj (by omega)]
    simp

theorem through_single (w : List ℝ) (a : ℤ → ℝ) (L s : ℕ) (t : ℤ) (ht : ∀ j : ℕ, j < L → (s : ℤ) + j ≠ t → a (s + j) = 0) :
    through w a L s = |a t| * tap w L (t - s) := by
  unfold through tap
  by_cases hin : 0 ≤ t - s ∧ t - s < L
  · rw [if_pos hin, Finset.sum_eq_single (t - s).toNat]
    · have e' : (s : ℤ) + ((t - s).toNat : ℤ) = t := by omega
      rw [e']
    · intro j hj hne
      rw [ht j (Finset.mem_range.1 hj) (by omega)]
      simp
    · intro h
      exfalso
      apply h
      rw [Finset.mem_range]
      omega
  · rw [if_neg hin, mul_zero]
    apply Finset.sum_eq_zero
    intro j hj
    rw [Finset.mem_range] at hj
    rw [ht j hj (by omega)]
    simp

/-- The spectra of one segment that sees at most one pulse. -/
theorem pulse_segment (w : List ℝ) (a b : ℤ → ℝ) (m : ℤ) (hab : Echo a b m) (L s k : ℕ) (ho : OnePulse a m L s) :
    Complex.normSq (patternSpec w a L s k) = through w a L s ^ 2 ∧ Complex.normSq (patternSpec w b L s k) = through w b L s ^ 2 ∧
    (starRingEnd ℂ) (patternSpec w a L s k) * patternSpec w b L s k = ((through w a L s * through w b L s : ℝ) : ℂ) * twiddle L (m * k) := by
  have key : ∃ t : ℤ, (∀ j : ℕ, j < L → (s : ℤ) + j ≠ t → a (s + j) = 0) ∧ ∀ j : ℕ, j < L → (s : ℤ) + j ≠ t + m → b (s + j) = 0 := by
    have hb : ∀ z, b z ≠ 0 → a (z - m) ≠ 0 := by
      intro z hz h0
      obtain ⟨g, -, hg⟩ := hab (z - m)
      rw [sub_add_cancel, h0, mul_zero] at hg
      exact hz hg
    by_cases h : ∃ t, a t ≠ 0 ∧ (InSegment L s t ∨ InSegment L s (t + m))
    · obtain ⟨t, hat, hin⟩ := h
      refine ⟨t, ?_, ?_⟩
      · intro j hj hne
        by_contra hc
        exact hne (ho _ _ hc hat (Or.inl ⟨by omega, by omega⟩) hin)
      · intro j hj hne
        by_contra hc
        have := ho _ _ (hb _ hc) hat (Or.inr ⟨by omega, by omega⟩) hin
        omega
    · push Not at h
      refine ⟨0, ?_, ?_⟩
      · intro j hj _
        by_contra hc
        exact (h _ hc).1 ⟨by omega, by omega⟩
      · intro j hj _
        by_contra hc
        exact (h _ (hb _ hc)).2 ⟨by omega, by omega⟩
  obtain ⟨t, h1, h2⟩ := key
  obtain ⟨g, hg, hgt⟩ := hab t
  rw [spec_single w a L s k t h1, spec_single w b L s k (t + m) h2, through_single w a L s t h1, through_single w b L s (t + m) h2]
  have hab' : a t * b (t + m) = |a t| * |b (t + m)| := by
    rw [hgt, abs_mul, abs_of_pos hg]
    rw [show |a t| * (g * |a t|) = g * (|a t| * |a t|) by ring, abs_mul_abs_self]
    ring
  refine ⟨?_, ?_, ?_⟩
  · rw [Complex.normSq_eq_norm_sq, norm_mul, norm_twiddle, mul_one, Complex.norm_real, Real.norm_eq_abs, sq_abs, mul_pow, mul_pow, sq_abs]
  · rw [Complex.normSq_eq_norm_sq, norm_mul, norm_twiddle, mul_one, Complex.norm_real, Real.norm_eq_abs, sq_abs, mul_pow, mul_pow, sq_abs]
  · rw [map_mul, Complex.conj_ofReal, ← twiddle_neg]
    have e : twiddle L (-((t - s) * k)) * twiddle L ((t + m - s) * k) = twiddle L (m * k) := by
      rw [← twiddle_add]
      congr 1
      ring
    rw [show ((a t * tap w L (t - s) : ℝ) : ℂ) * twiddle L (-((t - s) * k)) * (((b (t + m) * tap w L (t + m - s) : ℝ) : ℂ) * twiddle L ((t + m - s) * k)) =
      ((a t * tap w L (t - s) * (b (t + m) * tap w L (t + m - s)) : ℝ) : ℂ) * (twiddle L (-((t - s) * k)) * twiddle L ((t + m - s) * k)) by
        push_cast; ring, e]
    congr 2
    linear_combination tap w L (t - s) * tap w L (t + m - s) * hab'

/-- C243: two sensors see the same isolated pulses, the second one `m` samples later and with any positive gains.  If no
segment sees two pulses, the delay is exactly `m dt` for both fits and whatever the window, provided that some segment sees a
pulse twice and the coherence limit is below the value given here, which is also the mean coherence reported. -/
theorem C243_exact (u v : String) (a b : ℤ → ℝ) (n navgs L h S K : ℕ) (m : ℤ) (dt ov fl : ℝ) (win : ℕ → List ℝ) (det : Detrend)
    (cohLim : Option ℝ) (hdt : 0 < dt) (hov : 0 ≤ ov) (hL : L = n / navgs) (hh : h = L - ⌊(L : ℝ) * ov⌋₊) (hS : AsManyAsFit n L h S)
    (hm : 2 * |m| < L) (hab : Echo a b m) (hone : ∀ i < S, OnePulse a m L (i * h))
    (hseen : 0 < ∑ i ∈ Finset.range S, through (win L) a L (i * h) * through (win L) b L (i * h)) (γ : ℝ)
    (hγ : γ * ((∑ i ∈ Finset.range S, through (win L) a L (i * h) ^ 2) * ∑ i ∈ Finset.range S, through (win L) b L (i * h) ^ 2) =
      (∑ i ∈ Finset.range S, through (win L) a L (i * h) * through (win L) b L (i * h)) ^ 2)
    (hcl : ∀ l, cohLim = some l → l < γ)
    (hK : 1 ≤ K) (hKL : K ≤ L / 2) (hKf : (K : ℝ) / (L * dt) < fl) (hKlast : K < L / 2 → fl ≤ (K + 1) / (L * dt))
    (method : String) (hmeth : method = "multi" ∨ method = "fit") :
    ∃ mask, computeDelaysTf ⟨dt, navgs, ov, win, det⟩ [(u, recordOf a n 0)] [(v, recordOf b n 0)] cohLim (some fl) method =
        .ok [(some (m * dt), mask, .fin γ)] := by
  have hL0 : 0 < L := by omega
  have hLR : (0 : ℝ) < L := by exact_mod_cast hL0
  have hLn : L ≤ n := hL ▸ Nat.div_le_self _ _
  have hovL : ⌊(L : ℝ) * ov⌋₊ < L := by have := hS.1; omega
  have hSe : S = (n - ⌊(L : ℝ) * ov⌋₊) / (L - ⌊(L : ℝ) * ov⌋₊) := segs_unique (hh ▸ hS) (segs_fit hLn hovL)
  have hpi := Real.pi_pos
  have hlenA : (recordOf a n 0).length = n := by simp [recordOf]
  have hlenB : (recordOf b n 0).length = n := by simp [recordOf]
  have hfit : ∀ i < S, i * h + L ≤ n := by
    intro i hi
    have : i * h ≤ (S - 1) * h := Nat.mul_le_mul_right _ (by omega)
    have := hS.2.2.1
    omega
  -- every bin
  have hrow : ∀ k : ℕ, 0 < (∑ i ∈ Finset.range S, through (win L) a L (i * h) ^ 2) * ∑ i ∈ Finset.range S, through (win L) b L (i * h) ^ 2 ∧
      (∃ g : ℝ, 0 < g ∧ tfBin (psdScale (win L) dt L k) (spectra (win L) .none L ⌊(L : ℝ) * ov⌋₊ (recordOf a n 0) k)
        (spectra (win L) .none L ⌊(L : ℝ) * ov⌋₊ (recordOf b n 0) k) = some (g * twiddle L (m * k))) ∧
      cohBin (psdScale (win L) dt L k) (spectra (win L) .none L ⌊(L : ℝ) * ov⌋₊ (recordOf a n 0) k)
        (spectra (win L) .none L ⌊(L : ℝ) * ov⌋₊ (recordOf b n 0) k) = some γ := by
    intro k
    have hsp : ∀ c : ℤ → ℝ, spectra (win L) .none L ⌊(L : ℝ) * ov⌋₊ (recordOf c n 0) k = (List.range S).map fun i => patternSpec (win L) c L (i * h) k := by
      intro c
      unfold spectra segStarts
      rw [show (recordOf c n 0).length = n by simp [recordOf], ← hSe, ← hh, List.map_map]
      apply List.map_congr_left
      intro i hi
      exact spectrum_pattern _ c n L _ k (hfit i (List.mem_range.1 hi))
    have hw : 0 < ((win L).map fun v => v ^ 2).sum := by
      by_contra hc
      have h0 : ∀ v ∈ win L, v = 0 := by
        intro v hv
        have h1 : ∀ q ∈ (win L).map (fun v => v ^ 2), (0 : ℝ) ≤ q := by
          intro q hq
          obtain ⟨v, -, rfl⟩ := List.mem_map.1 hq
          positivity
        have := List.single_le_sum h1 _ (List.mem_map.2 ⟨v, hv, rfl⟩)
        have : v ^ 2 ≤ 0 := by linarith
        exact pow_eq_zero_iff two_ne_zero |>.1 (le_antisymm this (sq_nonneg v))
      have h1 : ∀ i, through (win L) a L (i * h) = 0 := by
        intro i
        unfold through
        apply Finset.sum_eq_zero
        intro j _
        have : ((win L)[j]?).getD 0 = 0 := by
          cases hj : (win L)[j]? with
          | none => rfl
          | some v => exact h0 v (List.mem_of_getElem? hj)
        rw [this]; simp
      simp [h1] at hseen
    have hc : 0 < psdScale (win L) dt L k := by
      unfold psdScale
      have : (0 : ℝ) < if k = 0 ∨ 2 * k = L then 1 else 2 := by split_ifs <;> norm_num
      positivity
    obtain ⟨p1, p2, p3, p4⟩ := bins_aligned S (fun i => patternSpec (win L) a L (i * h) k) (fun i => patternSpec (win L) b L (i * h) k)
      (fun i => through (win L) a L (i * h)) (fun i => through (win L) b L (i * h)) (twiddle L (m * k)) (norm_twiddle _ _) _ hc
      (fun i hi => (pulse_segment (win L) a b m hab L (i * h) k (hone i hi)).1)
      (fun i hi => (pulse_segment (win L) a b m hab L (i * h) k (hone i hi)).2.1)
      (fun i hi => (pulse_segment (win L) a b m hab L (i * h) k (hone i hi)).2.2) hseen
    rw [hsp a, hsp b]
    refine ⟨mul_pos p1 p2, ⟨_, div_pos hseen p1, p3⟩, ?_⟩
    rw [p4, ← hγ, mul_div_assoc, div_self (mul_pos p1 p2).ne', mul_one]
  have hbin : ∀ r ∈ pairTf ⟨dt, navgs, ov, win, .none⟩ L ⌊(L : ℝ) * ov⌋₊ (recordOf a n 0) (recordOf b n 0),
      NearDelay (m * dt) 0 r ∧ r.coh = some γ := by
    intro r hr
    obtain ⟨k, hk, rfl⟩ := pairTf_mem hr
    obtain ⟨-, ⟨g, hg, h1⟩, h2⟩ := hrow k
    refine ⟨⟨g, 0, hg, by simp, ?_⟩, h2⟩
    show tfBin _ _ _ = _
    rw [h1]
    congr 2
    unfold twiddle
    congr 1
    show _ = ((-(2 * Real.pi * (k / (L * dt)) * (m * dt)) + 0 : ℝ) : ℂ) * Complex.I
    push_cast
    have h1 : (L : ℂ) ≠ 0 := by exact_mod_cast hL0.ne'
    have h2 : (dt : ℂ) ≠ 0 := by exact_mod_cast hdt.ne'
    field_simp
    ring
  have hτ : |2 * Real.pi * (m * dt) / (L * dt)| + 2 * 0 < Real.pi := by
    rw [mul_zero, add_zero]
    have e : 2 * Real.pi * (m * dt) / (L * dt) = Real.pi / L * (2 * m) := by field_simp
    rw [e, abs_mul, abs_of_pos (by positivity), abs_mul, abs_of_pos (two_pos : (0 : ℝ) < 2)]
    have hm' : 2 * |(m : ℝ)| < L := by exact_mod_cast hm
    have : Real.pi / L * (2 * |(m : ℝ)|) < Real.pi / L * L := mul_lt_mul_of_pos_left hm' (by positivity)
    rwa [div_mul_cancel₀ _ hLR.ne'] at this
  have hmc : meanCoh fl (pairTf ⟨dt, navgs, ov, win, .none⟩ L ⌊(L : ℝ) * ov⌋₊ (recordOf a n 0) (recordOf b n 0)) = .fin γ := by
    classical
    set rows := pairTf ⟨dt, navgs, ov, win, .none⟩ L ⌊(L : ℝ) * ov⌋₊ (recordOf a n 0) (recordOf b n 0) with hrows
    unfold meanCoh
    simp only
    have hall : ∀ l : List Row, (∀ r ∈ l, r.coh = some γ) → (l.filterMap Row.coh).sum = l.length * γ := by
      intro l
      induction l with
      | nil => intro _; simp
      | cons r l ih =>
        intro hl
        rw [List.filterMap_cons_some (hl r (by simp)), List.sum_cons, ih fun r hr => hl r (by simp [hr])]
        push_cast [List.length_cons]
        ring
    rw [hall _ fun r hr => (hbin r (List.mem_of_mem_filter hr)).2]
    have hne : (0 : ℝ) < ((rows.filter fun r => decide (r.f < fl)).length : ℕ) := by
      have : 0 < (rows.filter fun r => decide (r.f < fl)).length := by
        apply List.length_pos_of_mem (a := rows[K]'(by simp [hrows, pairTf]; omega))
        rw [List.mem_filter]
        refine ⟨List.getElem_mem _, ?_⟩
        simp [hrows, pairTf]
        exact hKf
      exact_mod_cast this
    unfold XR.div
    rw [if_neg hne.ne']
    congr 1
    field_simp
  have hbin' : ∀ r ∈ pairTf ⟨dt, navgs, ov, win, .none⟩ L ⌊(L : ℝ) * ov⌋₊ (recordOf a n 0) (recordOf b n 0),
      Below (some fl) r → NearDelay (m * dt) 0 r ∧ Coherent cohLim r := by
    intro r hr _
    exact ⟨(hbin r hr).1, fun l hl => ⟨γ, (hbin r hr).2, hcl l hl⟩⟩
  obtain ⟨⟨d, mask, h1, h2⟩, d', mask', h3, h4⟩ := rows_near u v (recordOf a n 0) (recordOf b n 0) n navgs L K hlenA (m * dt) 0 dt ov fl win det cohLim
    hdt hov hL hovL le_rfl hτ hbin' hK hKL hKf hKlast
  rw [hmc] at h1 h3
  simp only [zero_mul, mul_zero, zero_div, abs_nonpos_iff, sub_eq_zero] at h2 h4
  subst h2 h4
  rcases hmeth with rfl | rfl
  · exact ⟨_, h1⟩
  · exact ⟨_, h3⟩

end SST.Tf
