import Verif.Proofs.TfMirror
import Verif.Proofs.TfAvg
import Verif.Props.Tf

/-!
# C223: transfer-function delays change sign with the phases

Specifications: `Spec/TfMirror.lean`.
-/

namespace SST.Props.TfMirror
open SST SST.Tf

/-- C223: if the phases of a transfer function change sign, so does the delay of `tf_delay`: method 'multi'. -/
theorem C223_multi (rows rows' : List Row) (cohLim freqLim : Option ℝ) (h : OppositePhases freqLim rows rows') (hb : ∃ r ∈ rows, Below freqLim r) :
    ∃ d ix, tfDelay [rows] cohLim freqLim "multi" = .ok ([some d], ix) ∧ tfDelay [rows'] cohLim freqLim "multi" = .ok ([some (-d)], ix) := by
  obtain ⟨d, h1, h2⟩ := multi_opposite (cohLim := cohLim) h hb
  refine ⟨d, [maskOf cohLim freqLim rows], ?_, ?_⟩
  · simp [tfDelay, h1]
  · simp [tfDelay, h2, opposite_mask h]

theorem coherent_cohOk {cohLim : Option ℝ} {r : Row} : CohOk cohLim r.coh ↔ Coherent cohLim r := by
  unfold CohOk Coherent
  cases cohLim with
  | none => simp
  | some l => simp

theorem fit_exists {cohLim freqLim : Option ℝ} {rows : List Row} (ht : ∀ r ∈ rows, Below freqLim r → Turned r)
    (hb : ∃ r ∈ rows, Coherent cohLim r ∧ Below freqLim r) : ∃ d, fitDelay cohLim freqLim rows = some d := by
  classical
  unfold fitDelay
  simp only
  set sub := rows.filter fun r => decide (CohOk cohLim r.coh ∧ FreqOk freqLim r.f) with hsub
  have h1 : sub ≠ [] := by
    obtain ⟨r, hr, a, b⟩ := hb
    exact List.ne_nil_of_mem (List.mem_filter.2 ⟨hr, decide_eq_true ⟨coherent_cohOk.2 a, below_freqOk.2 b⟩⟩)
  have h2 : sub.map (fun r => angle r.tf) = (sub.map fun r => ((angle r.tf).getD 0)).map some := by
    rw [List.map_map]
    apply List.map_congr_left
    intro r hr
    rw [hsub, List.mem_filter] at hr
    obtain ⟨z, hz, -⟩ := ht r hr.1 (below_freqOk.1 (of_decide_eq_true hr.2).2)
    simp [angle, hz]
  obtain ⟨U, hU, -⟩ := Tf.C46_unwrap (sub.map fun r => ((angle r.tf).getD 0))
  rw [h2, hU, if_neg (by push Not; exact ⟨h1, by simp⟩)]
  split_ifs
  · exact ⟨_, rfl⟩
  · exact ⟨_, rfl⟩

/-- C223, method 'fit'; some usable bin must have a frequency other than 0. -/
theorem C223_fit (rows rows' : List Row) (cohLim freqLim : Option ℝ) (h : OppositePhases freqLim rows rows')
    (hb : ∃ r ∈ rows, Coherent cohLim r ∧ Below freqLim r ∧ r.f ≠ 0) :
    ∃ d ix, tfDelay [rows] cohLim freqLim "fit" = .ok ([some d], ix) ∧ tfDelay [rows'] cohLim freqLim "fit" = .ok ([some (-d)], ix) := by
  obtain ⟨d, hd⟩ := fit_exists (cohLim := cohLim) (freqLim := freqLim) (rows := rows)
    (fun r hr hbr => by obtain ⟨r', -, hrr⟩ := forall₂_left h r hr; exact (hrr.2.2 hbr).1)
    (by obtain ⟨r, hr, a, b, -⟩ := hb; exact ⟨r, hr, a, b⟩)
  have hd' := fit_opposite h (by obtain ⟨r, hr, a, b, c⟩ := hb; exact ⟨r, hr, coherent_cohOk.2 a, below_freqOk.2 b, c⟩) hd
  refine ⟨d, [maskOf cohLim freqLim rows], ?_, ?_⟩
  · simp [tfDelay, hd]
  · simp [tfDelay, hd', opposite_mask h]

/-- C223, method 'diff', which looks at the phases of all bins. -/
theorem C223_diff (rows rows' : List Row) (cohLim freqLim : Option ℝ) (h : OppositePhases none rows rows') (d : ℝ) (ix : List (List Bool))
    (hd : tfDelay [rows] cohLim freqLim "diff" = .ok ([some d], ix)) : tfDelay [rows'] cohLim freqLim "diff" = .ok ([some (-d)], ix) := by
  have hd1 : ∃ e, diffDelay cohLim freqLim rows = .ok e := by
    cases hc : diffDelay cohLim freqLim rows with
    | error e => simp [tfDelay, hc, Except.map] at hd
    | ok e => exact ⟨e, rfl⟩
  obtain ⟨e, he⟩ := hd1
  simp [tfDelay, he, Except.map] at hd
  obtain ⟨rfl, rfl⟩ := hd
  simp [tfDelay, diff_opposite h he, Except.map, opposite_mask h]

theorem bins_opposite (c : ℝ) (X Y : List ℂ) (hl : X.length = Y.length) :
    cohBin c Y X = cohBin c X Y ∧ ∀ z, tfBin c X Y = some z → z ≠ 0 → ∃ s : ℝ, 0 < s ∧ tfBin c Y X = some (s * (starRingEnd ℂ) z) := by
  have hs := csd_symm c X Y hl
  constructor
  · unfold cohBin
    rw [hs, Complex.normSq_conj, mul_comm (psd c Y)]
  · intro z hz hz0
    unfold tfBin at hz ⊢
    split_ifs at hz with h0
    obtain rfl := Option.some.inj hz
    have hcsd : csd c X Y ≠ 0 := fun h => hz0 (by rw [h, zero_div])
    have hY : psd c X * psd c Y ≠ 0 := by
      intro h1
      have e : psd c X * psd c Y = (c / X.length) ^ 2 * ((X.map Complex.normSq).sum * (Y.map Complex.normSq).sum) := by
        rw [psd_eq, psd_eq, ← hl]; ring
      have e2 : Complex.normSq (csd c X Y) = (c / X.length) ^ 2 *
          Complex.normSq (List.zipWith (fun x y => (starRingEnd ℂ) x * y) X Y).sum := by
        rw [csd_eq, map_mul, Complex.normSq_ofReal]; ring
      have h2 := mul_le_mul_of_nonneg_left (cs_complex X Y) (sq_nonneg (c / X.length))
      rw [← e, ← e2, h1] at h2
      exact hcsd (Complex.normSq_eq_zero.1 (le_antisymm h2 (Complex.normSq_nonneg _)))
    have hpos : 0 < psd c X * psd c Y := by
      apply lt_of_le_of_ne _ (Ne.symm hY)
      rw [psd_eq, psd_eq, ← hl]
      have := mul_nonneg (sq_nonneg (c / X.length)) (mul_nonneg (power_nonneg X) (power_nonneg Y))
      linarith [show c / ↑X.length * (X.map Complex.normSq).sum * (c / ↑X.length * (Y.map Complex.normSq).sum) =
        (c / X.length) ^ 2 * ((X.map Complex.normSq).sum * (Y.map Complex.normSq).sum) by ring]
    have hY0 : psd c Y ≠ 0 := right_ne_zero_of_mul hY
    refine ⟨psd c X / psd c Y, ?_, ?_⟩
    · rw [show psd c X / psd c Y = psd c X * psd c Y / psd c Y ^ 2 by field_simp]
      positivity
    · rw [if_neg hY0, hs]
      congr 1
      have a1 : ((psd c X : ℝ) : ℂ) ≠ 0 := by exact_mod_cast h0
      have a2 : ((psd c Y : ℝ) : ℂ) ≠ 0 := by exact_mod_cast hY0
      rw [map_div₀, Complex.conj_ofReal]
      push_cast
      field_simp

/-- C223: exchanging the two records changes the sign of the delay of `compute_delays_tf` and nothing else, as long as no bin below the
frequency limit has a missing transfer function or a phase of exactly half a turn; with 'fit' some usable bin must have a frequency other than 0. -/
theorem C223_exchange (o : Opts) (u v : String) (x y : List ℝ) (hl : x.length = y.length) (cohLim : Option ℝ) (fl : ℝ) (hfl : 0 < fl)
    (method : String) (hm : method = "multi" ∨ method = "fit") (nm : String) (rows : List Row)
    (htf : averagedTf { o with detr := .none } [(u, x)] [(v, y)] = .ok [(nm, rows)]) (hturn : ∀ r ∈ rows, r.f < fl → Turned r)
    (hfit : method = "fit" → ∃ r ∈ rows, Coherent cohLim r ∧ r.f < fl ∧ r.f ≠ 0) :
    ∃ d mask mc, computeDelaysTf o [(u, x)] [(v, y)] cohLim (some fl) method = .ok [(some d, mask, mc)] ∧
      computeDelaysTf o [(v, y)] [(u, x)] cohLim (some fl) method = .ok [(some (-d), mask, mc)] := by
  obtain ⟨h1, h2, h3, h4⟩ := averagedTf_pair _ u v x y htf
  simp only at h1 h2 h3 h4
  obtain ⟨-, hrows⟩ := Prod.mk.inj (List.cons.inj h4).1
  set L := x.length / o.navgs with hL
  set ov := (pyInt ((L : ℕ) * o.overlap)).toNat with hov
  set o' : Opts := { o with detr := .none } with ho'
  have htf' : averagedTf o' [(v, y)] [(u, x)] = .ok [(v ++ "_" ++ u, pairTf o' L ov y x)] := by
    unfold averagedTf
    simp only [pairCols, List.length_singleton, if_true, List.zipWith_cons_cons, List.zipWith_nil_left, List.headD_cons, ← hl]
    rw [if_neg (show ¬ o'.navgs = 0 by simp only [ho']; omega)]
    simp only [ho', ← hL]
    rw [if_neg (by push Not; exact ⟨by omega, h3⟩)]
    rfl
  have hopp : OppositePhases (some fl) rows (pairTf o' L ov y x) := by
    rw [hrows]
    unfold OppositePhases pairTf
    rw [List.forall₂_map_left_iff, List.forall₂_map_right_iff, List.forall₂_same]
    intro k hk
    set X := spectra (o'.win L) o'.detr L ov x k with hX
    set Y := spectra (o'.win L) o'.detr L ov y k with hY
    have hlen : X.length = Y.length := by rw [hX, hY, spectra_length, spectra_length, hl]
    obtain ⟨b1, b2⟩ := bins_opposite (psdScale (o'.win L) o'.dt L k) X Y hlen
    refine ⟨rfl, b1, fun hb => ?_⟩
    have ht := hturn ⟨k / (L * o'.dt), tfBin (psdScale (o'.win L) o'.dt L k) X Y, cohBin (psdScale (o'.win L) o'.dt L k) X Y⟩
      (by rw [hrows]; exact List.mem_map.2 ⟨k, hk, rfl⟩) (hb fl rfl)
    refine ⟨ht, ?_⟩
    obtain ⟨z, hz, hs⟩ := ht
    have hz0 : z ≠ 0 := by rintro rfl; simp at hs
    obtain ⟨s, s1, s2⟩ := b2 z hz hz0
    exact ⟨z, s, s1, hz, s2⟩
  have h0 : ∃ r ∈ rows, Below (some fl) r := by
    refine ⟨⟨(0 : ℕ) / (L * o'.dt), tfBin (psdScale (o'.win L) o'.dt L 0) (spectra (o'.win L) o'.detr L ov x 0) (spectra (o'.win L) o'.detr L ov y 0),
      cohBin (psdScale (o'.win L) o'.dt L 0) (spectra (o'.win L) o'.detr L ov x 0) (spectra (o'.win L) o'.detr L ov y 0)⟩, ?_, ?_⟩
    · rw [hrows]; exact List.mem_map.2 ⟨0, by simp, rfl⟩
    · intro l hl'; cases hl'; simpa using hfl
  have hmc : meanCoh fl (pairTf o' L ov y x) = meanCoh fl rows := by
    unfold meanCoh
    simp only
    have h5 := opposite_filter hopp (fun r => decide (r.f < fl)) (fun r => decide (r.f < fl)) (by intro r r' e _; simp only [e])
    have h6 := List.Forall₂.length_eq h5
    rw [← h6]
    congr 2
    unfold OppositePhases at h5
    generalize (rows.filter fun r => decide (r.f < fl)) = s at h5
    generalize ((pairTf o' L ov y x).filter fun r => decide (r.f < fl)) = s' at h5
    induction h5 with
    | nil => rfl
    | cons hr _ ih => rw [List.filterMap_cons, List.filterMap_cons, hr.2.1, ih]
  have hd : ∃ d, (if method = "fit" then fitDelay cohLim (some fl) rows else multiDelay cohLim (some fl) rows) = some d ∧
      (if method = "fit" then fitDelay cohLim (some fl) (pairTf o' L ov y x) else multiDelay cohLim (some fl) (pairTf o' L ov y x)) = some (-d) := by
    rcases hm with rfl | rfl
    · rw [if_neg (by decide), if_neg (by decide)]
      exact multi_opposite hopp h0
    · rw [if_pos rfl, if_pos rfl]
      obtain ⟨r, hr, a, b, c⟩ := hfit rfl
      have hbr : Below (some fl) r := by intro l hl'; cases hl'; exact b
      obtain ⟨d, hd⟩ := fit_exists (cohLim := cohLim) (freqLim := some fl) (rows := rows)
        (fun r hr hbr => hturn r hr (hbr fl rfl)) ⟨r, hr, a, hbr⟩
      exact ⟨d, hd, fit_opposite hopp ⟨r, hr, coherent_cohOk.2 a, below_freqOk.2 hbr, c⟩ hd⟩
  obtain ⟨d, d1, d2⟩ := hd
  refine ⟨d, maskOf cohLim (some fl) rows, meanCoh fl rows, ?_, ?_⟩
  · unfold computeDelaysTf
    rw [if_neg (by simp), htf]
    simp only
    rw [if_neg (by simp), if_neg (by tauto)]
    simp only [List.map_cons, List.map_nil, d1]
  · unfold computeDelaysTf
    rw [if_neg (by simp), htf']
    simp only
    rw [if_neg (by simp), if_neg (by tauto)]
    simp only [List.map_cons, List.map_nil, d2, hmc, opposite_mask hopp]

/-- Two records of a pulse, the second one sample later. -/
theorem pulse_bin (k : ℕ) : tfBin (psdScale [1, 1, 1] 1 3 k) (spectra [1, 1, 1] .none 3 0 [1, 0, 0] k) (spectra [1, 1, 1] .none 3 0 [0, 1, 0] k) =
    some (Dft.twiddle 3 k) := by
  have h1 : spectra [1, 1, 1] .none 3 0 [1, 0, 0] k = [1] := by
    simp [spectra, segStarts, Tf.spectrum, Tf.segment, detrend, Dft.at0, Finset.sum_range_succ, Dft.twiddle]
  have h2 : spectra [1, 1, 1] .none 3 0 [0, 1, 0] k = [Dft.twiddle 3 k] := by
    simp [spectra, segStarts, Tf.spectrum, Tf.segment, detrend, Dft.at0, Finset.sum_range_succ]
  have hc : psdScale [1, 1, 1] 1 3 k ≠ 0 := by
    unfold psdScale
    split_ifs <;> norm_num
  have h3 : psd (psdScale [1, 1, 1] 1 3 k) [1] ≠ 0 := by simpa [psd] using hc
  rw [h1, h2, show [Dft.twiddle 3 k] = ([1] : List ℂ).map fun x => Dft.twiddle 3 k * x by simp]
  exact tfBin_multiple _ _ _ h3

example : ∃ d mask mc, computeDelaysTf ⟨1, 1, 0, fun _ => [1, 1, 1], .linear⟩ [("a", [1, 0, 0])] [("b", [0, 1, 0])] (some 0.5) (some 0.4) "multi" = .ok [(some d, mask, mc)] ∧
      computeDelaysTf ⟨1, 1, 0, fun _ => [1, 1, 1], .linear⟩ [("b", [0, 1, 0])] [("a", [1, 0, 0])] (some 0.5) (some 0.4) "multi" = .ok [(some (-d), mask, mc)] := by
  have h0 : pyInt (0 : ℝ) = 0 := by unfold pyInt; simp
  refine C223_exchange ⟨1, 1, 0, fun _ => [1, 1, 1], .linear⟩ "a" "b" [1, 0, 0] [0, 1, 0] rfl (some 0.5) 0.4 (by norm_num) "multi" (Or.inl rfl) "a_b"
    (pairTf ⟨1, 1, 0, fun _ => [1, 1, 1], .none⟩ 3 0 [1, 0, 0] [0, 1, 0]) ?_ ?_ (fun h => absurd h (by decide))
  · simp [averagedTf, pairCols, h0]
  · intro r hr _
    obtain ⟨k, hk, rfl⟩ := List.mem_map.1 hr
    rw [List.mem_range] at hk
    refine ⟨Dft.twiddle 3 k, pulse_bin k, ?_⟩
    have hk' : k = 0 ∨ k = 1 := by omega
    rcases hk' with rfl | rfl
    · left; simp [Dft.twiddle]
    · right
      unfold Dft.twiddle
      rw [show (-2 * Real.pi * Complex.I * (((1 : ℕ) : ℤ) : ℂ) / (3 : ℕ) : ℂ) = ((-(2 * Real.pi / 3) : ℝ) : ℂ) * Complex.I by push_cast; ring]
      rw [Complex.exp_ofReal_mul_I_im, Real.sin_neg]
      have := Real.sin_pos_of_pos_of_lt_pi (x := 2 * Real.pi / 3) (by positivity) (by linarith [Real.pi_pos])
      linarith

end SST.Props.TfMirror
