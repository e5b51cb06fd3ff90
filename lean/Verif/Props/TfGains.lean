import Verif.Props.PsdTf
import Verif.Props.FilterSeries

/-!
# Property C256: gains and offsets in `compute_delays_tf`

Specifications: `Spec/Gains.lean`.
-/

namespace SST.Props.TfGains
open SST SST.Tf SST.Dft SST.Corr SST.Spec SST.Filters SST.Props.PsdTf

/-! ## Delays depend on the phase only -/

/-- A row with the transfer function multiplied by `ρ`. -/
noncomputable def scaleRow (ρ : ℝ) (r : Row) : Row := ⟨r.f, r.tf.map fun z => (ρ : ℂ) * z, r.coh⟩

theorem angle_scale {ρ : ℝ} (hρ : 0 < ρ) (z : Option ℂ) : angle (z.map fun z => (ρ : ℂ) * z) = angle z := by
  cases z with
  | none => rfl
  | some z => simp [angle, Complex.arg_real_mul _ hρ]

theorem mask_scale (ρ : ℝ) (cl fl : Option ℝ) (rows : List Row) : maskOf cl fl (rows.map (scaleRow ρ)) = maskOf cl fl rows := by
  unfold maskOf
  rw [List.map_map]
  rfl

theorem meanCoh_scale (ρ : ℝ) (fl : ℝ) (rows : List Row) : meanCoh fl (rows.map (scaleRow ρ)) = meanCoh fl rows := by
  unfold meanCoh
  simp only [List.filter_map, List.filterMap_map, List.length_map]
  rfl

theorem fit_scale {ρ : ℝ} (hρ : 0 < ρ) (cl fl : Option ℝ) (rows : List Row) : fitDelay cl fl (rows.map (scaleRow ρ)) = fitDelay cl fl rows := by
  unfold fitDelay
  simp only [List.filter_map, List.map_map, List.map_eq_nil_iff]
  have h1 : ((fun r => angle r.tf) ∘ scaleRow ρ) = fun r : Row => angle r.tf := by
    funext r; exact angle_scale hρ r.tf
  have h2 : (Row.f ∘ scaleRow ρ) = Row.f := rfl
  rw [h1, h2]
  rfl

theorem multiUsed_scale {ρ : ℝ} (hρ : 0 < ρ) (cl fl : Option ℝ) (rows : List Row) : multiUsed cl fl (rows.map (scaleRow ρ)) = multiUsed cl fl rows := by
  unfold multiUsed
  simp only [List.filter_map, List.map_map]
  have h1 : ((fun r => angle r.tf) ∘ scaleRow ρ) = fun r : Row => angle r.tf := by
    funext r; exact angle_scale hρ r.tf
  rw [h1, List.zip_map_left, List.filterMap_map]
  rfl

theorem multi_scale {ρ : ℝ} (hρ : 0 < ρ) (cl fl : Option ℝ) (rows : List Row) : multiDelay cl fl (rows.map (scaleRow ρ)) = multiDelay cl fl rows := by
  unfold multiDelay
  have h : (∀ r ∈ rows.map (scaleRow ρ), r.tf = none) ↔ ∀ r ∈ rows, r.tf = none := by
    rw [List.forall_mem_map]
    simp [scaleRow]
  rw [multiUsed_scale hρ]
  by_cases h0 : ∀ r ∈ rows, r.tf = none
  · rw [if_pos h0, if_pos (h.2 h0)]
  · rw [if_neg h0, if_neg (fun h' => h0 (h.1 h'))]

/-! ## Gains -/

theorem pairCols_nat {α β : Type} (f : α → β) (ins outs : List (String × α)) :
    pairCols (ins.map fun p => (p.1, f p.2)) (outs.map fun p => (p.1, f p.2)) = (pairCols ins outs).map fun ps => ps.map fun p => (p.1, f p.2.1, f p.2.2) := by
  unfold pairCols
  simp only [List.length_map]
  split_ifs
  · simp only [Except.map, List.zipWith_map, List.map_zipWith]
  · simp only [Except.map, List.flatMap_map, List.map_flatMap, List.map_map]
    rfl
  · simp only [Except.map, List.flatMap_map, List.map_flatMap, List.map_map]
    rfl
  · rfl

theorem sensor_gain (g : ℝ) (x : List ℝ) : x.map (fun v => g * v) = sensor g 0 0 x := by
  unfold sensor
  apply List.ext_getElem
  · simp
  · intro i h1 h2
    simp

theorem pairTf_gain (o : Opts) (L ov : ℕ) (x y : List ℝ) {g h : ℝ} (hg : 0 < g) (hh : 0 < h) :
    pairTf { o with detr := .none } L ov (x.map fun v => g * v) (y.map fun v => h * v) = (pairTf { o with detr := .none } L ov x y).map (scaleRow (h / g)) := by
  unfold pairTf
  rw [List.map_map]
  apply List.map_congr_left
  intro k _
  simp only [Function.comp, scaleRow]
  rw [sensor_gain, sensor_gain, spectra_sensor (d := .none) ⟨rfl, rfl⟩, spectra_sensor (d := .none) ⟨rfl, rfl⟩, tfBin_sensor _ hg.ne', cohBin_sensor _ hg.ne' hh.ne']

/-- C256 (gains): the delays, masks and mean coherences of `compute_delays_tf` do not depend on positive gains of the sensors: each column
of either frame is given with its gain `g`, once multiplied by it and once not. -/
theorem C256_gains_partial (o : Opts) (ins outs : List (String × ℝ × List ℝ)) (hi : ∀ p ∈ ins, 0 < p.2.1) (ho : ∀ p ∈ outs, 0 < p.2.1)
    (cohLim freqLim : Option ℝ) (method : String) :
    computeDelaysTf o (ins.map fun p => (p.1, p.2.2.map fun v => p.2.1 * v)) (outs.map fun p => (p.1, p.2.2.map fun v => p.2.1 * v)) cohLim freqLim method =
      computeDelaysTf o (ins.map fun p => (p.1, p.2.2)) (outs.map fun p => (p.1, p.2.2)) cohLim freqLim method := by
  have hn : ((ins.map fun p => (p.1, p.2.2.map fun v => p.2.1 * v)).headD ("", [])).2.length = ((ins.map fun p => (p.1, p.2.2)).headD ("", [])).2.length := by
    cases ins with
    | nil => rfl
    | cons p ps => simp
  unfold computeDelaysTf
  simp only [List.length_map]
  by_cases h1 : 1 < ins.length ∧ 1 < outs.length ∧ ins.length ≠ outs.length
  · rw [if_pos h1, if_pos h1]
  rw [if_neg h1, if_neg h1]
  unfold averagedTf
  rw [hn, pairCols_nat (fun p : ℝ × List ℝ => p.2.map fun v => p.1 * v) ins outs, pairCols_nat (fun p : ℝ × List ℝ => p.2) ins outs]
  cases hp : pairCols ins outs with
  | error e => rfl
  | ok ps =>
    simp only [Except.map]
    set n := ((ins.map fun p => (p.1, p.2.2)).headD ("", [])).2.length
    by_cases h2 : o.navgs = 0
    · simp only [h2, if_true]
    simp only [h2, if_false]
    by_cases h3 : n / o.navgs = 0 ∨ ((n / o.navgs : ℕ) : ℤ) ≤ pyInt (((n / o.navgs : ℕ) : ℝ) * o.overlap)
    · simp only [h3, if_true]
    simp only [h3, if_false, List.map_map]
    have e1 : ∀ p ∈ ps, pairTf { o with detr := .none } (n / o.navgs) (pyInt (((n / o.navgs : ℕ) : ℝ) * o.overlap)).toNat (p.2.1.2.map fun v => p.2.1.1 * v)
        (p.2.2.2.map fun v => p.2.2.1 * v) =
        (pairTf { o with detr := .none } (n / o.navgs) (pyInt (((n / o.navgs : ℕ) : ℝ) * o.overlap)).toNat p.2.1.2 p.2.2.2).map (scaleRow (p.2.2.1 / p.2.1.1)) ∧
        0 < p.2.2.1 / p.2.1.1 := by
      intro p hpp
      obtain ⟨a, ha, b, hb, rfl⟩ := pairCols_mem hp p hpp
      exact ⟨pairTf_gain o _ _ _ _ (hi a ha) (ho b hb), div_pos (ho b hb) (hi a ha)⟩
    simp only [Function.comp_def]
    cases freqLim with
    | none => rfl
    | some fl =>
      simp only
      split_ifs
      · rfl
      · rfl
      all_goals
        congr 1
        apply List.map_congr_left
        intro p hpp
        obtain ⟨e, hρ⟩ := e1 p hpp
        simp only [e, fit_scale hρ, multi_scale hρ, mask_scale, meanCoh_scale]

/-! ## Offsets -/

theorem unwrap_zero {ps : List (Option ℝ)} (h : ∀ φ, ps.head? = some (some φ) → |φ| ≤ Real.pi) : unwrap (some 0 :: ps) = some 0 :: unwrap ps := by
  cases ps with
  | nil => rfl
  | cons p ps =>
    cases p with
    | none =>
      simp only [unwrap, unwrapFrom, oadd, ostep, Option.bind_some, Option.map_none, Option.bind_none]
      rw [unwrapFrom_none]
      cases ps with
      | nil => rfl
      | cons q qs =>
        simp only [unwrapFrom, oadd, ostep, Option.bind_none, Option.map_none, Option.bind_some, Option.bind_fun_none]
        rw [unwrapFrom_none]
        simp [List.replicate_succ]
    | some φ =>
      have h1 : corrStep (φ - 0) = 0 := corrStep_small (by rw [sub_zero]; exact h φ rfl)
      simp only [unwrap, unwrapFrom, oadd, ostep, Option.bind_some, Option.map_some, h1, add_zero]

theorem angle_le (z : Option ℂ) {φ : ℝ} (h : angle z = some φ) : |φ| ≤ Real.pi := by
  cases z with
  | none => cases h
  | some z =>
    simp only [angle, Option.map_some, Option.some.injEq] at h
    rw [← h]
    exact Complex.abs_arg_le_pi z

theorem head_angle (S : List Row) : ∀ φ, (S.map fun r => angle r.tf).head? = some (some φ) → |φ| ≤ Real.pi := by
  intro φ h
  cases S with
  | nil => cases h
  | cons r S =>
    simp only [List.map_cons, List.head?_cons, Option.some.injEq] at h
    exact angle_le _ h

open Classical in
theorem multiUsed_head (cl fl : Option ℝ) (r : Row) (T : List Row) (hf : r.f = 0) (ha : angle r.tf = some 0) :
    multiUsed cl fl (r :: T) = (if FreqOk fl 0 ∧ CohOk cl r.coh then [(0, 0)] else []) ++ multiUsed cl fl T := by
  unfold multiUsed
  by_cases h1 : FreqOk fl 0
  · rw [List.filter_cons_of_pos (by rw [hf]; exact decide_eq_true h1)]
    simp only [List.map_cons, ha]
    rw [unwrap_zero (head_angle _), List.zip_cons_cons, List.filterMap_cons]
    by_cases h2 : CohOk cl r.coh
    · simp [h1, h2, hf]
    · simp [h1, h2]
  · rw [List.filter_cons_of_neg (by rw [hf]; simpa using h1)]
    simp [h1]

/-- The row at frequency 0, with phase 0, has no influence on the delay of method 'multi'. -/
theorem multi_head (cl fl : Option ℝ) (r r' : Row) (T : List Row) (hf : r.f = 0) (hf' : r'.f = 0) (ha : angle r.tf = some 0) (ha' : angle r'.tf = some 0) :
    multiDelay cl fl (r :: T) = multiDelay cl fl (r' :: T) := by
  have hne : ∀ s : Row, angle s.tf = some 0 → ¬ ∀ q ∈ s :: T, q.tf = none := by
    intro s hs h
    rw [h s List.mem_cons_self] at hs
    cases hs
  have hfst : ∀ s : Row, s.f = 0 → angle s.tf = some 0 → ((multiUsed cl fl (s :: T)).map Prod.fst).sum = ((multiUsed cl fl T).map Prod.fst).sum := by
    intro s h1 h2
    rw [multiUsed_head cl fl s T h1 h2]
    split_ifs <;> simp
  have hsnd : ∀ s : Row, s.f = 0 → angle s.tf = some 0 → ((multiUsed cl fl (s :: T)).map Prod.snd).sum = ((multiUsed cl fl T).map Prod.snd).sum := by
    intro s h1 h2
    rw [multiUsed_head cl fl s T h1 h2]
    split_ifs <;> simp
  unfold multiDelay
  rw [if_neg (hne r ha), if_neg (hne r' ha')]
  simp only [hfst r hf ha, hfst r' hf' ha', hsnd r hf ha, hsnd r' hf' ha']

open Classical in
/-- Nor for method 'fit', if another row is used. -/
theorem fit_head (cl fl : Option ℝ) (r : Row) (T : List Row) (hf : r.f = 0) (ha : angle r.tf = some 0) (hT : ∃ q ∈ T, Coherent cl q ∧ Below fl q) :
    fitDelay cl fl (r :: T) = fitDelay cl fl T := by
  have hS : (T.filter fun q => decide (CohOk cl q.coh ∧ FreqOk fl q.f)) ≠ [] := by
    obtain ⟨q, hq, h1, h2⟩ := hT
    have : q ∈ T.filter fun q => decide (CohOk cl q.coh ∧ FreqOk fl q.f) :=
      List.mem_filter.2 ⟨hq, decide_eq_true ⟨(cohOk_iff _ _).2 h1, (freqOk_iff _ _).2 h2⟩⟩
    exact List.ne_nil_of_mem this
  unfold fitDelay
  by_cases h1 : CohOk cl r.coh ∧ FreqOk fl r.f
  · rw [List.filter_cons_of_pos (by simpa using h1)]
    simp only [List.map_cons, ha]
    rw [unwrap_zero (head_angle _)]
    simp only [reduceCtorEq, hS, false_or, List.mem_cons, List.filterMap_cons, id, List.zip_cons_cons, List.map_cons, List.sum_cons, hf, mul_zero, zero_add,
      ne_eq, OfNat.ofNat_ne_zero, not_false_eq_true, zero_pow]
  · rw [List.filter_cons_of_neg (by simpa using h1)]

/-! ## The rectangular window -/

theorem sum_pure_twiddle {L k : ℕ} (hk : 0 < k) (hkL : k < L) : ∑ j ∈ Finset.range L, twiddle L ((j : ℤ) * k) = 0 := by
  rw [sum_twiddle (by omega), if_neg]
  intro h
  have := Int.le_of_dvd (by exact_mod_cast hk) h
  omega

theorem seg_fits {n L ov s : ℕ} (hov : ov < L) (hL : L ≤ n) (hs : s ∈ segStarts n L ov) : s + L ≤ n := by
  unfold segStarts at hs
  obtain ⟨i, hi, rfl⟩ := List.mem_map.1 hs
  rw [List.mem_range] at hi
  have h1 := Nat.mul_le_of_le_div (L - ov) (i + 1) (n - ov) hi
  rw [Nat.add_mul, Nat.one_mul] at h1
  omega

theorem segStarts_ne {n L ov : ℕ} (hov : ov < L) (hL : L ≤ n) : segStarts n L ov ≠ [] := by
  unfold segStarts
  have : 0 < (n - ov) / (L - ov) := Nat.div_pos (by omega) (by omega)
  simp
  omega

/-- With the rectangular window an offset is seen at frequency 0 only. -/
theorem spectra_offset (g c : ℝ) {L ov k : ℕ} (x : List ℝ) (hov : ov < L) (hL : L ≤ x.length) (hk : 0 < k) (hkL : k < L) :
    spectra (List.replicate L 1) .none L ov (sensor g c 0 x) k = (spectra (List.replicate L 1) .none L ov x k).map fun z => (g : ℂ) * z := by
  have hline : spectra (List.replicate L 1) .none L ov (line c 0 x.length) k = (segStarts x.length L ov).map fun _ => 0 := by
    unfold spectra
    rw [line_length]
    apply List.map_congr_left
    intro s hs
    have hfit := seg_fits hov hL hs
    rw [segment_line, min_eq_left (by omega)]
    unfold Tf.spectrum detrend
    rw [line_length]
    have : ∀ j ∈ Finset.range L, ((at0 (line (c + 0 * (s : ℝ)) 0 L) j * at0 (List.replicate L (1 : ℝ)) j : ℝ) : ℂ) * twiddle L (j * k) = (c : ℂ) * twiddle L ((j : ℤ) * k) := by
      intro j hj
      rw [Finset.mem_range] at hj
      rw [at0_line _ _ hj]
      unfold at0
      rw [List.getElem?_replicate, if_pos hj]
      simp
    rw [Finset.sum_congr rfl this, ← Finset.mul_sum, sum_pure_twiddle hk hkL, mul_zero]
  rw [sensor_lin, spectra_zipLin _ _ _ _ _ _ _ _ (by simp), hline]
  unfold spectra
  rw [List.map_map, List.map_map, List.zipWith_map, List.zipWith_self]
  apply List.map_congr_left
  intro s _
  simp

theorem sum_at0 (x : List ℝ) : x.sum = ∑ j ∈ Finset.range x.length, at0 x j := by
  induction x with
  | nil => simp
  | cons a l ih =>
    rw [List.length_cons, Finset.sum_range_succ', List.sum_cons, ih, add_comm]
    rfl

/-- At frequency 0 the spectra of positive records are positive. -/
theorem spectra_zero {L ov : ℕ} (x : List ℝ) (hov : ov < L) (hL : L ≤ x.length) (hx : ∀ v ∈ x, 0 < v) :
    ∃ f : ℕ → ℝ, spectra (List.replicate L 1) .none L ov x 0 = (segStarts x.length L ov).map (fun s => ((f s : ℝ) : ℂ)) ∧ ∀ s ∈ segStarts x.length L ov, 0 < f s := by
  refine ⟨fun s => (segment x L s).sum, ?_, ?_⟩
  · unfold spectra
    apply List.map_congr_left
    intro s hs
    have hfit := seg_fits hov hL hs
    have hlen : (segment x L s).length = L := by simp [Tf.segment]; omega
    unfold Tf.spectrum detrend
    simp only
    rw [sum_at0 (segment x L s)]
    push_cast
    apply Finset.sum_congr rfl
    intro j hj
    rw [hlen, Finset.mem_range] at hj
    have h1 : at0 (List.replicate L (1 : ℝ)) j = 1 := by
      unfold at0
      rw [List.getElem?_replicate, if_pos hj]; rfl
    rw [h1]
    simp [twiddle]
  · intro s hs
    have hfit := seg_fits hov hL hs
    have hlen : (segment x L s).length = L := by simp [Tf.segment]; omega
    apply List.sum_pos
    · intro v hv
      exact hx v (List.mem_of_mem_drop (List.mem_of_mem_take hv))
    · intro h
      rw [h] at hlen
      simp at hlen
      omega

theorem csum_ofReal (S : List ℕ) (f g : ℕ → ℝ) : (S.map fun a => (starRingEnd ℂ) ((f a : ℝ) : ℂ) * ((g a : ℝ) : ℂ)).sum = (((S.map fun s => f s * g s).sum : ℝ) : ℂ) := by
  induction S with
  | nil => simp
  | cons a S ih =>
    simp only [List.map_cons, List.sum_cons]
    rw [ih]
    simp

theorem angle_zero {c : ℝ} (hc : 0 < c) (S : List ℕ) (hS : S ≠ []) (f g : ℕ → ℝ) (hf : ∀ s ∈ S, 0 < f s) (hg : ∀ s ∈ S, 0 < g s) :
    angle (tfBin c (S.map fun s => ((f s : ℝ) : ℂ)) (S.map fun s => ((g s : ℝ) : ℂ))) = some 0 := by
  have hn : (0 : ℝ) < S.length := by exact_mod_cast List.length_pos_iff.2 hS
  have h1 : psd c (S.map fun s => ((f s : ℝ) : ℂ)) = c * ((S.map fun s => f s * f s).sum / S.length) := by
    unfold psd
    rw [List.map_map, List.length_map]
    congr 3
    apply List.map_congr_left
    intro s _
    simp [Complex.normSq_ofReal]
  have h2 : csd c (S.map fun s => ((f s : ℝ) : ℂ)) (S.map fun s => ((g s : ℝ) : ℂ)) = ((c * ((S.map fun s => f s * g s).sum / S.length) : ℝ) : ℂ) := by
    unfold csd
    rw [List.zipWith_map, List.zipWith_self, List.length_map]
    push_cast
    rw [← csum_ofReal]
  have hA : 0 < (S.map fun s => f s * f s).sum := List.sum_pos _ (by simp only [List.mem_map]; rintro _ ⟨s, hs, rfl⟩; exact mul_pos (hf s hs) (hf s hs)) (by simpa using hS)
  have hB : 0 < (S.map fun s => f s * g s).sum := List.sum_pos _ (by simp only [List.mem_map]; rintro _ ⟨s, hs, rfl⟩; exact mul_pos (hf s hs) (hg s hs)) (by simpa using hS)
  have hp : 0 < c * ((S.map fun s => f s * f s).sum / S.length) := by positivity
  have hq : 0 < c * ((S.map fun s => f s * g s).sum / S.length) := by positivity
  unfold tfBin
  rw [h1, h2, if_neg hp.ne', ← Complex.ofReal_div]
  simp only [angle, Option.map_some, Option.some.injEq]
  exact Complex.arg_ofReal_of_nonneg (div_pos hq hp).le

/-- The rows of a pair: the one at frequency 0 and the others. -/
theorem pairTf_cons (o : Opts) (L ov : ℕ) (x y : List ℝ) : pairTf o L ov x y =
    ⟨((0 : ℕ) : ℝ) / (L * o.dt), tfBin (psdScale (o.win L) o.dt L 0) (spectra (o.win L) o.detr L ov x 0) (spectra (o.win L) o.detr L ov y 0),
      cohBin (psdScale (o.win L) o.dt L 0) (spectra (o.win L) o.detr L ov x 0) (spectra (o.win L) o.detr L ov y 0)⟩ ::
    (List.range (L / 2)).map fun (k : ℕ) => ⟨((k + 1 : ℕ) : ℝ) / (L * o.dt),
      tfBin (psdScale (o.win L) o.dt L (k + 1)) (spectra (o.win L) o.detr L ov x (k + 1)) (spectra (o.win L) o.detr L ov y (k + 1)),
      cohBin (psdScale (o.win L) o.dt L (k + 1)) (spectra (o.win L) o.detr L ov x (k + 1)) (spectra (o.win L) o.detr L ov y (k + 1))⟩ := by
  unfold pairTf
  rw [List.range_succ_eq_map, List.map_cons, List.map_map]
  rfl

theorem delays_pair {o : Opts} {a b : String} {x y : List ℝ} {cl : Option ℝ} {fl : ℝ} {method : String} (hm : method = "multi" ∨ method = "fit")
    (h1 : 0 < o.navgs) (hL : 0 < x.length / o.navgs) (hov : pyInt ((x.length / o.navgs : ℕ) * o.overlap) < (x.length / o.navgs : ℕ)) :
    computeDelaysTf o [(a, x)] [(b, y)] cl (some fl) method =
      .ok [(if method = "fit" then fitDelay cl (some fl) (pairTf { o with detr := .none } (x.length / o.navgs) (pyInt ((x.length / o.navgs : ℕ) * o.overlap)).toNat x y)
          else multiDelay cl (some fl) (pairTf { o with detr := .none } (x.length / o.navgs) (pyInt ((x.length / o.navgs : ℕ) * o.overlap)).toNat x y),
        maskOf cl (some fl) (pairTf { o with detr := .none } (x.length / o.navgs) (pyInt ((x.length / o.navgs : ℕ) * o.overlap)).toNat x y),
        meanCoh fl (pairTf { o with detr := .none } (x.length / o.navgs) (pyInt ((x.length / o.navgs : ℕ) * o.overlap)).toNat x y))] := by
  have htf : averagedTf { o with detr := .none } [(a, x)] [(b, y)] =
      .ok [(a ++ "_" ++ b, pairTf { o with detr := .none } (x.length / o.navgs) (pyInt ((x.length / o.navgs : ℕ) * o.overlap)).toNat x y)] := by
    unfold averagedTf
    simp only [pairCols, List.length_cons, List.length_nil, if_true, List.zipWith_cons_cons, List.zipWith_nil_left, List.headD_cons]
    have h3 : ¬ (x.length / o.navgs = 0 ∨ ((x.length / o.navgs : ℕ) : ℤ) ≤ pyInt (((x.length / o.navgs : ℕ) : ℝ) * o.overlap)) := by
      push Not; exact ⟨hL.ne', hov⟩
    simp only [h1.ne', h3, if_false, List.map_cons, List.map_nil]
  unfold computeDelaysTf
  rw [if_neg (by simp), htf]
  simp only
  rw [if_neg (by simp), if_neg (by tauto)]
  simp only [List.map_cons, List.map_nil]

/-- C256 (offsets): with the rectangular window positive gains and offsets do not change the delay, if the records are positive with and
without them; with method 'fit' some bin other than frequency 0 must be in the mask. -/
theorem C256_offsets_partial (o : Opts) (hw : o.win = fun L => List.replicate L 1) (hdt : 0 < o.dt) (a b : String) (x y : List ℝ) (hl : y.length = x.length)
    (g h c c' : ℝ) (hg : 0 < g) (hh : 0 < h) (hx : ∀ v ∈ x, 0 < v) (hy : ∀ v ∈ y, 0 < v) (hx' : ∀ v ∈ x, 0 < g * v + c) (hy' : ∀ v ∈ y, 0 < h * v + c')
    (cl : Option ℝ) (fl : ℝ) (method : String) (hm : method = "multi" ∨ method = "fit") (d : Option ℝ) (mask : List Bool) (mc : XR)
    (hd : computeDelaysTf o [(a, x)] [(b, y)] cl (some fl) method = .ok [(d, mask, mc)])
    (hfit : method = "fit" → ∃ k, 0 < k ∧ mask[k]? = some true) :
    ∃ mask' mc', computeDelaysTf o [(a, x.map fun v => g * v + c)] [(b, y.map fun v => h * v + c')] cl (some fl) method = .ok [(d, mask', mc')] := by
  have hok : ∃ cols, averagedTf { o with detr := .none } [(a, x)] [(b, y)] = .ok cols := by
    unfold computeDelaysTf at hd
    rw [if_neg (by simp)] at hd
    cases ht : averagedTf { o with detr := .none } [(a, x)] [(b, y)] with
    | ok cols => exact ⟨cols, rfl⟩
    | error e => rw [ht] at hd; cases hd
  obtain ⟨cols, hcols⟩ := hok
  obtain ⟨h1, hL, hov, -⟩ := averagedTf_pair _ a b x y hcols
  simp only at h1 hL hov
  rw [delays_pair hm h1 hL hov] at hd
  have hS : ∀ (g c : ℝ) (x : List ℝ), (x.map fun v => g * v + c) = sensor g c 0 x := by
    intro g c x
    unfold sensor
    apply List.ext_getElem
    · simp
    · intro i h1 h2
      simp
  have hlen : (x.map fun v => g * v + c).length = x.length := List.length_map _
  have hlen' : (y.map fun v => h * v + c').length = y.length := List.length_map _
  have hp' := delays_pair (o := o) (a := a) (b := b) (x := x.map fun v => g * v + c) (y := y.map fun v => h * v + c') (cl := cl) (fl := fl) hm h1
    (by rw [hlen]; exact hL) (by rw [hlen]; exact hov)
  rw [hlen] at hp'
  rw [hp']
  simp only [Except.ok.injEq, List.cons.injEq, Prod.mk.injEq, and_true]
  refine ⟨_, _, ?_, rfl, rfl⟩
  clear hp' hcols
  have hn : x.length / o.navgs ≤ x.length := Nat.div_le_self _ _
  set L := x.length / o.navgs with hLdef
  have hovn : (pyInt ((L : ℝ) * o.overlap)).toNat < L := by omega
  set ov := (pyInt ((L : ℝ) * o.overlap)).toNat with hovdef
  have hc0 : 0 < psdScale (List.replicate L 1) o.dt L 0 := by
    unfold psdScale
    have : ((List.replicate L (1 : ℝ)).map fun (v : ℝ) => v ^ 2).sum = (L : ℝ) := by simp
    rw [this]
    have : (0 : ℝ) < L := by exact_mod_cast hL
    split_ifs <;> positivity
  -- the row at frequency 0
  have hzero : ∀ u v : List ℝ, u.length = x.length → v.length = x.length → (∀ t ∈ u, 0 < t) → (∀ t ∈ v, 0 < t) →
      angle (tfBin (psdScale (List.replicate L 1) o.dt L 0) (spectra (List.replicate L 1) .none L ov u 0) (spectra (List.replicate L 1) .none L ov v 0)) = some 0 := by
    intro u v hu hv hu0 hv0
    obtain ⟨f1, e1, p1⟩ := spectra_zero (L := L) (ov := ov) u hovn (by omega) hu0
    obtain ⟨f2, e2, p2⟩ := spectra_zero (L := L) (ov := ov) v hovn (by omega) hv0
    rw [e1, e2, hu, hv]
    rw [hu] at p1
    rw [hv] at p2
    exact angle_zero hc0 _ (segStarts_ne hovn hn) f1 f2 p1 p2
  have z1 := hzero x y rfl hl hx hy
  have z2 := hzero (x.map fun v => g * v + c) (y.map fun v => h * v + c') hlen (hlen'.trans hl) (by simpa using hx') (by simpa using hy')
  rw [pairTf_cons] at hd ⊢
  simp only [hw] at hd ⊢
  have htail : ((List.range (L / 2)).map fun (k : ℕ) => (⟨((k + 1 : ℕ) : ℝ) / (L * o.dt),
      tfBin (psdScale (List.replicate L 1) o.dt L (k + 1)) (spectra (List.replicate L 1) .none L ov (x.map fun v => g * v + c) (k + 1)) (spectra (List.replicate L 1) .none L ov (y.map fun v => h * v + c') (k + 1)),
      cohBin (psdScale (List.replicate L 1) o.dt L (k + 1)) (spectra (List.replicate L 1) .none L ov (x.map fun v => g * v + c) (k + 1)) (spectra (List.replicate L 1) .none L ov (y.map fun v => h * v + c') (k + 1))⟩ : Row)) =
      ((List.range (L / 2)).map fun (k : ℕ) => (⟨((k + 1 : ℕ) : ℝ) / (L * o.dt),
      tfBin (psdScale (List.replicate L 1) o.dt L (k + 1)) (spectra (List.replicate L 1) .none L ov x (k + 1)) (spectra (List.replicate L 1) .none L ov y (k + 1)),
      cohBin (psdScale (List.replicate L 1) o.dt L (k + 1)) (spectra (List.replicate L 1) .none L ov x (k + 1)) (spectra (List.replicate L 1) .none L ov y (k + 1))⟩ : Row)).map (scaleRow (h / g)) := by
    rw [List.map_map]
    apply List.map_congr_left
    intro k hk
    rw [List.mem_range] at hk
    simp only [Function.comp, scaleRow]
    rw [hS, hS, spectra_offset g c x hovn hn (by omega) (by omega), spectra_offset h c' y hovn (by omega) (by omega) (by omega),
      tfBin_sensor _ hg.ne', cohBin_sensor _ hg.ne' hh.ne']
  rw [htail]
  generalize hT : ((List.range (L / 2)).map fun (k : ℕ) => (⟨((k + 1 : ℕ) : ℝ) / (L * o.dt),
      tfBin (psdScale (List.replicate L 1) o.dt L (k + 1)) (spectra (List.replicate L 1) .none L ov x (k + 1)) (spectra (List.replicate L 1) .none L ov y (k + 1)),
      cohBin (psdScale (List.replicate L 1) o.dt L (k + 1)) (spectra (List.replicate L 1) .none L ov x (k + 1)) (spectra (List.replicate L 1) .none L ov y (k + 1))⟩ : Row)) = T at hd ⊢
  generalize hr : (⟨((0 : ℕ) : ℝ) / (L * o.dt), tfBin (psdScale (List.replicate L 1) o.dt L 0) (spectra (List.replicate L 1) .none L ov x 0) (spectra (List.replicate L 1) .none L ov y 0),
      cohBin (psdScale (List.replicate L 1) o.dt L 0) (spectra (List.replicate L 1) .none L ov x 0) (spectra (List.replicate L 1) .none L ov y 0)⟩ : Row) = r at hd ⊢
  generalize hr' : (⟨((0 : ℕ) : ℝ) / (L * o.dt), tfBin (psdScale (List.replicate L 1) o.dt L 0) (spectra (List.replicate L 1) .none L ov (x.map fun v => g * v + c) 0) (spectra (List.replicate L 1) .none L ov (y.map fun v => h * v + c') 0),
      cohBin (psdScale (List.replicate L 1) o.dt L 0) (spectra (List.replicate L 1) .none L ov (x.map fun v => g * v + c) 0) (spectra (List.replicate L 1) .none L ov (y.map fun v => h * v + c') 0)⟩ : Row) = r'
  have r1 : r.f = 0 := by rw [← hr]; simp
  have r2 : r'.f = 0 := by rw [← hr']; simp
  have r3 : angle r.tf = some 0 := by rw [← hr]; exact z1
  have r4 : angle r'.tf = some 0 := by rw [← hr']; exact z2
  have r4s : angle (scaleRow (h / g) r).tf = some 0 := by rw [← r3]; exact angle_scale (div_pos hh hg) _
  have hρ : 0 < h / g := div_pos hh hg
  simp only [Except.ok.injEq, List.cons.injEq, Prod.mk.injEq, and_true] at hd
  obtain ⟨hd1, hd2, -⟩ := hd
  show (if method = "fit" then fitDelay cl (some fl) (r' :: T.map (scaleRow (h / g))) else multiDelay cl (some fl) (r' :: T.map (scaleRow (h / g)))) = d
  · rw [← hd1]
    rcases hm with rfl | rfl
    · rw [if_neg (by decide), if_neg (by decide)]
      rw [multi_head cl (some fl) r' (scaleRow (h / g) r) _ r2 r1 r4 r4s, ← List.map_cons, multi_scale hρ]
    · rw [if_pos rfl, if_pos rfl]
      obtain ⟨k, hk, hkm⟩ := hfit rfl
      have hq : ∃ q ∈ T, Coherent cl q ∧ Below (some fl) q := by
        rw [← hd2] at hkm
        obtain ⟨k, rfl⟩ : ∃ j, k = j + 1 := ⟨k - 1, by omega⟩
        unfold maskOf at hkm
        rw [List.map_cons, List.getElem?_cons_succ, List.getElem?_map] at hkm
        cases hq : T[k]? with
        | none => rw [hq] at hkm; cases hkm
        | some q =>
          rw [hq, Option.map_some, Option.some.injEq, @decide_eq_true_iff _ (_)] at hkm
          exact ⟨q, List.mem_of_getElem? hq, (cohOk_iff _ _).1 hkm.1, (freqOk_iff _ _).1 hkm.2⟩
      have hq' : ∃ q ∈ T.map (scaleRow (h / g)), Coherent cl q ∧ Below (some fl) q := by
        obtain ⟨q, h1, h2, h3⟩ := hq
        exact ⟨scaleRow (h / g) q, List.mem_map_of_mem h1, h2, h3⟩
      rw [fit_head cl (some fl) r' _ r2 r4 hq', fit_head cl (some fl) r T r1 r3 hq, fit_scale hρ]

/-! ## Offsets matter -/

theorem rows_three {x y : List ℝ} (hx : x.length = 3) (hy : y.length = 3) (a b : String) :
    averagedTf ⟨1, 1, 0, fun L => List.replicate L 1, .none⟩ [(a, x)] [(b, y)] = .ok [(a ++ "_" ++ b,
      [⟨0, (if dftR x 0 = 0 then none else some (dftR y 0 / dftR x 0)), (if dftR x 0 = 0 ∨ dftR y 0 = 0 then none else some 1)⟩,
       ⟨1 / 3, (if dftR x 1 = 0 then none else some (dftR y 1 / dftR x 1)), (if dftR x 1 = 0 ∨ dftR y 1 = 0 then none else some 1)⟩])] := by
  have h0 : pyInt (0 : ℝ) = 0 := by unfold pyInt; simp
  have hok : averagedTf ⟨1, 1, 0, fun L => List.replicate L 1, .none⟩ [(a, x)] [(b, y)] = .ok [(a ++ "_" ++ b,
      pairTf ⟨1, 1, 0, fun L => List.replicate L 1, .none⟩ 3 0 x y)] := by
    simp [averagedTf, pairCols, h0, hx]
  obtain ⟨rows, e, hl, hr⟩ := FilterSeries.one_block (dt := 1) one_ne_zero (by omega) (hy.trans hx.symm) hok
  rw [hok, e]
  rw [hx] at hl hr
  have hl2 : rows.length = 2 := hl
  obtain ⟨r0, r1, rfl⟩ := List.length_eq_two.1 hl2
  obtain ⟨a1, a2, a3⟩ := hr 0 r0 rfl
  obtain ⟨b1, b2, b3⟩ := hr 1 r1 rfl
  obtain ⟨f0, t0, c0⟩ := r0
  obtain ⟨f1, t1, c1⟩ := r1
  simp only at a1 a2 a3 b1 b2 b3
  subst a2 a3 b2 b3
  rw [a1, b1]
  norm_num

theorem multi_two (z w : ℂ) : multiDelay (some 0.6) (some 0.4) [⟨0, some z, some 1⟩, ⟨1 / 3, some w, some 1⟩] =
    some (-(Complex.arg z + (Complex.arg w + corrStep (Complex.arg w - Complex.arg z))) / (2 * Real.pi * (1 / 3))) := by
  have h1 : FreqOk (some 0.4) 0 := Or.inr ⟨0.4, rfl, by norm_num⟩
  have h2 : FreqOk (some 0.4) (1 / 3) := Or.inr ⟨0.4, rfl, by norm_num⟩
  have h3 : CohOk (some 0.6) (some 1) := Or.inr ⟨0.6, 1, rfl, rfl, by norm_num⟩
  have hu : multiUsed (some 0.6) (some 0.4) [⟨0, some z, some 1⟩, ⟨1 / 3, some w, some 1⟩] =
      [(0, Complex.arg z), (1 / 3, Complex.arg w + corrStep (Complex.arg w - Complex.arg z))] := by
    unfold multiUsed
    rw [List.filter_cons_of_pos (by simpa using h1), List.filter_cons_of_pos (by simpa using h2)]
    simp [unwrap, unwrapFrom, angle, oadd, ostep, h3]
  unfold multiDelay
  rw [if_neg (by simp), hu]
  simp

theorem delays_of {o : Opts} {a b nm : String} {x y : List ℝ} {cl : Option ℝ} {fl : ℝ} {rows : List Row} {d : Option ℝ}
    (h : averagedTf { o with detr := .none } [(a, x)] [(b, y)] = .ok [(nm, rows)]) (hd : multiDelay cl (some fl) rows = d) :
    computeDelaysTf o [(a, x)] [(b, y)] cl (some fl) "multi" = .ok [(d, maskOf cl (some fl) rows, meanCoh fl rows)] := by
  unfold computeDelaysTf
  rw [if_neg (by simp), h]
  simp only
  rw [if_neg (by simp), if_neg (by simp)]
  simp only [List.map_cons, List.map_nil, hd]
  rw [if_neg (by decide)]

theorem arg_twiddle3 : Complex.arg (twiddle 3 1) = -(2 * Real.pi / 3) := by
  have h := arg_eq (m := 1) one_pos (θ := -(2 * Real.pi / 3)) (by rw [abs_neg, abs_of_pos (by positivity)]; linarith [Real.pi_pos])
  rw [← h]
  congr 1
  unfold twiddle
  push_cast
  rw [one_mul]
  congr 1
  ring

theorem sum_twiddle3 : 1 + twiddle 3 1 + twiddle 3 2 = 0 := by
  have h := sum_pure_twiddle (L := 3) (k := 1) (by norm_num) (by norm_num)
  simpa [Finset.sum_range_succ, twiddle_zero] using h

/-- C256 is violated: a record that follows another one sample later has the delay 1; after an offset of -1 it is -3.5. -/
theorem C256_violated_offset : ∃ m q m' q',
    computeDelaysTf ⟨1, 1, 0, fun L => List.replicate L 1, .linear⟩ [("a", [1, 0, 0])] [("b", [0, 1, 0])] (some 0.6) (some 0.4) "multi" = .ok [(some 1, m, q)] ∧
    computeDelaysTf ⟨1, 1, 0, fun L => List.replicate L 1, .linear⟩ [("a", [1, 0, 0])] [("b", [0 - 1, 1 - 1, 0 - 1])] (some 0.6) (some 0.4) "multi" = .ok [(some (-7 / 2), m', q')] := by
  have hpi := Real.pi_pos
  have e1 : ∀ k : ℕ, dftR [1, 0, 0] k = 1 := by intro k; simp [dftR, at0, Finset.sum_range_succ, twiddle]
  have e2 : ∀ k : ℕ, dftR [0, 1, 0] k = twiddle 3 k := by intro k; simp [dftR, at0, Finset.sum_range_succ]
  have e3 : dftR [0 - 1, 1 - 1, 0 - 1] 0 = -2 := by simp [dftR, at0, Finset.sum_range_succ, twiddle]; norm_num
  have e4 : dftR [0 - 1, 1 - 1, 0 - 1] 1 = twiddle 3 1 := by
    have := sum_twiddle3
    simp [dftR, at0, Finset.sum_range_succ, twiddle_zero]
    linear_combination -this
  have hw : twiddle 3 1 ≠ 0 := by
    intro h
    have := norm_twiddle 3 1
    rw [h] at this
    simp at this
  have t1 := rows_three (x := [1, 0, 0]) (y := [0, 1, 0]) rfl rfl "a" "b"
  have t2 := rows_three (x := [1, 0, 0]) (y := [0 - 1, 1 - 1, 0 - 1]) rfl rfl "a" "b"
  rw [e1 0, e1 1, e2 0, e2 1] at t1
  rw [e1 0, e1 1, e3, e4] at t2
  simp only [one_ne_zero, if_false, div_one, false_or, Nat.cast_zero, Nat.cast_one, hw, twiddle_zero, neg_eq_zero, OfNat.ofNat_ne_zero] at t1 t2
  have d1 : multiDelay (some 0.6) (some 0.4) [⟨0, some 1, some 1⟩, ⟨1 / 3, some (twiddle 3 1), some 1⟩] = some 1 := by
    rw [multi_two, arg_twiddle3, Complex.arg_one, corrStep_small (by rw [sub_zero, abs_neg, abs_of_pos (by positivity)]; linarith)]
    congr 1
    field_simp
    ring
  have hwrap : corrStep (-(2 * Real.pi / 3) - Real.pi) = 2 * Real.pi := by
    have hf : ⌊(-(2 * Real.pi / 3) - Real.pi + Real.pi) / (2 * Real.pi)⌋ = -1 := by
      rw [Int.floor_eq_iff]
      have : (-(2 * Real.pi / 3) - Real.pi + Real.pi) / (2 * Real.pi) = -(1 / 3) := by field_simp; ring
      rw [this]
      norm_num
    unfold corrStep
    rw [if_neg (by rw [abs_of_neg (by linarith)]; linarith)]
    unfold wrapStep pmod
    simp only [hf]
    push_cast
    rw [if_neg (by rintro ⟨h, -⟩; linarith)]
    ring
  have d2 : multiDelay (some 0.6) (some 0.4) [⟨0, some (-2), some 1⟩, ⟨1 / 3, some (twiddle 3 1), some 1⟩] = some (-7 / 2) := by
    have ha : Complex.arg (-2) = Real.pi := by
      rw [show (-2 : ℂ) = ((-2 : ℝ) : ℂ) by push_cast; rfl]
      exact Complex.arg_ofReal_of_neg (by norm_num)
    rw [multi_two, arg_twiddle3, ha, hwrap]
    congr 1
    field_simp
    ring
  exact ⟨_, _, _, _, delays_of t1 d1, delays_of t2 d2⟩

theorem multi_nan (w : ℂ) : multiDelay (some 0.6) (some 0.4) [⟨0, none, none⟩, ⟨1 / 3, some w, some 1⟩] = some 0 := by
  have h1 : FreqOk (some 0.4) 0 := Or.inr ⟨0.4, rfl, by norm_num⟩
  have h2 : FreqOk (some 0.4) (1 / 3) := Or.inr ⟨0.4, rfl, by norm_num⟩
  have hu : multiUsed (some 0.6) (some 0.4) [⟨0, none, none⟩, ⟨1 / 3, some w, some 1⟩] = [] := by
    unfold multiUsed
    rw [List.filter_cons_of_pos (by simpa using h1), List.filter_cons_of_pos (by simpa using h2)]
    simp [unwrap, unwrapFrom, angle, oadd, ostep]
  unfold multiDelay
  rw [if_neg (by simp), hu]
  simp

/-- C256 is violated: a record that follows another one sample later has the delay 1; with their means subtracted the delay is 0. -/
theorem C256_violated_mean : ∃ m q m' q',
    computeDelaysTf ⟨1, 1, 0, fun L => List.replicate L 1, .linear⟩ [("a", [1, 0, 0])] [("b", [0, 1, 0])] (some 0.6) (some 0.4) "multi" = .ok [(some 1, m, q)] ∧
    computeDelaysTf ⟨1, 1, 0, fun L => List.replicate L 1, .linear⟩ [("a", [1 - 1 / 3, 0 - 1 / 3, 0 - 1 / 3])] [("b", [0 - 1 / 3, 1 - 1 / 3, 0 - 1 / 3])]
      (some 0.6) (some 0.4) "multi" = .ok [(some 0, m', q')] := by
  obtain ⟨m, q, -, -, h, -⟩ := C256_violated_offset
  have e1 : dftR [1 - 1 / 3, 0 - 1 / 3, 0 - 1 / 3] 0 = 0 := by simp [dftR, at0, Finset.sum_range_succ, twiddle]; norm_num
  have e2 : dftR [0 - 1 / 3, 1 - 1 / 3, 0 - 1 / 3] 0 = 0 := by simp [dftR, at0, Finset.sum_range_succ, twiddle]; norm_num
  have e3 : dftR [1 - 1 / 3, 0 - 1 / 3, 0 - 1 / 3] 1 = 1 := by
    have := sum_twiddle3
    simp [dftR, at0, Finset.sum_range_succ, twiddle_zero]
    linear_combination -(1 / 3) * this
  have e4 : dftR [0 - 1 / 3, 1 - 1 / 3, 0 - 1 / 3] 1 = twiddle 3 1 := by
    have := sum_twiddle3
    simp [dftR, at0, Finset.sum_range_succ, twiddle_zero]
    linear_combination -(1 / 3) * this
  have hw : twiddle 3 1 ≠ 0 := by
    intro h
    have := norm_twiddle 3 1
    rw [h] at this
    simp at this
  have t := rows_three (x := [1 - 1 / 3, 0 - 1 / 3, 0 - 1 / 3]) (y := [0 - 1 / 3, 1 - 1 / 3, 0 - 1 / 3]) rfl rfl "a" "b"
  rw [e1, e2, e3, e4] at t
  simp only [if_true, or_self, one_ne_zero, if_false, div_one, false_or, hw] at t
  exact ⟨m, q, _, _, h, delays_of t (multi_nan _)⟩

example : computeDelaysTf ⟨1, 1, 0, fun L => List.replicate L 1, .none⟩ [("a", [1, 0, 0].map fun v : ℝ => 2 * v)] [("b", [0, 1, 0].map fun v : ℝ => 5 * v)] (some 0.6) (some 0.4) "multi" =
    computeDelaysTf ⟨1, 1, 0, fun L => List.replicate L 1, .none⟩ [("a", [1, 0, 0])] [("b", [0, 1, 0])] (some 0.6) (some 0.4) "multi" :=
  C256_gains_partial ⟨1, 1, 0, fun L => List.replicate L 1, .none⟩ [("a", 2, [1, 0, 0])] [("b", 5, [0, 1, 0])] (by simp) (by simp) _ _ _

example : ∃ d m q m' q', computeDelaysTf ⟨1, 1, 0, fun L => List.replicate L 1, .none⟩ [("a", [2, 1, 1])] [("b", [1, 2, 1])] (some 0.6) (some 0.4) "multi" = .ok [(d, m, q)] ∧
    computeDelaysTf ⟨1, 1, 0, fun L => List.replicate L 1, .none⟩ [("a", [2, 1, 1].map fun v : ℝ => 3 * v + 7)] [("b", [1, 2, 1].map fun v : ℝ => 1 * v + -0.5)] (some 0.6) (some 0.4) "multi" =
      .ok [(d, m', q')] := by
  have h0 : pyInt (0 : ℝ) = 0 := by unfold pyInt; simp
  have hd := delays_pair (o := ⟨1, 1, 0, fun L => List.replicate L 1, .none⟩) (a := "a") (b := "b") (x := [2, 1, 1]) (y := [1, 2, 1]) (cl := some 0.6) (fl := 0.4)
    (method := "multi") (Or.inl rfl) (by simp) (by simp) (by simp [h0])
  obtain ⟨m', q', h⟩ := C256_offsets_partial ⟨1, 1, 0, fun L => List.replicate L 1, .none⟩ rfl one_pos "a" "b" [2, 1, 1] [1, 2, 1] rfl 3 1 7 (-0.5) (by norm_num) one_pos
    (by simp) (by simp) (by simp; norm_num) (by simp; norm_num) (some 0.6) 0.4 "multi" (Or.inl rfl) _ _ _ hd (fun h => absurd h (by decide))
  exact ⟨_, _, _, m', q', hd, h⟩

end SST.Props.TfGains
