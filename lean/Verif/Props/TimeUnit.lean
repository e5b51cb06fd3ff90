import Verif.Props.PredictData
import Verif.Props.TfMirror

/-!
# Property C224: the unit of time
-/

namespace SST.Props.TimeUnit
open SST SST.Tf SST.Field SST.Spatial SST.Props.PredictData

/-! ## Transfer functions -/

/-- A row with its frequency in the other unit. -/
noncomputable def slowRow (c : ℝ) (r : Row) : Row := ⟨r.f / c, r.tf, r.coh⟩

theorem psd_scale (a c : ℝ) (X : List ℂ) : psd (a * c) X = a * psd c X := by unfold psd; ring

theorem csd_scale (a c : ℝ) (X Y : List ℂ) : csd (a * c) X Y = a * csd c X Y := by unfold csd; push_cast; ring

theorem tfBin_scale {a : ℝ} (ha : a ≠ 0) (c : ℝ) (X Y : List ℂ) : tfBin (a * c) X Y = tfBin c X Y := by
  unfold tfBin
  rw [psd_scale, csd_scale]
  by_cases h : psd c X = 0
  · rw [if_pos h, if_pos (by rw [h, mul_zero])]
  · rw [if_neg h, if_neg (mul_ne_zero ha h)]
    have : (a : ℂ) ≠ 0 := by exact_mod_cast ha
    push_cast
    rw [mul_div_mul_left _ _ this]

theorem cohBin_scale {a : ℝ} (ha : a ≠ 0) (c : ℝ) (X Y : List ℂ) : cohBin (a * c) X Y = cohBin c X Y := by
  unfold cohBin
  rw [psd_scale, psd_scale, csd_scale, Complex.normSq_mul, Complex.normSq_ofReal,
    show a * psd c X * (a * psd c Y) = a * a * (psd c X * psd c Y) by ring]
  by_cases h : psd c X * psd c Y = 0
  · rw [if_pos h, if_pos (by rw [h, mul_zero])]
  · rw [if_neg h, if_neg (mul_ne_zero (mul_ne_zero ha ha) h), mul_div_mul_left _ _ (mul_ne_zero ha ha)]

theorem pairTf_slow {c : ℝ} (hc : 0 < c) (dt : ℝ) (navgs : ℕ) (ov : ℝ) (win : ℕ → List ℝ) (det : Detrend) (L k : ℕ) (x y : List ℝ) :
    pairTf ⟨c * dt, navgs, ov, win, det⟩ L k x y = (pairTf ⟨dt, navgs, ov, win, det⟩ L k x y).map (slowRow c) := by
  unfold pairTf
  rw [List.map_map]
  apply List.map_congr_left
  intro j _
  have e : psdScale (win L) (c * dt) L j = c * psdScale (win L) dt L j := by unfold psdScale; ring
  simp only [Function.comp, slowRow, e, tfBin_scale hc.ne', cohBin_scale hc.ne']
  congr 1
  rw [div_div]
  congr 1
  ring

theorem freqOk_slow {c : ℝ} (hc : 0 < c) (fl : Option ℝ) (f : ℝ) : FreqOk (fl.map (· / c)) (f / c) ↔ FreqOk fl f := by
  unfold FreqOk
  cases fl with
  | none => simp
  | some l => simp [div_lt_div_iff_of_pos_right hc]

theorem mask_slow {c : ℝ} (hc : 0 < c) (l fl : Option ℝ) (rows : List Row) : maskOf l (fl.map (· / c)) (rows.map (slowRow c)) = maskOf l fl rows := by
  unfold maskOf
  rw [List.map_map]
  apply List.map_congr_left
  intro r _
  have h : (CohOk l (slowRow c r).coh ∧ FreqOk (fl.map (· / c)) (slowRow c r).f) ↔ (CohOk l r.coh ∧ FreqOk fl r.f) :=
    and_congr Iff.rfl (freqOk_slow hc fl r.f)
  exact decide_eq_decide.2 h

theorem multi_slow {c : ℝ} (hc : 0 < c) (l fl : Option ℝ) (rows : List Row) :
    multiDelay l (fl.map (· / c)) (rows.map (slowRow c)) = (multiDelay l fl rows).map (c * ·) := by
  classical
  have e : multiUsed l (fl.map (· / c)) (rows.map (slowRow c)) = (multiUsed l fl rows).map fun p => (p.1 / c, p.2) := by
    unfold multiUsed
    simp only [List.filter_map, List.map_map, Function.comp_def, slowRow, freqOk_slow hc, List.zip_map_left, List.filterMap_map, List.map_filterMap]
    congr 1
    funext p
    simp only [Prod.map, id]
    by_cases h : CohOk l p.1.coh
    · rw [if_pos (show CohOk l (slowRow c p.1).coh from h), if_pos h]
      cases p.2 <;> rfl
    · rw [if_neg (show ¬ CohOk l (slowRow c p.1).coh from h), if_neg h]
      rfl
  unfold multiDelay
  rw [e]
  have h0 : (∀ r ∈ rows.map (slowRow c), r.tf = none) ↔ ∀ r ∈ rows, r.tf = none := by simp [slowRow]
  simp only [h0, List.map_map, Function.comp_def]
  have hs : ((multiUsed l fl rows).map fun p => p.1 / c).sum = ((multiUsed l fl rows).map Prod.fst).sum / c := by
    simp only [div_eq_mul_inv, List.sum_map_mul_right]
  rw [hs]
  split_ifs with h1 h2 h3 h3
  · rfl
  · simp
  · exact absurd (by rw [div_eq_zero_iff] at h2; exact h2.resolve_right hc.ne') h3
  · exact absurd (by rw [h3, zero_div]) h2
  · simp only [Option.map_some, Option.some.injEq]
    have := hc.ne'
    have h3' : ((multiUsed l fl rows).map Prod.fst).sum ≠ 0 := h3
    change -((multiUsed l fl rows).map Prod.snd).sum / (2 * Real.pi * (((multiUsed l fl rows).map Prod.fst).sum / c)) = _
    have := Real.pi_pos.ne'
    field_simp

theorem filterMap_length_full {l : List (Option ℝ)} (h : none ∉ l) : (l.filterMap id).length = l.length := by
  induction l with
  | nil => rfl
  | cons o l ih =>
    rw [List.mem_cons, not_or] at h
    cases o with
    | none => exact absurd rfl h.1
    | some v => rw [List.filterMap_cons_some (by rfl), List.length_cons, List.length_cons, ih h.2]

theorem fit_slow {c : ℝ} (hc : 0 < c) (l fl : Option ℝ) (rows : List Row) (hne : ∃ r ∈ rows, Coherent l r ∧ Below fl r ∧ r.f ≠ 0) :
    fitDelay l (fl.map (· / c)) (rows.map (slowRow c)) = (fitDelay l fl rows).map (c * ·) := by
  classical
  unfold fitDelay
  have e : (rows.map (slowRow c)).filter (fun r => decide (CohOk l r.coh ∧ FreqOk (fl.map (· / c)) r.f)) =
      (rows.filter fun r => decide (CohOk l r.coh ∧ FreqOk fl r.f)).map (slowRow c) := by
    simp only [List.filter_map, Function.comp_def, slowRow, freqOk_slow hc]
  simp only [e]
  set sub := rows.filter fun r => decide (CohOk l r.coh ∧ FreqOk fl r.f) with hsub
  have e1 : (sub.map (slowRow c)).map (fun r => angle r.tf) = sub.map fun r => angle r.tf := by
    rw [List.map_map]; rfl
  rw [e1]
  by_cases hn : sub = [] ∨ none ∈ unwrap (sub.map fun r => angle r.tf)
  · rw [if_pos hn, if_pos (by rwa [List.map_eq_nil_iff])]; rfl
  rw [if_neg hn, if_neg (by rwa [List.map_eq_nil_iff])]
  push Not at hn
  set ph := (unwrap (sub.map fun r => angle r.tf)).filterMap id with hph
  have e2 : ((sub.map (slowRow c)).map Row.f).zip ph = ((sub.map Row.f).zip ph).map fun p => (p.1 / c, p.2) := by
    rw [List.map_map, show Row.f ∘ slowRow c = (fun f => f / c) ∘ Row.f from rfl, ← List.map_map, List.zip_map_left]
    rfl
  have hlen : ph.length = sub.length := by
    rw [hph, filterMap_length_full hn.2, unwrap_length]
    simp
  rw [e2]
  simp only [List.map_map, Function.comp_def, div_pow]
  set u := (sub.map Row.f).zip ph with hu
  have hb : (u.map fun p => p.1 ^ 2 / c ^ 2).sum = (u.map fun p => p.1 ^ 2).sum / c ^ 2 := by
    simp only [div_eq_mul_inv, List.sum_map_mul_right]
  have ha : (u.map fun p => p.1 / c * p.2).sum = (u.map fun p => p.1 * p.2).sum / c := by
    rw [div_eq_mul_inv, ← List.sum_map_mul_right]
    congr 1
    apply List.map_congr_left
    intro p _
    ring
  have hpos : 0 < (u.map fun p => p.1 ^ 2).sum := by
    obtain ⟨r, hr, h1, h2, h3⟩ := hne
    have hr' : r ∈ sub := List.mem_filter.2 ⟨hr, by rw [decide_eq_true_iff]; exact ⟨TfMirror.coherent_cohOk.2 h1, below_freqOk.2 h2⟩⟩
    have hf : u.map (fun p => p.1 ^ 2) = (sub.map Row.f).map fun f => f ^ 2 := by
      rw [← List.map_fst_zip (l₁ := sub.map Row.f) (l₂ := ph) (by simp [hlen]), List.map_map]
      rfl
    rw [hf]
    refine lt_of_lt_of_le (pow_pos (abs_pos.2 h3) 2) ?_
    rw [sq_abs]
    exact List.single_le_sum (by simp only [List.mem_map]; rintro _ ⟨f, -, rfl⟩; positivity) _ (List.mem_map.2 ⟨r.f, List.mem_map.2 ⟨r, hr', rfl⟩, rfl⟩)
  rw [hb, ha, if_neg hpos.ne', if_neg (div_ne_zero hpos.ne' (pow_ne_zero 2 hc.ne'))]
  simp only [Option.map_some, Option.some.injEq]
  have := hc.ne'
  have := hpos.ne'
  have := Real.pi_pos.ne'
  field_simp

theorem meanCoh_slow {c : ℝ} (hc : 0 < c) (fl : ℝ) (rows : List Row) : meanCoh (fl / c) (rows.map (slowRow c)) = meanCoh fl rows := by
  classical
  have e : (rows.map (slowRow c)).filter (fun r => decide (r.f < fl / c)) = (rows.filter fun r => decide (r.f < fl)).map (slowRow c) := by
    simp only [List.filter_map, Function.comp_def, slowRow, div_lt_div_iff_of_pos_right hc]
  unfold meanCoh
  simp only [e, List.filterMap_map, List.length_map]
  rfl

theorem averaged_slow {c : ℝ} (hc : 0 < c) (dt : ℝ) (navgs : ℕ) (ov : ℝ) (win : ℕ → List ℝ) (det : Detrend) (ins outs : List (String × List ℝ)) :
    averagedTf ⟨c * dt, navgs, ov, win, det⟩ ins outs =
      (averagedTf ⟨dt, navgs, ov, win, det⟩ ins outs).map fun t => t.map fun p => (p.1, p.2.map (slowRow c)) := by
  unfold averagedTf
  cases pairCols ins outs with
  | error e => rfl
  | ok ps =>
    simp only
    split_ifs
    · rfl
    · rfl
    · simp only [Except.map, List.map_map, Function.comp_def, pairTf_slow hc]

/-- C224: with the sampling interval and the frequency limit expressed in another unit of time (`c` new units are one old unit), `compute_delays_tf` returns
the same delays in the new unit, the same masks and mean coherences, or the same error.  With 'fit' some usable bin of every pair must have a frequency other
than 0 (otherwise the start value 1 of the fit is returned in any unit). -/
theorem C224_delays (c : ℝ) (hc : 0 < c) (dt : ℝ) (navgs : ℕ) (ov : ℝ) (win : ℕ → List ℝ) (det : Detrend) (ins outs : List (String × List ℝ))
    (cohLim freqLim : Option ℝ) (method : String)
    (hfit : method = "fit" → ∀ tf, averagedTf ⟨dt, navgs, ov, win, .none⟩ ins outs = .ok tf → ∀ p ∈ tf, ∃ r ∈ p.2, Coherent cohLim r ∧ Below freqLim r ∧ r.f ≠ 0) :
    computeDelaysTf ⟨c * dt, navgs, ov, win, det⟩ ins outs cohLim (freqLim.map (· / c)) method =
      (computeDelaysTf ⟨dt, navgs, ov, win, det⟩ ins outs cohLim freqLim method).map fun r => r.map fun t => (t.1.map (c * ·), t.2) := by
  unfold computeDelaysTf
  by_cases h0 : 1 < ins.length ∧ 1 < outs.length ∧ ins.length ≠ outs.length
  · rw [if_pos h0, if_pos h0]; rfl
  rw [if_neg h0, if_neg h0]
  simp only [averaged_slow hc]
  cases htf : averagedTf ⟨dt, navgs, ov, win, .none⟩ ins outs with
  | error e => rfl
  | ok tf =>
    have hn : (tf.map fun p => (p.1, p.2.map (slowRow c))).map Prod.fst = tf.map Prod.fst := by
      rw [List.map_map]; rfl
    simp only [Except.map]
    rw [hn]
    by_cases h1 : method = "fit" ∧ ¬ (tf.map Prod.fst).Nodup
    · rw [if_pos h1, if_pos h1]
    rw [if_neg h1, if_neg h1]
    by_cases h2 : method ≠ "fit" ∧ method ≠ "multi"
    · rw [if_pos h2, if_pos h2]
    rw [if_neg h2, if_neg h2]
    cases freqLim with
    | none => rfl
    | some fl =>
      simp only [Option.map_some, Except.ok.injEq, List.map_map]
      apply List.map_congr_left
      intro p hp
      simp only [Function.comp]
      refine Prod.ext ?_ (Prod.ext (mask_slow hc cohLim (some fl) p.2) (meanCoh_slow hc fl p.2))
      by_cases hm : method = "fit"
      · simp only [if_pos hm]
        exact fit_slow hc cohLim (some fl) p.2 (hfit hm tf htf p hp)
      · simp only [if_neg hm]
        exact multi_slow hc cohLim (some fl) p.2

/-! ## Predicted positions -/

theorem magnitude_slow {c : ℝ} (hc : 0 < c) (v : Vec) : magnitude (v.1 / c, v.2 / c) = magnitude v / c := by
  unfold magnitude
  simp only [div_pow]
  rw [← add_div, Real.sqrt_div' _ (by positivity), Real.sqrt_sq hc.le]

theorem project_slow {c : ℝ} (hc : 0 < c) (vs : List Vec) (v : Vec) : projectVectors vs (v.1 / c, v.2 / c) = projectVectors vs v := by
  have : unit (v.1 / c, v.2 / c) = unit v := by
    unfold unit
    rw [magnitude_slow hc]
    by_cases h : magnitude v = 0
    · rw [if_pos h, if_pos (by rw [h, zero_div])]
    · rw [if_neg h, if_neg (div_ne_zero h hc.ne'), div_div_div_cancel_right₀ hc.ne', div_div_div_cancel_right₀ hc.ne']
  unfold projectVectors
  rw [this]

theorem angle_slow {c : ℝ} (hc : 0 < c) (v : Vec) : (rect2pol (v.1 / c) (v.2 / c)).2 = (rect2pol v.1 v.2).2 := by
  unfold rect2pol arctan2
  simp only
  have : (⟨v.1 / c, v.2 / c⟩ : ℂ) = ((1 / c : ℝ) : ℂ) * ⟨v.1, v.2⟩ := by
    apply Complex.ext
    · simp; ring
    · simp; ring
  rw [this, Complex.arg_real_mul _ (by positivity)]

/-- A row of the table with the delay in the other unit. -/
noncomputable def later (c : ℝ) (r : PosRow) : PosRow := ⟨r.delay.map (c * ·), r.planDist, r.errorDist, r.coh⟩

theorem posData_slow {c : ℝ} (hc : 0 < c) (pts : List (String × Vec)) (r v : Vec) (dl ch : List (Option ℝ)) :
    posData pts r ⟨(v.1 / c, v.2 / c), dl.map (Option.map (c * ·)), ch⟩ =
      (posData pts r ⟨v, dl, ch⟩).map fun d => d.map fun q => (q.1, later c q.2) := by
  unfold posData
  simp only [List.length_map, project_slow hc, magnitude_slow hc]
  split_ifs with h
  · have e : (dl.map (Option.map (c * ·))).map (fun d => d.map fun d => -d * (magnitude v / c)) = dl.map fun d => d.map fun d => -d * magnitude v := by
      rw [List.map_map]
      apply List.map_congr_left
      intro d _
      cases d with
      | none => rfl
      | some d =>
        simp only [Function.comp, Option.map_some, Option.some.injEq]
        field_simp
    rw [e]
    simp only [Except.map, Except.ok.injEq]
    rw [show (fun q : String × PosRow => (q.1, later c q.2)) = Prod.map id (later c) from rfl, ← List.zip_map_right]
    congr 1
    rw [List.map_zipWith, List.zip_map_left, List.zipWith_map_left]
    rfl
  · rfl

theorem locRows_later (c : ℝ) (d : List (String × PosRow)) (ix : List String) :
    locRows (d.map fun q => (q.1, later c q.2)) ix = (locRows d ix).map fun q => (q.1, later c q.2) := by
  unfold locRows
  rw [List.map_filterMap]
  congr 1
  funext l
  rw [dictGet?_map_snd]
  cases dictGet? d l <;> rfl

theorem meanError_later (c : ℝ) (d : List (String × PosRow)) : meanError (d.map fun q => (q.1, later c q.2)) = meanError d := by
  unfold meanError
  rw [List.filterMap_map]
  rfl

theorem downselect_later (sort : SortValues String) (mode : String) (n : ℤ) (c : ℝ) (pts : List (String × Vec)) (r : Vec) (d1 d2 : List (String × PosRow)) :
    downselect sort mode n pts r (d1.map fun q => (q.1, later c q.2)) (d2.map fun q => (q.1, later c q.2)) = downselect sort mode n pts r d1 d2 := by
  have e1 : ∀ d : List (String × PosRow), selectCoherence sort n (d.map fun q => (q.1, later c q.2)) = selectCoherence sort n d := by
    intro d; unfold selectCoherence; rw [List.map_map]; rfl
  have e2 : globalCoh (d1.map fun q => (q.1, later c q.2)) (d2.map fun q => (q.1, later c q.2)) = globalCoh d1 d2 := by
    unfold globalCoh
    rw [List.zipWith_map]
    rfl
  unfold downselect
  simp only [e1, e2]

theorem combine_later (sort : SortValues String) (mode : String) (n : ℤ) {c : ℝ} (hc : 0 < c) (pts : List (String × Vec)) (ne : Bool) (ref : String)
    (data : List (Vec × List (String × PosRow))) :
    combineCases sort pts ne ref mode n (data.map fun p => ((p.1.1 / c, p.1.2 / c), p.2.map fun q => (q.1, later c q.2))) =
      (combineCases sort pts ne ref mode n data).map fun r => (r.1, r.2.1.map (fun q => (q.1, later c q.2)), r.2.2.map fun q => (q.1, later c q.2)) := by
  unfold combineCases
  match data with
  | [] =>
    simp only [List.map_nil]
    split_ifs <;> rfl
  | [p] =>
    simp only [List.map_cons, List.map_nil]
    split_ifs <;> rfl
  | p :: q :: l =>
    simp only [List.map_cons]
    cases dictGet? pts ref with
    | none => rfl
    | some r =>
      simp only [downselect_later]
      cases downselect sort mode n pts r p.2 q.2 with
      | error e => rfl
      | ok ix =>
        simp only [Except.map, locRows_later, meanError_later]
        congr 2
        unfold positionFrom
        simp only [angle_slow hc]

/-- C224: the unit of time does not matter for the predicted position: with sampling intervals, cloud vectors and frequency limit expressed in another unit
the position and the tables are the same, except for the delays in the tables, which are in the new unit; errors are the same as well.  For 'fit' the proviso
of `C224_delays`. -/
theorem C224_position (c : ℝ) (hc : 0 < c) (x : Cmv.Ext) (nanD : List (Option ℝ) → List (Option ℝ) → Option ℝ) (sort : SortValues String) (ham : ℕ → List ℝ)
    (dfs : List DataSet) (pts : List (String × Vec)) (ne : Bool) (ref : String) (vs : List Vec) (mode : String)
    (n : ℤ) (navgs : ℕ) (cohLim freqLim : Option ℝ) (method : String)
    (hfit : method = "fit" → ∀ d ∈ dfs, ∀ p ∈ d.cols, p.1 = ref → ∀ tf, averagedTf ⟨d.dt, navgs, 0.5, ham, .none⟩ [p] d.cols = .ok tf →
      ∀ q ∈ tf, ∃ r ∈ q.2, Coherent cohLim r ∧ Below freqLim r ∧ r.f ≠ 0) :
    predictData x nanD sort ham (dfs.map fun d => ⟨c * d.dt, d.cols⟩) pts ne ref (some (vs.map fun v => (v.1 / c, v.2 / c))) mode n navgs cohLim
        (freqLim.map (· / c)) method =
      (predictData x nanD sort ham dfs pts ne ref (some vs) mode n navgs cohLim freqLim method).map fun r =>
        (r.1, r.2.1.map (fun q => (q.1, { q.2 with delay := q.2.delay.map (c * ·) })), r.2.2.map fun q => (q.1, { q.2 with delay := q.2.delay.map (c * ·) })) := by
  have hcase : ∀ d ∈ dfs, ∀ v : Vec, caseData ham pts ref navgs cohLim (freqLim.map (· / c)) method (⟨c * d.dt, d.cols⟩, (v.1 / c, v.2 / c)) =
      (caseData ham pts ref navgs cohLim freqLim method (d, v)).map fun p => ((p.1.1 / c, p.1.2 / c), p.2.map fun q => (q.1, later c q.2)) := by
    intro d hd v
    have hf : fieldComputeDelays ham (c * d.dt) d.cols ref navgs cohLim (freqLim.map (· / c)) method =
        (fieldComputeDelays ham d.dt d.cols ref navgs cohLim freqLim method).map fun r => (r.1.map (Option.map (c * ·)), r.2) := by
      unfold fieldComputeDelays
      cases hp : d.cols.find? fun p => decide (p.1 = ref) with
      | none => rfl
      | some p =>
        simp only
        have h1 := List.mem_of_find?_eq_some hp
        have h2 : p.1 = ref := by simpa using List.find?_some hp
        rw [C224_delays c hc d.dt navgs 0.5 ham .none [p] d.cols cohLim freqLim method (fun hm => hfit hm d hd p h1 h2)]
        cases computeDelaysTf ⟨d.dt, navgs, 0.5, ham, .none⟩ [p] d.cols cohLim freqLim method with
        | error e => rfl
        | ok r => simp [Except.map, Function.comp_def]
    unfold caseData
    simp only [hf]
    cases fieldComputeDelays ham d.dt d.cols ref navgs cohLim freqLim method with
    | error e => rfl
    | ok r =>
      simp only [Except.map]
      cases dictGet? pts ref with
      | none => rfl
      | some p =>
        simp only [posData_slow hc]
        cases posData pts p ⟨v, r.1, r.2.map finVal⟩ with
        | error e => rfl
        | ok t => rfl
  have hall : ∀ (ds : List DataSet) (vs : List Vec), (∀ d ∈ ds, d ∈ dfs) →
      ((ds.map fun d => (⟨c * d.dt, d.cols⟩ : DataSet)).zip (vs.map fun v => (v.1 / c, v.2 / c))).mapM
          (caseData ham pts ref navgs cohLim (freqLim.map (· / c)) method) =
        ((ds.zip vs).mapM (caseData ham pts ref navgs cohLim freqLim method)).map fun l =>
          l.map fun p => ((p.1.1 / c, p.1.2 / c), p.2.map fun q => (q.1, later c q.2)) := by
    intro ds
    induction ds with
    | nil => intro vs _; rfl
    | cons d ds ih =>
      intro vs hds
      cases vs with
      | nil => rfl
      | cons v vs =>
        simp only [List.map_cons, List.zip_cons_cons, List.mapM_cons, hcase d (hds d List.mem_cons_self) v, ih vs (fun d' h => hds d' (List.mem_cons_of_mem _ h))]
        cases caseData ham pts ref navgs cohLim freqLim method (d, v) with
        | error e => rfl
        | ok p =>
          cases (ds.zip vs).mapM (caseData ham pts ref navgs cohLim freqLim method) with
          | error e => rfl
          | ok l => rfl
  unfold predictData
  simp only [bind, Except.bind, hall dfs vs (fun _ h => h)]
  cases (dfs.zip vs).mapM (caseData ham pts ref navgs cohLim freqLim method) with
  | error e => rfl
  | ok l =>
    simp only [Except.map]
    exact combine_later sort mode n hc pts ne ref l

/-- The two-site case of C137 in minutes: the same position. -/
example (x : Cmv.Ext) (nanD : List (Option ℝ) → List (Option ℝ) → Option ℝ) (sort : SortValues String) (ham : ℕ → List ℝ) (hh : ham 2 = [0.08, 1]) :
    ∃ s1 s2, predictData x nanD sort ham ([twoCols [1, 0], twoCols [1, 0]].map fun d => ⟨1 / 60 * d.dt, d.cols⟩) twoSites false "a"
      (some ([(1, 0), (0, 1)].map fun v => (v.1 / (1 / 60), v.2 / (1 / 60)))) "all" 8 1 none ((some 0.02).map (· / (1 / 60))) "multi" =
      .ok ((.fin 5, .fin 2.5), s1, s2) := by
  obtain ⟨s1, s2, h⟩ := demo_result x nanD sort ham hh
  rw [C224_position (1 / 60) (by norm_num) x nanD sort ham [twoCols [1, 0], twoCols [1, 0]] twoSites false "a" [(1, 0), (0, 1)] "all" 8 1 none (some 0.02) "multi"
    (fun h => absurd h (by decide)), h]
  exact ⟨_, _, rfl⟩

/-- The records of C223 meet the proviso for 'fit'. -/
example : ∀ tf, averagedTf ⟨1, 1, 0, fun _ => [1, 1, 1], .none⟩ [("a", [1, 0, 0])] [("b", [0, 1, 0])] = .ok tf →
    ∀ p ∈ tf, ∃ r ∈ p.2, Coherent none r ∧ Below (some 0.4) r ∧ r.f ≠ 0 := by
  intro tf h p hp
  obtain ⟨-, -, -, rfl⟩ := averagedTf_pair _ _ _ _ _ h
  rw [List.mem_singleton] at hp
  subst hp
  refine ⟨_, List.mem_map.2 ⟨1, List.mem_range.2 (by norm_num), rfl⟩, ?_⟩
  simp [Coherent, Below]
  norm_num

end SST.Props.TimeUnit
