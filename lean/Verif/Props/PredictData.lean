import Verif.Props.Predict
import Verif.Props.TfDelay
import Verif.Props.CmvXcorr
import Verif.Model.Predict
import Verif.Spec.PredictData

/-!
# Properties C137-C141: `compute_predicted_position` from the data
-/

namespace SST.Props.PredictData
open SST SST.Field SST.Spec SST.Spatial SST.Props.Predict

/-! ## The call for two data frames -/

/-- With two frames and two vectors the call is `predictedPosition` on the delays of the frames. -/
theorem predictData_ok {x : Cmv.Ext} {nanD : List (Option ℝ) → List (Option ℝ) → Option ℝ} {sort : SortValues String} {ham : ℕ → List ℝ}
    {d1 d2 : DataSet} {pts : List (String × Vec)} {ne : Bool} {ref : String} {v1 v2 : Vec} {mode : String} {n : ℤ} {navgs : ℕ}
    {cohLim freqLim : Option ℝ} {method : String} {r1 r2 : List (Option ℝ) × List XR}
    (h1 : Tf.fieldComputeDelays ham d1.dt d1.cols ref navgs cohLim freqLim method = .ok r1)
    (h2 : Tf.fieldComputeDelays ham d2.dt d2.cols ref navgs cohLim freqLim method = .ok r2) :
    predictData x nanD sort ham [d1, d2] pts ne ref (some [v1, v2]) mode n navgs cohLim freqLim method =
      predictedPosition sort pts ne ref mode n ⟨v1, r1.1, r1.2.map Tf.finVal⟩ ⟨v2, r2.1, r2.2.map Tf.finVal⟩ := by
  unfold predictData predictedPosition
  simp only [bind, Except.bind, List.zip_cons_cons, List.zip_nil_right, List.mapM_cons, List.mapM_nil, caseData, h1, h2]
  cases hr : dictGet? pts ref with
  | none => rfl
  | some r =>
    simp only
    cases posData pts r ⟨v1, r1.1, r1.2.map Tf.finVal⟩ with
    | error e => rfl
    | ok e1 =>
      simp only [Except.map]
      cases posData pts r ⟨v2, r2.1, r2.2.map Tf.finVal⟩ with
      | error e => rfl
      | ok e2 => simp only [pure, Except.pure, combineCases, hr]; rfl

/-- If the call succeeds, the delays of both frames were found. -/
theorem predictData_inv {x : Cmv.Ext} {nanD : List (Option ℝ) → List (Option ℝ) → Option ℝ} {sort : SortValues String} {ham : ℕ → List ℝ}
    {d1 d2 : DataSet} {pts : List (String × Vec)} {ne : Bool} {ref : String} {v1 v2 : Vec} {mode : String} {n : ℤ} {navgs : ℕ}
    {cohLim freqLim : Option ℝ} {method : String} {res : (XR × XR) × List (String × PosRow) × List (String × PosRow)}
    (h : predictData x nanD sort ham [d1, d2] pts ne ref (some [v1, v2]) mode n navgs cohLim freqLim method = .ok res) :
    ∃ r1 r2, Tf.fieldComputeDelays ham d1.dt d1.cols ref navgs cohLim freqLim method = .ok r1 ∧
      Tf.fieldComputeDelays ham d2.dt d2.cols ref navgs cohLim freqLim method = .ok r2 := by
  unfold predictData at h
  simp only [bind, Except.bind, List.zip_cons_cons, List.zip_nil_right, List.mapM_cons, List.mapM_nil, caseData] at h
  cases h1 : Tf.fieldComputeDelays ham d1.dt d1.cols ref navgs cohLim freqLim method with
  | error e => rw [h1] at h; cases h
  | ok r1 =>
    cases h2 : Tf.fieldComputeDelays ham d2.dt d2.cols ref navgs cohLim freqLim method with
    | ok r2 => exact ⟨r1, r2, rfl, rfl⟩
    | error e =>
      exfalso
      rw [h1, h2] at h
      simp only at h
      cases hr : dictGet? pts ref with
      | none => rw [hr] at h; cases h
      | some r =>
        rw [hr] at h
        simp only at h
        cases hp : posData pts r ⟨v1, r1.1, r1.2.map Tf.finVal⟩ with
        | error e => rw [hp] at h; cases h
        | ok e1 => rw [hp] at h; cases h

/-! ## C139: similarities -/

theorem turn_dot (k θ : ℝ) (v w : Vec) : (turn k θ v).1 * (turn k θ w).1 + (turn k θ v).2 * (turn k θ w).2 = k ^ 2 * (v.1 * w.1 + v.2 * w.2) := by
  have := Real.sin_sq_add_cos_sq θ
  simp only [turn]
  linear_combination (k ^ 2 * (v.1 * w.1 + v.2 * w.2)) * this

theorem turn_cross (k θ : ℝ) (v w : Vec) : (turn k θ v).1 * (turn k θ w).2 - (turn k θ v).2 * (turn k θ w).1 = k ^ 2 * (v.1 * w.2 - v.2 * w.1) := by
  have := Real.sin_sq_add_cos_sq θ
  simp only [turn]
  linear_combination (k ^ 2 * (v.1 * w.2 - v.2 * w.1)) * this

theorem turn_magnitude (k θ : ℝ) (hk : 0 < k) (v : Vec) : magnitude (turn k θ v) = k * magnitude v := by
  unfold magnitude
  have := turn_dot k θ v v
  rw [← pow_two, ← pow_two] at this
  rw [this, Real.sqrt_mul (sq_nonneg k), Real.sqrt_sq hk.le]
  congr 2
  ring

theorem turn_sub (k θ : ℝ) (t p r : Vec) : ((similar k θ t p).1 - (similar k θ t r).1, (similar k θ t p).2 - (similar k θ t r).2) =
    turn k θ (p.1 - r.1, p.2 - r.2) := by
  simp only [similar, turn, Prod.fst_add, Prod.snd_add]
  ext <;> simp <;> ring

/-- Distances multiplied. -/
noncomputable def stretch (k : ℝ) (r : PosRow) : PosRow := ⟨r.delay, r.planDist.map (k * ·), r.errorDist.map (k * ·), r.coh⟩

theorem project_turn (k θ : ℝ) (hk : 0 < k) (vs : List Vec) (v : Vec) :
    projectVectors (vs.map (turn k θ)) (turn k θ v) = (projectVectors vs v).map (Option.map (k * ·)) := by
  unfold projectVectors
  rw [List.map_map, List.map_map]
  apply List.map_congr_left
  intro w _
  simp only [Function.comp, unit, turn_magnitude k θ hk]
  by_cases h : magnitude v = 0
  · simp [h]
  · rw [if_neg (mul_ne_zero hk.ne' h), if_neg h]
    simp only [Option.map_some, Option.some.injEq]
    have := turn_dot k θ w v
    field_simp
    linear_combination this

theorem posData_similar (k θ : ℝ) (hk : 0 < k) (t : Vec) (pts : List (String × Vec)) (r v : Vec) (dl ch : List (Option ℝ)) :
    posData (pts.map fun p => (p.1, similar k θ t p.2)) (similar k θ t r) ⟨turn k θ v, dl, ch⟩ =
      (posData pts r ⟨v, dl, ch⟩).map fun d => d.map fun q => (q.1, stretch k q.2) := by
  unfold posData
  simp only [List.length_map]
  split_ifs with h
  · simp only [Except.map, Except.ok.injEq]
    have e1 : (List.map (fun v => (-v.1, -v.2)) (computeVectors (List.map (fun p => p.2.1) (pts.map fun p => (p.1, similar k θ t p.2)))
        (List.map (fun p => p.2.2) (pts.map fun p => (p.1, similar k θ t p.2))) (similar k θ t r) [])) =
        (List.map (fun v => (-v.1, -v.2)) (computeVectors (List.map (fun p => p.2.1) pts) (List.map (fun p => p.2.2) pts) r [])).map (turn k θ) := by
      simp only [computeVectors, List.map_map, List.zip_map', Function.comp_def]
      apply List.map_congr_left
      intro p _
      simp only [similar, turn, Prod.fst_add, Prod.snd_add]
      ext <;> simp <;> ring
    rw [e1, project_turn k θ hk]
    set P := projectVectors (List.map (fun v => (-v.1, -v.2)) (computeVectors (List.map (fun p => p.2.1) pts) (List.map (fun p => p.2.2) pts) r [])) v
    have e2 : (dl.map fun d => d.map fun d => -d * magnitude (turn k θ v)) = (dl.map fun d => d.map fun d => -d * magnitude v).map (Option.map (k * ·)) := by
      rw [List.map_map]
      apply List.map_congr_left
      intro d _
      cases d with
      | none => rfl
      | some d => simp only [Option.map_some, Function.comp, turn_magnitude k θ hk]; congr 1; ring
    rw [e2]
    set D := dl.map fun d => d.map fun d => -d * magnitude v
    have e3 : List.zipWith (fun (a b : Option ℝ) => a.bind fun a => b.map fun b => a - b) (D.map (Option.map (k * ·))) (P.map (Option.map (k * ·))) =
        (List.zipWith (fun (a b : Option ℝ) => a.bind fun a => b.map fun b => a - b) D P).map (Option.map (k * ·)) := by
      rw [List.zipWith_map, List.map_zipWith]
      congr 1
      funext a b
      cases a <;> cases b <;> simp
      ring
    rw [e3]
    set E := List.zipWith (fun (a b : Option ℝ) => a.bind fun a => b.map fun b => a - b) D P
    rw [List.map_map, show (Prod.fst ∘ fun p : String × Vec => (p.1, similar k θ t p.2)) = Prod.fst from rfl]
    have e4 : List.zipWith (fun (dp : Option ℝ × Option ℝ) (ec : Option ℝ × Option ℝ) => PosRow.mk dp.1 dp.2 ec.1 ec.2)
        (dl.zip (P.map (Option.map (k * ·)))) ((E.map (Option.map (k * ·))).zip ch) =
        (List.zipWith (fun (dp : Option ℝ × Option ℝ) (ec : Option ℝ × Option ℝ) => PosRow.mk dp.1 dp.2 ec.1 ec.2) (dl.zip P) (E.zip ch)).map (stretch k) := by
      rw [List.zip_map_right, List.zip_map_left, List.zipWith_map, List.map_zipWith]
      rfl
    rw [e4, List.zip_map_right]
    rfl
  · rfl

theorem dictGet?_map_snd {α β : Type} (f : α → β) (d : List (String × α)) (k : String) :
    dictGet? (d.map fun q => (q.1, f q.2)) k = (dictGet? d k).map f := by
  induction d with
  | nil => rfl
  | cons p d ih =>
    rw [List.map_cons, SST.dictGet?_cons, SST.dictGet?_cons]
    split_ifs
    · rfl
    · exact ih

theorem locRows_stretch (k : ℝ) (d : List (String × PosRow)) (ix : List String) :
    locRows (d.map fun q => (q.1, stretch k q.2)) ix = (locRows d ix).map fun q => (q.1, stretch k q.2) := by
  unfold locRows
  rw [List.map_filterMap]
  congr 1
  funext l
  rw [dictGet?_map_snd]
  cases dictGet? d l <;> rfl

theorem meanO_mul (k : ℝ) (l : List ℝ) : meanO (l.map (k * ·)) = (meanO l).map (k * ·) := by
  unfold meanO
  by_cases h : l = []
  · simp [h]
  · rw [if_neg (by simpa using h), if_neg h]
    simp only [Option.map_some, Option.some.injEq, mean, List.length_map]
    rw [List.sum_map_mul_left]
    simp [mul_div_assoc]

theorem meanError_stretch (k : ℝ) (d : List (String × PosRow)) :
    meanError (d.map fun q => (q.1, stretch k q.2)) = (meanError d).map (k * ·) := by
  unfold meanError
  rw [← meanO_mul, List.filterMap_map, List.map_filterMap]
  rfl

theorem position_cross {a b : ℝ} {v1 v2 r : Vec} {x y : ℝ} (hV1 : v1 ≠ 0) (hV2 : v2 ≠ 0) (h : positionFrom (some a) (some b) v1 v2 r = (.fin x, .fin y)) :
    v1.1 * v2.2 - v1.2 * v2.1 ≠ 0 := by
  intro h0
  unfold positionFrom at h
  simp only [pol2rect_arg _ _ hV1, pol2rect_arg _ _ hV2] at h
  have hd : b * (v2.1 / magnitude v2) * (a * (v1.2 / magnitude v1)) - a * (v1.1 / magnitude v1) * (b * (v2.2 / magnitude v2)) = 0 := by
    have : b * (v2.1 / magnitude v2) * (a * (v1.2 / magnitude v1)) - a * (v1.1 / magnitude v1) * (b * (v2.2 / magnitude v2)) =
      -(a * b / (magnitude v1 * magnitude v2)) * (v1.1 * v2.2 - v1.2 * v2.1) := by ring
    rw [this, h0, mul_zero]
  simp only [intersect1, hd, XR.div, if_true] at h
  simp only [Prod.mk.injEq] at h
  have h := h.1
  split_ifs at h <;> simp [XR.addR] at h

theorem position_similar (k θ : ℝ) (hk : 0 < k) (t v1 v2 r : Vec) (hV1 : v1 ≠ 0) (hV2 : v2 ≠ 0) (a b : Option ℝ) (x y : ℝ)
    (h : positionFrom a b v1 v2 r = (.fin x, .fin y)) :
    positionFrom (a.map (k * ·)) (b.map (k * ·)) (turn k θ v1) (turn k θ v2) (similar k θ t r) =
      (.fin (similar k θ t (x, y)).1, .fin (similar k θ t (x, y)).2) := by
  cases a with
  | none => simp [positionFrom] at h
  | some a =>
  cases b with
  | none => simp [positionFrom] at h
  | some b =>
  have ha : a ≠ 0 := by
    rintro rfl; rw [position_zero _ _ _ _ _ (Or.inl rfl)] at h; simp at h
  have hb : b ≠ 0 := by
    rintro rfl; rw [position_zero _ _ _ _ _ (Or.inr rfl)] at h; simp at h
  have hX : v1.1 * v2.2 - v1.2 * v2.1 ≠ 0 := position_cross hV1 hV2 h
  have m1 := magnitude_pos hV1
  have m2 := magnitude_pos hV2
  set D := v1.1 * v2.2 - v1.2 * v2.1 with hD
  set w : Vec := ((a * magnitude v1 * v2.2 - b * magnitude v2 * v1.2) / D,
    (b * magnitude v2 * v1.1 - a * magnitude v1 * v2.1) / D) with hw
  have w1 : a * magnitude v1 = w.1 * v1.1 + w.2 * v1.2 := by simp only [hw]; field_simp; rw [hD]; ring
  have w2 : b * magnitude v2 = w.1 * v2.1 + w.2 * v2.2 := by simp only [hw]; field_simp; rw [hD]; ring
  have h1 := position_solves v1 v2 w r hX a b w1 w2 ha hb
  rw [h1] at h
  simp only [Prod.mk.injEq, XR.fin.injEq] at h
  have h2 := position_solves (turn k θ v1) (turn k θ v2) (turn k θ w) (similar k θ t r)
    (by rw [turn_cross]; exact mul_ne_zero (pow_ne_zero 2 hk.ne') hX) (k * a) (k * b)
    (by rw [turn_dot, turn_magnitude k θ hk, ← w1]; ring) (by rw [turn_dot, turn_magnitude k θ hk, ← w2]; ring)
    (mul_ne_zero hk.ne' ha) (mul_ne_zero hk.ne' hb)
  simp only [Option.map_some]
  rw [h2, ← h.1, ← h.2]
  simp only [similar, turn, Prod.fst_add, Prod.snd_add, Prod.mk.injEq, XR.fin.injEq]
  constructor <;> ring

theorem posData_zero {pts : List (String × Vec)} {r : Vec} {dl ch : List (Option ℝ)} {d : List (String × PosRow)}
    (h : posData pts r ⟨0, dl, ch⟩ = .ok d) : ∀ q ∈ d, q.2.errorDist = none := by
  unfold posData at h
  split_ifs at h
  simp only [Except.ok.injEq] at h
  intro q hq
  rw [← h] at hq
  have hq2 := (List.of_mem_zip hq).2
  rw [List.mem_iff_getElem] at hq2
  obtain ⟨i, hi, hq2⟩ := hq2
  rw [← hq2]
  simp only [List.getElem_zipWith, List.getElem_zip, projectVectors, List.getElem_map]
  have : unit (0 : Vec) = none := by simp [unit, magnitude]
  simp [this]

theorem locRows_mem {d : List (String × PosRow)} {ix : List String} {q : String × PosRow} (h : q ∈ locRows d ix) : q ∈ d := by
  unfold locRows at h
  obtain ⟨l, -, hl⟩ := List.mem_filterMap.1 h
  obtain ⟨r, hr, rfl⟩ := Option.map_eq_some_iff.1 hl
  exact SST.dictGet?_mem hr

theorem meanError_zero {pts : List (String × Vec)} {r : Vec} {dl ch : List (Option ℝ)} {d : List (String × PosRow)} (ix : List String)
    (h : posData pts r ⟨0, dl, ch⟩ = .ok d) : meanError (locRows d ix) = none := by
  unfold meanError
  rw [List.filterMap_eq_nil_iff.2 (fun q hq => posData_zero h q (locRows_mem hq))]
  simp [meanO]

theorem downselect_similar (sort : SortValues String) (mode : String) (n : ℤ) (k θ : ℝ) (hk : 0 < k) (hm : mode ≠ "distance" ∨ k = 1) (t : Vec)
    (pts : List (String × Vec)) (r : Vec) (d1 d2 : List (String × PosRow)) :
    downselect sort mode n (pts.map fun p => (p.1, similar k θ t p.2)) (similar k θ t r) (d1.map fun q => (q.1, stretch k q.2))
      (d2.map fun q => (q.1, stretch k q.2)) = downselect sort mode n pts r d1 d2 := by
  have e1 : ∀ d : List (String × PosRow), selectCoherence sort n (d.map fun q => (q.1, stretch k q.2)) = selectCoherence sort n d := by
    intro d; unfold selectCoherence; rw [List.map_map]; rfl
  have e2 : globalCoh (d1.map fun q => (q.1, stretch k q.2)) (d2.map fun q => (q.1, stretch k q.2)) = globalCoh d1 d2 := by
    unfold globalCoh; rw [List.zipWith_map]; rfl
  have e3 : (pts.map fun p => (p.1, similar k θ t p.2)).map Prod.fst = pts.map Prod.fst := by rw [List.map_map]; rfl
  unfold downselect
  rw [e1, e1, e2, e3]
  by_cases hd : mode = "distance"
  · have hk1 : k = 1 := hm.resolve_left (fun h => h hd)
    subst hk1
    have e4 : ((pts.map fun p => (p.1, similar 1 θ t p.2)).map fun p => (p.1, some (magnitude (p.2.1 - (similar 1 θ t r).1, p.2.2 - (similar 1 θ t r).2)))) =
        pts.map fun p => (p.1, some (magnitude (p.2.1 - r.1, p.2.2 - r.2))) := by
      rw [List.map_map]
      apply List.map_congr_left
      intro p _
      simp only [Function.comp, turn_sub, turn_magnitude 1 θ one_pos, one_mul]
    simp only [e4]
  · simp only [if_neg hd]

theorem predicted_similar (sort : SortValues String) (pts : List (String × Vec)) (ref : String) (mode : String) (n : ℤ) (k θ : ℝ) (hk : 0 < k)
    (hm : mode ≠ "distance" ∨ k = 1) (t : Vec) (v1 v2 : Vec) (dl1 ch1 dl2 ch2 : List (Option ℝ)) (x y : ℝ)
    (s1 s2 : List (String × PosRow))
    (h : predictedPosition sort pts false ref mode n ⟨v1, dl1, ch1⟩ ⟨v2, dl2, ch2⟩ = .ok ((.fin x, .fin y), s1, s2)) :
    predictedPosition sort (pts.map fun p => (p.1, similar k θ t p.2)) false ref mode n ⟨turn k θ v1, dl1, ch1⟩ ⟨turn k θ v2, dl2, ch2⟩ =
      .ok ((.fin (similar k θ t (x, y)).1, .fin (similar k θ t (x, y)).2), s1.map (fun q => (q.1, stretch k q.2)),
        s2.map fun q => (q.1, stretch k q.2)) := by
  unfold predictedPosition at h ⊢
  rw [dictGet?_map_snd]
  cases hr : dictGet? pts ref with
  | none => rw [hr] at h; cases h
  | some r =>
    rw [hr] at h
    simp only [Option.map_some] at h ⊢
    rw [posData_similar k θ hk, posData_similar k θ hk]
    cases h1 : posData pts r ⟨v1, dl1, ch1⟩ with
    | error e => rw [h1] at h; cases h
    | ok d1 =>
    cases h2 : posData pts r ⟨v2, dl2, ch2⟩ with
    | error e => rw [h1, h2] at h; cases h
    | ok d2 =>
      rw [h1, h2] at h
      simp only [bind, Except.bind, Except.map] at h ⊢
      rw [downselect_similar sort mode n k θ hk hm]
      cases hds : downselect sort mode n pts r d1 d2 with
      | error e => rw [hds] at h; cases h
      | ok ix =>
        rw [hds] at h
        simp only [Except.ok.injEq, Prod.mk.injEq, Bool.false_eq_true, if_false] at h ⊢
        obtain ⟨hp, e1, e2⟩ := h
        rw [locRows_stretch, locRows_stretch, meanError_stretch, meanError_stretch, e1, e2]
        refine ⟨?_, rfl, rfl⟩
        have hV1 : v1 ≠ 0 := by
          rintro rfl
          rw [meanError_zero ix.1 h1] at hp
          simp [positionFrom] at hp
        have hV2 : v2 ≠ 0 := by
          rintro rfl
          rw [meanError_zero ix.2 h2] at hp
          unfold positionFrom at hp
          split at hp
          · rename_i hh; cases hh
          · simp at hp
        rw [e1, e2] at hp
        exact position_similar k θ hk t v1 v2 r hV1 hV2 _ _ x y hp

/-- C139: moving, turning and (except in mode 'distance') stretching the coordinate system, with the cloud vectors turned and
stretched alike, moves the predicted position the same way. -/
theorem C139_similarity (x : Cmv.Ext) (nanD : List (Option ℝ) → List (Option ℝ) → Option ℝ) (sort : SortValues String) (ham : ℕ → List ℝ)
    (d1 d2 : DataSet) (pts : List (String × Vec)) (ref : String) (v1 v2 : Vec) (mode : String) (n : ℤ) (navgs : ℕ) (cohLim freqLim : Option ℝ)
    (method : String) (k θ : ℝ) (hk : 0 < k) (hm : mode ≠ "distance" ∨ k = 1) (t : Vec) (e nn : ℝ) (s1 s2 : List (String × PosRow))
    (h : predictData x nanD sort ham [d1, d2] pts false ref (some [v1, v2]) mode n navgs cohLim freqLim method = .ok ((.fin e, .fin nn), s1, s2)) :
    ∃ s1' s2', predictData x nanD sort ham [d1, d2] (pts.map fun p => (p.1, similar k θ t p.2)) false ref (some [turn k θ v1, turn k θ v2])
        mode n navgs cohLim freqLim method =
      .ok ((.fin (similar k θ t (e, nn)).1, .fin (similar k θ t (e, nn)).2), s1', s2') ∧
      s1'.map Prod.fst = s1.map Prod.fst ∧ s2'.map Prod.fst = s2.map Prod.fst := by
  obtain ⟨r1, r2, h1, h2⟩ := predictData_inv h
  rw [predictData_ok h1 h2] at h
  rw [predictData_ok h1 h2]
  refine ⟨_, _, predicted_similar sort pts ref mode n k θ hk hm t v1 v2 _ _ _ _ e nn s1 s2 h, ?_, ?_⟩ <;>
  · rw [List.map_map]; rfl

/-! ## C137: cloud motion found from the data -/

theorem cloudVec_seen (x : Cmv.Ext) (hmin : LocalMinimizer x.minimizeScalar) (nanD : List (Option ℝ) → List (Option ℝ) → Option ℝ)
    (pts : List (String × Vec)) (hnd : (pts.map Prod.fst).Nodup) (d : DataSet) (hdt : 0 < d.dt) (V : Vec) (hV : V ≠ 0) (h : WindSeen V pts d) :
    cloudVec x nanD pts d = .ok V := by
  obtain ⟨n, q, m, c, hn, hf, hb, p, hp, p', hp', r, hr, r', hr', hm1, hm2, hx, hs1, hs2⟩ := h.pattern
  have pos_of : ∀ u w : String × Vec, m u.1 ≠ m w.1 → 0 < |((m w.1 - m u.1 : ℤ) : ℝ) * d.dt| := by
    intro u w hne
    apply abs_pos.2
    apply mul_ne_zero _ hdt.ne'
    exact_mod_cast sub_ne_zero.2 (Ne.symm hne)
  have ne_of : ∀ u w : Vec, (w.1 - u.1 ≠ 0 ∨ w.2 - u.2 ≠ 0) → 0 < magnitude (w - u) := by
    intro u w hne
    apply magnitude_pos
    intro h0
    rw [Prod.ext_iff] at h0
    rcases hne with h | h
    · exact h h0.1
    · exact h h0.2
  have hx1 : p'.2.1 - p.2.1 ≠ 0 ∨ p'.2.2 - p.2.2 ≠ 0 := by
    by_contra hc; push Not at hc; apply hx; rw [hc.1, hc.2]; ring
  have hx2 : r'.2.1 - r.2.1 ≠ 0 ∨ r'.2.2 - r.2.2 ≠ 0 := by
    by_contra hc; push Not at hc; apply hx; rw [hc.1, hc.2]; ring
  have o1 : SST.Props.Cmv.optionOf none "var_s_lim" 0.05 = 0.05 := by simp [SST.Props.Cmv.optionOf, dictGet?]
  have o2 : SST.Props.Cmv.optionOf none "mincorr" 0.8 = 0.8 := by simp [SST.Props.Cmv.optionOf, dictGet?]
  have o3 : SST.Props.Cmv.optionOf none "ktlim" 0.4 = 0.4 := by simp [SST.Props.Cmv.optionOf, dictGet?]
  have o4 : SST.Props.Cmv.optionOf none "minvelocity" 0 = 0 := by simp [SST.Props.Cmv.optionOf, dictGet?]
  have o5 : SST.Props.Cmv.optionOf none "maxvelocity" 70 = 70 := by simp [SST.Props.Cmv.optionOf, dictGet?]
  have hlow : "jamaly".toLower = "jamaly" := by decide +kernel
  have hlow2 : "xcorr".toLower = "xcorr" := by decide +kernel
  obtain ⟨out, ho, hspeed, -, t, ht, -, -, hpol⟩ := SST.Props.Cmv.C136_jamaly_from_series (cmvExt x nanD d.dt) hmin nanD d.dt hdt
    (fun a b => by simp [cmvExt]) n hn V hV q m c pts hnd _ hf .none "jamaly" "xcorr" hlow hlow2 none (by simp)
    (by rw [o1]; norm_num) (by rw [o2]; norm_num)
    (by
      intro u hu
      obtain ⟨u0, hu0, rfl⟩ := List.mem_map.1 hu
      obtain ⟨k, hk, h1, h2⟩ := hb u0 hu0
      refine ⟨k, hk, ?_, ?_, ?_⟩
      · rw [o3]; exact h1
      · simp only; linarith
      · rw [o1]; norm_num at h2 ⊢; exact h2)
    p.1 p'.1 r.1 r'.1 p.2 p'.2 r.2 r'.2 hp hp' hr hr'
    (Or.inl (Or.inl rfl)) (Or.inl (Or.inl rfl)) hm1 hm2
    (by rw [o4, o5]; exact ⟨div_pos (ne_of _ _ hx1) (pos_of p p' hm1), (div_lt_iff₀ (pos_of p p' hm1)).2 hs1⟩)
    (by rw [o4, o5]; exact ⟨div_pos (ne_of _ _ hx2) (pos_of r r' hm2), (div_lt_iff₀ (pos_of r r' hm2)).2 hs2⟩)
    (by unfold Independent; simpa using hx)
  unfold cloudVec cmvOf
  rw [ho]
  simp only [Except.map, hspeed, ht, Option.getD_some, hpol]

/-- C137: without given cloud vectors, data in which patterns pass with the winds `V1` and `V2` (seen by method jamaly) give exactly
the result for the cloud vectors `V1` and `V2` (columns of `pos_utm` in the order E, N). -/
theorem C137_from_winds (x : Cmv.Ext) (hmin : LocalMinimizer x.minimizeScalar) (nanD : List (Option ℝ) → List (Option ℝ) → Option ℝ)
    (sort : SortValues String) (ham : ℕ → List ℝ) (d1 d2 : DataSet) (hdt1 : 0 < d1.dt) (hdt2 : 0 < d2.dt) (pts : List (String × Vec))
    (hnd : (pts.map Prod.fst).Nodup) (ref : String) (V1 V2 : Vec) (hV1 : V1 ≠ 0) (hV2 : V2 ≠ 0) (h1 : WindSeen V1 pts d1)
    (h2 : WindSeen V2 pts d2) (mode : String) (n : ℤ) (navgs : ℕ) (cohLim freqLim : Option ℝ) (method : String) :
    predictData x nanD sort ham [d1, d2] pts false ref none mode n navgs cohLim freqLim method =
      predictData x nanD sort ham [d1, d2] pts false ref (some [V1, V2]) mode n navgs cohLim freqLim method := by
  have e : ([d1, d2].mapM (cloudVec x nanD pts)) = .ok [V1, V2] := by
    simp only [List.mapM_cons, List.mapM_nil, cloudVec_seen x hmin nanD pts hnd d1 hdt1 V1 hV1 h1, cloudVec_seen x hmin nanD pts hnd d2 hdt2 V2 hV2 h2]
    rfl
  unfold predictData
  simp only [cmvTable, Bool.false_eq_true, if_false, e]

/-- Exchanged coordinates: the same data show the exchanged wind. -/
theorem windSeen_swap {V : Vec} {pts : List (String × Vec)} {d : DataSet} (h : WindSeen V pts d) :
    WindSeen (V.2, V.1) (pts.map fun p => (p.1, (p.2.2, p.2.1))) d := by
  have mg : ∀ u w : Vec, magnitude ((w.2, w.1) - (u.2, u.1) : Vec) = magnitude (w - u) := by
    intro u w; unfold magnitude; simp only [Prod.fst_sub, Prod.snd_sub]; rw [add_comm]
  obtain ⟨n, q, m, c, hn, hf, hb, p, hp, p', hp', r, hr, r', hr', hm1, hm2, hx, hs1, hs2⟩ := h.pattern
  refine ⟨n, q, m, c, hn, ⟨?_, hf.recorded, ?_, hf.inside, hf.balanced, hf.strong⟩, hb, _, List.mem_map_of_mem hp, _, List.mem_map_of_mem hp',
    _, List.mem_map_of_mem hr, _, List.mem_map_of_mem hr', hm1, hm2, ?_, ?_, ?_⟩
  · intro i hi
    apply hf.series
    simpa [List.map_map, Function.comp_def] using hi
  · obtain ⟨t0, ht⟩ := hf.arrival
    refine ⟨t0, ?_⟩
    intro y hy
    obtain ⟨y0, hy0, rfl⟩ := List.mem_map.1 hy
    rw [ht y0 hy0]
    ring_nf
  · intro h0
    apply hx
    simp only at h0
    linarith
  · simp only [mg]; exact hs1
  · simp only [mg]; exact hs2

/-- C137: with the columns of `pos_utm` in the order N, E the cloud vectors found from the data are the winds with east and north
exchanged (`compute_cmv` reads the columns by number), so the result is the one for these wrong vectors. -/
theorem C137_exchanged_columns (x : Cmv.Ext) (hmin : LocalMinimizer x.minimizeScalar) (nanD : List (Option ℝ) → List (Option ℝ) → Option ℝ)
    (sort : SortValues String) (ham : ℕ → List ℝ) (d1 d2 : DataSet) (hdt1 : 0 < d1.dt) (hdt2 : 0 < d2.dt) (pts : List (String × Vec))
    (hnd : (pts.map Prod.fst).Nodup) (ref : String) (V1 V2 : Vec) (hV1 : V1 ≠ 0) (hV2 : V2 ≠ 0) (h1 : WindSeen V1 pts d1)
    (h2 : WindSeen V2 pts d2) (mode : String) (n : ℤ) (navgs : ℕ) (cohLim freqLim : Option ℝ) (method : String) :
    predictData x nanD sort ham [d1, d2] pts true ref none mode n navgs cohLim freqLim method =
      predictData x nanD sort ham [d1, d2] pts true ref (some [(V1.2, V1.1), (V2.2, V2.1)]) mode n navgs cohLim freqLim method := by
  have hnd' : ((pts.map fun p => (p.1, (p.2.2, p.2.1))).map Prod.fst).Nodup := by
    simpa [List.map_map, Function.comp_def] using hnd
  have hs : ∀ V : Vec, V ≠ 0 → ((V.2, V.1) : Vec) ≠ 0 := by
    intro V hV h0
    rw [Prod.ext_iff] at h0
    exact hV (Prod.ext h0.2 h0.1)
  have e : ([d1, d2].mapM (cloudVec x nanD (pts.map fun p => (p.1, (p.2.2, p.2.1))))) = .ok [(V1.2, V1.1), (V2.2, V2.1)] := by
    simp only [List.mapM_cons, List.mapM_nil, cloudVec_seen x hmin nanD _ hnd' d1 hdt1 _ (hs _ hV1) (windSeen_swap h1),
      cloudVec_seen x hmin nanD _ hnd' d2 hdt2 _ (hs _ hV2) (windSeen_swap h2)]
    rfl
  unfold predictData
  simp only [cmvTable, if_true, e]

/-- C137: a failure of `compute_cmv` (on the table as it reads it) is the failure of the whole call. -/
theorem C137_errors (x : Cmv.Ext) (nanD : List (Option ℝ) → List (Option ℝ) → Option ℝ) (sort : SortValues String) (ham : ℕ → List ℝ)
    (pre : List DataSet) (d : DataSet) (post : List DataSet) (pts : List (String × Vec)) (ne : Bool) (ref : String) (mode : String) (n : ℤ) (navgs : ℕ)
    (cohLim freqLim : Option ℝ) (method : String) (hpre : ∀ d' ∈ pre, ∃ out, cmvOf x nanD (cmvTable ne pts) d' = .ok out) (e : PyErr)
    (h : Raises (cmvOf x nanD (cmvTable ne pts) d) e) :
    Raises (predictData x nanD sort ham (pre ++ d :: post) pts ne ref none mode n navgs cohLim freqLim method) e := by
  have key : (pre ++ d :: post).mapM (cloudVec x nanD (cmvTable ne pts)) = .error e := by
    induction pre with
    | nil =>
      have : cloudVec x nanD (cmvTable ne pts) d = .error e := by unfold cloudVec; rw [h]; rfl
      simp only [List.nil_append, List.mapM_cons, this]
      rfl
    | cons d' pre ih =>
      obtain ⟨out, ho⟩ := hpre d' (by simp)
      have : cloudVec x nanD (cmvTable ne pts) d' = .ok (pol2rect (out.speed.getD 0) (out.angle.getD 0)) := by unfold cloudVec; rw [ho]; rfl
      simp only [List.cons_append, List.mapM_cons, this, ih (fun d'' h'' => hpre d'' (by simp [h''])), bind, Except.bind]
  unfold Raises predictData
  simp only [key, bind, Except.bind]

/-- C137: with a cloud vector zero no position is found: the result is (NaN, NaN) in every mode. -/
theorem C137_zero_vector (x : Cmv.Ext) (nanD : List (Option ℝ) → List (Option ℝ) → Option ℝ) (sort : SortValues String) (ham : ℕ → List ℝ)
    (d1 d2 : DataSet) (pts : List (String × Vec)) (ne : Bool) (ref : String) (v1 v2 : Vec) (hv : v1 = 0 ∨ v2 = 0) (mode : String) (n : ℤ) (navgs : ℕ)
    (cohLim freqLim : Option ℝ) (method : String) (pos : XR × XR) (s : List (String × PosRow) × List (String × PosRow))
    (h : predictData x nanD sort ham [d1, d2] pts ne ref (some [v1, v2]) mode n navgs cohLim freqLim method = .ok (pos, s)) :
    pos = (.nan, .nan) := by
  obtain ⟨r1, r2, h1, h2⟩ := predictData_inv h
  rw [predictData_ok h1 h2] at h
  unfold predictedPosition at h
  cases hr : dictGet? pts ref with
  | none => rw [hr] at h; cases h
  | some r =>
    rw [hr] at h
    simp only at h
    cases hp1 : posData pts r ⟨v1, r1.1, r1.2.map Tf.finVal⟩ with
    | error e => rw [hp1] at h; cases h
    | ok e1 =>
    cases hp2 : posData pts r ⟨v2, r2.1, r2.2.map Tf.finVal⟩ with
    | error e => rw [hp1, hp2] at h; cases h
    | ok e2 =>
      rw [hp1, hp2] at h
      simp only [bind, Except.bind] at h
      cases hd : downselect sort mode n pts r e1 e2 with
      | error e => rw [hd] at h; cases h
      | ok ix =>
        rw [hd] at h
        simp only [Except.map, Except.ok.injEq, Prod.mk.injEq] at h
        rw [← h.1]
        rcases hv with rfl | rfl
        · rw [meanError_zero ix.1 hp1]; rfl
        · rw [meanError_zero ix.2 hp2]
          unfold positionFrom
          split
          · rename_i hh; cases hh
          · rfl

/-- C137: a null cloud motion found by `compute_cmv` (speed 0) in either data set gives (NaN, NaN). -/
theorem C137_null_motion (x : Cmv.Ext) (nanD : List (Option ℝ) → List (Option ℝ) → Option ℝ) (sort : SortValues String) (ham : ℕ → List ℝ)
    (d1 d2 : DataSet) (pts : List (String × Vec)) (ne : Bool) (ref : String) (mode : String) (n : ℤ) (navgs : ℕ)
    (cohLim freqLim : Option ℝ) (method : String) (pos : XR × XR) (s : List (String × PosRow) × List (String × PosRow))
    (hnull : ∃ d ∈ [d1, d2], ∃ out, cmvOf x nanD (cmvTable ne pts) d = .ok out ∧ out.speed = some 0)
    (h : predictData x nanD sort ham [d1, d2] pts ne ref none mode n navgs cohLim freqLim method = .ok (pos, s)) :
    pos = (.nan, .nan) := by
  have hz : ∀ d out, cmvOf x nanD (cmvTable ne pts) d = .ok out → out.speed = some 0 → cloudVec x nanD (cmvTable ne pts) d = .ok 0 := by
    intro d out ho hs
    unfold cloudVec
    rw [ho]
    simp only [Except.map, hs, Option.getD_some, pol2rect, zero_mul]
    rfl
  cases e1 : cloudVec x nanD (cmvTable ne pts) d1 with
  | error e => unfold predictData at h; simp only [List.mapM_cons, e1] at h; cases h
  | ok v1 =>
  cases e2 : cloudVec x nanD (cmvTable ne pts) d2 with
  | error e => unfold predictData at h; simp only [List.mapM_cons, e1, e2] at h; cases h
  | ok v2 =>
    have e : [d1, d2].mapM (cloudVec x nanD (cmvTable ne pts)) = .ok [v1, v2] := by simp only [List.mapM_cons, List.mapM_nil, e1, e2]; rfl
    refine C137_zero_vector x nanD sort ham d1 d2 pts ne ref v1 v2 ?_ mode n navgs cohLim freqLim method pos s ?_
    · obtain ⟨d, hd, out, ho, hs⟩ := hnull
      have := hz d out ho hs
      simp only [List.mem_cons, List.not_mem_nil, or_false] at hd
      rcases hd with rfl | rfl
      · rw [this] at e1; exact Or.inl (Except.ok.inj e1).symm
      · rw [this] at e2; exact Or.inr (Except.ok.inj e2).symm
    · unfold predictData at h ⊢
      simp only [e] at h
      exact h

/-! ## C138: gains -/

/-- A row with the transfer function multiplied. -/
noncomputable def gainRow (c : ℝ) (r : Tf.Row) : Tf.Row := ⟨r.f, r.tf.map ((c : ℂ) * ·), r.coh⟩

theorem angle_gain {c : ℝ} (hc : 0 < c) (z : Option ℂ) : Tf.angle (z.map ((c : ℂ) * ·)) = Tf.angle z := by
  cases z with
  | none => rfl
  | some z => simp [Tf.angle, Complex.arg_real_mul z hc]

theorem fitDelay_gain {c : ℝ} (hc : 0 < c) (l fl : Option ℝ) (rows : List Tf.Row) :
    Tf.fitDelay l fl (rows.map (gainRow c)) = Tf.fitDelay l fl rows := by
  classical
  unfold Tf.fitDelay
  simp only [List.filter_map, List.map_map, Function.comp_def, gainRow, angle_gain hc, List.map_eq_nil_iff]
  rfl

theorem multiDelay_gain {c : ℝ} (hc : 0 < c) (l fl : Option ℝ) (rows : List Tf.Row) :
    Tf.multiDelay l fl (rows.map (gainRow c)) = Tf.multiDelay l fl rows := by
  classical
  have e : Tf.multiUsed l fl (rows.map (gainRow c)) = Tf.multiUsed l fl rows := by
    unfold Tf.multiUsed
    simp only [List.filter_map, List.map_map, Function.comp_def, gainRow, angle_gain hc, List.zip_map_left, List.filterMap_map]
    rfl
  unfold Tf.multiDelay
  rw [e]
  simp [gainRow]

theorem meanCoh_gain (c fl : ℝ) (rows : List Tf.Row) : Tf.meanCoh fl (rows.map (gainRow c)) = Tf.meanCoh fl rows := by
  classical
  unfold Tf.meanCoh
  simp only [List.filter_map, Function.comp_def, gainRow, List.filterMap_map, List.length_map]
  rfl

theorem spectra_gain (w : List ℝ) (dt : Tf.Detrend) (L ov : ℕ) (x : List ℝ) (g : ℝ) (k : ℕ) :
    Tf.spectra w dt L ov (x.map fun v => g * v) k = (Tf.spectra w dt L ov x k).map fun z => (g : ℂ) * z := by
  have := Tf.spectra_zipLin w dt L ov g 0 x x rfl k
  have e1 : List.zipWith (fun u v => g * u + 0 * v) x x = x.map fun v => g * v := by
    rw [List.zipWith_self]; apply List.map_congr_left; intro v _; ring
  rw [e1, List.zipWith_map, List.zipWith_self] at this
  rw [this]; apply List.map_congr_left; intro v _; push_cast; ring

theorem csd_smul_left (c : ℝ) (a : ℝ) (X Y : List ℂ) : Tf.csd c (X.map fun x => (a : ℂ) * x) Y = a * Tf.csd c X Y := by
  unfold Tf.csd
  rw [List.zipWith_map_left, List.length_map]
  have : (List.zipWith (fun x y => (starRingEnd ℂ) ((a : ℂ) * x) * y) X Y).sum = a * (List.zipWith (fun x y => (starRingEnd ℂ) x * y) X Y).sum := by
    induction X generalizing Y with
    | nil => simp
    | cons x X ih =>
      cases Y with
      | nil => simp
      | cons y Y =>
        simp only [List.zipWith_cons_cons, List.sum_cons]
        rw [ih Y, map_mul, Complex.conj_ofReal]
        ring
  rw [this]
  ring

theorem pairTf_gain (o : Tf.Opts) (L ov : ℕ) (x y : List ℝ) {a b : ℝ} (ha : 0 < a) (hb : 0 < b) :
    Tf.pairTf o L ov (x.map fun v => a * v) (y.map fun v => b * v) = (Tf.pairTf o L ov x y).map (gainRow (b / a)) := by
  unfold Tf.pairTf
  rw [List.map_map]
  apply List.map_congr_left
  intro k _
  simp only [Function.comp, gainRow, spectra_gain]
  generalize Tf.spectra (o.win L) o.detr L ov x k = X
  generalize Tf.spectra (o.win L) o.detr L ov y k = Y
  generalize Tf.psdScale (o.win L) o.dt L k = c
  have ha' : (a : ℂ) ≠ 0 := by exact_mod_cast ha.ne'
  congr 1
  · unfold Tf.tfBin
    rw [Tf.psd_smul, Complex.normSq_ofReal, Tf.csd_smul, csd_smul_left]
    by_cases h : Tf.psd c X = 0
    · simp [h]
    · rw [if_neg h, if_neg (mul_ne_zero (mul_ne_zero ha.ne' ha.ne') h)]
      simp only [Option.map_some, Option.some.injEq]
      have h' : (Tf.psd c X : ℂ) ≠ 0 := by exact_mod_cast h
      push_cast
      field_simp
  · unfold Tf.cohBin
    rw [Tf.psd_smul, Tf.psd_smul, Complex.normSq_ofReal, Complex.normSq_ofReal, Tf.csd_smul, csd_smul_left]
    by_cases h : Tf.psd c X * Tf.psd c Y = 0
    · rw [if_pos h, if_pos]
      linear_combination (a * a * (b * b)) * h
    · rw [if_neg h, if_neg]
      · have h1 := left_ne_zero_of_mul h
        have h2 := right_ne_zero_of_mul h
        rw [Complex.normSq_mul, Complex.normSq_mul, Complex.normSq_ofReal, Complex.normSq_ofReal]
        congr 1
        have := ha.ne'
        have := hb.ne'
        field_simp
      · rw [show a * a * Tf.psd c X * (b * b * Tf.psd c Y) = (a * a * (b * b)) * (Tf.psd c X * Tf.psd c Y) by ring]
        exact mul_ne_zero (mul_ne_zero (mul_ne_zero ha.ne' ha.ne') (mul_ne_zero hb.ne' hb.ne')) h

theorem averagedTf_single (o : Tf.Opts) (p : String × List ℝ) (df : List (String × List ℝ)) :
    Tf.averagedTf o [p] df =
      if o.navgs = 0 then .error .other
      else if p.2.length / o.navgs = 0 ∨ ((p.2.length / o.navgs : ℕ) : ℤ) ≤ pyInt ((p.2.length / o.navgs : ℕ) * o.overlap) then .error .valueError
      else .ok (df.map fun q => (p.1 ++ "_" ++ q.1,
        Tf.pairTf o (p.2.length / o.navgs) (pyInt ((p.2.length / o.navgs : ℕ) * o.overlap)).toNat p.2 q.2)) := by
  have hps : Tf.pairCols [p] df = .ok (df.map fun q => (p.1 ++ "_" ++ q.1, p.2, q.2)) := by
    unfold Tf.pairCols
    split_ifs with h1 h2
    · obtain ⟨q, rfl⟩ := List.length_eq_one_iff.1 h1
      rfl
    · simp
    · simp
    · simp at *
  unfold Tf.averagedTf
  rw [hps]
  simp only [List.headD_cons, List.map_map]
  rfl

theorem fieldDelays_gain (ham : ℕ → List ℝ) (dt : ℝ) (df : List (String × List ℝ)) (g : String → ℝ) (hg : ∀ n, 0 < g n) (ref : String) (navgs : ℕ)
    (cohLim freqLim : Option ℝ) (method : String) :
    Tf.fieldComputeDelays ham dt (df.map fun c => (c.1, c.2.map fun v => g c.1 * v)) ref navgs cohLim freqLim method =
      Tf.fieldComputeDelays ham dt df ref navgs cohLim freqLim method := by
  unfold Tf.fieldComputeDelays
  rw [List.find?_map]
  have e : (fun p : String × List ℝ => decide (p.1 = ref)) ∘ (fun c : String × List ℝ => (c.1, c.2.map fun v => g c.1 * v)) = fun p => decide (p.1 = ref) := rfl
  rw [e]
  cases df.find? fun p => decide (p.1 = ref) with
  | none => rfl
  | some p =>
    simp only [Option.map_some]
    unfold Tf.computeDelaysTf
    rw [averagedTf_single, averagedTf_single]
    simp only [List.length_map, List.length_cons, List.length_nil, lt_irrefl, zero_add, false_and, if_false]
    by_cases h1 : navgs = 0
    · simp only [h1, if_true]
    simp only [if_neg h1]
    by_cases h2 : p.2.length / navgs = 0 ∨ ((p.2.length / navgs : ℕ) : ℤ) ≤ pyInt ((p.2.length / navgs : ℕ) * 0.5)
    · simp only [if_pos h2]
    · simp only [if_neg h2]
      simp only [List.map_map, Function.comp_def, pairTf_gain _ _ _ _ _ (hg p.1) (hg _), fitDelay_gain (div_pos (hg _) (hg p.1)),
        multiDelay_gain (div_pos (hg _) (hg p.1)), meanCoh_gain]
      split_ifs
      all_goals first
      | rfl
      | cases freqLim with
        | none => rfl
        | some fl => simp only [Except.map, List.map_map, Function.comp_def]

/-- C138: with given cloud vectors the gains of the sensors do not matter: multiplying the columns of every data set by positive
factors, the reference included, changes neither position nor tables nor errors. -/
theorem C138_gains (x : Cmv.Ext) (nanD : List (Option ℝ) → List (Option ℝ) → Option ℝ) (sort : SortValues String) (ham : ℕ → List ℝ)
    (dfs dfs' : List DataSet) (h : List.Forall₂ Rescaled dfs dfs') (pts : List (String × Vec)) (ne : Bool) (ref : String) (vs : List Vec) (mode : String)
    (n : ℤ) (navgs : ℕ) (cohLim freqLim : Option ℝ) (method : String) :
    predictData x nanD sort ham dfs' pts ne ref (some vs) mode n navgs cohLim freqLim method =
      predictData x nanD sort ham dfs pts ne ref (some vs) mode n navgs cohLim freqLim method := by
  have key : ∀ vs : List Vec, (dfs'.zip vs).mapM (caseData ham pts ref navgs cohLim freqLim method) =
      (dfs.zip vs).mapM (caseData ham pts ref navgs cohLim freqLim method) := by
    induction h with
    | nil => intro vs; rfl
    | @cons d d' l l' hd _ ih =>
      intro vs
      cases vs with
      | nil => rfl
      | cons v vs =>
        obtain ⟨h1, g, hg, h2⟩ := hd
        have : caseData ham pts ref navgs cohLim freqLim method (d', v) = caseData ham pts ref navgs cohLim freqLim method (d, v) := by
          unfold caseData
          simp only
          rw [h1, h2, fieldDelays_gain _ _ _ _ hg]
        simp only [List.zip_cons_cons, List.mapM_cons, this, ih vs]
  unfold predictData
  simp only [key]

/-! ## C140: order of the data sets -/

theorem position_swap (v1 v2 r : Vec) (hV1 : v1 ≠ 0) (hV2 : v2 ≠ 0) (a b : Option ℝ) (x y : ℝ)
    (h : positionFrom a b v1 v2 r = (.fin x, .fin y)) : positionFrom b a v2 v1 r = (.fin x, .fin y) := by
  cases a with
  | none => simp [positionFrom] at h
  | some a =>
  cases b with
  | none => simp [positionFrom] at h
  | some b =>
  have ha : a ≠ 0 := by
    rintro rfl; rw [position_zero _ _ _ _ _ (Or.inl rfl)] at h; simp at h
  have hb : b ≠ 0 := by
    rintro rfl; rw [position_zero _ _ _ _ _ (Or.inr rfl)] at h; simp at h
  have hX : v1.1 * v2.2 - v1.2 * v2.1 ≠ 0 := position_cross hV1 hV2 h
  set D := v1.1 * v2.2 - v1.2 * v2.1 with hD
  set w : Vec := ((a * magnitude v1 * v2.2 - b * magnitude v2 * v1.2) / D,
    (b * magnitude v2 * v1.1 - a * magnitude v1 * v2.1) / D) with hw
  have w1 : a * magnitude v1 = w.1 * v1.1 + w.2 * v1.2 := by simp only [hw]; field_simp; rw [hD]; ring
  have w2 : b * magnitude v2 = w.1 * v2.1 + w.2 * v2.2 := by simp only [hw]; field_simp; rw [hD]; ring
  rw [position_solves v1 v2 w r hX a b w1 w2 ha hb] at h
  rw [position_solves v2 v1 w r (by intro h0; apply hX; rw [hD]; linarith) b a w2 w1 hb ha, h]

theorem posData_keys {pts : List (String × Vec)} {r : Vec} {c : CloudCase} {d : List (String × PosRow)} (h : posData pts r c = .ok d) :
    d.map Prod.fst = pts.map Prod.fst := by
  unfold posData at h
  split_ifs at h with hl
  simp only [Except.ok.injEq] at h
  rw [← h, List.map_fst_zip]
  simp [projectVectors, computeVectors, hl.1, hl.2]

theorem globalCoh_swap {d1 d2 : List (String × PosRow)} (h : d1.map Prod.fst = d2.map Prod.fst) : globalCoh d2 d1 = globalCoh d1 d2 := by
  unfold globalCoh
  induction d1 generalizing d2 with
  | nil => cases d2 <;> simp_all
  | cons p d1 ih =>
    cases d2 with
    | nil => simp at h
    | cons q d2 =>
      simp only [List.map_cons, List.cons.injEq] at h
      simp only [List.zipWith_cons_cons, ih h.2, h.1]
      congr 2
      cases p.2.coh <;> cases q.2.coh <;> simp [add_comm]

theorem downselect_swap (sort : SortValues String) (mode : String) (n : ℤ) (pts : List (String × Vec)) (r : Vec) {d1 d2 : List (String × PosRow)}
    (h : d1.map Prod.fst = d2.map Prod.fst) : downselect sort mode n pts r d2 d1 = (downselect sort mode n pts r d1 d2).map Prod.swap := by
  unfold downselect
  rw [globalCoh_swap h]
  split_ifs <;> rfl

/-- C140: the order of the two data sets (with their cloud vectors) does not matter: a position found is found as well with the two
exchanged, and the tables come out exchanged. -/
theorem C140_swap (x : Cmv.Ext) (nanD : List (Option ℝ) → List (Option ℝ) → Option ℝ) (sort : SortValues String) (ham : ℕ → List ℝ)
    (d1 d2 : DataSet) (pts : List (String × Vec)) (ne : Bool) (ref : String) (v1 v2 : Vec) (mode : String) (n : ℤ) (navgs : ℕ) (cohLim freqLim : Option ℝ)
    (method : String) (e nn : ℝ) (s1 s2 : List (String × PosRow))
    (h : predictData x nanD sort ham [d1, d2] pts ne ref (some [v1, v2]) mode n navgs cohLim freqLim method = .ok ((.fin e, .fin nn), s1, s2)) :
    predictData x nanD sort ham [d2, d1] pts ne ref (some [v2, v1]) mode n navgs cohLim freqLim method = .ok ((.fin e, .fin nn), s2, s1) := by
  obtain ⟨r1, r2, h1, h2⟩ := predictData_inv h
  rw [predictData_ok h1 h2] at h
  rw [predictData_ok h2 h1]
  unfold predictedPosition at h ⊢
  cases hr : dictGet? pts ref with
  | none => rw [hr] at h; cases h
  | some r =>
    rw [hr] at h
    simp only at h ⊢
    cases hp1 : posData pts r ⟨v1, r1.1, r1.2.map Tf.finVal⟩ with
    | error e => rw [hp1] at h; cases h
    | ok e1 =>
    cases hp2 : posData pts r ⟨v2, r2.1, r2.2.map Tf.finVal⟩ with
    | error e => rw [hp1, hp2] at h; cases h
    | ok e2 =>
      rw [hp1, hp2] at h
      simp only [bind, Except.bind] at h ⊢
      rw [downselect_swap sort mode n pts r ((posData_keys hp1).trans (posData_keys hp2).symm)]
      cases hd : downselect sort mode n pts r e1 e2 with
      | error e => rw [hd] at h; cases h
      | ok ix =>
        rw [hd] at h
        simp only [Except.map, Except.ok.injEq, Prod.mk.injEq, Prod.fst_swap, Prod.snd_swap] at h ⊢
        obtain ⟨hp, rfl, rfl⟩ := h
        refine ⟨?_, rfl, rfl⟩
        have hV1 : v1 ≠ 0 := by
          rintro rfl
          rw [meanError_zero ix.1 hp1] at hp
          simp [positionFrom] at hp
        have hV2 : v2 ≠ 0 := by
          rintro rfl
          rw [meanError_zero ix.2 hp2] at hp
          unfold positionFrom at hp
          split at hp
          · rename_i hh; cases hh
          · simp at hp
        exact position_swap v1 v2 _ hV1 hV2 _ _ e nn hp

/-! ## C141: columns and rows -/

theorem fieldDelays_get {ham : ℕ → List ℝ} {dt : ℝ} {df : List (String × List ℝ)} {ref : String} {navgs : ℕ} {cohLim freqLim : Option ℝ}
    {method : String} {res : List (Option ℝ) × List XR} (h : Tf.fieldComputeDelays ham dt df ref navgs cohLim freqLim method = .ok res) :
    ∃ x, (ref, x) ∈ df ∧ res.1.length = df.length ∧ res.2.length = df.length ∧ ∀ (i : ℕ) (c : String × List ℝ), df[i]? = some c →
      ∃ dl mask ch, Tf.computeDelaysTf ⟨dt, navgs, 0.5, ham, .none⟩ [(ref, x)] [c] cohLim freqLim method = .ok [(dl, mask, ch)] ∧
        res.1[i]? = some dl ∧ res.2[i]? = some ch := by
  unfold Tf.fieldComputeDelays at h
  cases hf : df.find? fun p => decide (p.1 = ref) with
  | none => rw [hf] at h; cases h
  | some p =>
    rw [hf] at h
    simp only at h
    have hp1 : p.1 = ref := by simpa using List.find?_some hf
    have hpe : p = (ref, p.2) := by rw [← hp1]
    rw [hpe] at h
    refine ⟨p.2, hpe ▸ List.mem_of_find?_eq_some hf, ?_⟩
    unfold Tf.computeDelaysTf at h ⊢
    simp only [averagedTf_single, List.length_cons, List.length_nil, zero_add, lt_irrefl, false_and, if_false] at h ⊢
    by_cases h1 : navgs = 0
    · simp only [h1, if_true] at h; cases h
    simp only [if_neg h1] at h ⊢
    by_cases h2 : p.2.length / navgs = 0 ∨ ((p.2.length / navgs : ℕ) : ℤ) ≤ pyInt ((p.2.length / navgs : ℕ) * 0.5)
    · simp only [if_pos h2] at h; cases h
    simp only [if_neg h2] at h ⊢
    by_cases h3 : method = "fit" ∧ ¬ (List.map Prod.fst (List.map (fun q : String × List ℝ => (ref ++ "_" ++ q.1,
        Tf.pairTf ⟨dt, navgs, 0.5, ham, .none⟩ (p.2.length / navgs) (pyInt ((p.2.length / navgs : ℕ) * 0.5)).toNat p.2 q.2)) df)).Nodup
    · rw [if_pos h3] at h; cases h
    rw [if_neg h3] at h
    by_cases h4 : method ≠ "fit" ∧ method ≠ "multi"
    · rw [if_pos h4] at h; cases h
    simp only [if_neg h4] at h ⊢
    cases freqLim with
    | none => cases h
    | some fl =>
      simp only [Except.map, Except.ok.injEq, List.map_map] at h
      subst h
      refine ⟨by simp, by simp, ?_⟩
      intro i c hc
      set rows := Tf.pairTf ⟨dt, navgs, 0.5, ham, .none⟩ (p.2.length / navgs) (pyInt ((p.2.length / navgs : ℕ) * 0.5)).toNat p.2 c.2 with hrows
      refine ⟨if method = "fit" then Tf.fitDelay cohLim (some fl) rows else Tf.multiDelay cohLim (some fl) rows,
        Tf.maskOf cohLim (some fl) rows, Tf.meanCoh fl rows, ?_, ?_, ?_⟩
      · simp [hrows]
      · simp only [List.getElem?_map, hc, Option.map_some, Function.comp]; rfl
      · simp only [List.getElem?_map, hc, Option.map_some, Function.comp]; rfl

/-- One entry of a table is the pair of the reference with the column at the place of the row. -/
def FromColumn (ham : ℕ → List ℝ) (d : DataSet) (ref : String) (navgs : ℕ) (cohLim freqLim : Option ℝ) (method : String)
    (c : String × List ℝ) (row : PosRow) : Prop :=
  ∃ x, (ref, x) ∈ d.cols ∧ ∃ dl mask ch,
    Tf.computeDelaysTf ⟨d.dt, navgs, 0.5, ham, .none⟩ [(ref, x)] [c] cohLim freqLim method = .ok [(dl, mask, ch)] ∧
    row.delay = dl ∧ row.coh = Tf.finVal ch

theorem table_row {ham : ℕ → List ℝ} {d : DataSet} {ref : String} {navgs : ℕ} {cohLim freqLim : Option ℝ} {method : String}
    {res : List (Option ℝ) × List XR} (h : Tf.fieldComputeDelays ham d.dt d.cols ref navgs cohLim freqLim method = .ok res)
    {pts : List (String × Vec)} {r v : Vec} {tab : List (String × PosRow)} (hp : posData pts r ⟨v, res.1, res.2.map Tf.finVal⟩ = .ok tab)
    {l : String} {row : PosRow} (hm : (l, row) ∈ tab) :
    ∃ i : ℕ, (pts.map Prod.fst)[i]? = some l ∧ ∃ c, d.cols[i]? = some c ∧ FromColumn ham d ref navgs cohLim freqLim method c row := by
  obtain ⟨x, hx, hl1, hl2, hget⟩ := fieldDelays_get h
  unfold posData at hp
  split_ifs at hp with hl
  simp only [Except.ok.injEq] at hp
  rw [← hp, List.mem_iff_getElem] at hm
  obtain ⟨i, hi, he⟩ := hm
  simp only [List.getElem_zip, Prod.mk.injEq, List.getElem_zipWith] at he
  have hi' : i < pts.length := by
    simp only [List.length_zip, List.length_map] at hi
    omega
  have hic : i < d.cols.length := by have := hl.1; simp only at this; omega
  obtain ⟨dl, mask, ch, h1, h2, h3⟩ := hget i d.cols[i] (List.getElem?_eq_getElem hic)
  refine ⟨i, ?_, d.cols[i], List.getElem?_eq_getElem hic, x, hx, dl, mask, ch, h1, ?_, ?_⟩
  · rw [List.getElem?_eq_getElem (by simpa using hi'), he.1]
  · rw [← he.2]
    simp only
    have h2' : i < res.1.length := by omega
    rw [List.getElem?_eq_getElem h2'] at h2
    exact Option.some.inj h2
  · rw [← he.2]
    simp only [List.getElem_map]
    have h3' : i < res.2.length := by omega
    rw [List.getElem?_eq_getElem h3'] at h3
    rw [Option.some.inj h3]

/-- C141: if the columns of the data frames are in the order of the rows of `pos_utm`, the row `l` of either table holds delay and mean
coherence of the reference with the column `l`.  (Missing for the full claim: see `C141_violated_order`.) -/
theorem C141_order_partial (x : Cmv.Ext) (nanD : List (Option ℝ) → List (Option ℝ) → Option ℝ) (sort : SortValues String) (ham : ℕ → List ℝ)
    (d1 d2 : DataSet) (pts : List (String × Vec)) (ne : Bool) (ref : String) (v1 v2 : Vec) (mode : String) (n : ℤ) (navgs : ℕ) (cohLim freqLim : Option ℝ)
    (method : String) (pos : XR × XR) (s1 s2 : List (String × PosRow))
    (h : predictData x nanD sort ham [d1, d2] pts ne ref (some [v1, v2]) mode n navgs cohLim freqLim method = .ok (pos, s1, s2))
    (h1 : d1.cols.map Prod.fst = pts.map Prod.fst) (h2 : d2.cols.map Prod.fst = pts.map Prod.fst) :
    (∀ l row, (l, row) ∈ s1 → ∃ y, (l, y) ∈ d1.cols ∧ FromColumn ham d1 ref navgs cohLim freqLim method (l, y) row) ∧
    (∀ l row, (l, row) ∈ s2 → ∃ y, (l, y) ∈ d2.cols ∧ FromColumn ham d2 ref navgs cohLim freqLim method (l, y) row) := by
  obtain ⟨r1, r2, e1, e2⟩ := predictData_inv h
  rw [predictData_ok e1 e2] at h
  unfold predictedPosition at h
  cases hr : dictGet? pts ref with
  | none => rw [hr] at h; cases h
  | some r =>
    rw [hr] at h
    simp only at h
    cases hp1 : posData pts r ⟨v1, r1.1, r1.2.map Tf.finVal⟩ with
    | error e => rw [hp1] at h; cases h
    | ok t1 =>
    cases hp2 : posData pts r ⟨v2, r2.1, r2.2.map Tf.finVal⟩ with
    | error e => rw [hp1, hp2] at h; cases h
    | ok t2 =>
      rw [hp1, hp2] at h
      simp only [bind, Except.bind] at h
      cases hd : downselect sort mode n pts r t1 t2 with
      | error e => rw [hd] at h; cases h
      | ok ix =>
        rw [hd] at h
        simp only [Except.map, Except.ok.injEq, Prod.mk.injEq] at h
        obtain ⟨-, rfl, rfl⟩ := h
        have key : ∀ (d : DataSet) (res : List (Option ℝ) × List XR) (v : Vec) (tab : List (String × PosRow)),
            Tf.fieldComputeDelays ham d.dt d.cols ref navgs cohLim freqLim method = .ok res →
            posData pts r ⟨v, res.1, res.2.map Tf.finVal⟩ = .ok tab → d.cols.map Prod.fst = pts.map Prod.fst →
            ∀ l row, (l, row) ∈ tab → ∃ y, (l, y) ∈ d.cols ∧ FromColumn ham d ref navgs cohLim freqLim method (l, y) row := by
          intro d res v tab he hp hn l row hm
          obtain ⟨i, hi, c, hc, hf⟩ := table_row he hp hm
          rw [← hn, List.getElem?_map, hc] at hi
          simp only [Option.map_some, Option.some.injEq] at hi
          subst hi
          exact ⟨c.2, List.mem_of_getElem? hc, hf⟩
        exact ⟨fun l row hm => key d1 r1 v1 t1 e1 hp1 h1 l row (locRows_mem hm), fun l row hm => key d2 r2 v2 t2 e2 hp2 h2 l row (locRows_mem hm)⟩

/-! ## Concrete cases -/

/-- Two sites. -/
def twoSites : List (String × Vec) := [("a", (0, 0)), ("b", (10, 5))]

/-- Two samples at both sites. -/
def twoCols (y : List ℝ) : DataSet := ⟨1, [("a", [1, 0]), ("b", y)]⟩

/-- The same with the columns in the other order. -/
def otherOrder (y : List ℝ) : DataSet := ⟨1, [("b", y), ("a", [1, 0])]⟩

theorem pyInt_one : pyInt (((2 : ℕ) : ℝ) * 0.5) = 1 := by
  rw [show ((2 : ℕ) : ℝ) * 0.5 = ((1 : ℤ) : ℝ) by norm_num]
  unfold pyInt
  simp

theorem spectra_demo (w : List ℝ) (hw : w = [0.08, 1]) : Tf.spectra w .none 2 1 [1, 0] 0 = [(0.08 : ℂ)] := by
  subst hw
  simp [Tf.spectra, Tf.segStarts, Tf.segment, Tf.spectrum, Tf.detrend, Finset.sum_range_succ, Dft.at0, Dft.twiddle]

theorem psd_demo (w : List ℝ) (hw : w = [0.08, 1]) : Tf.psd (Tf.psdScale w 1 2 0) (Tf.spectra w .none 2 1 [1, 0] 0) ≠ 0 := by
  rw [spectra_demo w hw]
  subst hw
  simp [Tf.psd, Tf.psdScale]
  norm_num

/-- Settings of the demonstration. -/
noncomputable def demoOpts (ham : ℕ → List ℝ) : Tf.Opts := ⟨1, 1, 0.5, ham, .none⟩

theorem fieldDelays_demo (ham : ℕ → List ℝ) (df : List (String × List ℝ)) (hf : (df.find? fun p => decide (p.1 = "a")) = some ("a", [1, 0])) :
    Tf.fieldComputeDelays ham 1 df "a" 1 none (some 0.02) "multi" =
      .ok (df.map fun q => Tf.multiDelay none (some 0.02) (Tf.pairTf (demoOpts ham) 2 1 [1, 0] q.2),
        df.map fun q => Tf.meanCoh 0.02 (Tf.pairTf (demoOpts ham) 2 1 [1, 0] q.2)) := by
  unfold Tf.fieldComputeDelays
  rw [hf]
  simp only
  unfold Tf.computeDelaysTf
  rw [averagedTf_single]
  have e : (2 : ℕ) / 1 = 2 := rfl
  have e2 : ([1, 0] : List ℝ).length = 2 := rfl
  simp only [e2, e, pyInt_one, List.length_cons, List.length_nil, zero_add, lt_irrefl, false_and, if_false]
  simp [Except.map, Function.comp_def, demoOpts]

theorem demo_meanCoh (ham : ℕ → List ℝ) (y : List ℝ) :
    Tf.meanCoh 0.02 (Tf.pairTf (demoOpts ham) 2 1 [1, 0] y) =
      .fin ((Tf.cohBin (Tf.psdScale (ham 2) 1 2 0) (Tf.spectra (ham 2) .none 2 1 [1, 0] 0) (Tf.spectra (ham 2) .none 2 1 y 0)).getD 0) := by
  classical
  unfold Tf.meanCoh Tf.pairTf
  have e : List.range (2 / 2 + 1) = [0, 1] := rfl
  have h0 : ((0 : ℕ) : ℝ) / (((2 : ℕ) : ℝ) * (demoOpts ham).dt) < 0.02 := by norm_num [demoOpts]
  have h1 : ¬ ((1 : ℕ) : ℝ) / (((2 : ℕ) : ℝ) * (demoOpts ham).dt) < 0.02 := by norm_num [demoOpts]
  simp only [e, List.map_cons, List.map_nil, List.filter_cons, List.filter_nil, h0, h1, decide_true, decide_false, if_true, Bool.false_eq_true, if_false]
  cases hc : Tf.cohBin (Tf.psdScale (ham 2) 1 2 0) (Tf.spectra (ham 2) .none 2 1 [1, 0] 0) (Tf.spectra (ham 2) .none 2 1 y 0) with
  | none => simp [demoOpts, List.filterMap_cons, hc, XR.div]
  | some v => simp [demoOpts, List.filterMap_cons, hc, XR.div]

theorem demo_self (ham : ℕ → List ℝ) (hh : ham 2 = [0.08, 1]) :
    Tf.multiDelay none (some 0.02) (Tf.pairTf (demoOpts ham) 2 1 [1, 0] [1, 0]) = some 0 ∧
      Tf.meanCoh 0.02 (Tf.pairTf (demoOpts ham) 2 1 [1, 0] [1, 0]) = .fin 1 := by
  have h0 := psd_demo (ham 2) hh
  constructor
  · have hav : Tf.averagedTf (demoOpts ham) [("a", [1, 0])] [("a", [1, 0])] = .ok [("a_a", Tf.pairTf (demoOpts ham) 2 1 [1, 0] [1, 0])] := by
      rw [averagedTf_single]
      have e : (2 : ℕ) / 1 = 2 := rfl
      have e2 : ([1, 0] : List ℝ).length = 2 := rfl
      simp only [demoOpts, e2, e, pyInt_one]
      simp
    have hrow := SST.Props.Tf.C44_self _ _ _ _ _ hav ("a_a", Tf.pairTf (demoOpts ham) 2 1 [1, 0] [1, 0]) (by simp)
    refine SST.Props.Tf.multi_zero _ _ _ (fun r hr => ?_) ?_
    · rcases hrow r hr with h | h <;> simp [h.1]
    · have hg := Tf.pairTf_get (demoOpts ham) 2 1 [1, 0] [1, 0] (k := 0) (by norm_num)
      refine ⟨_, List.mem_of_getElem? hg, ?_⟩
      have : Tf.tfBin (Tf.psdScale (ham 2) 1 2 0) (Tf.spectra (ham 2) .none 2 1 [1, 0] 0) (Tf.spectra (ham 2) .none 2 1 [1, 0] 0) ≠ none := by
        unfold Tf.tfBin
        rw [if_neg h0]
        simp
      exact this
  · rw [demo_meanCoh]
    have := Tf.cohBin_multiple (Tf.psdScale (ham 2) 1 2 0) (z := 1) one_ne_zero _ h0
    simp only [one_mul, List.map_id'] at this
    rw [this]
    rfl

theorem demo_zero (ham : ℕ → List ℝ) : Tf.meanCoh 0.02 (Tf.pairTf (demoOpts ham) 2 1 [1, 0] [0, 0]) = .fin 0 := by
  rw [demo_meanCoh]
  have : Tf.spectra (ham 2) .none 2 1 [0, 0] 0 = [0] := by
    simp [Tf.spectra, Tf.segStarts, Tf.segment, Tf.spectrum, Tf.detrend, Finset.sum_range_succ, Dft.at0]
  rw [this]
  simp [Tf.cohBin, Tf.psd]

/-- C141: delays and coherences are assigned to the rows by position, not by name: with the same two columns in the other order (and
everything else the same) the reference `a` is listed with mean coherence 0 with itself, and the silent sensor `b` with coherence 1. -/
theorem C141_violated_order (x : Cmv.Ext) (nanD : List (Option ℝ) → List (Option ℝ) → Option ℝ) (sort : SortValues String) (ham : ℕ → List ℝ)
    (hh : ham 2 = [0.08, 1]) (v1 v2 : Vec) :
    (otherOrder [0, 0]).cols.Perm (twoCols [0, 0]).cols ∧
    (∃ pos s1 s2, predictData x nanD sort ham [twoCols [0, 0], twoCols [0, 0]] twoSites false "a" (some [v1, v2]) "all" 8 1 none (some 0.02) "multi" =
      .ok (pos, s1, s2) ∧ s1.map (fun r => (r.1, r.2.coh)) = [("a", some 1), ("b", some 0)]) ∧
    (∃ pos s1 s2, predictData x nanD sort ham [otherOrder [0, 0], twoCols [0, 0]] twoSites false "a" (some [v1, v2]) "all" 8 1 none (some 0.02) "multi" =
      .ok (pos, s1, s2) ∧ s1.map (fun r => (r.1, r.2.coh)) = [("a", some 0), ("b", some 1)]) := by
  have e1 := fieldDelays_demo ham (twoCols [0, 0]).cols (by simp [twoCols])
  have e2 := fieldDelays_demo ham (otherOrder [0, 0]).cols (by simp [otherOrder])
  have s := demo_self ham hh
  have z := demo_zero ham
  refine ⟨by simp only [otherOrder, twoCols]; exact List.Perm.swap _ _ _, ?_, ?_⟩
  · rw [predictData_ok (d1 := twoCols [0, 0]) e1 (d2 := twoCols [0, 0]) e1]
    simp only [twoCols, List.map_cons, List.map_nil, s, z, Tf.finVal]
    refine ⟨_, _, _, rfl, ?_⟩
    simp [locRows, dictGet?, twoSites, projectVectors, computeVectors]
  · rw [predictData_ok (d1 := otherOrder [0, 0]) e2 (d2 := twoCols [0, 0]) e1]
    simp only [twoCols, otherOrder, List.map_cons, List.map_nil, s, z, Tf.finVal]
    refine ⟨_, _, _, rfl, ?_⟩
    simp [locRows, dictGet?, twoSites, projectVectors, computeVectors]

/-- With the same signal at both sites the prediction for `a` lies halfway to `b`. -/
theorem demo_result (x : Cmv.Ext) (nanD : List (Option ℝ) → List (Option ℝ) → Option ℝ) (sort : SortValues String) (ham : ℕ → List ℝ)
    (hh : ham 2 = [0.08, 1]) :
    ∃ s1 s2, predictData x nanD sort ham [twoCols [1, 0], twoCols [1, 0]] twoSites false "a" (some [(1, 0), (0, 1)]) "all" 8 1 none (some 0.02) "multi" =
      .ok ((.fin 5, .fin 2.5), s1, s2) := by
  have e1 := fieldDelays_demo ham (twoCols [1, 0]).cols (by simp [twoCols])
  have s := demo_self ham hh
  rw [predictData_ok (d1 := twoCols [1, 0]) e1 (d2 := twoCols [1, 0]) e1]
  simp only [twoCols, List.map_cons, List.map_nil, s, Tf.finVal]
  have m1 : magnitude ((1 : ℝ), (0 : ℝ)) = 1 := by simp [magnitude]
  have m2 : magnitude ((0 : ℝ), (1 : ℝ)) = 1 := by simp [magnitude]
  have hp1 : posData twoSites (0, 0) ⟨(1, 0), [some 0, some 0], [some 1, some 1]⟩ =
      .ok [("a", ⟨some 0, some 0, some 0, some 1⟩), ("b", ⟨some 0, some (-10), some 10, some 1⟩)] := by
    simp [posData, twoSites, projectVectors, computeVectors, unit, m1]
  have hp2 : posData twoSites (0, 0) ⟨(0, 1), [some 0, some 0], [some 1, some 1]⟩ =
      .ok [("a", ⟨some 0, some 0, some 0, some 1⟩), ("b", ⟨some 0, some (-5), some 5, some 1⟩)] := by
    simp [posData, twoSites, projectVectors, computeVectors, unit, m2]
  have hpos := position_solves ((1 : ℝ), (0 : ℝ)) ((0 : ℝ), (1 : ℝ)) (5, 2.5) (0, 0) (by norm_num) 5 2.5 (by rw [m1]; norm_num) (by rw [m2]; norm_num)
    (by norm_num) (by norm_num)
  have hd : dictGet? twoSites "a" = some (0, 0) := by simp [dictGet?, twoSites]
  have hsel : ∀ t1 t2, downselect sort "all" 8 twoSites (0, 0) t1 t2 = .ok (["a", "b"], ["a", "b"]) := by
    intro t1 t2; simp [downselect, twoSites]
  have hl : ∀ p q : PosRow, locRows [("a", p), ("b", q)] ["a", "b"] = [("a", p), ("b", q)] := by
    intro p q; simp [locRows, dictGet?]
  have hm1 : meanError [("a", (⟨some 0, some 0, some 0, some 1⟩ : PosRow)), ("b", ⟨some 0, some (-10), some 10, some 1⟩)] = some 5 := by
    simp only [meanError, meanO, mean, List.filterMap_cons, List.filterMap_nil]
    norm_num
    exact fun h => absurd h (List.cons_ne_nil _ _)
  have hm2 : meanError [("a", (⟨some 0, some 0, some 0, some 1⟩ : PosRow)), ("b", ⟨some 0, some (-5), some 5, some 1⟩)] = some 2.5 := by
    simp only [meanError, meanO, mean, List.filterMap_cons, List.filterMap_nil]
    norm_num
    exact fun h => absurd h (List.cons_ne_nil _ _)
  unfold predictedPosition
  rw [hd]
  simp only [hp1, hp2, bind, Except.bind, hsel, Except.map, hl, hm1, hm2, hpos, Bool.false_eq_true, if_false, add_zero]
  exact ⟨_, _, rfl⟩

/-- C139 and C140 apply to the concrete case: shifted by (1, 2) and stretched by 2 the position becomes (11, 7), with the data sets
exchanged it stays. -/
example (x : Cmv.Ext) (nanD : List (Option ℝ) → List (Option ℝ) → Option ℝ) (sort : SortValues String) (ham : ℕ → List ℝ)
    (hh : ham 2 = [0.08, 1]) :
    (∃ s, predictData x nanD sort ham [twoCols [1, 0], twoCols [1, 0]] (twoSites.map fun p => (p.1, similar 2 0 (1, 2) p.2)) false "a"
      (some [turn 2 0 (1, 0), turn 2 0 (0, 1)]) "all" 8 1 none (some 0.02) "multi" = .ok ((.fin 11, .fin 7), s)) ∧
    ∃ s, predictData x nanD sort ham [twoCols [1, 0], twoCols [1, 0]] twoSites false "a" (some [(0, 1), (1, 0)]) "all" 8 1 none (some 0.02) "multi" =
      .ok ((.fin 5, .fin 2.5), s) := by
  obtain ⟨s1, s2, h⟩ := demo_result x nanD sort ham hh
  obtain ⟨t1, t2, h1, -⟩ := C139_similarity x nanD sort ham _ _ _ _ _ _ _ _ _ _ _ _ 2 0 two_pos (Or.inl (by decide)) (1, 2) _ _ _ _ h
  refine ⟨⟨(t1, t2), ?_⟩, ⟨_, C140_swap x nanD sort ham _ _ _ _ _ _ _ _ _ _ _ _ _ _ _ _ _ h⟩⟩
  rw [h1]
  norm_num [similar, turn]

/-- C138 applies: the second sensor reads three times as much. -/
example (x : Cmv.Ext) (nanD : List (Option ℝ) → List (Option ℝ) → Option ℝ) (sort : SortValues String) (ham : ℕ → List ℝ)
    (hh : ham 2 = [0.08, 1]) :
    ∃ s, predictData x nanD sort ham [twoCols [3, 0], twoCols [1, 0]] twoSites false "a" (some [(1, 0), (0, 1)]) "all" 8 1 none (some 0.02) "multi" =
      .ok ((.fin 5, .fin 2.5), s) := by
  obtain ⟨s1, s2, h⟩ := demo_result x nanD sort ham hh
  refine ⟨(s1, s2), ?_⟩
  rw [← h]
  refine C138_gains x nanD sort ham [twoCols [1, 0], twoCols [1, 0]] [twoCols [3, 0], twoCols [1, 0]]
    (.cons ⟨rfl, fun n => if n = "b" then 3 else 1, ?_, ?_⟩ (.cons ⟨rfl, fun _ => 1, ?_, ?_⟩ .nil)) _ _ _ _ _ _ _ _ _ _
  · intro n; dsimp only; split_ifs <;> norm_num
  · simp [twoCols]
  · simp
  · simp [twoCols]

/-- C137 applies: the pulse of `Props/CmvXcorr.lean` at three sites. -/
example : WindSeen (5, 5) [("0", (0, 0)), ("1", (10, 0)), ("2", (0, 10))]
    ⟨1, [("0", [1.1, 0.1, 0.6]), ("1", [0.6, 1.1, 0.1]), ("2", [0.6, 1.1, 0.1])]⟩ := by
  let m : String → ℤ := fun i => if i = "0" then 0 else 1
  have e0 : m "0" = 0 := by simp [m]
  have e1 : m "1" = 1 := by simp [m]
  have e2 : m "2" = 1 := by simp [m]
  have mg : magnitude (((10 : ℝ), (0 : ℝ)) - (0, 0)) = 10 := by
    unfold magnitude; rw [show ((10 : ℝ), (0 : ℝ)) - (0, 0) = (10, 0) by simp]; simp
  have mg2 : magnitude (((0 : ℝ), (10 : ℝ)) - (0, 0)) = 10 := by
    unfold magnitude; rw [show ((0 : ℝ), (10 : ℝ)) - (0, 0) = (0, 10) by simp]; simp
  refine ⟨3, SST.Props.Cmv.pulse, m, fun _ => 0.6, by norm_num, ⟨?_, ?_, ?_, ?_, ?_, ?_⟩, ?_, ?_⟩
  · simp
  · intro r hr
    simp only [List.map_cons, List.map_nil, List.mem_cons, List.not_mem_nil, or_false] at hr
    rcases hr with rfl | rfl | rfl <;> norm_num [record, e0, e1, e2, SST.Props.Cmv.pulse, List.range_succ]
  · refine ⟨0, ?_⟩
    intro p hp
    simp only [List.mem_cons, List.not_mem_nil, or_false] at hp
    rcases hp with rfl | rfl | rfl <;> norm_num [e0, e1, e2]
  · intro r hr k hk
    have hk' : k - m r.1 = 0 ∨ k - m r.1 = 1 := by
      by_contra hne
      push Not at hne
      exact hk (by simp [SST.Props.Cmv.pulse, hne.1, hne.2])
    simp only [List.map_cons, List.map_nil, List.mem_cons, List.not_mem_nil, or_false] at hr
    rcases hr with rfl | rfl | rfl <;> simp only [e0, e1, e2] at hk' <;> constructor <;> push_cast <;> omega
  · intro r hr
    simp only [List.map_cons, List.map_nil, List.mem_cons, List.not_mem_nil, or_false] at hr
    rcases hr with rfl | rfl | rfl <;> norm_num [Finset.sum_range_succ, e0, e1, e2, SST.Props.Cmv.pulse]
  · intro r hr
    simp only [List.map_cons, List.map_nil, List.mem_cons, List.not_mem_nil, or_false] at hr
    rcases hr with rfl | rfl | rfl <;> norm_num [Finset.sum_range_succ, e0, e1, e2, SST.Props.Cmv.pulse]
  · intro r hr
    simp only [List.mem_cons, List.not_mem_nil, or_false] at hr
    rcases hr with rfl | rfl | rfl
    · exact ⟨0, by norm_num, by norm_num [e0, SST.Props.Cmv.pulse], by norm_num [e0, SST.Props.Cmv.pulse]⟩
    · exact ⟨1, by norm_num, by norm_num [e1, SST.Props.Cmv.pulse], by norm_num [e1, SST.Props.Cmv.pulse]⟩
    · exact ⟨1, by norm_num, by norm_num [e2, SST.Props.Cmv.pulse], by norm_num [e2, SST.Props.Cmv.pulse]⟩
  · refine ⟨("0", (0, 0)), by simp, ("1", (10, 0)), by simp, ("0", (0, 0)), by simp, ("2", (0, 10)), by simp, ?_, ?_, ?_, ?_, ?_⟩
    · simp [e0, e1]
    · simp [e0, e2]
    · norm_num
    · simp only [mg]; norm_num [e0, e1]
    · simp only [mg2]; norm_num [e0, e2]

end SST.Props.PredictData
