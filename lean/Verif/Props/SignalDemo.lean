import Verif.Proofs.SignalDemo
import Verif.Props.Ramps
import Verif.Props.Vi
import Verif.Props.Stats

/-!
# Properties C206–C210: the aggregate of a plant and its variability

The series of `K` sensors over one index `t` are complete unless stated otherwise; `plantAgg` is the aggregate of
`signalproc_demo.py` (sum over the sensors divided by their number).
-/

namespace SST.Props.SignalDemo
open SST SST.Stats SST.SignalDemo

/-! ## C206 -/

private theorem darr_masked {α : Type} (n : ℕ) (occ : ℕ → Bool) (fs : List α) (hne : fs ≠ []) (f : α → ℕ → ℝ) (tau : ℕ) (pct : Bool) :
    (if pct then darrRaw ((masked n occ fun i => (fs.map fun k => f k i).sum / fs.length).map (Option.map fun (v : ℝ) => v * 100 / 1000)) tau
      else darrRaw (masked n occ fun i => (fs.map fun k => f k i).sum / fs.length) tau) ≤
    (fs.map fun k => if pct then darrRaw ((masked n occ (f k)).map (Option.map fun (v : ℝ) => v * 100 / 1000)) tau
      else darrRaw (masked n occ (f k)) tau).sum / fs.length := by
  have h := ramps_mean_le jensen_abs n occ fs hne f tau
  cases pct
  · simpa only [Bool.false_eq_true, if_false, darrRaw_eq] using h
  · have hr : ∀ s, darrRaw (s.map (Option.map fun (v : ℝ) => v * 100 / 1000)) tau = ((ramps s tau).map fun (v : ℝ) => |v|).sum / 10 := by
      intro s
      rw [darrRaw_eq, ramps_map s tau (fun v => v * 100 / 1000) (fun v => v / 10) (by intro x y; ring), List.map_map, ← sum_div_map]
      congr 1
      apply List.map_congr_left
      intro v _
      simp [abs_div]
    simp only [if_true, hr]
    rw [sum_div_map, div_right_comm]
    exact div_le_div_of_nonneg_right h (by norm_num)

/-- C206: for every step `tau`, with or without averaging over `tau` samples, the DARR of the plant is at most the mean
DARR of its sensors; an index that cannot be averaged is refused alike for the plant and for every sensor. -/
theorem C206_darr (t : List ℝ) (sensors : List (List ℝ)) (hne : sensors ≠ []) (hl : ∀ c ∈ sensors, c.length = t.length) (tau : ℕ) (movingAvg pct : Bool) :
    (∃ w, ∃ vs : List ℝ, darr true t (plantAgg t.length (sensors.map fun c => c.map some)) tau movingAvg pct = .ok w ∧
      List.Forall₂ (fun c v => darr true t (c.map some) tau movingAvg pct = .ok v) sensors vs ∧ w ≤ vs.sum / sensors.length) ∨
    (movingAvg = true ∧ 1 < tau ∧ ∃ e, Raises (darr true t (plantAgg t.length (sensors.map fun c => c.map some)) tau movingAvg pct) e ∧
      ∀ c ∈ sensors, Raises (darr true t (c.map some) tau movingAvg pct) e) := by
  have hs : ∀ c ∈ sensors, c.map some = masked t.length (fun _ => true) fun i => c.getD i 0 := fun c hc => complete_masked (hl c hc)
  rw [plantAgg_masked hl]
  by_cases hm : movingAvg = true ∧ 1 < tau
  · obtain ⟨rfl, htau⟩ := hm
    unfold darr
    simp only [Bool.true_eq_false, if_false, true_and, htau, if_true]
    unfold resampleTau
    cases hst : medianStep t with
    | none => exact .inr ⟨.valueError, rfl, fun c _ => rfl⟩
    | some dt =>
      by_cases h0 : pyInt (tau * dt) = 0
      · simp only [h0, if_true]
        exact .inr ⟨.other, rfl, fun c _ => rfl⟩
      · simp only [h0, if_false, Except.map]
        obtain ⟨m, occ, g, h1, h2⟩ := resample_mean (pyInt (tau * dt)) t sensors fun c i => c.getD i 0
        refine .inl ⟨_, sensors.map fun c => if pct then darrRaw ((masked m occ (g c)).map (Option.map fun (v : ℝ) => v * 100 / 1000)) 1
          else darrRaw (masked m occ (g c)) 1, rfl, ?_, ?_⟩
        · rw [List.forall₂_map_right_iff, List.forall₂_same]
          intro c hc
          rw [hs c hc, h1]
        · rw [h2]
          exact darr_masked m occ sensors hne g 1 pct
  · unfold darr
    simp only [Bool.true_eq_false, if_false, hm]
    refine .inl ⟨_, sensors.map fun c => if pct then darrRaw ((masked t.length (fun _ => true) fun i => c.getD i 0).map (Option.map fun (v : ℝ) => v * 100 / 1000)) tau
          else darrRaw (masked t.length (fun _ => true) fun i => c.getD i 0) tau, rfl, ?_, ?_⟩
    · rw [List.forall₂_map_right_iff, List.forall₂_same]
      intro c hc
      rw [hs c hc]
    · exact darr_masked t.length _ sensors hne (fun c i => c.getD i 0) tau pct

private theorem vi_masked {α : Type} (t : List ℝ) (c : List (Option ℝ)) (norm : Bool) (n : ℕ) (occ : ℕ → Bool) (fs : List α) (hne : fs ≠ [])
    (f : α → ℕ → ℝ) (w : ℝ) (h : viRaw t (masked n occ fun i => (fs.map fun k => f k i).sum / fs.length) c norm = .fin w) :
    ∃ vs : α → ℝ, (∀ k ∈ fs, viRaw t (masked n occ (f k)) c norm = .fin (vs k)) ∧ w ≤ (fs.map vs).sum / fs.length := by
  unfold viRaw at h ⊢
  cases hst : medianStep t with
  | none => rw [hst] at h; simp at h
  | some step =>
    rw [hst] at h
    simp only at h ⊢
    by_cases h0 : pathLength c (step / 60) = 0
    · exfalso
      unfold XR.div at h
      rw [if_pos h0] at h
      split_ifs at h
    · have hp : 0 < pathLength c (step / 60) := by
        refine lt_of_le_of_ne ?_ (Ne.symm h0)
        rw [pathLength_eq]
        exact sum_nonneg' fun _ _ => Real.sqrt_nonneg _
      have hj := ramps_mean_le (φ := fun v => Real.sqrt (v ^ 2 + (step / 60) ^ 2)) (jensen_path (step / 60)) n occ fs hne f 1
      simp only [← pathLength_eq] at hj
      simp only [XR.div, if_neg h0] at h ⊢
      cases norm
      · simp only [XR.fin.injEq] at h
        refine ⟨fun k => pathLength (masked n occ (f k)) (step / 60) / pathLength c (step / 60), fun k _ => rfl, ?_⟩
        rw [← h, sum_div_map, div_right_comm]
        exact div_le_div_of_nonneg_right hj hp.le
      · simp only [XR.fin.injEq] at h
        refine ⟨fun k => pathLength (masked n occ (f k)) (step / 60) / pathLength c (step / 60) * Real.sqrt (step / 60), fun k _ => rfl, ?_⟩
        rw [← h, List.sum_map_mul_right, sum_div_map, mul_div_right_comm, div_right_comm]
        exact mul_le_mul_of_nonneg_right (div_le_div_of_nonneg_right hj hp.le) (Real.sqrt_nonneg _)

/-- C206: with or without averaging, whenever the variability index of the plant is a number, so are those of its sensors,
and the index of the plant is at most their mean. -/
theorem C206_vi (t tc : List ℝ) (sensors : List (List ℝ)) (hne : sensors ≠ []) (hl : ∀ c ∈ sensors, c.length = t.length) (clear : List (Option ℝ))
    (tau : ℕ) (norm : Bool) (w : ℝ)
    (h : variabilityIndex true t (plantAgg t.length (sensors.map fun c => c.map some)) tc clear tau norm = .ok (.fin w)) :
    ∃ vs : List ℝ, List.Forall₂ (fun c v => variabilityIndex true t (c.map some) tc clear tau norm = .ok (.fin v)) sensors vs ∧
      w ≤ vs.sum / sensors.length := by
  have hs : ∀ c ∈ sensors, c.map some = masked t.length (fun _ => true) fun i => c.getD i 0 := fun c hc => complete_masked (hl c hc)
  rw [plantAgg_masked hl] at h
  unfold variabilityIndex at h ⊢
  simp only [Bool.true_eq_false, if_false] at h ⊢
  by_cases htau : 1 < tau
  · simp only [htau, if_true] at h ⊢
    cases hst : medianStep t with
    | none => rw [hst] at h; simp at h
    | some dt =>
      rw [hst] at h
      simp only at h ⊢
      by_cases h0 : pyInt (tau * dt) = 0
      · simp [h0] at h
      · simp only [h0, if_false, Except.ok.injEq] at h ⊢
        obtain ⟨m, occ, g, h1, h2⟩ := resample_mean (pyInt (tau * dt)) t sensors fun c i => c.getD i 0
        rw [h2] at h
        obtain ⟨vs, h3, h4⟩ := vi_masked _ _ norm m occ sensors hne g w h
        refine ⟨sensors.map vs, ?_, h4⟩
        rw [List.forall₂_map_right_iff, List.forall₂_same]
        intro c hc
        rw [hs c hc, h1, h3 c hc]
  · simp only [htau, if_false, Except.ok.injEq] at h ⊢
    obtain ⟨vs, h3, h4⟩ := vi_masked t clear norm t.length _ sensors hne (fun c i => c.getD i 0) w h
    refine ⟨sensors.map vs, ?_, h4⟩
    rw [List.forall₂_map_right_iff, List.forall₂_same]
    intro c hc
    rw [hs c hc, h3 c hc]

example : (2 : ℕ) ≤ ([0, 60, 120] : List ℝ).length ∧ ∀ c ∈ ([[1, 3, 2], [2, 1, 5]] : List (List ℝ)), c.length = ([0, 60, 120] : List ℝ).length := by simp

/-! ## C207 -/

open Classical in
private theorem exceed_le (l : List ℝ) (h0 : ∀ v ∈ l, 0 ≤ v) (r : ℝ) (hr : r ∈ l) : r * exceed l r ≤ l.sum / l.length := by
  have hn : (0 : ℝ) < l.length := by exact_mod_cast List.length_pos_of_mem hr
  unfold exceed
  rw [mul_div_assoc', div_le_div_iff_of_pos_right hn]
  have key : ∀ m : List ℝ, (∀ v ∈ m, 0 ≤ v) → r * ((m.countP fun v => r < v) + (m.countP fun v => v = r : ℕ) : ℝ) ≤ m.sum := by
    intro m hm
    induction m with
    | nil => simp
    | cons a m ih =>
      have := ih fun v hv => hm v (by simp [hv])
      have ha := hm a (by simp)
      simp only [List.countP_cons, List.sum_cons]
      rcases lt_trichotomy a r with h | h | h
      · simp only [h.not_gt, h.ne, decide_false, Bool.false_eq_true, if_false, add_zero]; linarith
      · subst h; simp only [lt_irrefl, decide_false, decide_true, Bool.false_eq_true, if_false, if_true]; push_cast; linarith
      · simp only [h, h.ne', decide_false, decide_true, Bool.false_eq_true, if_false, if_true]; push_cast; linarith
  have hk := key l h0
  have h1 : 1 ≤ l.countP (fun v => v = r) := List.countP_pos_iff.2 ⟨r, hr, by simp⟩
  have h1' : (1 : ℝ) ≤ (l.countP (fun v => v = r) : ℕ) := by exact_mod_cast h1
  have hr0 := h0 r hr
  refine le_trans ?_ hk
  apply mul_le_mul_of_nonneg_left _ hr0
  linarith

/-- C207: the variability score is at most the mean ramp magnitude, that is DARR divided by the number of ramps; whatever
samples are missing. -/
theorem C207_markov (t : List ℝ) (s : List (Option ℝ)) (tau : ℕ) (movingAvg : Bool) (h : movingAvg = false ∨ tau ≤ 1) (v : ℝ)
    (hv : variabilityScore t s tau movingAvg false = .ok (some v)) :
    ∃ d, darr true t s tau movingAvg false = .ok d ∧ v ≤ d / (ramps s tau).length := by
  obtain ⟨o, ho, -, h2⟩ := Ramps.C57_maximum t s tau movingAvg h
  rw [hv] at ho
  obtain ⟨⟨r, hr, rfl⟩, -⟩ := (h2 v).1 (by cases ho; rfl)
  refine ⟨_, Ramps.darr_eq t s tau movingAvg h, ?_⟩
  have := exceed_le ((ramps s tau).map fun (x : ℝ) => |x|) (by
    intro v hv
    obtain ⟨x, -, rfl⟩ := List.mem_map.1 hv
    exact abs_nonneg x) |r| (List.mem_map.2 ⟨r, hr, rfl⟩)
  rwa [List.length_map] at this

/-- C207: the variability score of the plant is at most the mean, over its sensors, of the mean ramp magnitude. -/
theorem C207_plant_partial (t : List ℝ) (sensors : List (List ℝ)) (hne : sensors ≠ []) (hl : ∀ c ∈ sensors, c.length = t.length) (tau : ℕ) (movingAvg : Bool)
    (h : movingAvg = false ∨ tau ≤ 1) (v : ℝ)
    (hv : variabilityScore t (plantAgg t.length (sensors.map fun c => c.map some)) tau movingAvg false = .ok (some v)) :
    ∃ vs : List ℝ, List.Forall₂ (fun c d => darr true t (c.map some) tau movingAvg false = .ok d) sensors vs ∧
      v ≤ vs.sum / sensors.length / (t.length - tau : ℕ) := by
  obtain ⟨d, hd, hle⟩ := C207_markov t _ tau movingAvg h v hv
  rcases C206_darr t sensors hne hl tau movingAvg false with ⟨w, vs, hw, hvs, hwle⟩ | ⟨h1, h2, -⟩
  · refine ⟨vs, hvs, hle.trans ?_⟩
    rw [hd] at hw
    cases hw
    have hlen : (ramps (plantAgg t.length (sensors.map fun c => c.map some)) tau).length = t.length - tau := by
      rw [plantAgg_masked hl, ramps_masked]; simp
    rw [hlen]
    exact div_le_div_of_nonneg_right hwle (Nat.cast_nonneg _)
  · rcases h with h | h
    · rw [h] at h1; cases h1
    · omega

/-- The series of the counterexample: ramps 1 and 1/2 at one sensor, 1/2 and 3/2 at the other. -/
noncomputable def sensorsA : List (List ℝ) := [[0, 1, 3 / 2], [0, 1 / 2, 2]]

private theorem score_three (a b c : ℝ) (h : |b - a| ≠ |c - b|) (t : List ℝ) :
    variabilityScore t [some a, some b, some c] 1 true false = .ok (some (min |b - a| |c - b| / 2)) := by
  classical
  have hr : ramps [some a, some b, some c] 1 = [b - a, c - b] := by
    simp [ramps, List.range_succ, osub]
  unfold variabilityScore
  simp only [lt_irrefl, and_false, if_false, Bool.false_eq_true, scoreRaw_eq, hr]
  congr 1
  rw [omax_eq_some, filterMap_some]
  simp only [List.map_cons, List.map_nil]
  generalize hx : |b - a| = x at *
  generalize hy : |c - b| = y at *
  have hx0 : 0 ≤ x := hx ▸ abs_nonneg _
  have hy0 : 0 ≤ y := hy ▸ abs_nonneg _
  rcases lt_or_gt_of_ne h with h' | h'
  · have e1 : exceed [x, y] x = 1 / 2 := by unfold exceed; simp [h', h'.ne']
    have e2 : exceed [x, y] y = 0 := by unfold exceed; simp [h'.not_gt, h'.ne]
    rw [e1, e2, min_eq_left h'.le]
    constructor
    · simp; left; ring
    · intro u hu
      simp only [List.mem_cons, List.not_mem_nil, or_false] at hu
      rcases hu with rfl | rfl <;> linarith
  · have e1 : exceed [x, y] x = 0 := by unfold exceed; simp [h'.not_gt, h'.ne]
    have e2 : exceed [x, y] y = 1 / 2 := by unfold exceed; simp [h', h'.ne']
    rw [e1, e2, min_eq_right h'.le]
    constructor
    · simp; right; ring
    · intro u hu
      simp only [List.mem_cons, List.not_mem_nil, or_false] at hu
      rcases hu with rfl | rfl <;> linarith

/-- C207: unlike DARR and the variability index, the variability score of a plant can exceed the score of every one of its
sensors: here 3/8 against 1/4 and 1/4. -/
theorem C207_violated_smoothing :
    (∀ c ∈ sensorsA, variabilityScore [0, 1, 2] (c.map some) 1 true false = .ok (some (1 / 4))) ∧
    variabilityScore [0, 1, 2] (plantAgg 3 (sensorsA.map fun c => c.map some)) 1 true false = .ok (some (3 / 8)) := by
  have e1 : |(3 / 2 : ℝ) - 1| = 1 / 2 := by norm_num [abs_of_pos]
  have e2 : |(2 : ℝ) - 1 / 2| = 3 / 2 := by norm_num [abs_of_pos]
  have e3 : |(7 / 4 : ℝ) - 3 / 4| = 1 := by norm_num [abs_of_pos]
  have e4 : |(1 : ℝ) - 0| = 1 := by norm_num
  have e5 : |(1 / 2 : ℝ) - 0| = 1 / 2 := by norm_num [abs_of_pos]
  have e6 : |(3 / 4 : ℝ) - 0| = 3 / 4 := by norm_num [abs_of_pos]
  constructor
  · intro c hc
    unfold sensorsA at hc
    simp only [List.mem_cons, List.not_mem_nil, or_false] at hc
    rcases hc with rfl | rfl
    · simp only [List.map_cons, List.map_nil]
      rw [score_three _ _ _ (by rw [e1, e4]; norm_num), e1, e4, min_eq_right (by norm_num)]
      norm_num
    · simp only [List.map_cons, List.map_nil]
      rw [score_three _ _ _ (by rw [e2, e5]; norm_num), e2, e5, min_eq_left (by norm_num)]
      norm_num
  · have : plantAgg 3 (sensorsA.map fun c => c.map some) = [some 0, some (3 / 4), some (7 / 4)] := by
      simp [plantAgg, sensorsA, List.range_succ]; norm_num
    rw [this, score_three _ _ _ (by rw [e3, e6]; norm_num), e3, e6, min_eq_left (by norm_num)]
    norm_num

/-! ## C208 -/

variable (odd : ℝ → List (Option ℝ) → Except PyErr (Option ℝ))

/-- C208: on a regular index, for steps shorter than `b` seconds (`b` a positive whole number), the score over `b` seconds is
the score of the means over consecutive intervals of `b` seconds: the length of the intervals does not depend on the
sampling step, whether or not the step divides `b`. -/
theorem C208_seconds (t0 h : ℝ) (b : ℕ) (hh : 0 < h) (hb : h < b) (s : List (Option ℝ)) (hs : 2 ≤ s.length) :
    scoreOver odd b (regular t0 h s.length) s =
      (variabilityScore [] (resampleMean b (regular t0 h s.length) s) 1 false true) := by
  have hb0 : (0 : ℝ) < b := hh.trans hb
  have hbn : b ≠ 0 := by rintro rfl; simp at hb0
  have h0 : (regular t0 h s.length)[0]? = some t0 := by
    unfold regular; rw [List.getElem?_map, List.getElem?_range (by omega)]; simp
  have h1 : (regular t0 h s.length)[1]? = some (t0 + h) := by
    unfold regular; rw [List.getElem?_map, List.getElem?_range (by omega)]; simp
  unfold scoreOver scoreFloat
  rw [h0, h1]
  simp only [add_sub_cancel_left]
  rw [if_pos ((one_lt_div hh).2 hb), medianStep_regular t0 h _ hs]
  simp only
  rw [div_mul_cancel₀ _ hh.ne', pyInt_nat, if_neg (by exact_mod_cast hbn), Int.cast_natCast]
  unfold variabilityScore
  simp

/-- C208: with a step of exactly `b` seconds the record itself is used. -/
theorem C208_exact (t0 h : ℝ) (hh : 0 < h) (s : List (Option ℝ)) (hs : 2 ≤ s.length) :
    scoreOver odd h (regular t0 h s.length) s = variabilityScore [] s 1 false true := by
  have h0 : (regular t0 h s.length)[0]? = some t0 := by
    unfold regular; rw [List.getElem?_map, List.getElem?_range (by omega)]; simp
  have h1 : (regular t0 h s.length)[1]? = some (t0 + h) := by
    unfold regular; rw [List.getElem?_map, List.getElem?_range (by omega)]; simp
  unfold scoreOver scoreFloat
  rw [h0, h1]
  simp only [add_sub_cancel_left]
  rw [div_self hh.ne', if_neg (lt_irrefl _), if_pos rfl]
  unfold variabilityScore
  simp

private theorem sum_blocks (l : List ℝ) (k m : ℕ) : (((List.range m).map fun j => ((l.drop (j * k)).take k).sum).sum) = (l.take (m * k)).sum := by
  induction m with
  | zero => simp
  | succ m ih =>
    rw [List.range_succ, List.map_append, List.sum_append, ih]
    simp only [List.map_cons, List.map_nil, List.sum_cons, List.sum_nil, add_zero]
    rw [Nat.succ_mul, List.take_add, List.sum_append]

/-- Sum of the first `m` blocks of length `k` from `a` on. -/
private theorem sum_blocks_at (l : List ℝ) (k m a : ℕ) :
    (((List.range m).map fun j => ((l.drop (a + j * k)).take k).sum).sum) = ((l.drop a).take (m * k)).sum := by
  rw [← sum_blocks]
  simp only [List.drop_drop]

private theorem groups_some (m : ℕ) (hm : 0 < m) (l : List ℝ) :
    groups m (l.map some) = (List.range ((l.length + m - 1) / m)).map fun j => some (((l.drop (j * m)).take m).sum / ((l.drop (j * m)).take m).length) := by
  unfold groups
  rw [List.length_map]
  apply List.map_congr_left
  intro j hj
  rw [List.mem_range] at hj
  have hjl : j * m < l.length := by
    have h1 := Nat.div_mul_le_self (l.length + m - 1) m
    have h2 : (j + 1) * m ≤ (l.length + m - 1) / m * m := Nat.mul_le_mul_right _ hj
    rw [Nat.add_mul, one_mul] at h2
    omega
  unfold pdMean meanO mean
  rw [← List.map_drop, ← List.map_take, filterMap_some, if_neg]
  intro h0
  have := congrArg List.length h0
  simp at this
  omega

private theorem take_blocks (l : List ℝ) (k a m : ℕ) (N : ℕ) (hl : l.length = N * k) :
    ((((List.range N).map fun j => ((l.drop (j * k)).take k).sum / k).drop a).take m).sum = ((l.drop (a * k)).take (m * k)).sum / k ∧
    ((l.drop (a * k)).take (m * k)).length = (((List.range N).drop a).take m).length * k := by
  have hr : ((List.range N).drop a).take m = (List.range (min m (N - a))).map fun j => a + j := by
    apply List.ext_getElem
    · simp
    · intro i h1 h2
      simp
  constructor
  · rw [← List.map_drop, ← List.map_take, hr, List.map_map]
    have : ((fun j => ((l.drop (j * k)).take k).sum / (k : ℝ)) ∘ fun j => a + j) = fun j => ((l.drop (a * k + j * k)).take k).sum / (k : ℝ) := by
      funext j; simp only [Function.comp_apply]; rw [Nat.add_mul]
    rw [this, sum_div_map, sum_blocks_at]
    congr 2
    rcases le_total m (N - a) with h | h
    · rw [min_eq_left h]
    · rw [min_eq_right h, List.take_of_length_le, List.take_of_length_le]
      · rw [List.length_drop, hl, ← Nat.sub_mul]; exact Nat.mul_le_mul_right _ h
      · rw [List.length_drop, hl, ← Nat.sub_mul]
  · rw [hr, List.length_map, List.length_range, List.length_take, List.length_drop, hl, ← Nat.sub_mul, ← Nat.mul_min_mul_right]

/-- C208: averaging a complete record over groups of `k` samples beforehand does not change its means over `m k` samples,
if the record consists of whole groups of `k` samples. -/
theorem C208_nested (l : List ℝ) (k m : ℕ) (hk : 0 < k) (hm : 0 < m) (hl : k ∣ l.length) :
    groups m (groups k (l.map some)) = groups (m * k) (l.map some) := by
  obtain ⟨N, hN⟩ := hl
  rw [mul_comm] at hN
  have h1 : (l.length + k - 1) / k = N := by
    rw [hN, show N * k + k - 1 = (k - 1) + N * k by omega, Nat.add_mul_div_right _ _ hk, Nat.div_eq_of_lt (by omega), Nat.zero_add]
  have h2 : groups k (l.map some) = ((List.range N).map fun j => ((l.drop (j * k)).take k).sum / (k : ℝ)).map some := by
    rw [groups_some k hk, h1, List.map_map]
    apply List.map_congr_left
    intro j hj
    rw [List.mem_range] at hj
    have : ((l.drop (j * k)).take k).length = k := by
      rw [List.length_take, List.length_drop, hN, min_eq_left]
      have : (j + 1) * k ≤ N * k := Nat.mul_le_mul_right _ hj
      rw [Nat.add_mul, one_mul] at this
      omega
    rw [this]
    rfl
  rw [h2, groups_some m hm, groups_some (m * k) (Nat.mul_pos hm hk), List.length_map, List.length_range]
  have h3 : (l.length + m * k - 1) / (m * k) = (N + m - 1) / m := by
    rw [hN, mul_comm m k, ← Nat.div_div_eq_div_mul]
    congr 1
    rw [show N * k + k * m - 1 = (k - 1) + (N + m - 1) * k by
      have : 1 ≤ N + m := by omega
      obtain ⟨q, hq⟩ : ∃ q, N + m = q + 1 := ⟨N + m - 1, by omega⟩
      rw [hq, Nat.add_sub_cancel, mul_comm k m, ← Nat.add_mul, hq, Nat.add_mul]; omega]
    rw [Nat.add_mul_div_right _ _ hk, Nat.div_eq_of_lt (by omega), Nat.zero_add]
  rw [h3]
  apply List.map_congr_left
  intro j _
  obtain ⟨t1, t2⟩ := take_blocks l k (j * m) m N hN
  rw [t1, ← mul_assoc, t2, ← List.map_drop, ← List.map_take, List.length_map]
  push_cast
  rw [div_div, mul_comm (k : ℝ)]

example : (2 : ℕ) ∣ ([1, 2, 3, 4, 5, 6] : List ℝ).length := by decide

/-! ## C209 -/

/-- C209: with complete records every value of the aggregate is the mean of the sensors, hence between their smallest and
largest value. -/
theorem C209_complete_partial (n : ℕ) (sensors : List (List ℝ)) (hne : sensors ≠ []) (hl : ∀ c ∈ sensors, c.length = n) (i : ℕ) (hi : i < n) :
    ∃ v, (plantAgg n (sensors.map fun c => c.map some))[i]? = some (some v) ∧ v = (sensors.map fun c => c.getD i 0).sum / sensors.length ∧
      (∃ c ∈ sensors, c.getD i 0 ≤ v) ∧ ∃ c ∈ sensors, v ≤ c.getD i 0 := by
  have hn : (0 : ℝ) < sensors.length := by exact_mod_cast List.length_pos_iff.2 hne
  have hsum : (sensors.map fun _ => (sensors.map fun c => c.getD i 0).sum / (sensors.length : ℝ)).sum = (sensors.map fun c => c.getD i 0).sum := by
    simp [mul_div_cancel₀ _ hn.ne']
  refine ⟨_, ?_, rfl, ?_, ?_⟩
  · rw [plantAgg_masked hl]
    unfold masked
    rw [List.getElem?_map, List.getElem?_range hi]
    simp
  · by_contra hc
    push Not at hc
    have : (sensors.map fun _ => (sensors.map fun c => c.getD i 0).sum / (sensors.length : ℝ)).sum < (sensors.map fun c => c.getD i 0).sum :=
      List.sum_lt_sum_of_ne_nil hne _ _ hc
    linarith
  · by_contra hc
    push Not at hc
    have : (sensors.map fun c => c.getD i 0).sum < (sensors.map fun _ => (sensors.map fun c => c.getD i 0).sum / (sensors.length : ℝ)).sum :=
      List.sum_lt_sum_of_ne_nil hne _ _ hc
    linarith

/-- C209: a missing sample of one sensor counts as 0: if every sensor sees the same irradiance `g`, and `m` of them miss the
sample, the aggregate is `g (K - m) / K`, not `g` (and 0 when all miss it, not NaN). -/
theorem C209_violated_missing (g : ℝ) (K m : ℕ) (hm : m ≤ K) :
    plantAgg 1 (List.replicate m [none] ++ List.replicate (K - m) [some g]) = [some (g * (K - m : ℕ) / K)] := by
  unfold plantAgg
  simp only [List.range_one, List.map_cons, List.map_nil, List.map_append, List.map_replicate, List.sum_append, List.sum_replicate, List.length_append, List.length_replicate]
  congr 2
  rw [show m + (K - m) = K by omega]
  simp
  ring

/-- C209: whatever is missing, the aggregate has a value at every row, and for nonnegative data it is at most what complete
records would give. -/
theorem C209_lower (n : ℕ) (cols full : List (List (Option ℝ))) (h : List.Forall₂ (List.Forall₂ fun x y => x = none ∨ x = y) cols full)
    (h0 : ∀ c ∈ full, ∀ x ∈ c, ∀ v, x = some v → 0 ≤ v) (i : ℕ) (hi : i < n) :
    ∃ u v, (plantAgg n cols)[i]? = some (some u) ∧ (plantAgg n full)[i]? = some (some v) ∧ u ≤ v := by
  refine ⟨_, _, by unfold plantAgg; rw [List.getElem?_map, List.getElem?_range hi]; rfl, by unfold plantAgg; rw [List.getElem?_map, List.getElem?_range hi]; rfl, ?_⟩
  rw [h.length_eq]
  apply div_le_div_of_nonneg_right _ (Nat.cast_nonneg _)
  induction h with
  | nil => simp
  | @cons c f cs fs hcf _ ih =>
    simp only [List.map_cons, List.sum_cons]
    refine add_le_add ?_ (ih fun c hc => h0 c (by simp [hc]))
    have hf := h0 f (by simp)
    clear ih h0 hi
    induction hcf generalizing i with
    | nil => simp
    | @cons x y xs ys hxy _ ih2 =>
      cases i with
      | succ i =>
        simp only [List.getElem?_cons_succ]
        exact ih2 i fun x hx => hf x (by simp [hx])
      | zero =>
        simp only [List.getElem?_cons_zero, Option.getD_some]
        rcases hxy with rfl | rfl
        · cases y with
          | none => exact le_rfl
          | some v => exact hf _ (by simp) v rfl
        · exact le_rfl

/-! ## C210 -/

private theorem as_range {n : ℕ} {c : List ℝ} (h : c.length = n) : c.map some = ((List.range n).map fun i => c.getD i 0).map some := by
  rw [complete_masked h]; unfold masked; simp

private theorem agg_range {n : ℕ} {sensors : List (List ℝ)} (h : ∀ c ∈ sensors, c.length = n) :
    plantAgg n (sensors.map fun c => c.map some) = ((List.range n).map fun i => (sensors.map fun c => c.getD i 0).sum / sensors.length).map some := by
  rw [plantAgg_masked h]; unfold masked; simp

/-- C210: against any complete record `b`, the mean bias of the aggregate is the mean of the mean biases of the sensors. -/
theorem C210_bias (isSeries : Bool) (n : ℕ) (hn : 0 < n) (b : List ℝ) (hb : b.length = n) (sensors : List (List ℝ)) (hne : sensors ≠ [])
    (hl : ∀ c ∈ sensors, c.length = n) :
    ∃ vs : List ℝ, List.Forall₂ (fun c v => mbe isSeries (b.map some) (c.map some) = some v) sensors vs ∧
      mbe isSeries (b.map some) (plantAgg n (sensors.map fun c => c.map some)) = some (vs.sum / sensors.length) := by
  have hr : List.range n ≠ [] := by simp; omega
  have hK : (sensors.length : ℝ) ≠ 0 := by exact_mod_cast (List.length_pos_iff.2 hne).ne'
  refine ⟨sensors.map fun c => ((List.range n).map fun i => c.getD i 0 - b.getD i 0).sum / (List.range n).length, ?_, ?_⟩
  · rw [List.forall₂_map_right_iff, List.forall₂_same]
    intro c hc
    rw [as_range hb, as_range (hl c hc), mbe_map hr]
  · rw [as_range hb, agg_range hl, mbe_map hr, sum_div_map, ← swap_sum, sum_sub_map, div_right_comm]
    congr 2
    simp only [sum_sub_map]
    rw [sub_div]
    congr 1
    · rw [sum_div_map]
    · have e : ∀ i : ℕ, (sensors.map fun _ => b.getD i 0).sum = sensors.length * b.getD i 0 := by intro i; simp
      simp only [e]
      rw [List.sum_map_mul_left, mul_div_cancel_left₀ _ hK]

/-- C210: the mean squared error of the aggregate is the mean of those of the sensors, less the mean squared distance of the
sensors from the aggregate. -/
theorem C210_spread (isSeries : Bool) (n : ℕ) (hn : 0 < n) (b : List ℝ) (hb : b.length = n) (sensors : List (List ℝ)) (hne : sensors ≠ [])
    (hl : ∀ c ∈ sensors, c.length = n) :
    ∃ vs ds : List ℝ, List.Forall₂ (fun c v => mse isSeries (b.map some) (c.map some) = some v) sensors vs ∧
      List.Forall₂ (fun c d => mse isSeries (plantAgg n (sensors.map fun c => c.map some)) (c.map some) = some d ∧ 0 ≤ d) sensors ds ∧
      mse isSeries (b.map some) (plantAgg n (sensors.map fun c => c.map some)) = some (vs.sum / sensors.length - ds.sum / sensors.length) := by
  have hr : List.range n ≠ [] := by simp; omega
  have hK : (sensors.length : ℝ) ≠ 0 := by exact_mod_cast (List.length_pos_iff.2 hne).ne'
  refine ⟨sensors.map fun c => ((List.range n).map fun i => (c.getD i 0 - b.getD i 0) ^ 2).sum / (List.range n).length,
    sensors.map fun c => ((List.range n).map fun i => (c.getD i 0 - (sensors.map fun c => c.getD i 0).sum / sensors.length) ^ 2).sum / (List.range n).length, ?_, ?_, ?_⟩
  · rw [List.forall₂_map_right_iff, List.forall₂_same]
    intro c hc
    rw [as_range hb, as_range (hl c hc), mse_map hr]
  · rw [List.forall₂_map_right_iff, List.forall₂_same]
    intro c hc
    rw [as_range (hl c hc), agg_range hl, mse_map hr]
    exact ⟨rfl, div_nonneg (sum_nonneg' fun _ _ => sq_nonneg _) (Nat.cast_nonneg _)⟩
  · have s1 := swap_sum (List.range n) sensors fun c i => (c.getD i 0 - b.getD i 0) ^ 2
    have s2 := swap_sum (List.range n) sensors fun c i => (c.getD i 0 - (sensors.map fun c => c.getD i 0).sum / sensors.length) ^ 2
    rw [as_range hb, agg_range hl, mse_map hr, sum_div_map, sum_div_map, ← s1, ← s2, div_right_comm, div_right_comm _ _ (sensors.length : ℝ), ← sub_div]
    congr 2
    rw [← sub_div, ← sum_sub_map, ← sum_div_map]
    congr 1
    apply List.map_congr_left
    intro i _
    set a := (sensors.map fun c => c.getD i 0).sum / (sensors.length : ℝ) with ha
    have hs : (sensors.map fun c => c.getD i 0).sum = sensors.length * a := by rw [ha]; field_simp
    have e1 : ∀ (L : List (List ℝ)) (x : ℝ), (L.map fun c => (c.getD i 0 - x) ^ 2).sum =
        (L.map fun c => c.getD i 0 ^ 2).sum - 2 * x * (L.map fun c => c.getD i 0).sum + L.length * x ^ 2 := by
      intro L x
      induction L with
      | nil => simp
      | cons c L ih => simp only [List.map_cons, List.sum_cons, ih, List.length_cons]; push_cast; ring
    rw [e1, e1, hs]
    field_simp
    ring

private theorem sqrt_sum_le {α β : Type} (l : List α) (m : List β) (g : β → α → ℝ) :
    Real.sqrt (l.map fun a => (m.map fun b => g b a).sum ^ 2).sum ≤ (m.map fun b => Real.sqrt (l.map fun a => g b a ^ 2).sum).sum := by
  induction m with
  | nil => simp
  | cons b m ih =>
    simp only [List.map_cons, List.sum_cons]
    exact (sum_minkowski l (g b) fun a => (m.map fun b => g b a).sum).trans (by linarith)

/-- C210: the root mean square error and the mean absolute error of the aggregate are at most the means of those of the
sensors, whichever of the two is the baseline. -/
theorem C210_errors (isSeries : Bool) (n : ℕ) (hn : 0 < n) (b : List ℝ) (hb : b.length = n) (sensors : List (List ℝ)) (hne : sensors ≠ [])
    (hl : ∀ c ∈ sensors, c.length = n) :
    ∃ r m, ∃ rs ms : List ℝ, rmse isSeries (b.map some) (plantAgg n (sensors.map fun c => c.map some)) = some r ∧
      rmse isSeries (plantAgg n (sensors.map fun c => c.map some)) (b.map some) = some r ∧
      mae isSeries (b.map some) (plantAgg n (sensors.map fun c => c.map some)) = some m ∧
      mae isSeries (plantAgg n (sensors.map fun c => c.map some)) (b.map some) = some m ∧
      List.Forall₂ (fun c v => rmse isSeries (b.map some) (c.map some) = some v) sensors rs ∧
      List.Forall₂ (fun c v => mae isSeries (b.map some) (c.map some) = some v) sensors ms ∧
      r ≤ rs.sum / sensors.length ∧ m ≤ ms.sum / sensors.length := by
  have hr : List.range n ≠ [] := by simp; omega
  have hn' : (0 : ℝ) < (List.range n).length := by simpa using hn
  have hK : (0 : ℝ) < sensors.length := by exact_mod_cast List.length_pos_iff.2 hne
  have ha := agg_range hl
  have hdev : ∀ i, (sensors.map fun c => c.getD i 0).sum / (sensors.length : ℝ) - b.getD i 0 = (sensors.map fun c => c.getD i 0 - b.getD i 0).sum / sensors.length := by
    intro i
    rw [sum_sub_map, sub_div]
    simp [hK.ne']
  refine ⟨_, _, sensors.map fun c => Real.sqrt (((List.range n).map fun i => (c.getD i 0 - b.getD i 0) ^ 2).sum / (List.range n).length),
    sensors.map fun c => ((List.range n).map fun i => |c.getD i 0 - b.getD i 0|).sum / (List.range n).length,
    by rw [ha, as_range hb, rmse_map hr], ?_, by rw [ha, as_range hb, mae_map hr], ?_, ?_, ?_, ?_, ?_⟩
  · rw [ha, as_range hb, rmse_map hr]
    congr 4
    apply List.map_congr_left; intro i _; ring
  · rw [ha, as_range hb, mae_map hr]
    congr 3
    apply List.map_congr_left; intro i _; rw [abs_sub_comm]
  · rw [List.forall₂_map_right_iff, List.forall₂_same]
    intro c hc
    rw [as_range hb, as_range (hl c hc), rmse_map hr]
  · rw [List.forall₂_map_right_iff, List.forall₂_same]
    intro c hc
    rw [as_range hb, as_range (hl c hc), mae_map hr]
  · simp only [hdev]
    have h1 := sqrt_sum_le (List.range n) sensors fun c i => c.getD i 0 - b.getD i 0
    rw [le_div_iff₀ hK]
    have e : ∀ x : ℝ, 0 ≤ x → Real.sqrt (x / (List.range n).length) = Real.sqrt x / Real.sqrt (List.range n).length := fun x hx => Real.sqrt_div hx _
    rw [e _ (sum_nonneg' fun _ _ => sq_nonneg _)]
    have e2 : (sensors.map fun c => Real.sqrt (((List.range n).map fun i => (c.getD i 0 - b.getD i 0) ^ 2).sum / (List.range n).length)) =
        sensors.map fun c => Real.sqrt ((List.range n).map fun i => (c.getD i 0 - b.getD i 0) ^ 2).sum / Real.sqrt (List.range n).length :=
      List.map_congr_left fun c _ => e _ (sum_nonneg' fun _ _ => sq_nonneg _)
    rw [e2, sum_div_map, div_mul_eq_mul_div]
    apply div_le_div_of_nonneg_right _ (Real.sqrt_nonneg _)
    refine le_trans (le_of_eq ?_) h1
    have e3 : ∀ X : ℝ, 0 ≤ X → Real.sqrt X * sensors.length = Real.sqrt (X * (sensors.length : ℝ) ^ 2) := by
      intro X hX
      rw [Real.sqrt_mul hX, Real.sqrt_sq hK.le]
    rw [e3 _ (sum_nonneg' fun _ _ => sq_nonneg _), ← List.sum_map_mul_right]
    congr 2
    apply List.map_congr_left
    intro i _
    field_simp
  · simp only [hdev]
    rw [sum_div_map, div_right_comm]
    apply div_le_div_of_nonneg_right _ hn'.le
    rw [← swap_sum, ← sum_div_map]
    apply sum_le_sum'
    intro i _
    exact jensen_abs sensors (fun c => c.getD i 0 - b.getD i 0) hne

example : (0 : ℕ) < 3 ∧ ([1, 2, 2] : List ℝ).length = 3 ∧ ∀ c ∈ ([[1, 3, 2], [2, 1, 5]] : List (List ℝ)), c.length = 3 := by simp

end SST.Props.SignalDemo
