import Verif.Proofs.Resample

/-!
# Properties C59, C60, C114: variability index and resampling
-/

namespace SST.Props.Vi
open SST SST.Stats

/-- Path length of a list of ramps taken `dt` apart. -/
noncomputable def len (dt : ℝ) (r : List ℝ) : ℝ := (r.map fun (v : ℝ) => Real.sqrt (v ^ 2 + dt ^ 2)).sum

theorem len_ge {dt : ℝ} (hdt : 0 < dt) (r : List ℝ) : r.length * dt ≤ len dt r := by
  unfold len
  induction r with
  | nil => simp
  | cons a r ih =>
    simp only [List.length_cons, List.map_cons, List.sum_cons]
    have : dt ≤ Real.sqrt (a ^ 2 + dt ^ 2) := Real.le_sqrt_of_sq_le (by nlinarith [sq_nonneg a])
    push_cast
    linarith

theorem len_pos {dt : ℝ} (hdt : 0 < dt) {r : List ℝ} (hr : r ≠ []) : 0 < len dt r := by
  have h1 := len_ge hdt r
  have : (0 : ℝ) < r.length := by exact_mod_cast List.length_pos_iff.2 hr
  have := mul_pos this hdt
  linarith

theorem vi_eq (t tc : List ℝ) (g c : List (Option ℝ)) (tau : ℕ) (htau : tau ≤ 1) (norm : Bool) (step : ℝ)
    (hs : medianStep t = some step) (hpos : 0 < step) (hc : ramps c 1 ≠ []) :
    variabilityIndex true t g tc c tau norm =
      .ok (.fin (len (step / 60) (ramps g 1) / len (step / 60) (ramps c 1) * (if norm then Real.sqrt (step / 60) else 1))) := by
  have hl : 0 < len (step / 60) (ramps c 1) := len_pos (by positivity) hc
  unfold variabilityIndex
  simp only [Bool.true_eq_false, if_false, if_neg (not_lt.2 htau)]
  unfold viRaw
  rw [hs]
  simp only [pathLength_eq]
  change Except.ok (match XR.div (len (step / 60) (ramps g 1)) (len (step / 60) (ramps c 1)), norm with
    | .fin v, true => XR.fin (v * Real.sqrt (step / 60))
    | v, _ => v) = _
  unfold XR.div
  rw [if_neg hl.ne']
  cases norm <;> simp

/-! ## C59 -/

/-- C59: on an increasing index, against a clear sky with at least one step, the index is the quotient of the path lengths:
nonnegative, positive as soon as the GHI has a step, below 1 iff the GHI path is shorter, and at least what the time
steps alone give. -/
theorem C59_bounds (t tc : List ℝ) (h2 : 2 ≤ t.length) (hi : t.Pairwise (· < ·)) (g c : List (Option ℝ)) (hc : ramps c 1 ≠ []) (tau : ℕ) (htau : tau ≤ 1) :
    ∃ step v, medianStep t = some step ∧ 0 < step ∧ variabilityIndex true t g tc c tau false = .ok (.fin v) ∧
      v = len (step / 60) (ramps g 1) / len (step / 60) (ramps c 1) ∧ 0 ≤ v ∧ (ramps g 1 ≠ [] → 0 < v) ∧
      (v < 1 ↔ len (step / 60) (ramps g 1) < len (step / 60) (ramps c 1)) ∧
      ((ramps g 1).length * (step / 60)) / len (step / 60) (ramps c 1) ≤ v := by
  obtain ⟨step, hs, hpos⟩ := medianStep_pos t h2 hi
  have hl : 0 < len (step / 60) (ramps c 1) := len_pos (by positivity) hc
  have hg := len_ge (dt := step / 60) (by positivity) (ramps g 1)
  have hg0 : 0 ≤ len (step / 60) (ramps g 1) := le_trans (by positivity) hg
  refine ⟨step, _, hs, hpos, vi_eq t tc g c tau htau false step hs hpos hc, by simp, ?_, ?_, ?_, ?_⟩ <;> simp only [Bool.false_eq_true, if_false, mul_one]
  · positivity
  · intro hgr
    exact div_pos (len_pos (by positivity) hgr) hl
  · rw [div_lt_one hl]
  · exact div_le_div_of_nonneg_right hg hl.le

/-- C59: compared with itself the index is 1 (in `norm` mode the square root of the time step in minutes). -/
theorem C59_self (t : List ℝ) (h2 : 2 ≤ t.length) (hi : t.Pairwise (· < ·)) (c : List (Option ℝ)) (hc : ramps c 1 ≠ []) (tau : ℕ) (htau : tau ≤ 1) :
    variabilityIndex true t c t c tau false = .ok (.fin 1) ∧
    ∃ step, medianStep t = some step ∧ variabilityIndex true t c t c tau true = .ok (.fin (Real.sqrt (step / 60))) := by
  obtain ⟨step, hs, hpos⟩ := medianStep_pos t h2 hi
  have hl : 0 < len (step / 60) (ramps c 1) := len_pos (by positivity) hc
  refine ⟨?_, step, hs, ?_⟩
  · rw [vi_eq t t c c tau htau false step hs hpos hc]; simp [div_self hl.ne']
  · rw [vi_eq t t c c tau htau true step hs hpos hc]; simp [div_self hl.ne']

/-- C59: larger ramps give a larger index. -/
theorem C59_monotone (t tc : List ℝ) (h2 : 2 ≤ t.length) (hi : t.Pairwise (· < ·)) (g g' c : List (Option ℝ)) (hc : ramps c 1 ≠ []) (tau : ℕ) (htau : tau ≤ 1)
    (hg : List.Forall₂ (fun (a b : ℝ) => |a| ≤ |b|) (ramps g 1) (ramps g' 1)) :
    ∃ v v', variabilityIndex true t g tc c tau false = .ok (.fin v) ∧ variabilityIndex true t g' tc c tau false = .ok (.fin v') ∧ v ≤ v' ∧
      (¬ List.Forall₂ (fun (a b : ℝ) => |a| = |b|) (ramps g 1) (ramps g' 1) → v < v') := by
  obtain ⟨step, hs, hpos⟩ := medianStep_pos t h2 hi
  have hl : 0 < len (step / 60) (ramps c 1) := len_pos (by positivity) hc
  refine ⟨_, _, vi_eq t tc g c tau htau false step hs hpos hc, vi_eq t tc g' c tau htau false step hs hpos hc, ?_⟩
  simp only [Bool.false_eq_true, if_false, mul_one]
  have key : len (step / 60) (ramps g 1) ≤ len (step / 60) (ramps g' 1) ∧
      (¬ List.Forall₂ (fun (a b : ℝ) => |a| = |b|) (ramps g 1) (ramps g' 1) → len (step / 60) (ramps g 1) < len (step / 60) (ramps g' 1)) := by
    unfold len
    generalize ramps g 1 = x at hg
    generalize ramps g' 1 = y at hg
    induction hg with
    | nil => simp
    | @cons a b x y hab _ ih =>
      simp only [List.map_cons, List.sum_cons]
      have h1 : a ^ 2 ≤ b ^ 2 := sq_le_sq.2 hab
      have hle : Real.sqrt (a ^ 2 + (step / 60) ^ 2) ≤ Real.sqrt (b ^ 2 + (step / 60) ^ 2) := Real.sqrt_le_sqrt (by linarith)
      refine ⟨by linarith [ih.1], ?_⟩
      intro hne
      by_cases he : |a| = |b|
      · have := ih.2 (fun h => hne (.cons he h))
        linarith
      · have h2 : a ^ 2 < b ^ 2 := sq_lt_sq.2 (lt_of_le_of_ne hab he)
        have : Real.sqrt (a ^ 2 + (step / 60) ^ 2) < Real.sqrt (b ^ 2 + (step / 60) ^ 2) := Real.sqrt_lt_sqrt (by positivity) (by linarith)
        linarith [ih.1]
  exact ⟨div_le_div_of_nonneg_right key.1 hl.le, fun h => div_lt_div_of_pos_right (key.2 h) hl⟩

/-- C59: a straight line is the shortest path: against a clear sky with constant slope, a gap-free GHI of the same length
and the same net change has an index of at least 1. -/
theorem C59_line (t tc : List ℝ) (h2 : 2 ≤ t.length) (hi : t.Pairwise (· < ·)) (a b k : ℝ) (l m : List ℝ) (hm : m ≠ []) (hlen : l.length = m.length)
    (hline : ∀ r ∈ ramps ((b :: m).map some) 1, r = k) (hend : (a :: l).getLastD 0 - a = (b :: m).getLastD 0 - b) (tau : ℕ) (htau : tau ≤ 1) :
    ∃ v, variabilityIndex true t ((a :: l).map some) tc ((b :: m).map some) tau false = .ok (.fin v) ∧ 1 ≤ v := by
  obtain ⟨step, hs, hpos⟩ := medianStep_pos t h2 hi
  have hrl : (ramps ((b :: m).map some) 1).length = m.length := by rw [ramps_length]; simp
  have hc : ramps ((b :: m).map some) 1 ≠ [] := by
    intro h0; rw [h0] at hrl; simp at hrl; exact hm (List.length_eq_zero_iff.1 hrl.symm)
  have hl : 0 < len (step / 60) (ramps ((b :: m).map some) 1) := len_pos (by positivity) hc
  refine ⟨_, vi_eq t tc _ _ tau htau false step hs hpos hc, ?_⟩
  simp only [Bool.false_eq_true, if_false, mul_one]
  rw [one_le_div hl]
  have h1 := path_ge_line (ramps ((a :: l).map some) 1) (step / 60)
  have hrl' : (ramps ((a :: l).map some) 1).length = m.length := by rw [ramps_length]; simp [hlen]
  rw [ramps_sum, hrl', hend, ← ramps_sum] at h1
  refine le_trans ?_ h1
  have hrep : ramps ((b :: m).map some) 1 = List.replicate m.length k := List.eq_replicate_iff.2 ⟨hrl, hline⟩
  rw [hrep]
  unfold len
  simp only [List.map_replicate, List.sum_replicate, nsmul_eq_mul]
  rw [show ((m.length : ℝ) * k) ^ 2 + ((m.length : ℝ) * (step / 60)) ^ 2 = (m.length : ℝ) ^ 2 * (k ^ 2 + (step / 60) ^ 2) by ring,
    Real.sqrt_mul (sq_nonneg _), Real.sqrt_sq (Nat.cast_nonneg _)]

/-- C59: `norm` multiplies by the square root of the time step in minutes. -/
theorem C59_norm (t tc : List ℝ) (h2 : 2 ≤ t.length) (hi : t.Pairwise (· < ·)) (g c : List (Option ℝ)) (hc : ramps c 1 ≠ []) (tau : ℕ) (htau : tau ≤ 1) :
    ∃ step v, medianStep t = some step ∧ variabilityIndex true t g tc c tau false = .ok (.fin v) ∧
      variabilityIndex true t g tc c tau true = .ok (.fin (v * Real.sqrt (step / 60))) := by
  obtain ⟨step, hs, hpos⟩ := medianStep_pos t h2 hi
  refine ⟨step, _, hs, vi_eq t tc g c tau htau false step hs hpos hc, ?_⟩
  rw [vi_eq t tc g c tau htau true step hs hpos hc]
  simp

/-- C59: a non-pandas GHI is a `TypeError`; a clear sky without a single step gives infinity or (if the GHI has none either) NaN. -/
theorem C59_degenerate (t tc : List ℝ) (h2 : 2 ≤ t.length) (hi : t.Pairwise (· < ·)) (g c : List (Option ℝ)) (tau : ℕ) (norm : Bool) :
    Raises (variabilityIndex false t g tc c tau norm) .typeError ∧
    (ramps c 1 = [] → tau ≤ 1 → (ramps g 1 ≠ [] → variabilityIndex true t g tc c tau norm = .ok .pinf) ∧
      (ramps g 1 = [] → variabilityIndex true t g tc c tau norm = .ok .nan)) := by
  obtain ⟨step, hs, hpos⟩ := medianStep_pos t h2 hi
  refine ⟨by unfold variabilityIndex; simp [Raises], ?_⟩
  intro hc htau
  have hc0 : pathLength c (step / 60) = 0 := by rw [pathLength_eq, hc]; simp
  constructor
  · intro hg
    have hgp : 0 < pathLength g (step / 60) := by rw [pathLength_eq]; exact len_pos (by positivity) hg
    unfold variabilityIndex viRaw
    simp only [Bool.true_eq_false, if_false, if_neg (not_lt.2 htau), hs, hc0, XR.div, if_true, if_neg hgp.ne', if_pos hgp]
  · intro hg
    have hg0 : pathLength g (step / 60) = 0 := by rw [pathLength_eq, hg]; simp
    unfold variabilityIndex viRaw
    simp only [Bool.true_eq_false, if_false, if_neg (not_lt.2 htau), hs, hc0, hg0, XR.div, if_true]

example : (2 ≤ ([0, 60] : List ℝ).length) ∧ ([0, 60] : List ℝ).Pairwise (· < ·) ∧ ramps ([1, 3].map some) 1 ≠ [] := by
  refine ⟨by simp, by simp, ?_⟩
  rw [ramps_full]; simp

/-! ## C60 -/

/-- C60: on a regular index that starts at a multiple of the bin, averaging over `tau` samples means taking the metric of
the means of consecutive groups of `tau` samples, provided `tau * dt` is a whole number `b` of seconds. -/
theorem C60_groups_partial (t0 h : ℝ) (q : ℤ) (tau b : ℕ) (hh : 0 < h) (htau : 1 < tau) (hb : (tau : ℝ) * h = b) (h0 : t0 = q * (tau * h))
    (s : List (Option ℝ)) (hs : 2 ≤ s.length) (pct : Bool) (t' : List ℝ) :
    variabilityScore (regular t0 h s.length) s tau true pct = variabilityScore t' (groups tau s) 1 false pct ∧
    darr true (regular t0 h s.length) s tau true pct = darr true t' (groups tau s) 1 false pct := by
  have hbpos : b ≠ 0 := by
    rintro rfl
    have : (0 : ℝ) < tau * h := mul_pos (by exact_mod_cast (by omega : 0 < tau)) hh
    rw [hb] at this; simp at this
  have hr : resampleTau (regular t0 h s.length) s tau = .ok (groups tau s) := by
    unfold resampleTau
    rw [medianStep_regular t0 h _ hs]
    simp only
    rw [hb, pyInt_nat, if_neg (by exact_mod_cast hbpos)]
    congr 1
    rw [Int.cast_natCast, ← hb]
    exact resample_groups t0 h tau q hh (by omega) h0 s (by intro h1; rw [h1] at hs; simp at hs)
  constructor
  · unfold variabilityScore
    simp only [hr, htau, and_self, if_true, Except.map, lt_irrefl, and_false, if_false]
  · unfold darr
    simp only [hr, htau, and_self, if_true, Except.map, lt_irrefl, and_false, if_false, Bool.true_eq_false]

/-- C60: the same for the variability index, where the averaged step is `tau` times the original one. -/
theorem C60_groups_vi_partial (t0 h : ℝ) (q : ℤ) (tau b : ℕ) (hh : 0 < h) (htau : 1 < tau) (hb : (tau : ℝ) * h = b) (h0 : t0 = q * (tau * h))
    (g c : List (Option ℝ)) (hg : 2 ≤ g.length) (hgc : g.length = c.length) (norm : Bool) :
    variabilityIndex true (regular t0 h g.length) g (regular t0 h c.length) c tau norm =
      variabilityIndex true (regular t0 (tau * h) (groups tau g).length) (groups tau g) (regular t0 (tau * h) (groups tau c).length) (groups tau c) 1 norm := by
  have hbpos : b ≠ 0 := by
    rintro rfl
    have : (0 : ℝ) < tau * h := mul_pos (by exact_mod_cast (by omega : 0 < tau)) hh
    rw [hb] at this; simp at this
  have hl : (groups tau g).length = (g.length + tau - 1) / tau := by simp [groups]
  unfold variabilityIndex
  simp only [Bool.true_eq_false, if_false, htau, if_true, lt_irrefl]
  rw [medianStep_regular t0 h _ hg]
  simp only
  rw [hb, pyInt_nat, if_neg (by exact_mod_cast hbpos), Int.cast_natCast, ← hb,
    resample_groups t0 h tau q hh (by omega) h0 g (by intro h1; rw [h1] at hg; simp at hg),
    resample_groups t0 h tau q hh (by omega) h0 c (by intro h1; rw [h1] at hgc; simp at hgc; rw [hgc] at hg; simp at hg),
    times_regular t0 h tau q hh (by omega) h0 g.length (by omega), hl]

/-- C60: the bin is the truncation of `tau * dt` to whole seconds: if that is `m` steps, groups of `m` samples are averaged,
and below one second the call raises. -/
theorem C60_truncation (t0 h : ℝ) (q : ℤ) (tau m : ℕ) (hh : 0 < h) (htau : 1 < tau) (s : List (Option ℝ)) (hs : 2 ≤ s.length) (pct : Bool) (t' : List ℝ) :
    (0 < m → (⌊(tau : ℝ) * h⌋ : ℝ) = m * h → t0 = q * (m * h) →
      darr true (regular t0 h s.length) s tau true pct = darr true t' (groups m s) 1 false pct) ∧
    ((tau : ℝ) * h < 1 → (darr true (regular t0 h s.length) s tau true pct = .error .other ∧
      variabilityScore (regular t0 h s.length) s tau true pct = .error .other)) := by
  have hpos : (0 : ℝ) < tau * h := mul_pos (by exact_mod_cast (by omega : 0 < tau)) hh
  have hp : pyInt ((tau : ℝ) * h) = ⌊(tau : ℝ) * h⌋ := by unfold pyInt; rw [if_pos hpos.le]
  constructor
  · intro hm hb h0
    have hne : ⌊(tau : ℝ) * h⌋ ≠ 0 := by
      intro h1
      rw [h1] at hb
      have : (0 : ℝ) < m * h := mul_pos (by exact_mod_cast hm) hh
      rw [← hb] at this; simp at this
    have hr : resampleTau (regular t0 h s.length) s tau = .ok (groups m s) := by
      unfold resampleTau
      rw [medianStep_regular t0 h _ hs]
      simp only
      rw [hp, if_neg hne, hb]
      congr 1
      exact resample_groups t0 h m q hh hm h0 s (by intro h1; rw [h1] at hs; simp at hs)
    unfold darr
    simp only [hr, htau, and_self, if_true, Except.map, lt_irrefl, and_false, if_false, Bool.true_eq_false]
  · intro hlt
    have h0 : ⌊(tau : ℝ) * h⌋ = 0 := Int.floor_eq_zero_iff.2 ⟨hpos.le, hlt⟩
    have hr : resampleTau (regular t0 h s.length) s tau = .error .other := by
      unfold resampleTau
      rw [medianStep_regular t0 h _ hs]
      simp only
      rw [hp, if_pos h0]
    unfold darr variabilityScore
    simp only [hr, htau, and_self, if_true, Except.map, Bool.true_eq_false, if_false, and_self]

/-- C60 violated: with samples every half second, `tau = 3` averages pairs, not triples. -/
theorem C60_violated_half_second :
    let s : List (Option ℝ) := [some 0, some 1, some 0, some 1, some 0, some 1]
    darr true (regular 0 (1 / 2) 6) s 3 true false = .ok 0 ∧ darr true [] (groups 3 s) 1 false false = .ok (1 / 3) := by
  intro s
  constructor
  · have h := (C60_truncation 0 (1 / 2) 0 3 2 (by norm_num) (by norm_num) s (by simp [s]) false []).1 (by norm_num)
      (by
        have : ⌊((3 : ℕ) : ℝ) * (1 / 2)⌋ = 1 := by
          rw [Int.floor_eq_iff]; norm_num
        rw [this]; norm_num) (by norm_num)
    have hl : s.length = 6 := rfl
    rw [hl] at h
    rw [h]
    have hg : groups 2 s = [some (1 / 2), some (1 / 2), some (1 / 2)] := by
      simp [groups, s, List.range_succ, pdMean, meanO, mean]
    rw [hg]
    unfold darr darrRaw diffs
    simp [osub]
  · have hg : groups 3 s = [some (1 / 3), some (2 / 3)] := by
      simp [groups, s, List.range_succ, pdMean, meanO, mean]
      norm_num
    rw [hg]
    unfold darr darrRaw diffs
    simp [osub]
    norm_num

/-- C60: averaging never increases DARR (gap-free regular series). -/
theorem C60_averaging (t0 h : ℝ) (q : ℤ) (tau b : ℕ) (hh : 0 < h) (htau : 1 < tau) (hb : (tau : ℝ) * h = b) (h0 : t0 = q * (tau * h))
    (l : List ℝ) (hl : 2 ≤ l.length) :
    ∃ u v, darr true (regular t0 h l.length) (l.map some) 1 true false = .ok u ∧
      darr true (regular t0 h l.length) (l.map some) tau true false = .ok v ∧ v ≤ u := by
  have hg := (C60_groups_partial t0 h q tau b hh htau hb h0 (l.map some) (by simpa using hl) false []).2
  rw [List.length_map] at hg
  rw [hg]
  have e : ∀ (s : List (Option ℝ)) (t : List ℝ) (ma : Bool), darr true t s 1 ma false = .ok ((ramps s 1).map fun (v : ℝ) => |v|).sum := by
    intro s t ma
    unfold darr
    simp [darrRaw_eq]
  refine ⟨_, _, e _ _ _, e _ _ _, ?_⟩
  set k := (l.length + tau - 1) / tau with hk
  have hkt : l.length ≤ k * tau := by
    have h1 := Nat.lt_div_mul_add (a := l.length + tau - 1) (b := tau) (by omega)
    rw [← hk] at h1
    omega
  have hkl : ∀ j, j < k → j * tau < l.length := by
    intro j hj
    have h1 : k * tau ≤ l.length + tau - 1 := Nat.div_mul_le_self _ _
    have h2 : (j + 1) * tau ≤ k * tau := Nat.mul_le_mul_right _ hj
    rw [Nat.succ_mul] at h2
    omega
  set Gs := (List.range k).map fun j => (l.drop (j * tau)).take tau with hGs
  have hne : ∀ G ∈ Gs, G ≠ [] := by
    intro G hG
    obtain ⟨j, hj, rfl⟩ := List.mem_map.1 hG
    have := hkl j (List.mem_range.1 hj)
    intro h0
    have h1 := congrArg List.length h0
    simp at h1
    omega
  have hflat : Gs.flatten = l := by rw [hGs, flatten_chunks, List.take_of_length_le hkt]
  have hgr : groups tau (l.map some) = (Gs.map mean).map some := by
    unfold groups
    rw [List.length_map, ← hk, hGs, List.map_map, List.map_map]
    apply List.map_congr_left
    intro j hj
    have hn := hne _ (List.mem_map.2 ⟨j, hj, rfl⟩)
    simp only [Function.comp_apply]
    rw [← List.map_drop, ← List.map_take]
    unfold pdMean meanO
    rw [filterMap_some, if_neg hn]
  rw [hgr, vsum_eq, vsum_eq]
  have := vsum_means_le Gs hne
  rw [hflat] at this
  exact this

example : ∃ (t0 h : ℝ) (q : ℤ) (tau b : ℕ), 0 < h ∧ 1 < tau ∧ (tau : ℝ) * h = b ∧ t0 = q * (tau * h) :=
  ⟨7200, 60, 24, 5, 300, by norm_num, by norm_num, by norm_num, by norm_num⟩

/-! ## C114 -/

/-- C114, the part that holds: one-column frames with the same column name give one entry, the index of the two columns. -/
theorem C114_same_name_partial (n : String) (t : List ℝ) (g c : List (Option ℝ)) (norm : Bool) :
    variabilityIndex true t g t c 1 norm = .ok (viRaw t g c norm) ∧ viFrames n n t g c norm = [(n, viRaw t g c norm)] := by
  unfold variabilityIndex viFrames
  simp

/-- C114 violated: where the index of the two columns is a number, frames whose columns have different names still give NaN
for both names. -/
theorem C114_violated_names (ng nc : String) (hn : ng ≠ nc) (t : List ℝ) (h2 : 2 ≤ t.length) (hi : t.Pairwise (· < ·))
    (g c : List (Option ℝ)) (hc : ramps c 1 ≠ []) :
    (∃ v, variabilityIndex true t g t c 1 false = .ok (.fin v)) ∧ viFrames ng nc t g c false = [(ng, .nan), (nc, .nan)] := by
  obtain ⟨step, v, -, -, h, -⟩ := C59_bounds t t h2 hi g c hc 1 le_rfl
  refine ⟨⟨v, h⟩, ?_⟩
  unfold viFrames
  rw [if_neg hn]

example : ("ghi" : String) ≠ "clearsky" := by decide

end SST.Props.Vi
