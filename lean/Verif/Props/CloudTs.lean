import Verif.Props.CloudMask
import Verif.Props.CloudScale
import Verif.Props.Ramps

/-!
# Properties C70, C118–C121: reading the field, the generator, series statistics
-/

namespace SST.Props.CloudTs
open SST SST.Stats SST.Cloud

/-! ## C70 -/

theorem pyInt_nonneg {x : ℝ} (h : 0 ≤ x) : pyInt x = ⌊x⌋ := by
  unfold pyInt
  rw [if_pos h]

/-- C70: every sample is a value of the field in the column of the target. -/
theorem C70_values (f : ℕ → ℕ → ℝ) (m n : ℕ) (pos : ℝ × ℝ) (speed duration : ℝ) (ts : List ℝ) (h : positionalTs f m n pos speed duration = .ok ts) (v : ℝ) (hv : v ∈ ts) :
    ∃ i j, i < m ∧ j < n ∧ f i j = v := by
  unfold positionalTs at h
  split_ifs at h with h0
  simp only at h
  by_cases hy : pyInt (pos.2 / speed) < -n ∨ n ≤ pyInt (pos.2 / speed)
  · rw [if_pos hy] at h; simp at h
  rw [if_neg hy, Except.ok.injEq] at h
  subst h
  obtain ⟨k, hk, rfl⟩ := List.mem_map.1 hv
  rw [List.mem_range] at hk
  refine ⟨_, _, ?_, ?_, rfl⟩
  · have : sliceIdx m (pyInt (pos.1 / speed) + pyInt duration + 1) ≤ m := by unfold sliceIdx; omega
    omega
  · push Not at hy
    split_ifs <;> omega

/-- The series at a position with nonnegative coordinates inside the columns. -/
theorem ts_eq (f : ℕ → ℕ → ℝ) (m n : ℕ) (pos : ℝ × ℝ) (speed duration : ℝ) (hs : 0 < speed) (hx : 0 ≤ pos.1) (hy : 0 ≤ pos.2) (hyn : ⌊pos.2 / speed⌋ < n) (hd : 0 ≤ duration) :
    positionalTs f m n pos speed duration = .ok ((List.range (min (⌊pos.1 / speed⌋.toNat + ⌊duration⌋.toNat + 1) m - min ⌊pos.1 / speed⌋.toNat m)).map
      fun (k : ℕ) => f (min ⌊pos.1 / speed⌋.toNat m + k) ⌊pos.2 / speed⌋.toNat) := by
  have px : 0 ≤ pos.1 / speed := div_nonneg hx hs.le
  have py : 0 ≤ pos.2 / speed := div_nonneg hy hs.le
  have fx := Int.floor_nonneg.2 px
  have fy := Int.floor_nonneg.2 py
  have fd := Int.floor_nonneg.2 hd
  unfold positionalTs
  rw [if_neg hs.ne']
  simp only
  rw [pyInt_nonneg px, pyInt_nonneg py, pyInt_nonneg hd, if_neg (by push Not; constructor <;> omega), if_neg (by omega)]
  have e1 : sliceIdx m ⌊pos.1 / speed⌋ = min ⌊pos.1 / speed⌋.toNat m := by unfold sliceIdx; rw [if_neg (by omega)]; omega
  have e2 : sliceIdx m (⌊pos.1 / speed⌋ + ⌊duration⌋ + 1) = min (⌊pos.1 / speed⌋.toNat + ⌊duration⌋.toNat + 1) m := by unfold sliceIdx; rw [if_neg (by omega)]; omega
  rw [e1, e2]

/-- C70: a site `k` cells further along the motion sees the same signal `k` samples earlier. -/
theorem C70_shift (f : ℕ → ℕ → ℝ) (m n : ℕ) (x y speed duration : ℝ) (hs : 0 < speed) (hx : 0 ≤ x) (hy : 0 ≤ y) (hyn : ⌊y / speed⌋ < n) (hd : 0 ≤ duration) (k : ℕ) :
    ∃ ts ts', positionalTs f m n (x, y) speed duration = .ok ts ∧ positionalTs f m n (x + k * speed, y) speed duration = .ok ts' ∧
      ∀ i : ℕ, i + k ≤ ⌊duration⌋.toNat → ts'[i]? = ts[i + k]? := by
  have hk : (0 : ℝ) ≤ k := Nat.cast_nonneg k
  refine ⟨_, _, ts_eq f m n (x, y) speed duration hs hx hy hyn hd, ts_eq f m n (x + k * speed, y) speed duration hs (add_nonneg hx (mul_nonneg hk hs.le)) hy hyn hd, ?_⟩
  have e : (x + k * speed) / speed = x / speed + k := by field_simp
  have fx := Int.floor_nonneg.2 (div_nonneg hx hs.le)
  simp only
  rw [e, Int.floor_add_natCast]
  have ek : (⌊x / speed⌋ + (k : ℤ)).toNat = ⌊x / speed⌋.toNat + k := by omega
  rw [ek]
  intro i hi
  generalize ⌊x / speed⌋.toNat = a at *
  generalize ⌊duration⌋.toNat = d at *
  rw [List.getElem?_map, List.getElem?_map]
  by_cases hin : a + k + i < m
  · rw [List.getElem?_range (by omega), List.getElem?_range (by omega), Option.map_some, Option.map_some]
    congr 2
    omega
  · rw [List.getElem?_eq_none (by simp; omega), List.getElem?_eq_none (by simp; omega)]
    rfl

/-- C70: sample `i` of the series is the field value `i` cells along the motion from the site. -/
theorem C70_samples (f : ℕ → ℕ → ℝ) (m n : ℕ) (x y speed duration : ℝ) (hs : 0 < speed) (hx : 0 ≤ x) (hy : 0 ≤ y) (hyn : ⌊y / speed⌋ < n) (hd : 0 ≤ duration) :
    ∃ ts, positionalTs f m n (x, y) speed duration = .ok ts ∧
      ∀ i : ℕ, i ≤ ⌊duration⌋.toNat → ⌊x / speed⌋.toNat + i < m → ts[i]? = some (f (⌊x / speed⌋.toNat + i) ⌊y / speed⌋.toNat) := by
  refine ⟨_, ts_eq f m n (x, y) speed duration hs hx hy hyn hd, ?_⟩
  intro i hi hin
  simp only
  generalize ⌊x / speed⌋.toNat = a at *
  generalize ⌊duration⌋.toNat = d at *
  rw [List.getElem?_map, List.getElem?_range (by omega), Option.map_some]
  congr 2
  omega

/-- C70: a column outside the field is an `IndexError`, speed 0 is an error. -/
theorem C70_errors (f : ℕ → ℕ → ℝ) (m n : ℕ) (x y speed duration : ℝ) (hs : 0 < speed) (hy : 0 ≤ y) (hyn : (n : ℝ) ≤ y / speed) :
    Raises (positionalTs f m n (x, y) speed duration) .indexError ∧ Raises (positionalTs f m n (x, y) 0 duration) .other := by
  constructor
  · have py : 0 ≤ y / speed := div_nonneg hy hs.le
    have : (n : ℤ) ≤ ⌊y / speed⌋ := Int.le_floor.2 (by exact_mod_cast hyn)
    unfold positionalTs Raises
    rw [if_neg hs.ne']
    simp only
    rw [pyInt_nonneg py, if_pos (Or.inr this)]
  · unfold positionalTs Raises
    rw [if_pos rfl]

example : (0 : ℝ) < 10 ∧ (0 : ℝ) ≤ 30 ∧ ⌊(30 : ℝ) / 10⌋ < ((5 : ℕ) : ℤ) := by
  refine ⟨by norm_num, by norm_num, ?_⟩
  norm_num

/-! ## C118 -/

/-- C118, the part that holds: a site whose whole path lies inside the field gets `int(duration) + 1` samples. -/
theorem C118_length_partial (f : ℕ → ℕ → ℝ) (m n : ℕ) (x y speed duration : ℝ) (hs : 0 < speed) (hx : 0 ≤ x) (hy : 0 ≤ y) (hyn : ⌊y / speed⌋ < n) (hd : 0 ≤ duration)
    (hin : ⌊x / speed⌋ + ⌊duration⌋ + 1 ≤ m) : ∃ ts, positionalTs f m n (x, y) speed duration = .ok ts ∧ (ts.length : ℤ) = ⌊duration⌋ + 1 := by
  refine ⟨_, ts_eq f m n (x, y) speed duration hs hx hy hyn hd, ?_⟩
  have fx := Int.floor_nonneg.2 (div_nonneg hx hs.le)
  have fd := Int.floor_nonneg.2 hd
  rw [List.length_map, List.length_range]
  simp only
  omega

/-- The hypotheses hold in a concrete case: 10 s of a field of 14 × 1 cells passing a site at 30 m at 10 m/s. -/
example (f : ℕ → ℕ → ℝ) : ∃ ts, positionalTs f 14 1 (30, 5) 10 10 = .ok ts ∧ (ts.length : ℤ) = ⌊(10 : ℝ)⌋ + 1 :=
  C118_length_partial f 14 1 30 5 10 10 (by norm_num) (by norm_num) (by norm_num) (by norm_num) (by norm_num) (by norm_num)

/-- C118 violated: a path that leaves the field gives a shorter series, with no error (possibly an empty one). -/
theorem C118_violated_short (f : ℕ → ℕ → ℝ) (m n : ℕ) (x y speed duration : ℝ) (hs : 0 < speed) (hx : 0 ≤ x) (hy : 0 ≤ y) (hyn : ⌊y / speed⌋ < n) (hd : 0 ≤ duration)
    (hout : (m : ℤ) < ⌊x / speed⌋ + ⌊duration⌋ + 1) : ∃ ts, positionalTs f m n (x, y) speed duration = .ok ts ∧ (ts.length : ℤ) < ⌊duration⌋ + 1 := by
  refine ⟨_, ts_eq f m n (x, y) speed duration hs hx hy hyn hd, ?_⟩
  have fx := Int.floor_nonneg.2 (div_nonneg hx hs.le)
  have fd := Int.floor_nonneg.2 hd
  rw [List.length_map, List.length_range]
  simp only
  omega

/-- The hypotheses hold in a concrete case: the same site and duration in a field one cell shorter. -/
example (f : ℕ → ℕ → ℝ) : ∃ ts, positionalTs f 13 1 (30, 5) 10 10 = .ok ts ∧ (ts.length : ℤ) < ⌊(10 : ℝ)⌋ + 1 :=
  C118_violated_short f 13 1 30 5 10 10 (by norm_num) (by norm_num) (by norm_num) (by norm_num) (by norm_num) (by norm_num)

/-- C118 violated: a site at a negative position `-k` cells (`0 < k ≤ m`) with a path of at least `k` steps, shorter than the rest of the
field, silently gets no samples at all. -/
theorem C118_violated_negative (f : ℕ → ℕ → ℝ) (m n : ℕ) (hn : 0 < n) (k d : ℕ) (hk : 0 < k) (hkm : k ≤ m) (hkd : k ≤ d + 1) (hd : d + 1 ≤ m) :
    positionalTs f m n (-(k : ℝ), 0) 1 d = .ok [] := by
  have e1 : pyInt (-(k : ℝ) / 1) = -k := by
    rw [div_one]
    unfold pyInt
    have hk' : (0 : ℝ) < k := by exact_mod_cast hk
    rw [if_neg (by linarith)]
    have : (-(k : ℝ)) = ((-(k : ℤ) : ℤ) : ℝ) := by push_cast; rfl
    rw [this, Int.ceil_intCast]
  have e2 : pyInt ((0 : ℝ) / 1) = 0 := by rw [zero_div, pyInt_nonneg le_rfl]; simp
  have e3 : pyInt (d : ℝ) = d := by rw [pyInt_nonneg (Nat.cast_nonneg _)]; simp
  unfold positionalTs
  rw [if_neg one_ne_zero]
  simp only
  rw [e1, e2, e3, if_neg (by push Not; constructor <;> omega)]
  have a : sliceIdx m (-(k : ℤ)) = m - k := by unfold sliceIdx; rw [if_pos (by omega)]; omega
  have b : sliceIdx m (-(k : ℤ) + d + 1) = d + 1 - k := by unfold sliceIdx; rw [if_neg (by omega)]; omega
  rw [a, b]
  have : d + 1 - k - (m - k) = 0 := by omega
  rw [this]
  rfl

example (f : ℕ → ℕ → ℝ) : positionalTs f 14 1 (-((3 : ℕ) : ℝ), 0) 1 ((10 : ℕ) : ℝ) = .ok [] :=
  C118_violated_negative f 14 1 (by norm_num) 3 10 (by norm_num) (by norm_num) (by norm_num) (by norm_num)

/-! ## C119, C120 -/

/-- C119 violated: with the default scaling `'original'` the parameter `edgesmoothing` has no effect at all. -/
theorem C119_violated (R1 R2 : ℕ → ℕ → ℕ → ℝ) (weights : List ℝ) (scales : List ℤ) (m n : ℕ) (fracClear ktmean ktmax kt1 : ℝ) (s s' : ℕ) :
    cloudfield R1 R2 weights scales m n fracClear ktmean ktmax kt1 "original" s = cloudfield R1 R2 weights scales m n fracClear ktmean ktmax kt1 "original" s' := by
  unfold cloudfield
  simp only [if_true]

/-- What a successful run consists of. -/
theorem cloudfield_inv {R1 R2 : ℕ → ℕ → ℕ → ℝ} {weights : List ℝ} {scales : List ℤ} {m n : ℕ} {fracClear ktmean ktmax kt1 : ℝ} {scaling : String} {s : ℕ} {g : Fin m × Fin n → Option ℝ}
    (h : cloudfield R1 R2 weights scales m n fracClear ktmean ktmax kt1 scaling s = .ok g) :
    ∃ (cf cm : ℕ → ℕ → ℝ) (mask edge : Fin m × Fin n → Bool), clearMask (fun p : Fin m × Fin n => cm p.1 p.2) fracClear = .ok mask ∧
      ((scaling = "original" ∧ scaleLave (fun p => cf p.1 p.2) mask edge ktmean ktmax kt1 0.99 = .ok g) ∨
       (scaling = "basic" ∧ ∃ v w, scaleBasic (fun p => cf p.1 p.2) mask edge ktmean ktmax kt1 0.999 false none = .ok (v, w) ∧ g = fun p => some (v p))) := by
  unfold cloudfield at h
  cases h1 : stackField R1 weights scales m n false with
  | error e => rw [h1] at h; simp [bind, Except.bind] at h
  | ok cf =>
    cases h2 : stackField R2 weights scales m n false with
    | error e => rw [h1, h2] at h; simp [bind, Except.bind] at h
    | ok cm =>
      rw [h1, h2] at h
      simp only [bind, Except.bind] at h
      cases h3 : clearMask (fun p : Fin m × Fin n => cm p.1 p.2) fracClear with
      | error e => rw [h3] at h; simp at h
      | ok mask =>
        rw [h3] at h
        simp only at h
        by_cases hs : scaling = "original"
        · rw [if_pos hs] at h
          exact ⟨cf, cm, mask, _, h3, Or.inl ⟨hs, h⟩⟩
        · rw [if_neg hs] at h
          by_cases hs2 : scaling = "basic"
          · rw [if_pos hs2] at h
            generalize he : (fun p : Fin m × Fin n => open Classical in decide (smoothedBinary (fun i j => if h : i < m ∧ j < n then mask (⟨i, h.1⟩, ⟨j, h.2⟩) else false) m n s 0 p.1 p.2)) = edge at h
            cases h4 : scaleBasic (fun p : Fin m × Fin n => cf p.1 p.2) mask edge ktmean ktmax kt1 0.999 false none with
            | error e => rw [h4] at h; simp [Except.map] at h
            | ok r =>
              rw [h4] at h
              simp only [Except.map, Except.ok.injEq] at h
              obtain ⟨v, w⟩ := r
              exact ⟨cf, cm, mask, edge, h3, Or.inr ⟨hs2, v, w, h4, h.symm⟩⟩
          · rw [if_neg hs2] at h
            simp at h

/-- The original scaling succeeds on a positive field with a cloudy cell. -/
theorem lave_runs {ι : Type} [Fintype ι] (f : ι → ℝ) (clear edge : ι → Bool) (ktmean ktmax kt1 mq : ℝ) (h0 : 0 ≤ mq) (h1 : mq ≤ 1) (hf : ∀ i, 0 < f i) (hc : ∃ i, clear i = false) :
    ∃ g, scaleLave f clear edge ktmean ktmax kt1 mq = .ok g := by
  classical
  obtain ⟨i, hi⟩ := hc
  have hmem : ∀ x ∈ valsOn f fun i => clear i = false, 0 < x := by
    intro x hx
    obtain ⟨j, _, rfl⟩ := List.mem_map.1 hx
    exact hf j
  have hne : valsOn f (fun i => clear i = false) ≠ [] := by
    apply List.ne_nil_of_mem (a := f i)
    exact List.mem_map.2 ⟨i, by simp [hi], rfl⟩
  have hlen : (1 : ℝ) ≤ (valsOn f fun i => clear i = false).length := by exact_mod_cast List.length_pos_iff.2 hne
  have hp0 : 0 ≤ mq * (((valsOn f fun i => clear i = false).length : ℝ) - 1) := mul_nonneg h0 (by linarith)
  have hp1 : mq * (((valsOn f fun i => clear i = false).length : ℝ) - 1) ≤ ((valsOn f fun i => clear i = false).length : ℝ) - 1 := by nlinarith
  have hb := interp_between hne hp0 hp1
  have hpos : 0 < interpAt (valsOn f fun i => clear i = false) (mq * (((valsOn f fun i => clear i = false).length : ℝ) - 1)) :=
    lt_of_lt_of_le (hmem _ (srt_mem (idx_bounds (List.length_pos_iff.2 hne) hp0 hp1).1)) hb.1
  have hom : ∀ c : ι → ℝ, ∃ v, omax ((vals c).map some) = some v := by
    intro c
    cases h : omax ((vals c).map some) with
    | some v => exact ⟨v, rfl⟩
    | none =>
      rw [omax_eq_none, filterMap_map_some] at h
      have := vals_mem c i
      rw [h] at this
      simp at this
  unfold scaleLave
  rw [quantileLin_eq, if_neg hne]
  simp only
  rw [if_neg hpos.ne']
  obtain ⟨a, ha⟩ := hom (clouds3 f (interpAt (valsOn f fun i => clear i = false) (mq * (((valsOn f fun i => clear i = false).length : ℝ) - 1))) kt1)
  obtain ⟨b, hb'⟩ := hom (fun i => -clouds3 f (interpAt (valsOn f fun i => clear i = false) (mq * (((valsOn f fun i => clear i = false).length : ℝ) - 1))) kt1 i)
  rw [ha, hb']
  exact ⟨_, rfl⟩

/-- C120: the generator succeeds for clear fraction 0 whenever the drawn grids are positive and the weights are positive and match the scales. -/
theorem C120_runs (R1 R2 : ℕ → ℕ → ℕ → ℝ) (hR : ∀ k a b, 0 < R1 k a b ∧ R1 k a b ≤ 1) (weights : List ℝ) (hw : ∀ x ∈ weights, 0 < x) (hne : weights ≠ []) (scales : List ℤ)
    (hl : weights.length = scales.length) (m n : ℕ) (hm : 0 < m) (hn : 0 < n) (ktmean ktmax kt1 : ℝ) (s : ℕ) :
    ∃ g, cloudfield R1 R2 weights scales m n 0 ktmean ktmax kt1 "original" s = .ok g := by
  have hst : ∀ R, stackField R weights scales m n false = .ok (stackSum R weights scales m n) := by
    intro R; unfold stackField; rw [if_neg (by simpa using hl)]; simp
  have hpos : ∀ p : Fin m × Fin n, 0 < stackSum R1 weights scales m n p.1 p.2 := by
    intro p
    unfold stackSum
    apply List.sum_pos
    · intro x hx
      obtain ⟨k, hk, rfl⟩ := List.mem_map.1 hx
      rw [List.mem_range] at hk
      apply mul_pos
      · -- the least of the finitely many grid values used
        have hge : 0 < cell (gridSize (scaledSize m (scales.getD k 0))) (linspace01 m p.1) + 1 := by omega
        have hb0 := inCell_mem (gridSize_ge (scaledSize m (scales.getD k 0))) (linspace_mem p.1.2).1 (linspace_mem p.1.2).2
        have hb1 := inCell_mem (gridSize_ge (scaledSize n (scales.getD k 0))) (linspace_mem p.2.2).1 (linspace_mem p.2.2).2
        have hg : ∀ a b, 0 < gridAt (R1 k) (scaledSize m (scales.getD k 0)) (scaledSize n (scales.getD k 0)) a b := fun a b => (hR k _ _).1
        have hpc : ∀ t u v : ℝ, 0 ≤ t → t ≤ 1 → 0 < u → 0 < v → 0 < (1 - t) * u + t * v := by
          intro t u v h0 h1 hu hv
          rcases h0.lt_or_eq with h | h
          · have := mul_pos h hv
            have := mul_nonneg (by linarith : (0 : ℝ) ≤ 1 - t) hu.le
            linarith
          · rw [← h]; simpa using hu
        exact hpc _ _ _ hb0.1 hb0.2.1 (hpc _ _ _ hb1.1 hb1.2.1 (hg _ _) (hg _ _)) (hpc _ _ _ hb1.1 hb1.2.1 (hg _ _) (hg _ _))
      · rw [List.getD_eq_getElem _ _ (by omega)]
        exact hw _ (List.getElem_mem _)
    · have : 0 < scales.length := by rw [← hl]; exact List.length_pos_iff.2 hne
      simp [List.map_eq_nil_iff, List.range_eq_nil]
      exact List.length_pos_iff.1 this
  unfold cloudfield
  rw [hst R1, hst R2]
  simp only [bind, Except.bind]
  have := (CloudMask.C66_range (fun p : Fin m × Fin n => stackSum R2 weights scales m n p.1 p.2) 2 (Or.inr (by norm_num))).2
  rw [this]
  simp only [if_true]
  exact lave_runs _ _ _ ktmean ktmax kt1 0.99 (by norm_num) (by norm_num) hpos ⟨(⟨0, hm⟩, ⟨0, hn⟩), rfl⟩

example : (∀ k a b : ℕ, (0 : ℝ) < (fun _ _ _ => 1 / 2 : ℕ → ℕ → ℕ → ℝ) k a b ∧ (fun _ _ _ => 1 / 2 : ℕ → ℕ → ℕ → ℝ) k a b ≤ 1) ∧ (∀ x ∈ [(0.3 : ℝ), 0.7], 0 < x) ∧ [(0.3 : ℝ), 0.7].length = [(1 : ℤ), 2].length := by
  refine ⟨fun _ _ _ => by norm_num, ?_, rfl⟩
  intro x hx
  simp at hx
  rcases hx with rfl | rfl <;> norm_num

open Classical in
/-- C120: every generated field, with either method, has a set of cells that are exactly 1 and whose fraction is within 0.1 % (and 1e-8) of
the requested clear fraction. -/
theorem C120_clear_fraction {R1 R2 : ℕ → ℕ → ℕ → ℝ} {weights : List ℝ} {scales : List ℤ} {m n : ℕ} (hm : 0 < m) (hn : 0 < n) {fracClear ktmean ktmax kt1 : ℝ} {scaling : String} {s : ℕ}
    {g : Fin m × Fin n → Option ℝ} (h : cloudfield R1 R2 weights scales m n fracClear ktmean ktmax kt1 scaling s = .ok g) (hk : 1 ≤ ktmax) :
    ∃ S : Finset (Fin m × Fin n), (∀ p ∈ S, g p = some 1) ∧ |fracClear - S.card / ((m : ℝ) * n)| ≤ 1e-8 + 1e-3 * (S.card / ((m : ℝ) * n)) := by
  obtain ⟨cf, cm, mask, edge, hmask, hcase⟩ := cloudfield_inv h
  haveI : Nonempty (Fin m × Fin n) := ⟨(⟨0, hm⟩, ⟨0, hn⟩)⟩
  have hcard : ((Fintype.card (Fin m × Fin n) : ℕ) : ℝ) = (m : ℝ) * n := by simp
  obtain ⟨_, _, hf, _⟩ := CloudMask.C66_accepted _ _ _ hmask
  rw [hcard] at hf
  refine ⟨Finset.univ.filter fun i => mask i = true, ?_, hf⟩
  intro p hp
  have hp' := (Finset.mem_filter.1 hp).2
  rcases hcase with ⟨_, hl⟩ | ⟨_, v, w, hb, rfl⟩
  · exact (CloudScale.C68_clear_edge hl hk p).1 hp'
  · simp only
    rw [CloudScale.C69_clear hb p hp']

/-- C120: with `'original'`, a generated field without NaN that has some cell below 1 has mean at least `ktmean`; if the mean is larger, all
its cells lie in `[0, ktmax]`. -/
theorem C120_original_mean {R1 R2 : ℕ → ℕ → ℕ → ℝ} {weights : List ℝ} {scales : List ℤ} {m n : ℕ} {fracClear ktmean ktmax kt1 : ℝ} {s : ℕ}
    {g : Fin m × Fin n → Option ℝ} (h : cloudfield R1 R2 weights scales m n fracClear ktmean ktmax kt1 "original" s = .ok g) (hk : 1 ≤ ktmax)
    (v : Fin m × Fin n → ℝ) (hv : ∀ p, g p = some (v p)) (hlow : ∃ p, v p < 1) :
    (m : ℝ) * n * ktmean ≤ ∑ p, v p ∧ ((m : ℝ) * n * ktmean < ∑ p, v p → ∀ p, 0 ≤ v p ∧ v p ≤ ktmax) := by
  classical
  obtain ⟨cf, cm, mask, edge, hmask, hcase⟩ := cloudfield_inv h
  rcases hcase with ⟨_, hl⟩ | ⟨hs, _⟩
  swap
  · exact absurd hs (by decide)
  have hcard : ((Fintype.card (Fin m × Fin n) : ℕ) : ℝ) = (m : ℝ) * n := by simp
  have hcloud : ∃ i, mask i = false ∧ edge i = false := by
    obtain ⟨p, hp⟩ := hlow
    refine ⟨p, ?_⟩
    have hce := CloudScale.C68_clear_edge hl hk p
    cases hc : mask p with
    | true =>
      have := hce.1 hc
      rw [hv, Option.some.injEq] at this
      linarith
    | false =>
      cases he : edge p with
      | true =>
        have := hce.2 hc he _ (hv p)
        linarith
      | false => exact ⟨rfl, rfl⟩
  obtain ⟨h1, h2⟩ := CloudScale.C68_mean hl v hv hcloud
  rw [hcard] at h1 h2
  rcases lt_or_ge (∑ i ∈ Finset.univ.filter fun i => mask i = true ∨ edge i = true, v i) ((m : ℝ) * n * ktmean) with hlt | hge
  · have := h1 hlt
    exact ⟨this.ge, fun h' => absurd h' (by rw [this]; exact lt_irrefl _)⟩
  · obtain ⟨a, b⟩ := h2 hge
    refine ⟨a, fun _ p => ?_⟩
    have hce := CloudScale.C68_clear_edge hl hk p
    cases hc : mask p with
    | true =>
      have := hce.1 hc
      rw [hv, Option.some.injEq] at this
      rw [this]; exact ⟨zero_le_one, hk⟩
    | false =>
      cases he : edge p with
      | true =>
        have := hce.2 hc he _ (hv p)
        exact ⟨by linarith, this.2⟩
      | false =>
        have := b p hc he
        exact ⟨this.1, by linarith [this.2]⟩

/-- C120: an unknown scaling method never returns a field, and is a `ValueError` once the mask is accepted; lists of different lengths and a
clear fraction outside `[0, 1]` are a `ValueError`. -/
theorem C120_rejects (R1 R2 : ℕ → ℕ → ℕ → ℝ) (weights : List ℝ) (scales : List ℤ) (m n : ℕ) (fracClear ktmean ktmax kt1 : ℝ) (scaling : String) (s : ℕ) :
    (scaling ≠ "original" → scaling ≠ "basic" → ∃ e, Raises (cloudfield R1 R2 weights scales m n fracClear ktmean ktmax kt1 scaling s) e) ∧
    (weights.length ≠ scales.length → Raises (cloudfield R1 R2 weights scales m n fracClear ktmean ktmax kt1 scaling s) .valueError) ∧
    (weights.length = scales.length → (fracClear < 0 ∨ 1 < fracClear) → Raises (cloudfield R1 R2 weights scales m n fracClear ktmean ktmax kt1 scaling s) .valueError) ∧
    (weights.length = scales.length → fracClear = 0 → scaling ≠ "original" → scaling ≠ "basic" →
      Raises (cloudfield R1 R2 weights scales m n fracClear ktmean ktmax kt1 scaling s) .valueError) := by
  have hst : ∀ R, weights.length = scales.length → stackField R weights scales m n false = .ok (stackSum R weights scales m n) := by
    intro R hl; unfold stackField; rw [if_neg (by simpa using hl)]; simp
  refine ⟨?_, ?_, ?_, ?_⟩
  · intro h1 h2
    cases h : cloudfield R1 R2 weights scales m n fracClear ktmean ktmax kt1 scaling s with
    | error e => exact ⟨e, rfl⟩
    | ok g =>
      obtain ⟨_, _, _, _, _, hc⟩ := cloudfield_inv h
      rcases hc with ⟨hs, _⟩ | ⟨hs, _⟩
      · exact absurd hs h1
      · exact absurd hs h2
  · intro hl
    unfold cloudfield Raises stackField
    rw [if_pos hl]
    rfl
  · intro hl hf
    unfold cloudfield Raises
    rw [hst R1 hl, hst R2 hl]
    simp only [bind, Except.bind]
    have := (CloudMask.C66_range (fun p : Fin m × Fin n => stackSum R2 weights scales m n p.1 p.2) fracClear hf).1
    rw [show clearMask _ _ = _ from this]
  · intro hl hf h1 h2
    unfold cloudfield Raises
    rw [hst R1 hl, hst R2 hl]
    simp only [bind, Except.bind]
    have := (CloudMask.C66_range (fun p : Fin m × Fin n => stackSum R2 weights scales m n p.1 p.2) 2 (Or.inr (by norm_num))).2
    rw [hf, this]
    simp only
    rw [if_neg h1, if_neg h2]

/-! ## C121 -/

/-- C121: the clear fraction is the share of samples above the threshold, NaN samples counting as not clear; it lies in `[0, 1]`, and the mean and
the first percentile are at most the maximum. -/
theorem C121_stats (kt : List (Option ℝ)) (thr : ℝ) (hne : ∃ v, some v ∈ kt) :
    ∃ mean p1 mx, (tsStats kt thr).1 = some mean ∧ (tsStats kt thr).2.1 = some p1 ∧ (tsStats kt thr).2.2.1 = some mx ∧ mean ≤ mx ∧ p1 ≤ mx ∧ some mx ∈ kt ∧
      0 ≤ (tsStats kt thr).2.2.2.1 ∧ (tsStats kt thr).2.2.2.1 ≤ 1 := by
  obtain ⟨v, hv⟩ := hne
  have hmem : v ∈ kt.filterMap id := List.mem_filterMap.2 ⟨some v, hv, rfl⟩
  have hnil : kt.filterMap id ≠ [] := by intro h; rw [h] at hmem; simp at hmem
  have hlen : (1 : ℝ) ≤ (kt.filterMap id).length := by exact_mod_cast List.length_pos_iff.2 hnil
  cases hmx : omax kt with
  | none => rw [omax_eq_none] at hmx; exact absurd hmx hnil
  | some mx =>
    obtain ⟨hmx1, hmx2⟩ := omax_eq_some.1 hmx
    refine ⟨(kt.filterMap id).sum / (kt.filterMap id).length, interpAt (kt.filterMap id) (0.01 * (((kt.filterMap id).length : ℝ) - 1)), mx, ?_, ?_, hmx, ?_, ?_, ?_, ?_, ?_⟩
    · unfold tsStats pdMean
      simp only
      unfold meanO
      rw [if_neg hnil]
      rfl
    · unfold tsStats
      simp only
      rw [quantileLin_eq, if_neg hnil]
    · rw [div_le_iff₀ (by linarith)]
      have := List.sum_le_card_nsmul (kt.filterMap id) mx hmx2
      rw [nsmul_eq_mul] at this
      linarith
    · have hb := interp_between (l := kt.filterMap id) (p := 0.01 * (((kt.filterMap id).length : ℝ) - 1)) hnil (by nlinarith) (by nlinarith)
      refine hb.2.trans (hmx2 _ (srt_mem ?_))
      exact (idx_bounds (List.length_pos_iff.2 hnil) (by nlinarith) (by nlinarith)).2.1
    · obtain ⟨o, ho, hoe⟩ := List.mem_filterMap.1 hmx1
      simp at hoe
      exact hoe ▸ ho
    · unfold tsStats; positivity
    · unfold tsStats
      simp only
      have hk : (0 : ℝ) < kt.length := by exact_mod_cast List.length_pos_iff.2 (List.ne_nil_of_mem hv)
      rw [div_le_one hk]
      exact_mod_cast List.length_filter_le _ _

/-- C121: what the first three statistics are: the mean of the values present, the linear interpolation of the values in increasing order at
1 % of the way from the first to the last, and the largest value; NaN samples are left out. -/
theorem C121_moments (kt : List (Option ℝ)) (thr : ℝ) (vs : List ℝ) (hp : vs.Perm (kt.filterMap id)) (hs : vs.Pairwise (· ≤ ·)) (hne : vs ≠ []) :
    (tsStats kt thr).1 = some (vs.sum / vs.length) ∧ (tsStats kt thr).2.2.1 = vs.getLast? ∧
      ∀ (k : ℕ) (hk : k < vs.length) (hk' : k + 1 < vs.length) (w : ℝ), 0 ≤ w → w < 1 → 0.01 * ((vs.length : ℝ) - 1) = k + w →
        (tsStats kt thr).2.1 = some (vs[k] + (vs[k + 1] - vs[k]) * w) := by
  have hnil : kt.filterMap id ≠ [] := by
    intro h; rw [h] at hp; exact hne hp.eq_nil
  have hsrt : srt (kt.filterMap id) = vs := by
    unfold srt
    exact List.Perm.eq_of_pairwise (fun a b _ _ h1 h2 => le_antisymm h1 h2) (List.pairwise_insertionSort _ _) hs
      ((List.perm_insertionSort _ _).trans hp.symm)
  refine ⟨?_, ?_, ?_⟩
  · unfold tsStats pdMean
    simp only
    unfold meanO
    rw [if_neg hnil, hp.sum_eq, hp.length_eq]
    rfl
  · show omax kt = _
    rw [List.getLast?_eq_some_getLast hne, omax_eq_some]
    refine ⟨hp.mem_iff.1 (List.getLast_mem hne), fun v hv => ?_⟩
    obtain ⟨i, hi, rfl⟩ := List.mem_iff_getElem.1 (hp.mem_iff.2 hv)
    rw [List.getLast_eq_getElem]
    rcases Nat.lt_or_eq_of_le (by omega : i ≤ vs.length - 1) with h | h
    · exact List.pairwise_iff_getElem.1 hs _ _ hi (by omega) h
    · simp [h]
  · intro k hk hk' w hw0 hw1 he
    show quantileLin 0.01 (kt.filterMap id) = _
    rw [quantileLin_eq, if_neg hnil]
    unfold interpAt
    rw [hsrt, ← hp.length_eq, he]
    have hf : ⌊(k : ℝ) + w⌋ = k := by rw [Int.floor_eq_iff]; push_cast; constructor <;> linarith
    rw [hf]
    rcases hw0.eq_or_lt with rfl | hw
    · simp [hk]
    · have hc : ⌈(k : ℝ) + w⌉ = k + 1 := by rw [Int.ceil_eq_iff]; push_cast; constructor <;> linarith
      rw [hc]
      have e1 : ((k : ℤ) + 1).toNat = k + 1 := by omega
      rw [e1]
      simp [hk, hk']

example : ∃ vs : List ℝ, vs.Perm ([some 3, none, some 1, some 2].filterMap id) ∧ vs.Pairwise (· ≤ ·) ∧ vs ≠ [] ∧
    ∃ (k : ℕ) (_ : k + 1 < vs.length) (w : ℝ), 0 ≤ w ∧ w < 1 ∧ 0.01 * ((vs.length : ℝ) - 1) = k + w := by
  refine ⟨[1, 2, 3], ?_, by norm_num, by simp, 0, by norm_num, 0.02, by norm_num, by norm_num, by norm_num⟩
  have : ([3, 1, 2] : List ℝ).Perm [1, 2, 3] := (List.Perm.swap _ _ _).trans ((List.Perm.swap _ _ _).cons _)
  exact this.symm

open Classical in
/-- C121: raising the threshold never raises the clear fraction; each sample above the threshold counts once, NaN and other samples not. -/
theorem C121_threshold (kt : List (Option ℝ)) (t t' : ℝ) (h : t ≤ t') :
    (tsStats kt t').2.2.2.1 ≤ (tsStats kt t).2.2.2.1 ∧ (tsStats kt t).2.2.2.1 * kt.length = ((kt.filterMap id).filter fun (v : ℝ) => decide (t < v)).length := by
  unfold tsStats
  simp only
  constructor
  · apply div_le_div_of_nonneg_right _ (Nat.cast_nonneg _)
    rw [← List.countP_eq_length_filter, ← List.countP_eq_length_filter]
    norm_cast
    apply List.countP_mono_left
    intro o _ ho
    simp only [decide_eq_true_eq] at ho ⊢
    obtain ⟨v, rfl, hv⟩ := ho
    exact ⟨v, rfl, by linarith⟩
  · have hcount : (kt.filter fun o => decide (∃ v, o = some v ∧ t < v)).length = ((kt.filterMap id).filter fun (v : ℝ) => decide (t < v)).length := by
      induction kt with
      | nil => rfl
      | cons o kt ih =>
        cases o with
        | none => simpa using ih
        | some v =>
          by_cases hv : t < v
          · simp only [List.filter_cons, List.filterMap_cons, id]
            rw [if_pos (by simpa using hv), if_pos (by simpa using hv)]
            simpa using ih
          · simp only [List.filter_cons, List.filterMap_cons, id]
            rw [if_neg (by simpa using hv), if_neg (by simpa using hv)]
            simpa using ih
    rcases eq_or_ne kt [] with rfl | hne
    · simp
    · have hk : (kt.length : ℝ) ≠ 0 := by exact_mod_cast (List.length_pos_iff.2 hne).ne'
      rw [div_mul_cancel₀ _ hk]
      exact_mod_cast hcount

example : ∃ v, some v ∈ [some (0.5 : ℝ), none, some 1] := ⟨0.5, by simp⟩

/-- C121: the score in the statistics is 10000 times the largest product of a ramp magnitude and the share of larger ramps (C57). -/
theorem C121_score (kt : List (Option ℝ)) (thr : ℝ) :
    ((tsStats kt thr).2.2.2.2 = none ↔ ramps kt 1 = []) ∧
      ∀ v, (tsStats kt thr).2.2.2.2 = some (1e4 * v) ↔
        (∃ r ∈ ramps kt 1, v = |r| * exceed ((ramps kt 1).map fun (x : ℝ) => |x|) |r|) ∧
        ∀ r ∈ ramps kt 1, |r| * exceed ((ramps kt 1).map fun (x : ℝ) => |x|) |r| ≤ v := by
  obtain ⟨o, ho, h1, h2⟩ := Ramps.C57_maximum [] kt 1 false (Or.inl rfl)
  have he : scoreRaw kt 1 = o := by
    unfold variabilityScore at ho
    simp only [Bool.false_eq_true, false_and, if_false, Except.ok.injEq] at ho
    exact ho
  unfold tsStats
  simp only [he]
  refine ⟨by simp [h1], fun v => ?_⟩
  rw [← h2 v]
  cases o with
  | none => simp
  | some w =>
    simp only [Option.map_some, Option.some.injEq]
    constructor
    · intro h; linarith
    · rintro rfl; ring

example : ramps [some 1, none, some 3, some 2] 1 ≠ [] := by
  simp only [ramps, osub]
  simp
  exact ⟨2, by norm_num, by simp, by simp⟩

end SST.Props.CloudTs
