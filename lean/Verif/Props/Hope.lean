import Verif.Proofs.Hope

/-! # Properties of the quality control of the HOPE data (C81, C82, C130) -/

namespace SST.DataIO
open SST

/-! ## C81 -/

/-- C81: labels are kept; a cell keeps its value or becomes NaN, and it becomes NaN exactly if it carries a flag of at least `level`. -/
theorem C81_flag_qc {τ κ : Type} (data flag : Frame τ κ) (level : ℝ) :
    (flagQc data flag level).rows = data.rows ∧ (flagQc data flag level).cols = data.cols ∧
    ∀ t c, ((flagQc data flag level).val t c = data.val t c ∨ (flagQc data flag level).val t c = none) ∧
      ((flagQc data flag level).val t c = none ↔ data.val t c = none ∨ (t ∈ flag.rows ∧ c ∈ flag.cols ∧ ∃ f, flag.val t c = some f ∧ level ≤ f)) := by
  refine ⟨rfl, rfl, fun t c => ?_⟩
  simp only [flagQc]
  split_ifs with h
  · exact ⟨.inr rfl, by simp [h]⟩
  · exact ⟨.inl rfl, by simp [h]⟩

/-- C81: the same for the sentinel values below -100. -/
theorem C81_null_qc {τ κ : Type} (data : Frame τ κ) :
    (nullQc data).rows = data.rows ∧ (nullQc data).cols = data.cols ∧
    ∀ t c, ((nullQc data).val t c = data.val t c ∨ (nullQc data).val t c = none) ∧
      ((nullQc data).val t c = none ↔ data.val t c = none ∨ ∃ v, data.val t c = some v ∧ v < -100) ∧
      ∀ v, (nullQc data).val t c = some v → -100 ≤ v := by
  refine ⟨rfl, rfl, fun t c => ?_⟩
  simp only [nullQc]
  split_ifs with h
  · exact ⟨.inr rfl, by simp [h], by simp⟩
  · refine ⟨.inl rfl, by simp only [h, or_false], fun v hv => ?_⟩
    by_contra hc
    exact h ⟨v, hv, by linarith⟩

/-- C81: repeating either step changes nothing, the steps commute, and a stricter level blanks at least as much. -/
theorem C81_idempotent {τ κ : Type} (data flag : Frame τ κ) (level level' : ℝ) (hl : level ≤ level') :
    flagQc (flagQc data flag level) flag level = flagQc data flag level ∧ nullQc (nullQc data) = nullQc data ∧
    nullQc (flagQc data flag level) = flagQc (nullQc data) flag level ∧
    (∀ t c, (flagQc data flag level').val t c = none → (flagQc data flag level).val t c = none) ∧
    flagQc (flagQc data flag level') flag level = flagQc data flag level := by
  have ext : ∀ a b : Frame τ κ, a.rows = b.rows → a.cols = b.cols → (∀ t c, a.val t c = b.val t c) → a = b := by
    intro a b h1 h2 h3
    cases a; cases b
    simp only [Frame.mk.injEq] at *
    exact ⟨h1, h2, funext fun t => funext fun c => h3 t c⟩
  have up : ∀ t c, (t ∈ flag.rows ∧ c ∈ flag.cols ∧ ∃ f, flag.val t c = some f ∧ level' ≤ f) →
      (t ∈ flag.rows ∧ c ∈ flag.cols ∧ ∃ f, flag.val t c = some f ∧ level ≤ f) := by
    rintro t c ⟨h1, h2, f, h3, h4⟩
    exact ⟨h1, h2, f, h3, hl.trans h4⟩
  refine ⟨ext _ _ rfl rfl fun t c => ?_, ext _ _ rfl rfl fun t c => ?_, ext _ _ rfl rfl fun t c => ?_, fun t c h => ?_, ext _ _ rfl rfl fun t c => ?_⟩
  · simp only [flagQc]; split_ifs <;> rfl
  · simp only [nullQc]
    by_cases h : ∃ v, data.val t c = some v ∧ v < -100
    · simp [if_pos h]
    · simp [if_neg h]
  · simp only [flagQc, nullQc]
    by_cases h : t ∈ flag.rows ∧ c ∈ flag.cols ∧ ∃ f, flag.val t c = some f ∧ level ≤ f
    · simp [if_pos h]
    · simp only [if_neg h]
  · simp only [flagQc] at *
    by_cases h1 : t ∈ flag.rows ∧ c ∈ flag.cols ∧ ∃ f, flag.val t c = some f ∧ level ≤ f
    · rw [if_pos h1]
    · rw [if_neg h1]
      rwa [if_neg (fun hc => h1 (up t c hc))] at h
  · simp only [flagQc]
    by_cases h1 : t ∈ flag.rows ∧ c ∈ flag.cols ∧ ∃ f, flag.val t c = some f ∧ level ≤ f
    · rw [if_pos h1, if_pos h1]
    · rw [if_neg h1, if_neg h1, if_neg (fun hc => h1 (up t c hc))]

example : (flagQc ⟨[0, 1], ["a"], fun _ _ => some 5⟩ ⟨[0, 1], ["a"], fun t _ => some (if t = 1 then 3 else 1)⟩ 2 : Frame ℕ String).val 1 "a" = none ∧
    (flagQc ⟨[0, 1], ["a"], fun _ _ => some 5⟩ ⟨[0, 1], ["a"], fun t _ => some (if t = 1 then 3 else 1)⟩ 2 : Frame ℕ String).val 0 "a" = some 5 := by
  constructor
  · rw [((C81_flag_qc _ _ _).2.2 1 "a").2]
    right
    exact ⟨by simp, by simp, 3, by simp, by norm_num⟩
  · rcases ((C81_flag_qc (⟨[0, 1], ["a"], fun _ _ => some 5⟩ : Frame ℕ String) ⟨[0, 1], ["a"], fun t _ => some (if t = 1 then 3 else 1)⟩ 2).2.2 0 "a").1 with h | h
    · exact h
    · rw [((C81_flag_qc _ _ _).2.2 0 "a").2] at h
      rcases h with h | ⟨_, _, f, hf, h2⟩
      · cases h
      · simp at hf
        subst hf
        norm_num at h2

/-! ## C82 -/

/-- The positions strictly between `i` and `j` are a gap: no values there, values at both ends. -/
def Gap (s : List (Option ℝ)) (i j : ℕ) : Prop :=
  i + 1 < j ∧ validAt s i = true ∧ validAt s j = true ∧ ∀ m, i < m → m < j → validAt s m = false

theorem gap_exists {s : List (Option ℝ)} (h0 : validAt s 0 = true) (hl : validAt s (s.length - 1) = true) {k : ℕ} (hk : k < s.length) (hv : validAt s k = false) :
    ∃ i j, Gap s i j ∧ i < k ∧ k < j := by
  obtain ⟨i, hi⟩ : ∃ i, prevValid s k = some i := by
    cases h : prevValid s k with
    | some i => exact ⟨i, rfl⟩
    | none =>
      rw [prevValid_none] at h
      have : k ≠ 0 := by rintro rfl; rw [h0] at hv; cases hv
      rw [h 0 (by omega)] at h0
      cases h0
  obtain ⟨j, hj⟩ : ∃ j, nextValid s k = some j := by
    cases h : nextValid s k with
    | some i => exact ⟨i, rfl⟩
    | none =>
      unfold nextValid at h
      rw [List.find?_eq_none] at h
      have hne : k ≠ s.length - 1 := by rintro rfl; rw [hl] at hv; cases hv
      exact absurd hl (h (s.length - 1) (List.mem_map.2 ⟨s.length - 1 - (k + 1), List.mem_range.2 (by omega), by omega⟩))
  rw [prevValid_some] at hi
  rw [nextValid_some] at hj
  refine ⟨i, j, ⟨by omega, hi.2.1, hj.2.1, fun m h1 h2 => ?_⟩, hi.1, hj.1⟩
  by_cases h : m = k
  · rw [h]; exact hv
  · rcases Nat.lt_or_gt_of_ne h with h | h
    · exact hi.2.2 m h1 h
    · exact hj.2.2 m h h2

/-- C82 (the part that holds): if no gap is longer than `limit` and the series starts and ends with a value, every value is kept and every
gap is filled with the straight line between its ends, for every time index.
Missing: series with longer gaps (see the `violated` theorems). -/
theorem C82_short_gaps_partial (L : ℕ) (hL : 0 < L) (times : List ℝ) (ht : Monotonic times) (s : List (Option ℝ)) (hn : 2 * L ≤ s.length)
    (h0 : validAt s 0 = true) (hl : validAt s (s.length - 1) = true) (hgap : ∀ i j, Gap s i j → j - i - 1 ≤ L) :
    ∃ out, interpCol L times s = .ok out ∧ out.length = s.length ∧ (∀ (k : ℕ) (v : ℝ), s[k]? = some (some v) → out[k]? = some (some v)) ∧
      ∀ i j, Gap s i j → ∀ k, i < k → k < j → ∀ a b : ℝ, s[i]? = some (some a) → s[j]? = some (some b) →
        out[k]? = some (some (a + (b - a) * ((k : ℝ) - i) / ((j : ℝ) - i))) := by
  obtain ⟨out, hout, hlen, hval⟩ := interpCol_ok hL times ht s hn
  have hall : ∀ k < s.length, (interpAt L s k).isSome = true := by
    intro k hk
    by_cases hv : validAt s k = true
    · rw [interpAt_valid hv]; exact hv
    · obtain ⟨i, j, hg, h1, h2⟩ := gap_exists h0 hl hk (by simpa using hv)
      have := hgap i j hg
      rw [interpAt_gap h1 h2 hg.2.1 hg.2.2.1 hg.2.2.2, if_pos (by omega)]
      rfl
  have hnb : ∀ k < s.length, blankAt L times (interpolate L s) k = false := by
    intro k hk
    unfold blankAt
    rw [decide_eq_false_iff_not, not_lt]
    have : (window L times k).filter (fun j => !validAt (interpolate L s) j) = [] := by
      rw [List.filter_eq_nil_iff]
      intro j hj
      unfold window at hj
      have hjk : j ≤ k := by have := List.mem_range.1 (List.mem_filter.1 hj).1; omega
      rw [interpAt_isSome_valid (by omega), hall j (by omega)]
      simp
    rw [this]
    simp only [List.length_nil, Nat.cast_zero, zero_div]
    have : (1 : ℝ) ≤ L := by exact_mod_cast hL
    exact div_nonneg (by linarith) (by linarith)
  have hfin : ∀ k < s.length, out[k]? = some (interpAt L s k) := by
    intro k hk
    have := hval k hk
    rw [if_neg] at this
    · rw [List.getElem?_eq_getElem (by omega), ← this, List.getD_eq_getElem _ _ (by omega)]
    · rintro ⟨h1, h2, h3⟩
      rcases h3 with h3 | h3
      · rw [hnb _ (by omega)] at h3; cases h3
      · rw [hnb _ (by omega)] at h3; cases h3
  have getv : ∀ (k : ℕ) (v : ℝ), s[k]? = some (some v) → k < s.length ∧ s.getD k none = some v := by
    intro k v h
    refine ⟨(List.getElem?_eq_some_iff.1 h).1, ?_⟩
    rw [List.getD_eq_getElem?_getD, h]; rfl
  refine ⟨out, hout, hlen, ?_, ?_⟩
  · intro k v h
    obtain ⟨hk, hg⟩ := getv k v h
    rw [hfin k hk, interpAt_valid (by unfold validAt; rw [hg]; rfl), hg]
  · intro i j hg k h1 h2 a b ha hb
    obtain ⟨hi, ha'⟩ := getv i a ha
    obtain ⟨hj, hb'⟩ := getv j b hb
    have := hgap i j hg
    rw [hfin k (by omega), interpAt_gap h1 h2 hg.2.1 hg.2.2.1 hg.2.2.2, if_pos (by omega)]
    simp only [numAt, ha', hb', Option.getD_some, Nat.cast_sub h1.le, Nat.cast_sub (h1.trans h2).le]

/-- C82 (the part that holds in general): a value is kept or blanked, never altered. -/
theorem C82_values_partial (L : ℕ) (times : List ℝ) (s out : List (Option ℝ)) (h : interpCol L times s = .ok out) :
    out.length = s.length ∧ ∀ (k : ℕ) (v : ℝ), s[k]? = some (some v) → out[k]? = some (some v) ∨ out[k]? = some none := by
  have hL : 0 < L := by
    by_contra hc
    have : L = 0 := by omega
    subst this
    simp [interpCol] at h
  have ht : Monotonic times := by
    by_contra hc
    unfold interpCol at h
    rw [if_neg (by omega), if_pos hc] at h
    cases h
  have hn : 2 * L ≤ s.length := by
    by_contra hc
    unfold interpCol at h
    rw [if_neg (by omega), if_neg (by simpa using ht)] at h
    simp only at h
    rw [if_pos] at h
    · cases h
    · simp only [List.length_append, List.length_replicate, List.length_zipWith, List.length_take, List.length_map, List.length_range, List.length_drop]
      omega
  obtain ⟨out', hout, hlen, hval⟩ := interpCol_ok hL times ht s hn
  rw [h] at hout
  cases hout
  refine ⟨hlen, fun k v hk => ?_⟩
  have hlt := (List.getElem?_eq_some_iff.1 hk).1
  have hg : s.getD k none = some v := by rw [List.getD_eq_getElem?_getD, hk]; rfl
  have := hval k hlt
  rw [List.getElem?_eq_getElem (by omega), ← List.getD_eq_getElem _ none (by omega), this]
  split_ifs
  · exact .inr rfl
  · left
    rw [interpAt_valid (by unfold validAt; rw [hg]; rfl), hg]

/-- C82 is violated: of a gap longer than `limit` (here the first gap of a series sampled every second), the first `limit - 1` samples are
nevertheless filled. -/
theorem C82_violated_filled (L : ℕ) (t0 : ℝ) (s : List (Option ℝ)) (hn : 2 * L ≤ s.length) (i j : ℕ) (hg : Gap s i j) (_hlong : L < j - i - 1)
    (hfirst : ∀ m ≤ i, validAt s m = true) (r : ℕ) (h1 : 1 ≤ r) (h2 : r + 1 ≤ L) :
    ∃ out v, interpCol L (everySecond t0 s.length) s = .ok out ∧ s[i + r]? = some none ∧ out[i + r]? = some (some v) := by
  have hL : 0 < L := by omega
  obtain ⟨out, hout, hlen, hval⟩ := interpCol_ok hL _ (.inl (everySecond_mono t0 s.length)) s hn
  have hjl := validAt_lt hg.2.2.1
  have hk : i + r < s.length := by omega
  have hnone : s[i + r]? = some none := by
    have := hg.2.2.2 (i + r) (by omega) (by omega)
    unfold validAt at this
    rw [List.getD_eq_getElem _ _ hk] at this
    rw [List.getElem?_eq_getElem hk]
    cases h : s[i + r] with
    | none => rfl
    | some v => rw [h] at this; cases this
  have hv := hval (i + r) hk
  rw [if_neg, interpAt_gap (by omega) (by omega : i + r < j) hg.2.1 hg.2.2.1 hg.2.2.2, if_pos (by omega)] at hv
  · refine ⟨out, _, hout, hnone, ((List.getElem?_eq_getElem (by omega)).trans (congrArg some ((List.getD_eq_getElem _ none (by omega)).symm.trans hv)))⟩
  · rintro ⟨h3, h4, h5⟩
    rcases h5 with h5 | h5
    · rw [blankAt_iff hL t0 (by omega)] at h5
      have := h5 (i + r - L) le_rfl (by omega)
      rw [interpAt_isSome_valid (by omega), interpAt_valid (hfirst _ (by omega))] at this
      have h6 := hfirst (i + r - L) (by omega)
      unfold validAt at h6
      rw [h6] at this
      cases this
    · rw [blankAt_iff hL t0 (by omega)] at h5
      have := h5 (i + r + 1) (by omega) (by omega)
      rw [interpAt_isSome_valid (by omega), interpAt_gap (by omega) (by omega : i + r + 1 < j) hg.2.1 hg.2.2.1 hg.2.2.2, if_pos (by omega)] at this
      cases this

/-- C82 is violated: a gap of `2 * limit` samples or more makes the value `limit` samples after its last missing sample disappear. -/
theorem C82_violated_destroyed (L : ℕ) (hL : 0 < L) (t0 : ℝ) (s : List (Option ℝ)) (i j : ℕ) (hg : Gap s i j) (hlong : 2 * L ≤ j - i - 1) (v : ℝ)
    (hv : s[j - 1 + L]? = some (some v)) (hend : j - 1 + L + L < s.length) :
    ∃ out, interpCol L (everySecond t0 s.length) s = .ok out ∧ out[j - 1 + L]? = some none := by
  obtain ⟨out, hout, hlen, hval⟩ := interpCol_ok hL _ (.inl (everySecond_mono t0 s.length)) s (by omega)
  refine ⟨out, hout, ?_⟩
  have := hval (j - 1 + L) (by omega)
  rw [if_pos] at this
  · rw [List.getElem?_eq_getElem (by omega), ← List.getD_eq_getElem _ none (by omega), this]
  · refine ⟨by omega, by omega, .inl ?_⟩
    rw [Nat.add_sub_cancel, blankAt_iff hL t0 (by omega)]
    intro m h1 h2
    rw [interpAt_isSome_valid (by omega), interpAt_gap (by omega) (by omega : m < j) hg.2.1 hg.2.2.1 hg.2.2.2, if_neg (by omega)]
    rfl

/-- A series with a gap of four samples. -/
def demoGap : List (Option ℝ) := [some 0, none, none, none, none, some 5, some 6, some 7, some 8, some 9, some 10, some 11]

theorem demoGap_gap : Gap demoGap 0 5 :=
  ⟨by norm_num, rfl, rfl, by
    intro m h1 h2
    have : m = 1 ∨ m = 2 ∨ m = 3 ∨ m = 4 := by omega
    rcases this with rfl | rfl | rfl | rfl <;> rfl⟩

example : ∃ out, interpCol 2 (everySecond 0 demoGap.length) demoGap = .ok out ∧ out[6]? = some none :=
  C82_violated_destroyed 2 (by norm_num) 0 _ 0 5 demoGap_gap (by norm_num) 6 rfl (by simp [demoGap])

example : ∃ out v, interpCol 3 (everySecond 0 demoGap.length) demoGap = .ok out ∧ demoGap[0 + 2]? = some none ∧ out[0 + 2]? = some (some v) :=
  C82_violated_filled 3 0 _ (by simp [demoGap]) 0 5 demoGap_gap (by norm_num)
    (by intro m hm; obtain rfl : m = 0 := by omega
        rfl) 2 (by norm_num) (by norm_num)

example : ∃ out, interpCol 5 (everySecond 0 12) demoGap = .ok out ∧ ∀ (k : ℕ) (v : ℝ), demoGap[k]? = some (some v) → out[k]? = some (some v) := by
  obtain ⟨out, h1, _, h2, _⟩ := C82_short_gaps_partial 5 (by norm_num) (everySecond 0 12) (.inl (everySecond_mono 0 12)) demoGap (by simp [demoGap]) rfl rfl (by
    intro i j hg
    have hj := validAt_lt hg.2.2.1
    simp only [demoGap, List.length_cons, List.length_nil] at hj
    by_contra hc
    have := hg.2.2.2 5
    have h6 := hg.2.2.2 6
    have h5 : validAt demoGap 5 = true := rfl
    have h6' : validAt demoGap 6 = true := rfl
    rw [h5] at this
    rw [h6'] at h6
    have hn : ∀ m, m ≤ 4 → 1 ≤ m → validAt demoGap m = false := by
      intro m a b
      have : m = 1 ∨ m = 2 ∨ m = 3 ∨ m = 4 := by omega
      rcases this with rfl | rfl | rfl | rfl <;> rfl
    by_cases hi : i < 5
    · have := this hi (by omega)
      cases this
    · by_cases hi6 : i < 6
      · have := h6 hi6 (by omega)
        cases this
      · omega)
  exact ⟨out, h1, h2⟩

/-! ## C130 -/

/-- C130 is violated: every series of fewer than `2 * limit` samples, gaps or not, is rejected. -/
theorem C130_violated_short (L : ℕ) (times : List ℝ) (s : List (Option ℝ)) (h : s.length < 2 * L) : Raises (interpCol L times s) .valueError := by
  unfold Raises interpCol
  rw [if_neg (by omega)]
  by_cases ht : Monotonic times
  · rw [if_neg (by simpa using ht)]
    simp only
    rw [if_pos]
    simp only [List.length_append, List.length_replicate, List.length_zipWith, List.length_take, List.length_map, List.length_range, List.length_drop]
    omega
  · rw [if_pos ht]

/-- C130 (the part that holds): from `2 * limit` samples on, frames are processed column by column; labels, order and lengths are kept. -/
theorem C130_columns_partial {κ : Type} (L : ℕ) (hL : 0 < L) (times : List ℝ) (ht : Monotonic times) (cols : List (κ × List (Option ℝ)))
    (hn : ∀ c ∈ cols, 2 * L ≤ c.2.length) : ∃ out, interpNan L times cols = .ok out ∧ out.length = cols.length ∧
      ∀ (i : ℕ) (h : i < cols.length) (h' : i < out.length), out[i].1 = cols[i].1 ∧ interpCol L times cols[i].2 = .ok out[i].2 ∧ out[i].2.length = cols[i].2.length := by
  induction cols with
  | nil => exact ⟨[], rfl, rfl, fun i h => absurd h (by simp)⟩
  | cons c cols ih =>
    obtain ⟨o, ho, hlen, _⟩ := interpCol_ok hL times ht c.2 (hn c List.mem_cons_self)
    obtain ⟨out, h1, h2, h3⟩ := ih fun c' hc' => hn c' (List.mem_cons_of_mem _ hc')
    refine ⟨(c.1, o) :: out, ?_, by simp [h2], ?_⟩
    · obtain ⟨a, s⟩ := c
      simp only [interpNan]
      simp only at ho
      rw [ho]
      simp only [h1]
    · intro i h h'
      cases i with
      | zero => exact ⟨rfl, ho, hlen⟩
      | succ i => exact h3 i (by simpa using h) (by simpa using h')

example : Raises (interpCol 5 (everySecond 0 6) [some 1, none, some 3, some 4, some 5, some 6]) .valueError := C130_violated_short _ _ _ (by simp)
example : ∃ out, interpNan 1 (everySecond 0 3) [("a", [some 1, none, some 3])] = .ok out ∧ out.length = 1 := by
  obtain ⟨o, h1, h2, _⟩ := C130_columns_partial 1 (by norm_num) (everySecond 0 3) (.inl (everySecond_mono 0 3)) [("a", [some 1, none, some 3])] (by simp)
  exact ⟨o, h1, h2⟩

end SST.DataIO
