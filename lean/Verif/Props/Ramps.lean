import Verif.Proofs.Ramps

/-!
# Properties C57, C58: variability score and DARR

`ramps s tau` (Proofs/Ramps.lean) lists the differences `s[i + tau] - s[i]` of samples that are both
present; `exceed l r` is the share of `l` above `r`, ties other than `r` itself counted half.
-/

namespace SST.Props.Ramps
open SST SST.Stats

/-! ## C57 -/

/-- C57: without resampling, the score is the largest product of a ramp magnitude and the share of larger ramps; NaN
exactly when there is no ramp. -/
theorem C57_maximum (t : List ℝ) (s : List (Option ℝ)) (tau : ℕ) (movingAvg : Bool) (h : movingAvg = false ∨ tau ≤ 1) :
    ∃ o, variabilityScore t s tau movingAvg false = .ok o ∧ (o = none ↔ ramps s tau = []) ∧
      ∀ v, o = some v ↔
        (∃ r ∈ ramps s tau, v = |r| * exceed ((ramps s tau).map fun (x : ℝ) => |x|) |r|) ∧
        ∀ r ∈ ramps s tau, |r| * exceed ((ramps s tau).map fun (x : ℝ) => |x|) |r| ≤ v := by
  have hc : ¬ (movingAvg = true ∧ 1 < tau) := by rcases h with h | h <;> simp [h]
  refine ⟨scoreRaw s tau, ?_, ?_, ?_⟩
  · unfold variabilityScore; simp only [if_neg hc]; rfl
  · rw [scoreRaw_eq, omax_eq_none, filterMap_some]; simp
  · intro v
    rw [scoreRaw_eq, omax_eq_some, filterMap_some]
    simp only [List.map_map, List.mem_map, Function.comp_apply]
    constructor
    · rintro ⟨⟨r, hr, rfl⟩, h2⟩
      exact ⟨⟨r, hr, rfl⟩, fun r' hr' => h2 _ ⟨r', hr', rfl⟩⟩
    · rintro ⟨⟨r, hr, rfl⟩, h2⟩
      refine ⟨⟨r, hr, rfl⟩, ?_⟩
      rintro u ⟨r', hr', rfl⟩
      exact h2 r' hr'

/-- C57: the score is nonnegative and at most `(n - 1) / n` of the largest ramp; in particular it is 0 for one ramp. -/
theorem C57_bounds (t : List ℝ) (s : List (Option ℝ)) (tau : ℕ) (movingAvg : Bool) (h : movingAvg = false ∨ tau ≤ 1) (v : ℝ)
    (hv : variabilityScore t s tau movingAvg false = .ok (some v)) (M : ℝ) (hM : ∀ r ∈ ramps s tau, |r| ≤ M) :
    0 ≤ v ∧ v ≤ (((ramps s tau).length - 1 : ℝ) / (ramps s tau).length) * M ∧ ((ramps s tau).length = 1 → v = 0) := by
  obtain ⟨o, ho, -, h2⟩ := C57_maximum t s tau movingAvg h
  rw [hv] at ho
  obtain ⟨⟨r, hr, rfl⟩, -⟩ := (h2 v).1 (by cases ho; rfl)
  have hb := exceed_bounds (l := (ramps s tau).map fun (x : ℝ) => |x|) (r := |r|) (List.mem_map.2 ⟨r, hr, rfl⟩)
  rw [List.length_map] at hb
  have hn : (1 : ℝ) ≤ (ramps s tau).length := by exact_mod_cast List.length_pos_of_mem hr
  refine ⟨mul_nonneg (abs_nonneg _) hb.1, ?_, ?_⟩
  · rw [mul_comm]
    exact mul_le_mul hb.2 (hM r hr) (abs_nonneg _) (div_nonneg (by linarith) (by linarith))
  · intro h1
    rw [h1] at hb
    have : exceed ((ramps s tau).map fun (x : ℝ) => |x|) |r| = 0 := by
      apply le_antisymm _ hb.1
      have := hb.2
      simpa using this
    rw [this, mul_zero]

/-- C57: an offset changes nothing. -/
theorem C57_offset (t : List ℝ) (s : List (Option ℝ)) (tau : ℕ) (movingAvg pct : Bool) (h : movingAvg = false ∨ tau ≤ 1) (c : ℝ) :
    variabilityScore t (s.map (Option.map fun (v : ℝ) => v + c)) tau movingAvg pct = variabilityScore t s tau movingAvg pct := by
  have hc : ¬ (movingAvg = true ∧ 1 < tau) := by rcases h with h | h <;> simp [h]
  have : scoreRaw (s.map (Option.map fun (v : ℝ) => v + c)) tau = scoreRaw s tau := by
    rw [scoreRaw_eq, scoreRaw_eq, ramps_map s tau (fun v => v + c) id (by intro x y; simp), List.map_id]
  unfold variabilityScore
  simp only [if_neg hc, this]

/-- C57: multiplying the series by `c` multiplies the score by `|c|`. -/
theorem C57_scale (t : List ℝ) (s : List (Option ℝ)) (tau : ℕ) (movingAvg pct : Bool) (h : movingAvg = false ∨ tau ≤ 1) (c : ℝ) :
    variabilityScore t (s.map (Option.map fun (v : ℝ) => c * v)) tau movingAvg pct =
      (variabilityScore t s tau movingAvg pct).map (Option.map fun (v : ℝ) => |c| * v) := by
  have hc : ¬ (movingAvg = true ∧ 1 < tau) := by rcases h with h | h <;> simp [h]
  have key : scoreRaw (s.map (Option.map fun (v : ℝ) => c * v)) tau = (scoreRaw s tau).map fun (v : ℝ) => |c| * v := by
    have hr : ramps (s.map (Option.map fun (v : ℝ) => c * v)) tau = (ramps s tau).map fun v => c * v :=
      ramps_map s tau (fun v => c * v) (fun v => c * v) (by intro x y; ring)
    rw [scoreRaw_eq, scoreRaw_eq, hr]
    have ha : ((ramps s tau).map fun v => c * v).map (fun (v : ℝ) => |v|) = ((ramps s tau).map fun (v : ℝ) => |v|).map fun (v : ℝ) => |c| * v := by
      simp [List.map_map, Function.comp_def, abs_mul]
    rw [ha]
    generalize (ramps s tau).map (fun (v : ℝ) => |v|) = l
    cases hl : omax ((l.map fun (r : ℝ) => r * exceed l r).map some) with
    | none =>
      rw [omax_eq_none, filterMap_some] at hl
      have : l = [] := by simpa using hl
      subst this
      rfl
    | some v =>
      rw [omax_eq_some, filterMap_some] at hl
      rw [Option.map_some, omax_eq_some, filterMap_some]
      have hx : ∀ r ∈ l, |c| * r * exceed (l.map fun (v : ℝ) => |c| * v) (|c| * r) = |c| * (r * exceed l r) := by
        intro r _
        by_cases h0 : c = 0
        · simp [h0]
        · rw [exceed_scale (abs_pos.2 h0), mul_assoc]
      rw [List.map_map]
      have : l.map ((fun (r : ℝ) => r * exceed (l.map fun (v : ℝ) => |c| * v) r) ∘ fun (v : ℝ) => |c| * v) = (l.map fun (r : ℝ) => r * exceed l r).map fun (v : ℝ) => |c| * v := by
        rw [List.map_map]
        exact List.map_congr_left fun r hr => hx r hr
      rw [this]
      constructor
      · exact List.mem_map.2 ⟨v, hl.1, rfl⟩
      · intro u hu
        obtain ⟨w, hw, rfl⟩ := List.mem_map.1 hu
        exact mul_le_mul_of_nonneg_left (hl.2 w hw) (abs_nonneg c)
  unfold variabilityScore
  simp only [if_neg hc, key]
  cases pct
  · rfl
  · simp only [if_true, Except.map]
    cases scoreRaw s tau with
    | none => rfl
    | some v =>
      simp only [Option.map_some]
      rw [show 100 / 1000 * (|c| * v) = |c| * (100 / 1000 * v) by ring]

/-- C57: `pct` is a factor 1/10, whatever the other options. -/
theorem C57_pct (t : List ℝ) (s : List (Option ℝ)) (tau : ℕ) (movingAvg : Bool) :
    variabilityScore t s tau movingAvg true = (variabilityScore t s tau movingAvg false).map (Option.map fun (v : ℝ) => v / 10) := by
  have e : (fun (v : ℝ) => 100 / 1000 * v) = fun (v : ℝ) => v / 10 := by funext v; ring
  unfold variabilityScore
  by_cases hc : movingAvg = true ∧ 1 < tau
  · simp only [if_pos hc, if_true, e]
    cases resampleTau t s tau <;> rfl
  · simp only [if_neg hc, if_true, e]; rfl

example : ramps [some 1, none, some 3, some (1 : ℝ)] 1 = [-2] := by
  simp [ramps, List.range_succ, osub]; norm_num

/-! ## C58 -/

theorem darr_eq (t : List ℝ) (s : List (Option ℝ)) (tau : ℕ) (movingAvg : Bool) (h : movingAvg = false ∨ tau ≤ 1) :
    darr true t s tau movingAvg false = .ok ((ramps s tau).map fun (v : ℝ) => |v|).sum := by
  have hc : ¬ (movingAvg = true ∧ 1 < tau) := by rcases h with h | h <;> simp [h]
  unfold darr
  simp only [if_neg hc, Bool.true_eq_false, if_false, Bool.false_eq_true, darrRaw_eq]

/-- C58: DARR is the sum of the ramp magnitudes; nonnegative, and zero exactly if no two present samples `tau` apart differ. -/
theorem C58_zero_iff (t : List ℝ) (s : List (Option ℝ)) (tau : ℕ) (movingAvg : Bool) (h : movingAvg = false ∨ tau ≤ 1) :
    ∃ v, darr true t s tau movingAvg false = .ok v ∧ v = ((ramps s tau).map fun (r : ℝ) => |r|).sum ∧ 0 ≤ v ∧
      (v = 0 ↔ ∀ i a b, s[i + tau]? = some (some a) → s[i]? = some (some b) → a = b) := by
  refine ⟨_, darr_eq t s tau movingAvg h, rfl, sum_nonneg' fun _ _ => abs_nonneg _, ?_⟩
  constructor
  · intro h0 i a b ha hb
    have := sum_eq_zero' (fun _ _ => abs_nonneg _) h0 (a - b) (mem_ramps.2 ⟨i, a, b, ha, hb, rfl⟩)
    have := abs_eq_zero.1 this
    linarith
  · intro h0
    have : (ramps s tau).map (fun (r : ℝ) => |r|) = (ramps s tau).map fun _ => (0 : ℝ) := by
      apply List.map_congr_left
      intro r hr
      obtain ⟨i, a, b, ha, hb, rfl⟩ := mem_ramps.1 hr
      rw [h0 i a b ha hb]; simp
    rw [this]; simp

/-- C58: without gaps and with `tau = 1`, DARR is at least `|last - first|`, with equality for a monotone series. -/
theorem C58_ends (t : List ℝ) (a b : ℝ) (l : List ℝ) (movingAvg : Bool) (hlast : (a :: l).getLast? = some b) :
    ∃ v, darr true t ((a :: l).map some) 1 movingAvg false = .ok v ∧ |b - a| ≤ v ∧
      ((a :: l).Pairwise (· ≤ ·) → v = b - a) ∧ ((a :: l).Pairwise (· ≥ ·) → v = a - b) := by
  refine ⟨_, darr_eq t _ 1 movingAvg (Or.inr le_rfl), ?_⟩
  rw [vsum_eq]
  induction l generalizing a with
  | nil => simp at hlast; subst hlast; simp [vsum]
  | cons c l ih =>
    rw [List.getLast?_cons_cons] at hlast
    obtain ⟨h1, h2, h3⟩ := ih c hlast
    simp only [vsum]
    refine ⟨?_, ?_, ?_⟩
    · calc |b - a| = |(c - a) + (b - c)| := by congr 1; ring
        _ ≤ |c - a| + |b - c| := abs_add_le _ _
        _ ≤ _ := by linarith
    · intro hp
      rw [List.pairwise_cons] at hp
      rw [h2 hp.2, abs_of_nonneg (by have := hp.1 c (by simp); linarith)]
      ring
    · intro hp
      rw [List.pairwise_cons] at hp
      rw [h3 hp.2, abs_of_nonpos (by have := hp.1 c (by simp); linarith)]
      ring

/-- C58: DARR is subadditive. -/
theorem C58_subadditive (t : List ℝ) (x y : List ℝ) (hxy : x.length = y.length) (tau : ℕ) (movingAvg : Bool) (h : movingAvg = false ∨ tau ≤ 1) :
    ∃ u v w, darr true t ((List.zipWith (fun (p q : ℝ) => p + q) x y).map some) tau movingAvg false = .ok w ∧
      darr true t (x.map some) tau movingAvg false = .ok u ∧ darr true t (y.map some) tau movingAvg false = .ok v ∧ w ≤ u + v := by
  refine ⟨_, _, _, darr_eq t _ tau movingAvg h, darr_eq t _ tau movingAvg h, darr_eq t _ tau movingAvg h, ?_⟩
  rw [ramps_full, ramps_full, ramps_full, List.length_zipWith, ← hxy, min_self, List.map_map, List.map_map, List.map_map, ← List.sum_map_add]
  apply sum_le_sum'
  intro i hi
  simp only [List.mem_range] at hi
  have hg : ∀ k, k < x.length → (List.zipWith (fun (p q : ℝ) => p + q) x y).getD k 0 = x.getD k 0 + y.getD k 0 := by
    intro k hk
    rw [List.getD_eq_getElem _ _ (by simp [← hxy, hk]), List.getD_eq_getElem _ _ hk, List.getD_eq_getElem _ _ (hxy ▸ hk)]
    simp
  simp only [Function.comp_apply]
  rw [hg _ (by omega), hg _ (by omega)]
  calc _ = |(x.getD (i + tau) 0 - x.getD i 0) + (y.getD (i + tau) 0 - y.getD i 0)| := by congr 1; ring
    _ ≤ _ := abs_add_le _ _

/-- C58: DARR scales with `|c|` and ignores offsets. -/
theorem C58_affine (t : List ℝ) (s : List (Option ℝ)) (tau : ℕ) (movingAvg : Bool) (h : movingAvg = false ∨ tau ≤ 1) (c d : ℝ) :
    ∃ v, darr true t s tau movingAvg false = .ok v ∧
      darr true t (s.map (Option.map fun (x : ℝ) => c * x + d)) tau movingAvg false = .ok (|c| * v) := by
  refine ⟨_, darr_eq t _ tau movingAvg h, ?_⟩
  rw [darr_eq t _ tau movingAvg h, ramps_map s tau (fun x => c * x + d) (fun v => c * v) (by intro x y; ring), ← List.sum_map_mul_left, List.map_map]
  congr 3
  funext v
  simp [abs_mul]

/-- C58: DARR of a day is the sum over two parts that share a sample (present or not). -/
theorem C58_concat (t t1 t2 : List ℝ) (x y : List (Option ℝ)) (a : Option ℝ) (movingAvg : Bool) :
    ∃ u v, darr true t1 (x ++ [a]) 1 movingAvg false = .ok u ∧ darr true t2 (a :: y) 1 movingAvg false = .ok v ∧
      darr true t (x ++ a :: y) 1 movingAvg false = .ok (u + v) := by
  refine ⟨_, _, darr_eq _ _ 1 movingAvg (Or.inr le_rfl), darr_eq _ _ 1 movingAvg (Or.inr le_rfl), ?_⟩
  rw [darr_eq _ _ 1 movingAvg (Or.inr le_rfl)]
  congr 1
  have key : ramps (x ++ a :: y) 1 = ramps (x ++ [a]) 1 ++ ramps (a :: y) 1 := by
    induction x with
    | nil => simp [ramps_short]
    | cons b x ih =>
      cases x with
      | nil =>
        simp only [List.cons_append, List.nil_append]
        rw [ramps_one_cons, ramps_one_cons, ramps_short [a] 1 (by simp), List.append_nil]
      | cons c x =>
        simp only [List.cons_append] at ih ⊢
        rw [ramps_one_cons, ih, ramps_one_cons, List.append_assoc]
  rw [key, List.map_append, List.sum_append]

/-- C58: `pct` is a factor 1/10, and a non-pandas argument is a `TypeError`. -/
theorem C58_pct_type (t : List ℝ) (s : List (Option ℝ)) (tau : ℕ) (movingAvg pct : Bool) :
    darr true t s tau movingAvg true = (darr true t s tau movingAvg false).map (fun (v : ℝ) => v / 10) ∧
    Raises (darr false t s tau movingAvg pct) .typeError := by
  refine ⟨?_, by unfold darr; simp [Raises]⟩
  have key : ∀ s tau, darrRaw (s.map (Option.map fun (v : ℝ) => v * 100 / 1000)) tau = darrRaw s tau / 10 := by
    intro s tau
    rw [darrRaw_eq, darrRaw_eq, ramps_map s tau (fun v => v * 100 / 1000) (fun v => v / 10) (by intro x y; ring), List.map_map, div_eq_mul_inv,
      ← List.sum_map_mul_right]
    congr 2
    funext v
    simp [abs_div, div_eq_mul_inv]
  unfold darr
  by_cases hc : movingAvg = true ∧ 1 < tau
  · simp only [if_pos hc, if_true, key, Bool.true_eq_false, if_false, Bool.false_eq_true]
    cases resampleTau t s tau <;> rfl
  · simp only [if_neg hc, if_true, key, Bool.true_eq_false, if_false, Bool.false_eq_true]; rfl

/-- C58: blanking samples (replacing them by NaN) never increases DARR. -/
theorem C58_blanking (t : List ℝ) (s s' : List (Option ℝ)) (hb : List.Forall₂ (fun x y => y = none ∨ y = x) s s') (tau : ℕ) (movingAvg : Bool)
    (h : movingAvg = false ∨ tau ≤ 1) :
    ∃ u v, darr true t s tau movingAvg false = .ok u ∧ darr true t s' tau movingAvg false = .ok v ∧ v ≤ u := by
  refine ⟨_, _, darr_eq t _ tau movingAvg h, darr_eq t _ tau movingAvg h, ?_⟩
  have hlen := hb.length_eq
  have hg : ∀ k, s'.getD k none = none ∨ s'.getD k none = s.getD k none := by
    intro k
    by_cases hk : k < s.length
    · rw [List.getD_eq_getElem _ _ hk, List.getD_eq_getElem _ _ (hlen ▸ hk)]
      exact (List.forall₂_iff_get.1 hb).2 k hk (hlen ▸ hk)
    · left; rw [List.getD_eq_default _ _ (by omega)]
  unfold ramps
  rw [← hlen]
  generalize List.range (s.length - tau) = idx
  induction idx with
  | nil => simp
  | cons i idx ih =>
    rw [List.filterMap_cons, List.filterMap_cons]
    have h2 : osub (s'.getD (i + tau) none) (s'.getD i none) = none ∨ osub (s'.getD (i + tau) none) (s'.getD i none) = osub (s.getD (i + tau) none) (s.getD i none) := by
      rcases hg (i + tau) with h1 | h1
      · left; rw [h1]; rfl
      · rcases hg i with h2 | h2
        · left; rw [h2]; cases s'.getD (i + tau) none <;> rfl
        · right; rw [h1, h2]
    rcases h2 with h2 | h2
    · rw [h2]
      refine ih.trans ?_
      cases osub (s.getD (i + tau) none) (s.getD i none) with
      | none => exact le_rfl
      | some b => simp only [List.map_cons, List.sum_cons]; have := abs_nonneg b; linarith
    · rw [h2]
      cases osub (s.getD (i + tau) none) (s.getD i none) with
      | none => exact ih
      | some b => simp only [List.map_cons, List.sum_cons]; linarith

/-- C58: leaving out samples of a series without gaps never increases DARR. -/
theorem C58_subsampling (t t' : List ℝ) (l l' : List ℝ) (hs : l'.Sublist l) (movingAvg : Bool) :
    ∃ u v, darr true t (l.map some) 1 movingAvg false = .ok u ∧ darr true t' (l'.map some) 1 movingAvg false = .ok v ∧ v ≤ u := by
  refine ⟨_, _, darr_eq _ _ 1 movingAvg (Or.inr le_rfl), darr_eq _ _ 1 movingAvg (Or.inr le_rfl), ?_⟩
  rw [vsum_eq, vsum_eq]
  exact vsum_sublist hs

/-- C58: reversing time changes nothing (`tau = 1`, no gaps). -/
theorem C58_reversal (t : List ℝ) (l : List ℝ) (movingAvg : Bool) :
    darr true t (l.reverse.map some) 1 movingAvg false = darr true t (l.map some) 1 movingAvg false := by
  rw [darr_eq _ _ 1 movingAvg (Or.inr le_rfl), darr_eq _ _ 1 movingAvg (Or.inr le_rfl), vsum_eq, vsum_eq]
  congr 1
  have key : ∀ (l : List ℝ) (a b : ℝ), vsum (fun v => |v|) (l ++ [a, b]) = vsum (fun v => |v|) (l ++ [a]) + |b - a| := by
    intro l a b
    induction l with
    | nil => simp [vsum]
    | cons c l ih =>
      cases l with
      | nil => simp [vsum]
      | cons d l => simp only [List.cons_append, vsum] at ih ⊢; rw [ih]; ring
  induction l with
  | nil => rfl
  | cons a l ih =>
    cases l with
    | nil => rfl
    | cons b l =>
      simp only [List.reverse_cons, List.append_assoc, List.cons_append, List.nil_append] at ih ⊢
      rw [key, ih, abs_sub_comm]
      simp only [vsum]
      ring

/-- C58: ramps over `tau` steps add up to at most `tau` times the ramps over one step (no gaps). -/
theorem C58_tau (t : List ℝ) (l : List ℝ) (tau : ℕ) :
    ∃ u v, darr true t (l.map some) 1 false false = .ok u ∧ darr true t (l.map some) tau false false = .ok v ∧ v ≤ tau * u := by
  refine ⟨_, _, darr_eq _ _ 1 false (Or.inl rfl), darr_eq _ _ tau false (Or.inl rfl), ?_⟩
  induction tau with
  | zero =>
    rw [ramps_full]
    simp
  | succ tau ih =>
    have h1 : ((ramps (l.map some) (tau + 1)).map fun (v : ℝ) => |v|).sum ≤ ((ramps (l.map some) tau).map fun (v : ℝ) => |v|).sum + ((ramps (l.map some) 1).map fun (v : ℝ) => |v|).sum := by
      rw [ramps_full, ramps_full, ramps_full, List.map_map, List.map_map, List.map_map]
      set n := l.length
      have e1 : (((List.range (n - (tau + 1))).map ((fun (v : ℝ) => |v|) ∘ fun i => l.getD (i + tau) 0 - l.getD i 0)).sum) ≤
          ((List.range (n - tau)).map ((fun (v : ℝ) => |v|) ∘ fun i => l.getD (i + tau) 0 - l.getD i 0)).sum := by
        by_cases hn : tau + 1 ≤ n
        · have : n - tau = n - (tau + 1) + 1 := by omega
          rw [this, List.range_succ, List.map_append, List.sum_append]
          simp
        · rw [show n - (tau + 1) = 0 by omega]
          simp only [List.range_zero, List.map_nil, List.sum_nil]
          exact sum_nonneg' fun _ _ => abs_nonneg _
      have e2 : (((List.range (n - (tau + 1))).map fun i => |l.getD (i + tau + 1) 0 - l.getD (i + tau) 0|).sum) ≤
          ((List.range (n - 1)).map ((fun (v : ℝ) => |v|) ∘ fun i => l.getD (i + 1) 0 - l.getD i 0)).sum := by
        by_cases hn : tau + 1 ≤ n
        · have : n - 1 = tau + (n - (tau + 1)) := by omega
          rw [this, List.range_add, List.map_append, List.sum_append, List.map_map]
          have h3 : ((List.range (n - (tau + 1))).map fun i => |l.getD (i + tau + 1) 0 - l.getD (i + tau) 0|) =
              (List.range (n - (tau + 1))).map ((((fun (v : ℝ) => |v|) ∘ fun i => l.getD (i + 1) 0 - l.getD i 0)) ∘ fun x => tau + x) := by
            apply List.map_congr_left
            intro i _
            simp only [Function.comp_apply, Nat.add_comm tau i]
          rw [h3]
          have := sum_nonneg' (l := List.range tau) (f := (fun (v : ℝ) => |v|) ∘ fun i => l.getD (i + 1) 0 - l.getD i 0) (fun _ _ => abs_nonneg _)
          linarith
        · rw [show n - (tau + 1) = 0 by omega]
          simp only [List.range_zero, List.map_nil, List.sum_nil]
          exact sum_nonneg' fun _ _ => abs_nonneg _
      refine le_trans ?_ (add_le_add e1 e2)
      rw [← List.sum_map_add]
      apply sum_le_sum'
      intro i _
      simp only [Function.comp_apply]
      calc |l.getD (i + (tau + 1)) 0 - l.getD i 0| = |(l.getD (i + tau) 0 - l.getD i 0) + (l.getD (i + tau + 1) 0 - l.getD (i + tau) 0)| := by
            rw [Nat.add_assoc]; congr 1; ring
        _ ≤ _ := abs_add_le _ _
    push_cast
    linarith

example : List.Forall₂ (fun x y => y = none ∨ y = x) [some 1, some (2 : ℝ)] [none, some 2] ∧
    ([1, 3] : List ℝ).Sublist [1, 2, 3] ∧ ([1, 2, 3] : List ℝ).getLast? = some 3 ∧ ([1, 2, 3] : List ℝ).Pairwise (· ≤ ·) := by
  refine ⟨.cons (Or.inl rfl) (.cons (Or.inr rfl) .nil), ?_, rfl, ?_⟩
  · exact .cons_cons _ (.cons _ (.cons_cons _ .slnil))
  · simp; norm_num

end SST.Props.Ramps
