import Verif.Proofs.Cloud

/-!
# Properties C64, C65, C116: random fields and scale weights
-/

namespace SST.Props.CloudRandom
open SST SST.Stats SST.Cloud

/-! ## C64 -/

/-- C64: interpolation stays within the range of the drawn grid (`max r 1` values per dimension). -/
theorem C64_bounds (R : ℕ → ℕ → ℝ) (r0 r1 : ℤ) (F0 F1 : ℕ) (lo hi : ℝ)
    (hR : ∀ a b : ℕ, (a : ℤ) < max r0 1 → (b : ℤ) < max r1 1 → lo ≤ R a b ∧ R a b ≤ hi) (i j : ℕ) (hi' : i < F0) (hj : j < F1) :
    lo ≤ randomAtScale R r0 r1 F0 F1 i j ∧ randomAtScale R r0 r1 F0 F1 i j ≤ hi := by
  apply bilinear_bounds (gridSize_ge r0) (gridSize_ge r1) _ (linspace_mem hi') (linspace_mem hj)
  intro a b ha hb
  unfold gridAt
  unfold gridSize at ha hb
  apply hR
  · split_ifs at ha ⊢ <;> push_cast <;> omega
  · split_ifs at hb ⊢ <;> push_cast <;> omega

/-- C64: the corners of the interpolated field are the corners of the drawn grid. -/
theorem C64_corners (R : ℕ → ℕ → ℝ) (r0 r1 : ℤ) (F0 F1 : ℕ) (h0 : 2 ≤ F0) (h1 : 2 ≤ F1) :
    randomAtScale R r0 r1 F0 F1 0 0 = R 0 0 ∧
    randomAtScale R r0 r1 F0 F1 (F0 - 1) (F1 - 1) = R (max r0 1 - 1).toNat (max r1 1 - 1).toNat ∧
    randomAtScale R r0 r1 F0 F1 (F0 - 1) 0 = R (max r0 1 - 1).toNat 0 ∧
    randomAtScale R r0 r1 F0 F1 0 (F1 - 1) = R 0 (max r1 1 - 1).toNat := by
  have hz : ∀ F : ℕ, linspace01 F 0 = 0 := by intro F; unfold linspace01; split_ifs <;> simp
  have hl : ∀ F : ℕ, 2 ≤ F → linspace01 F (F - 1) = 1 := by
    intro F hF
    have hF' : (2 : ℝ) ≤ F := by exact_mod_cast hF
    unfold linspace01
    rw [if_neg (by omega), Nat.cast_sub (by omega)]
    push_cast
    exact div_self (by linarith)
  have hn0 : ∀ (k : ℕ), (0 : ℝ) * ((k : ℝ) - 1) = ((0 : ℕ) : ℝ) := by intro k; simp
  have hn1 : ∀ (k : ℕ), 2 ≤ k → (1 : ℝ) * ((k : ℝ) - 1) = ((k - 1 : ℕ) : ℝ) := by
    intro k hk; rw [Nat.cast_sub (by omega)]; simp
  have g0 := gridSize_ge r0
  have g1 := gridSize_ge r1
  have hx : ∀ r : ℤ, (if r ≤ 1 then 0 else gridSize r - 1) = (max r 1 - 1).toNat := by
    intro r; unfold gridSize; split_ifs <;> omega
  unfold randomAtScale
  rw [hz, hz, hl F0 h0, hl F1 h1]
  refine ⟨?_, ?_, ?_, ?_⟩
  · rw [bilinear_node g0 g1 (a := 0) (b := 0) (by omega) (by omega) (hn0 _) (hn0 _)]
    unfold gridAt; simp
  · rw [bilinear_node g0 g1 (a := gridSize r0 - 1) (b := gridSize r1 - 1) (by omega) (by omega) (hn1 _ g0) (hn1 _ g1)]
    unfold gridAt; rw [hx, hx]
  · rw [bilinear_node g0 g1 (a := gridSize r0 - 1) (b := 0) (by omega) (by omega) (hn1 _ g0) (hn0 _)]
    unfold gridAt; rw [hx]; simp
  · rw [bilinear_node g0 g1 (a := 0) (b := gridSize r1 - 1) (by omega) (by omega) (hn0 _) (hn1 _ g1)]
    unfold gridAt; rw [hx]; simp

/-- C64: a grid of the final size (at least 2 in each dimension) is returned unchanged. -/
theorem C64_identity (R : ℕ → ℕ → ℝ) (F0 F1 : ℕ) (h0 : 2 ≤ F0) (h1 : 2 ≤ F1) (i j : ℕ) (hi : i < F0) (hj : j < F1) :
    randomAtScale R F0 F1 F0 F1 i j = R i j := by
  have hl : ∀ F i : ℕ, 2 ≤ F → i < F → linspace01 F i * ((F : ℝ) - 1) = i := by
    intro F i hF _
    have hF' : (2 : ℝ) ≤ F := by exact_mod_cast hF
    unfold linspace01
    rw [if_neg (by omega)]
    exact div_mul_cancel₀ _ (by linarith)
  have hg : ∀ F : ℕ, 2 ≤ F → gridSize F = F := by intro F hF; unfold gridSize; rw [if_neg (by omega)]; simp
  unfold randomAtScale
  rw [hg F0 h0, hg F1 h1, bilinear_node h0 h1 (by omega) (by omega) (hl F0 i h0 hi) (hl F1 j h1 hj)]
  unfold gridAt
  rw [if_neg (by omega), if_neg (by omega)]

example : ∀ a b : ℕ, (a : ℤ) < max 3 1 → (b : ℤ) < max 0 1 → (0 : ℝ) ≤ (fun _ _ => 1 / 2 : ℕ → ℕ → ℝ) a b ∧ (fun _ _ => 1 / 2 : ℕ → ℕ → ℝ) a b ≤ 1 := by
  intro a b _ _; norm_num

/-! ## C65 -/

/-- The exponent of the scale weights. -/
noncomputable def vsExp (vs : ℝ) : ℝ := 1 / (-Real.log (1 - vs / 180) / 0.6)

theorem vsExp_pos {vs : ℝ} (h0 : 0 < vs) (h1 : vs < 180) : 0 < vsExp vs := by
  unfold vsExp
  have : Real.log (1 - vs / 180) < 0 := Real.log_neg (by linarith) (by linarith)
  have : 0 < -Real.log (1 - vs / 180) / 0.6 := div_pos (by linarith) (by norm_num)
  positivity

theorem vsWeights_mid {scales : List ℝ} (hne : scales ≠ []) (hs : ∀ s ∈ scales, 0 < s) {vs : ℝ} (h0 : 0 < vs) (h1 : vs < 180) :
    0 < (scales.map fun (s : ℝ) => s ^ vsExp vs).sum ∧
    vsWeights scales vs = .ok (some (scales.map fun (s : ℝ) => s ^ vsExp vs / (scales.map fun (s : ℝ) => s ^ vsExp vs).sum)) := by
  have hsum : 0 < (scales.map fun (s : ℝ) => s ^ vsExp vs).sum := by
    apply List.sum_pos
    · intro x hx
      obtain ⟨s, hs', rfl⟩ := List.mem_map.1 hx
      exact Real.rpow_pos_of_pos (hs s hs') _
    · simpa using hne
  refine ⟨hsum, ?_⟩
  unfold vsWeights
  rw [if_neg (by linarith), if_neg (by linarith)]
  simp only
  rw [if_neg h0.ne', if_neg h1.ne]
  change (if (scales.map fun (s : ℝ) => s ^ vsExp vs).sum = 0 then _ else Except.ok (some ((scales.map fun (s : ℝ) => s ^ vsExp vs).map fun (x : ℝ) => x / (scales.map fun (s : ℝ) => s ^ vsExp vs).sum))) = _
  rw [if_neg hsum.ne', List.map_map]
  rfl

theorem sum_div_list (l : List ℝ) (c : ℝ) : (l.map fun (x : ℝ) => x / c).sum = l.sum / c := by
  induction l with
  | nil => simp
  | cons a l ih => simp only [List.map_cons, List.sum_cons, ih]; ring

/-- C65: for `0 < vs < 180` the weights are positive, sum to 1, and a larger scale has a larger weight. -/
theorem C65_vs_partial (scales : List ℝ) (hne : scales ≠ []) (hs : ∀ s ∈ scales, 0 < s) (vs : ℝ) (h0 : 0 < vs) (h1 : vs < 180) :
    ∃ w, vsWeights scales vs = .ok (some w) ∧ w.length = scales.length ∧ (∀ x ∈ w, 0 < x) ∧ w.sum = 1 ∧
      ∀ (i j : ℕ) s s' x x', scales[i]? = some s → scales[j]? = some s' → w[i]? = some x → w[j]? = some x' → (s < s' ↔ x < x') := by
  obtain ⟨hsum, he⟩ := vsWeights_mid hne hs h0 h1
  refine ⟨_, he, by simp, ?_, ?_, ?_⟩
  · intro x hx
    obtain ⟨s, hs', rfl⟩ := List.mem_map.1 hx
    exact div_pos (Real.rpow_pos_of_pos (hs s hs') _) hsum
  · have := sum_div_list (scales.map fun (s : ℝ) => s ^ vsExp vs) (scales.map fun (s : ℝ) => s ^ vsExp vs).sum
    rw [List.map_map] at this
    rw [show (scales.map fun (s : ℝ) => s ^ vsExp vs / (scales.map fun (s : ℝ) => s ^ vsExp vs).sum) = scales.map ((fun (x : ℝ) => x / (scales.map fun (s : ℝ) => s ^ vsExp vs).sum) ∘ fun (s : ℝ) => s ^ vsExp vs) from rfl, this]
    exact div_self hsum.ne'
  · intro i j s s' x x' hi hj hx hx'
    rw [List.getElem?_map, hi, Option.map_some, Option.some.injEq] at hx
    rw [List.getElem?_map, hj, Option.map_some, Option.some.injEq] at hx'
    subst hx; subst hx'
    have hsi := hs s (List.mem_of_getElem? hi)
    have hsj := hs s' (List.mem_of_getElem? hj)
    rw [div_lt_div_iff_of_pos_right hsum, Real.rpow_lt_rpow_iff hsi.le hsj.le (vsExp_pos h0 h1)]

/-- C65: the limiting and rejected arguments: equal weights at 180, a `ValueError` below 0. -/
theorem C65_vs_ends (scales : List ℝ) (hne : scales ≠ []) (vs : ℝ) :
    vsWeights scales 180 = .ok (some (scales.map fun (_ : ℝ) => 1 / (scales.length : ℝ))) ∧ (vs < 0 → Raises (vsWeights scales vs) .valueError) := by
  constructor
  · have hn : (0 : ℝ) < scales.length := by exact_mod_cast List.length_pos_iff.2 hne
    have hz : ¬ (180 : ℝ) = 0 := by norm_num
    have hl : (scales.map fun (_ : ℝ) => (1 : ℝ)).sum = scales.length := by simp
    unfold vsWeights
    rw [if_neg (by norm_num), if_neg (by norm_num)]
    simp only [if_neg hz, if_true, hl, if_neg hn.ne', List.map_map]
    rfl
  · intro h
    unfold vsWeights Raises
    rw [if_pos h]

/-- C65 violated: above 180, a score that ordinary clear-sky index series reach, all weights are NaN. -/
theorem C65_violated_large (scales : List ℝ) (vs : ℝ) (h : 180 < vs) : vsWeights scales vs = .ok none := by
  unfold vsWeights
  rw [if_neg (by linarith), if_pos h]

/-- C65: wavelet weights are a probability vector unless all modes vanish or one mode has no value (then NaN). -/
theorem C65_wavelet (waves : List (List (Option ℝ))) (hrow : ∀ r ∈ waves, ∃ v, some v ∈ r) (hnz : ∃ r ∈ waves, ∃ v, some v ∈ r ∧ v ≠ 0) :
    ∃ w, waveletWeights waves = some w ∧ w.length = waves.length ∧ (∀ x ∈ w, 0 ≤ x) ∧ w.sum = 1 := by
  have hpd : ∀ r : List (Option ℝ), (∃ v, some v ∈ r) → ∃ y, pdMean (r.map (Option.map fun (v : ℝ) => v ^ 2)) = some y ∧ 0 ≤ y ∧ ((∃ v, some v ∈ r ∧ v ≠ 0) → 0 < y) := by
    intro r ⟨v, hv⟩
    have hmem : v ∈ r.filterMap id := List.mem_filterMap.2 ⟨some v, hv, rfl⟩
    have hne : (r.filterMap id) ≠ [] := by intro h; rw [h] at hmem; simp at hmem
    unfold pdMean
    rw [filterMap_omap, meanO_map hne]
    have hlen : (0 : ℝ) < (r.filterMap id).length := by exact_mod_cast List.length_pos_iff.2 hne
    have hnn : 0 ≤ ((r.filterMap id).map fun (v : ℝ) => v ^ 2).sum := sum_nonneg' fun _ _ => sq_nonneg _
    refine ⟨_, rfl, div_nonneg hnn hlen.le, ?_⟩
    rintro ⟨u, hu, hu0⟩
    apply div_pos _ hlen
    rcases hnn.lt_or_eq with h | h
    · exact h
    · exfalso
      have := sum_eq_zero' (fun _ _ => sq_nonneg _) h.symm u (List.mem_filterMap.2 ⟨some u, hu, rfl⟩)
      exact hu0 (by simpa using this)
  have hm : ∃ s, waves.mapM (fun row => pdMean (row.map (Option.map fun (v : ℝ) => v ^ 2))) = some s ∧ s.length = waves.length ∧ (∀ x ∈ s, 0 ≤ x) ∧
      ((∃ r ∈ waves, ∃ v, some v ∈ r ∧ v ≠ 0) → 0 < s.sum) := by
    clear hnz
    induction waves with
    | nil => exact ⟨[], rfl, rfl, by simp, by simp⟩
    | cons r waves ih =>
      obtain ⟨s, hs, hl, hn, hp⟩ := ih (fun r hr => hrow r (by simp [hr]))
      obtain ⟨y, hy, hy0, hyp⟩ := hpd r (hrow r (by simp))
      refine ⟨y :: s, ?_, by simp [hl], ?_, ?_⟩
      · rw [List.mapM_cons, hy, hs]; rfl
      · intro x hx
        rcases List.mem_cons.1 hx with rfl | hx
        · exact hy0
        · exact hn x hx
      · rintro ⟨r', hr', hv⟩
        rw [List.sum_cons]
        have hsn : 0 ≤ s.sum := List.sum_nonneg hn
        rcases List.mem_cons.1 hr' with rfl | hr'
        · have := hyp hv; linarith
        · have := hp ⟨r', hr', hv⟩; linarith
  obtain ⟨s, hs, hl, hn, hp⟩ := hm
  have hpos := hp hnz
  refine ⟨s.map fun (x : ℝ) => x / s.sum, ?_, by simp [hl], ?_, ?_⟩
  · unfold waveletWeights
    rw [hs]
    simp only
    rw [if_neg hpos.ne']
  · intro x hx
    obtain ⟨y, hy, rfl⟩ := List.mem_map.1 hx
    exact div_nonneg (hn y hy) hpos.le
  · rw [sum_div_list, div_self hpos.ne']

theorem stack_bounds (R : ℕ → ℕ → ℕ → ℝ) (hR : ∀ k a b, 0 ≤ R k a b ∧ R k a b ≤ 1) (weights : List ℝ) (hw : ∀ x ∈ weights, 0 ≤ x) (scales : List ℤ)
    (hl : weights.length = scales.length) (m n i j : ℕ) (hi : i < m) (hj : j < n) :
    0 ≤ stackSum R weights scales m n i j ∧ stackSum R weights scales m n i j ≤ weights.sum := by
  have hwk : ∀ k, 0 ≤ weights.getD k 0 := by
    intro k
    by_cases hk : k < weights.length
    · rw [List.getD_eq_getElem _ _ hk]; exact hw _ (List.getElem_mem _)
    · rw [List.getD_eq_default _ _ (by omega)]
  have hb : ∀ k, 0 ≤ randomAtScale (R k) (scaledSize m (scales.getD k 0)) (scaledSize n (scales.getD k 0)) m n i j ∧
      randomAtScale (R k) (scaledSize m (scales.getD k 0)) (scaledSize n (scales.getD k 0)) m n i j ≤ 1 :=
    fun k => C64_bounds (R k) _ _ m n 0 1 (fun a b _ _ => hR k a b) i j hi hj
  unfold stackSum
  constructor
  · exact sum_nonneg' fun k _ => mul_nonneg (hb k).1 (hwk k)
  · have hws : weights.sum = ((List.range scales.length).map fun (k : ℕ) => weights.getD k 0).sum := by
      rw [← hl]
      congr 1
      apply List.ext_getElem
      · simp
      · intro k h1 h2
        simp only [List.getElem_map, List.getElem_range]
        rw [List.getD_eq_getElem _ _ h1]
    rw [hws]
    apply sum_le_sum'
    intro k _
    have := mul_le_mul_of_nonneg_right (hb k).2 (hwk k)
    linarith

/-- C65: stacking with a probability vector keeps the field within `[0, 1]`; lists of different lengths are a `ValueError`. -/
theorem C65_stack (R : ℕ → ℕ → ℕ → ℝ) (hR : ∀ k a b, 0 ≤ R k a b ∧ R k a b ≤ 1) (weights : List ℝ) (hw : ∀ x ∈ weights, 0 ≤ x) (hsum : weights.sum = 1)
    (scales : List ℤ) (m n : ℕ) (normalize : Bool) :
    (weights.length ≠ scales.length → Raises (stackField R weights scales m n normalize) .valueError) ∧
    (weights.length = scales.length → ∃ f, stackField R weights scales m n false = .ok f ∧ ∀ i j, i < m → j < n → 0 ≤ f i j ∧ f i j ≤ 1) := by
  constructor
  · intro h; unfold stackField Raises; rw [if_pos h]
  · intro h
    refine ⟨stackSum R weights scales m n, ?_, ?_⟩
    · unfold stackField; rw [if_neg (by simpa using h)]; simp
    · intro i j hi hj
      have := stack_bounds R hR weights hw scales h m n i j hi hj
      rw [hsum] at this
      exact this

/-- C65: with `normalize` the field has minimum 0 and maximum 1; the only failure for a nonempty field is a constant one
(`AssertionError`). -/
theorem C65_normalize (R : ℕ → ℕ → ℕ → ℝ) (weights : List ℝ) (scales : List ℤ) (hl : weights.length = scales.length) (m n : ℕ) (hm : 0 < m) (hn : 0 < n) :
    ∃ g, stackField R weights scales m n false = .ok g ∧
    (((∃ c, ∀ i j, i < m → j < n → g i j = c) ∧ Raises (stackField R weights scales m n true) .assertionError) ∨
     (∃ f, stackField R weights scales m n true = .ok f ∧ (∀ i j, i < m → j < n → 0 ≤ f i j ∧ f i j ≤ 1) ∧
      (∃ i j, i < m ∧ j < n ∧ f i j = 0) ∧ (∃ i j, i < m ∧ j < n ∧ f i j = 1) ∧
      ∀ i j i' j', i < m → j < n → i' < m → j' < n → (f i j < f i' j' ↔ g i j < g i' j'))) := by
  refine ⟨stackSum R weights scales m n, by unfold stackField; rw [if_neg (by simpa using hl)]; simp, ?_⟩
  obtain ⟨hi, hhi⟩ := fmax_exists (stackSum R weights scales m n) hm hn
  obtain ⟨lo, hlo⟩ := fmin_exists (stackSum R weights scales m n) hm hn
  obtain ⟨⟨i1, j1, hi1, hj1, he1⟩, hmax⟩ := fmax_some.1 hhi
  obtain ⟨⟨i0, j0, hi0, hj0, he0⟩, hmin⟩ := fmin_some.1 hlo
  by_cases hc : hi = lo
  · left
    refine ⟨⟨lo, fun i j hi' hj' => le_antisymm (hc ▸ hmax i j hi' hj') (hmin i j hi' hj')⟩, ?_⟩
    unfold stackField Raises
    rw [if_neg (by simpa using hl)]
    simp [hhi, hlo, hc]
  · right
    have hlt : lo < hi := lt_of_le_of_ne (he1 ▸ hmin i1 j1 hi1 hj1) (fun h => hc h.symm)
    have hd : 0 < hi - lo := by linarith
    refine ⟨fun i j => (stackSum R weights scales m n i j - lo) / (hi - lo), ?_, ?_, ?_, ?_, ?_⟩
    · unfold stackField
      rw [if_neg (by simpa using hl)]
      simp [hhi, hlo, hc]
    · intro i j hi' hj'
      have h1 := hmax i j hi' hj'
      have h2 := hmin i j hi' hj'
      exact ⟨div_nonneg (by linarith) hd.le, (div_le_one hd).2 (by linarith)⟩
    · exact ⟨i0, j0, hi0, hj0, by simp only [he0]; simp⟩
    · exact ⟨i1, j1, hi1, hj1, by simp only [he1]; exact div_self hd.ne'⟩
    · intro i j i' j' _ _ _ _
      rw [div_lt_div_iff_of_pos_right hd]
      constructor <;> intro h <;> linarith

example : ∃ (s : List ℝ) (w : List (List (Option ℝ))), s ≠ [] ∧ (∀ x ∈ s, 0 < x) ∧ (∀ r ∈ w, ∃ v, some v ∈ r) ∧ ∃ r ∈ w, ∃ v, some v ∈ r ∧ v ≠ 0 :=
  ⟨[1, 2], [[some 1, none], [some 0]], by simp, by simp, by simp, _, List.mem_cons_self, 1, by simp, by simp⟩

/-! ## C116 -/

/-- C116, the part that holds: within `0 < vs < 180`, a lower score puts relatively more weight on the larger of two scales. -/
theorem C116_shift_partial (s s' vs vs' : ℝ) (hs : 0 < s) (hss : s < s') (h0 : 0 < vs) (hvv : vs < vs') (h1 : vs' < 180) :
    ∃ a b a' b', vsWeights [s, s'] vs = .ok (some [a, b]) ∧ vsWeights [s, s'] vs' = .ok (some [a', b']) ∧ b' < b := by
  have hs' : ∀ x ∈ [s, s'], 0 < x := by
    intro x hx
    simp at hx
    rcases hx with rfl | rfl <;> linarith
  obtain ⟨p1, e1⟩ := vsWeights_mid (scales := [s, s']) (by simp) hs' h0 (by linarith : vs < 180)
  obtain ⟨p2, e2⟩ := vsWeights_mid (scales := [s, s']) (by simp) hs' (by linarith : 0 < vs') h1
  simp only [List.map_cons, List.map_nil, List.sum_cons, List.sum_nil, add_zero] at p1 p2 e1 e2
  refine ⟨_, _, _, _, e1, e2, ?_⟩
  have hexp : vsExp vs' < vsExp vs := by
    unfold vsExp
    have l1 : Real.log (1 - vs' / 180) < Real.log (1 - vs / 180) := Real.log_lt_log (by linarith) (by linarith)
    have l2 : Real.log (1 - vs / 180) < 0 := Real.log_neg (by linarith) (by linarith)
    apply one_div_lt_one_div_of_lt
    · exact div_pos (by linarith) (by norm_num)
    · exact div_lt_div_of_pos_right (by linarith) (by norm_num)
  have hr : (s' / s) ^ vsExp vs' < (s' / s) ^ vsExp vs := Real.rpow_lt_rpow_of_exponent_lt (by rw [lt_div_iff₀ hs]; linarith) hexp
  rw [Real.div_rpow (by linarith) hs.le, Real.div_rpow (by linarith) hs.le, div_lt_div_iff₀ (Real.rpow_pos_of_pos hs _) (Real.rpow_pos_of_pos hs _)] at hr
  rw [div_lt_div_iff₀ p2 p1]
  nlinarith

/-- C116, the part that holds at the upper end: the highest score, 180, weighs the two scales alike, and every score in between puts more than
that on the larger scale. -/
theorem C116_top_partial (s s' vs : ℝ) (hs : 0 < s) (hss : s < s') (h0 : 0 < vs) (h1 : vs < 180) :
    vsWeights [s, s'] 180 = .ok (some [1 / 2, 1 / 2]) ∧ ∃ a b, vsWeights [s, s'] vs = .ok (some [a, b]) ∧ 1 / 2 < b := by
  refine ⟨?_, ?_⟩
  · unfold vsWeights
    rw [if_neg (by norm_num), if_neg (by norm_num)]
    norm_num
  · have hs' : ∀ x ∈ [s, s'], 0 < x := by
      intro x hx
      simp at hx
      rcases hx with rfl | rfl <;> linarith
    obtain ⟨p1, e1⟩ := vsWeights_mid (scales := [s, s']) (by simp) hs' h0 h1
    simp only [List.map_cons, List.map_nil, List.sum_cons, List.sum_nil, add_zero] at p1 e1
    refine ⟨_, _, e1, ?_⟩
    have hexp : 0 < vsExp vs := by
      unfold vsExp
      have l2 : Real.log (1 - vs / 180) < 0 := Real.log_neg (by linarith) (by linarith)
      exact div_pos one_pos (div_pos (by linarith) (by norm_num))
    have := Real.rpow_lt_rpow hs.le hss hexp
    rw [div_lt_div_iff₀ two_pos p1]
    linarith

/-- C116 violated: at the lowest score, 0, all weight goes to scale 1, the smallest. -/
theorem C116_violated_zero (s : ℝ) (hs : 1 < s) : vsWeights [1, s] 0 = .ok (some [1, 0]) := by
  unfold vsWeights
  rw [if_neg (by norm_num), if_neg (by norm_num)]
  simp [hs.ne']

example : (0 : ℝ) < 1 ∧ (1 : ℝ) < 2 ∧ (0 : ℝ) < 10 ∧ (10 : ℝ) < 50 ∧ (50 : ℝ) < 180 := by norm_num

end SST.Props.CloudRandom
