import Verif.Proofs.CmvMethods
import Verif.Spec.CmvGeom
import Mathlib.Data.List.Perm.Basic

/-! # Helper lemmas: cloud motion under changes of coordinates -/

namespace SST.Cmv
open SST SST.Spec SST.Spatial

/-! ## Sorting, quantiles and the median of scaled data -/

theorem sorted_perm_eq {a b : List ℝ} (ha : a.Pairwise (· ≤ ·)) (hb : b.Pairwise (· ≤ ·)) (h : a.Perm b) : a = b :=
  h.eq_of_pairwise' ha hb

theorem sortR_congr {l l' : List ℝ} (h : l.Perm l') : sortR l = sortR l' :=
  sorted_perm_eq (sortR_sorted l) (sortR_sorted l') ((sortR_perm l).trans (h.trans (sortR_perm l').symm))

theorem sortR_mul_pos {f : ℝ} (hf : 0 < f) (l : List ℝ) : sortR (l.map fun x => f * x) = (sortR l).map fun x => f * x := by
  refine sorted_perm_eq (sortR_sorted _) ?_ ((sortR_perm _).trans ((sortR_perm l).symm.map _))
  rw [List.pairwise_map]
  exact (sortR_sorted l).imp fun h => mul_le_mul_of_nonneg_left h hf.le

theorem sortR_mul_neg {f : ℝ} (hf : f < 0) (l : List ℝ) : sortR (l.map fun x => f * x) = ((sortR l).map fun x => f * x).reverse := by
  refine sorted_perm_eq (sortR_sorted _) ?_ ((sortR_perm _).trans (((sortR_perm l).symm.map _).trans (List.reverse_perm _).symm))
  rw [List.pairwise_reverse, List.pairwise_map]
  exact (sortR_sorted l).imp fun h => mul_le_mul_of_nonpos_left h hf.le

theorem getD_map_mul (f : ℝ) (s : List ℝ) (i : ℕ) : ((s.map fun x => f * x)[i]?).getD 0 = f * (s[i]?).getD 0 := by
  rw [List.getElem?_map]
  cases s[i]? <;> simp

theorem getD_reverse (s : List ℝ) (i : ℕ) (h : i < s.length) : (s.reverse[i]?).getD 0 = (s[s.length - 1 - i]?).getD 0 := by
  rw [List.getElem?_reverse h]

theorem lerpAt_mul (f : ℝ) (s : List ℝ) (h : ℝ) : lerpAt (s.map fun x => f * x) h = f * lerpAt s h := by
  unfold lerpAt
  simp only [getD_map_mul, List.length_map]
  ring

theorem lerpAt_reverse (s : List ℝ) (hne : s ≠ []) (q : ℝ) (h0 : 0 ≤ q) (h1 : q ≤ 1) :
    lerpAt s.reverse ((s.length - 1 : ℝ) * q) = lerpAt s ((s.length - 1 : ℝ) * (1 - q)) := by
  have hpos : 0 < s.length := List.length_pos_iff.2 hne
  obtain ⟨N, hN⟩ : ∃ N, s.length = N + 1 := ⟨s.length - 1, by omega⟩
  have e1 : (s.length - 1 : ℝ) = N := by rw [hN]; push_cast; ring
  rw [e1]
  set h := (N : ℝ) * q with hh
  have e2 : (N : ℝ) * (1 - q) = N - h := by rw [hh]; ring
  rw [e2]
  have hh0 : 0 ≤ h := by positivity
  have hhN : h ≤ N := by rw [hh]; nlinarith [(Nat.cast_nonneg N : (0 : ℝ) ≤ N)]
  set i := ⌊h⌋₊ with hi
  have hi1 : (i : ℝ) ≤ h := Nat.floor_le hh0
  have hi2 : h < i + 1 := Nat.lt_floor_add_one h
  have hiN : i ≤ N := by
    have : (i : ℝ) ≤ N := hi1.trans hhN
    exact_mod_cast this
  unfold lerpAt
  simp only [List.length_reverse, ← hi, hN, Nat.add_sub_cancel]
  by_cases hint : h = i
  · have hf : ⌊(N : ℝ) - h⌋₊ = N - i := by
      rw [hint, ← Nat.cast_sub hiN, Nat.floor_natCast]
    rw [hf, hint, getD_reverse s i (by omega), hN, Nat.add_sub_cancel, Nat.cast_sub hiN]
    ring
  · have hlt : (i : ℝ) < h := lt_of_le_of_ne hi1 (Ne.symm hint)
    have hiN' : i + 1 ≤ N := by
      have : (i : ℝ) < N := lt_of_lt_of_le hlt hhN
      have : i < N := by exact_mod_cast this
      omega
    have hc : ((N - 1 - i : ℕ) : ℝ) = N - 1 - i := by
      rw [Nat.cast_sub (by omega), Nat.cast_sub (by omega)]; simp
    have hf : ⌊(N : ℝ) - h⌋₊ = N - 1 - i := by
      rw [Nat.floor_eq_iff (by linarith), hc]
      constructor <;> linarith
    have m1 : min (i + 1) N = i + 1 := min_eq_left hiN'
    have m2 : min (N - 1 - i + 1) N = N - i := by omega
    rw [hf, m1, m2, hc, getD_reverse s i (by omega), getD_reverse s (i + 1) (by omega), hN]
    have a1 : N + 1 - 1 - i = N - i := by omega
    have a2 : N + 1 - 1 - (i + 1) = N - 1 - i := by omega
    rw [a1, a2]
    ring

theorem quantile_congr {l l' : List ℝ} (h : l.Perm l') (q : ℝ) : quantileLin l q = quantileLin l' q := by
  unfold quantileLin
  rw [sortR_congr h, h.length_eq]
  by_cases hl : l = []
  · subst hl; rw [List.nil_perm.1 h]
  · rw [if_neg hl, if_neg (fun e => hl (by rw [e] at h; exact List.perm_nil.1 h))]

theorem median_congr {l l' : List ℝ} (h : l.Perm l') : median l = median l' := by
  unfold median
  rw [sortR_congr h, h.length_eq]
  by_cases hl : l = []
  · subst hl; rw [List.nil_perm.1 h]
  · have hl' : l' ≠ [] := fun e => hl (by rw [e] at h; exact List.perm_nil.1 h)
    simp only [if_neg hl, if_neg hl']

theorem variance_congr {l l' : List ℝ} (h : l.Perm l') : variance l = variance l' := by
  have hm : mean l = mean l' := by unfold mean; rw [h.sum_eq, h.length_eq]
  unfold variance
  rw [hm]
  unfold mean
  rw [(h.map _).sum_eq, List.length_map, List.length_map, h.length_eq]

theorem quantile_mul_pos {f : ℝ} (hf : 0 < f) (l : List ℝ) (q : ℝ) :
    quantileLin (l.map fun x => f * x) q = (quantileLin l q).map fun x => f * x := by
  unfold quantileLin
  by_cases hl : l = []
  · subst hl; simp
  · rw [if_neg (by simpa using hl), if_neg hl, sortR_mul_pos hf, lerpAt_mul, List.length_map]
    rfl

theorem quantile_mul_neg {f : ℝ} (hf : f < 0) (l : List ℝ) (q : ℝ) (h0 : 0 ≤ q) (h1 : q ≤ 1) :
    quantileLin (l.map fun x => f * x) q = (quantileLin l (1 - q)).map fun x => f * x := by
  unfold quantileLin
  by_cases hl : l = []
  · subst hl; simp
  · have hs : (sortR l).map (fun x => f * x) ≠ [] := by
      intro h
      have := congrArg List.length h
      rw [List.length_map, sortR_length] at this
      exact hl (List.length_eq_zero_iff.1 this)
    have := lerpAt_reverse _ hs q h0 h1
    rw [List.length_map, sortR_length] at this
    rw [if_neg (by simpa using hl), if_neg hl, sortR_mul_neg hf, List.length_map, this, lerpAt_mul]
    rfl

theorem median_mul {f : ℝ} (hf : f ≠ 0) (l : List ℝ) : median (l.map fun x => f * x) = (median l).map fun x => f * x := by
  unfold median
  by_cases hl : l = []
  · subst hl; simp
  · have hpos : 0 < l.length := List.length_pos_iff.2 hl
    rw [if_neg (by simpa using hl), if_neg hl]
    simp only [List.length_map]
    rcases lt_or_gt_of_ne hf with h | h
    · rw [sortR_mul_neg h]
      have hlen : ((sortR l).map fun x => f * x).length = l.length := by rw [List.length_map, sortR_length]
      rw [getD_reverse _ _ (by rw [hlen]; omega), getD_reverse _ _ (by rw [hlen]; omega), hlen, getD_map_mul, getD_map_mul]
      by_cases ho : l.length % 2 = 1
      · have e : l.length - 1 - l.length / 2 = l.length / 2 := by omega
        rw [if_pos ho, if_pos ho, e]; rfl
      · have e : l.length - 1 - l.length / 2 = l.length / 2 - 1 := by omega
        have e' : l.length - 1 - (l.length / 2 - 1) = l.length / 2 := by omega
        rw [if_neg ho, if_neg ho, e, e']
        simp only [Option.map_some]
        congr 1
        ring
    · rw [sortR_mul_pos h, getD_map_mul, getD_map_mul]
      split_ifs
      · rfl
      · simp only [Option.map_some]
        congr 1
        ring

/-! ## The scatter of the projected velocities -/

theorem mean_lin (l : List (ℝ × Vec)) (u v : ℝ × Vec → ℝ) (a b : ℝ) :
    mean (l.map fun p => a * u p + b * v p) = a * mean (l.map u) + b * mean (l.map v) := by
  unfold mean
  rw [List.sum_map_add, List.sum_map_mul_left, List.sum_map_mul_left, List.length_map, List.length_map, List.length_map]
  ring

/-- The variance of the projected velocities is a trigonometric polynomial in twice the angle. -/
theorem variance_speed (l : List (ℝ × Vec)) : ∃ P Q S : ℝ, ∀ θ, variance (l.map fun p => apparentSpeed p θ) = P + Q * Real.cos (2 * θ) + S * Real.sin (2 * θ) := by
  set A : ℝ × Vec → ℝ := fun p => p.2.1 / p.1 with hA
  set B : ℝ × Vec → ℝ := fun p => p.2.2 / p.1 with hB
  set mA := mean (l.map A) with hmA
  set mB := mean (l.map B) with hmB
  set VA := mean (l.map fun p => (A p - mA) ^ 2) with hVA
  set VB := mean (l.map fun p => (B p - mB) ^ 2) with hVB
  set C := mean (l.map fun p => (A p - mA) * (B p - mB)) with hC
  refine ⟨(VA + VB) / 2, (VA - VB) / 2, C, fun θ => ?_⟩
  have e0 : (l.map fun p => apparentSpeed p θ) = l.map fun p => Real.cos θ * A p + Real.sin θ * B p := by
    apply List.map_congr_left
    intro p _
    simp only [apparentSpeed, hA, hB]
    ring
  unfold variance
  rw [e0, mean_lin, List.map_map]
  have e1 : (l.map ((fun x => (x - (Real.cos θ * mean (l.map A) + Real.sin θ * mean (l.map B))) ^ 2) ∘ fun p => Real.cos θ * A p + Real.sin θ * B p)) =
      l.map fun p => 1 * (Real.cos θ ^ 2 * (A p - mA) ^ 2 + (2 * Real.cos θ * Real.sin θ) * ((A p - mA) * (B p - mB))) + Real.sin θ ^ 2 * (B p - mB) ^ 2 := by
    apply List.map_congr_left
    intro p _
    simp only [Function.comp, ← hmA, ← hmB]
    ring
  rw [e1, mean_lin l (fun p => Real.cos θ ^ 2 * (A p - mA) ^ 2 + (2 * Real.cos θ * Real.sin θ) * ((A p - mA) * (B p - mB))) (fun p => (B p - mB) ^ 2),
    mean_lin l (fun p => (A p - mA) ^ 2) (fun p => (A p - mA) * (B p - mB)), ← hVA, ← hVB, ← hC]
  have h1 := Real.cos_sq θ
  have h2 := Real.sin_sq θ
  have h3 := Real.sin_two_mul θ
  rw [h3, h2, h1]
  ring

theorem trig_localMin {P Q S x : ℝ} (h : IsLocalMin (fun θ => P + Q * Real.cos (2 * θ) + S * Real.sin (2 * θ)) x) :
    S * Real.cos (2 * x) = Q * Real.sin (2 * x) ∧ Q * Real.cos (2 * x) + S * Real.sin (2 * x) ≤ 0 := by
  have hd : HasDerivAt (fun θ => P + Q * Real.cos (2 * θ) + S * Real.sin (2 * θ)) (2 * (S * Real.cos (2 * x) - Q * Real.sin (2 * x))) x := by
    have hl : HasDerivAt (fun θ : ℝ => 2 * θ) 2 x := by simpa using (hasDerivAt_id x).const_mul 2
    have h1 : HasDerivAt (fun θ => Real.cos (2 * θ)) (-Real.sin (2 * x) * 2) x := (Real.hasDerivAt_cos (2 * x)).comp x hl
    have h2 : HasDerivAt (fun θ => Real.sin (2 * θ)) (Real.cos (2 * x) * 2) x := (Real.hasDerivAt_sin (2 * x)).comp x hl
    have := ((h1.const_mul Q).const_add P).add (h2.const_mul S)
    refine this.congr_deriv ?_
    ring
  have hz := h.hasDerivAt_eq_zero hd
  have hz' : S * Real.cos (2 * x) = Q * Real.sin (2 * x) := by linarith
  refine ⟨hz', ?_⟩
  by_contra hpos
  push Not at hpos
  obtain ⟨δ, hδ, hmin⟩ := Metric.eventually_nhds_iff.1 h
  set ε := min (δ / 2) 1 with hε
  have hε0 : 0 < ε := by rw [hε]; positivity
  have hε1 : ε ≤ 1 := min_le_right _ _
  have := hmin (y := x + ε) (by
    rw [Real.dist_eq]; simp [abs_of_pos hε0]
    calc ε ≤ δ / 2 := min_le_left _ _
      _ < δ := by linarith)
  simp only at this
  have e : 2 * (x + ε) = 2 * x + 2 * ε := by ring
  rw [e, Real.cos_add, Real.sin_add] at this
  have hsin : 0 < Real.sin ε := Real.sin_pos_of_pos_of_lt_pi hε0 (by linarith [Real.two_le_pi])
  have hc2 : Real.cos (2 * ε) < 1 := by
    rw [Real.cos_two_mul]
    nlinarith [Real.sin_sq_add_cos_sq ε, sq_pos_of_pos hsin]
  have k1 := mul_pos hpos (sub_pos.2 hc2)
  have k2 : Q * (Real.cos (2 * x) * Real.cos (2 * ε) - Real.sin (2 * x) * Real.sin (2 * ε)) +
      S * (Real.sin (2 * x) * Real.cos (2 * ε) + Real.cos (2 * x) * Real.sin (2 * ε)) =
      (Q * Real.cos (2 * x) + S * Real.sin (2 * x)) * Real.cos (2 * ε) := by linear_combination Real.sin (2 * ε) * hz'
  linarith

theorem trig_localMin_unique {P Q S x y : ℝ} (hne : Q ≠ 0 ∨ S ≠ 0)
    (hx : S * Real.cos (2 * x) = Q * Real.sin (2 * x) ∧ Q * Real.cos (2 * x) + S * Real.sin (2 * x) ≤ 0)
    (hy : S * Real.cos (2 * y) = Q * Real.sin (2 * y) ∧ Q * Real.cos (2 * y) + S * Real.sin (2 * y) ≤ 0) : Real.sin (x - y) = 0 := by
  have hρ : 0 < Q ^ 2 + S ^ 2 := by
    rcases hne with h | h
    · have := sq_pos_of_ne_zero h
      nlinarith [sq_nonneg S]
    · have := sq_pos_of_ne_zero h
      nlinarith [sq_nonneg Q]
  set W := Q * Real.cos (2 * x) + S * Real.sin (2 * x) with hW
  set W' := Q * Real.cos (2 * y) + S * Real.sin (2 * y) with hW'
  have tx := Real.sin_sq_add_cos_sq (2 * x)
  have ty := Real.sin_sq_add_cos_sq (2 * y)
  have q1 : Q = W * Real.cos (2 * x) := by rw [hW]; linear_combination -Q * tx - Real.sin (2 * x) * hx.1
  have s1 : S = W * Real.sin (2 * x) := by rw [hW]; linear_combination -S * tx + Real.cos (2 * x) * hx.1
  have q2 : Q = W' * Real.cos (2 * y) := by rw [hW']; linear_combination -Q * ty - Real.sin (2 * y) * hy.1
  have s2 : S = W' * Real.sin (2 * y) := by rw [hW']; linear_combination -S * ty + Real.cos (2 * y) * hy.1
  have w1 : W ^ 2 = Q ^ 2 + S ^ 2 := by
    conv_rhs => rw [q1, s1]
    linear_combination -W ^ 2 * tx
  have w2 : W' ^ 2 = Q ^ 2 + S ^ 2 := by
    conv_rhs => rw [q2, s2]
    linear_combination -W' ^ 2 * ty
  have hWW : W = W' := by
    have h1 : (W - W') * (W + W') = 0 := by linear_combination w1 - w2
    rcases mul_eq_zero.1 h1 with h | h
    · linarith
    · have a1 : W = 0 := by linarith [hx.2, hy.2]
      have a2 : W' = 0 := by linarith [hx.2, hy.2]
      rw [a1, a2]
  have hW0 : W ≠ 0 := by
    intro h
    rw [h] at w1
    nlinarith
  have c : Real.cos (2 * x) = Real.cos (2 * y) := mul_left_cancel₀ hW0 (by rw [← q1, q2, hWW])
  have s : Real.sin (2 * x) = Real.sin (2 * y) := mul_left_cancel₀ hW0 (by rw [← s1, s2, hWW])
  have : Real.cos (2 * (x - y)) = 1 := by
    have e : 2 * (x - y) = 2 * x - 2 * y := by ring
    rw [e, Real.cos_sub, c, s]
    linear_combination ty
  rw [Real.cos_two_mul] at this
  have := Real.sin_sq_add_cos_sq (x - y)
  exact pow_eq_zero_iff (two_ne_zero) |>.1 (by linarith)

theorem trig_hasMin (P Q S : ℝ) : ∃ x, IsLocalMin (fun θ => P + Q * Real.cos (2 * θ) + S * Real.sin (2 * θ)) x := by
  obtain ⟨h1, h2⟩ := polar_of_vec (V := (-Q, -S))
  set m := magnitude (-Q, -S)
  set φ := arctan2 (-S) (-Q)
  simp only at h1 h2
  have hm : 0 ≤ m := Real.sqrt_nonneg _
  refine ⟨φ / 2, Filter.Eventually.of_forall fun θ => ?_⟩
  have e : 2 * (φ / 2) = φ := by ring
  simp only [e]
  have q : Q = -(m * Real.cos φ) := by linarith
  have s : S = -(m * Real.sin φ) := by linarith
  have hc := Real.cos_le_one (2 * θ - φ)
  rw [Real.cos_sub] at hc
  have hsc := Real.sin_sq_add_cos_sq φ
  rw [q, s]
  nlinarith

/-! ## Jamaly's method -/

theorem div_abs_scale {f : ℝ} (hf : f ≠ 0) (a b : ℝ) : (XR.div (f * a) (f * b)).abs = (XR.div a b).abs := by
  unfold XR.div
  by_cases hb : b = 0
  · subst hb
    by_cases ha : a = 0
    · subst ha; simp
    · rw [mul_zero, if_pos rfl, if_pos rfl, if_neg (mul_ne_zero hf ha), if_neg ha]
      split_ifs <;> rfl
  · rw [if_neg hb, if_neg (mul_ne_zero hf hb), mul_div_mul_left _ _ hf]

theorem div_abs_neg (a b : ℝ) : (XR.div (-a) b).abs = (XR.div a b).abs := by
  unfold XR.div
  by_cases hb : b = 0
  · subst hb
    by_cases ha : a = 0
    · subst ha; simp
    · rw [if_pos rfl, if_pos rfl, if_neg (neg_ne_zero.2 ha), if_neg ha]
      split_ifs <;> rfl
  · rw [if_neg hb, if_neg hb, neg_div]
    simp [XR.abs]

/-- Quantiles and median of scaled data lead to the same trend flag. -/
theorem trend_scale {f : ℝ} (hf : f ≠ 0) (l l' : List ℝ) (h : l'.Perm (l.map fun x => f * x)) :
    trendErr (quantileLin l' 0.6) (quantileLin l' 0.4) (median l') ↔ trendErr (quantileLin l 0.6) (quantileLin l 0.4) (median l) := by
  rw [quantile_congr h, quantile_congr h, median_congr h, median_mul hf]
  by_cases hl : l = []
  · subst hl; simp [quantileLin, trendErr]
  · obtain ⟨q, hq⟩ : ∃ q, quantileLin l 0.6 = some q := by unfold quantileLin; rw [if_neg hl]; exact ⟨_, rfl⟩
    obtain ⟨r, hr⟩ : ∃ r, quantileLin l 0.4 = some r := by unfold quantileLin; rw [if_neg hl]; exact ⟨_, rfl⟩
    obtain ⟨m, hm⟩ : ∃ m, median l = some m := by
      unfold median; rw [if_neg hl]; simp only; split_ifs <;> exact ⟨_, rfl⟩
    rcases lt_or_gt_of_ne hf with h0 | h0
    · have e1 : (1 : ℝ) - 0.6 = 0.4 := by norm_num
      have e2 : (1 : ℝ) - 0.4 = 0.6 := by norm_num
      rw [quantile_mul_neg h0 l 0.6 (by norm_num) (by norm_num), quantile_mul_neg h0 l 0.4 (by norm_num) (by norm_num), e1, e2, hq, hr, hm]
      simp only [Option.map_some, trendErr, XR.divO]
      have : f * r - f * q = f * (-(q - r)) := by ring
      rw [this, div_abs_scale hf, div_abs_neg]
    · rw [quantile_mul_pos h0, quantile_mul_pos h0, hq, hr, hm]
      simp only [Option.map_some, trendErr, XR.divO]
      rw [← mul_sub, div_abs_scale hf]

/-- The list of good pairs as the methods see it. -/
def asGood (pairs : List (ℝ × Vec)) : List (Option ℝ × Vec) := pairs.map fun p => (some p.1, p.2)

theorem jamaly_eq (x : Ext) (pairs : List (ℝ × Vec)) (hne : pairs ≠ []) (h0 : ∀ p ∈ pairs, p.1 ≠ 0) (θ : ℝ)
    (hθ : x.minimizeScalar (fun t => some (variance (pairs.map fun p => apparentSpeed p t))) = θ) :
    (jamaly x (asGood pairs)).1 = median (pairs.map fun p => apparentSpeed p θ) ∧ (jamaly x (asGood pairs)).2.1 = some θ ∧
    ((jamaly x (asGood pairs)).2.2 = true ↔ trendErr (quantileLin (pairs.map fun p => apparentSpeed p θ) 0.6)
      (quantileLin (pairs.map fun p => apparentSpeed p θ) 0.4) (median (pairs.map fun p => apparentSpeed p θ))) := by
  have hv : ∀ t, velocities (asGood pairs) t = (pairs.map fun p => apparentSpeed p t).map some := fun t => velocities_eq pairs h0 t
  have hg : (fun t => nanvar (velocities (asGood pairs) t)) = fun t => some (variance (pairs.map fun p => apparentSpeed p t)) := by
    funext t
    unfold nanvar
    rw [hv, valid_map_some, if_neg (by simpa using hne)]
  have hval : ∀ t, valid (velocities (asGood pairs) t) = pairs.map fun p => apparentSpeed p t := fun t => by rw [hv, valid_map_some]
  have hθ' : (x.minimizeScalar fun t => nanvar (velocities (asGood pairs) t)) = θ := by rw [hg]; exact hθ
  refine ⟨?_, ?_, ?_⟩
  · unfold jamaly
    simp only [hθ', nanmedian, hval]
  · unfold jamaly
    simp only [hθ']
  · unfold jamaly
    refine (@decide_eq_true_iff _ (_)).trans ?_
    rw [hθ']
    unfold nanmedian nanquantile
    rw [hval]

/-- How the pairs of two systems of coordinates correspond. -/
def PairRel (c k α : ℝ) (p p' : ℝ × Vec) : Prop := ∃ ε : ℝ, (ε = 1 ∨ ε = -1) ∧ p'.1 = c * ε * p.1 ∧ p'.2 = turnVec (k * ε) α p.2

theorem PairRel.speed {c k α : ℝ} (hc : c ≠ 0) {p p' : ℝ × Vec} (h0 : p.1 ≠ 0) (h : PairRel c k α p p') (θ : ℝ) :
    apparentSpeed p' θ = k / c * apparentSpeed p (θ - α) := by
  obtain ⟨ε, he, h1, h2⟩ := h
  have he0 : ε ≠ 0 := by rcases he with rfl | rfl <;> norm_num
  unfold apparentSpeed
  rw [h1, h2]
  simp only [turnVec]
  rw [Real.cos_sub, Real.sin_sub]
  field_simp
  ring

theorem jamaly_turned (x x' : Ext) (hx : LocalMinimizer x.minimizeScalar) (hx' : LocalMinimizer x'.minimizeScalar) {c k α : ℝ} (hc : c ≠ 0) (hk : k ≠ 0)
    (pairs mid pairs' : List (ℝ × Vec)) (hne : pairs ≠ []) (h0 : ∀ p ∈ pairs, p.1 ≠ 0) (hrel : List.Forall₂ (PairRel c k α) pairs mid)
    (hperm : mid.Perm pairs') (hdir : Directional pairs) :
    ((jamaly x' (asGood pairs')).2.2 = (jamaly x (asGood pairs)).2.2) ∧
    ∃ v θ v' θ', (jamaly x (asGood pairs)).1 = some v ∧ (jamaly x (asGood pairs)).2.1 = some θ ∧
      (jamaly x' (asGood pairs')).1 = some v' ∧ (jamaly x' (asGood pairs')).2.1 = some θ' ∧
      (v' * Real.cos θ', v' * Real.sin θ') = turnVec (k / c) α (v * Real.cos θ, v * Real.sin θ) := by
  have hf : k / c ≠ 0 := div_ne_zero hk hc
  -- the pairs of the second system
  have hlen : mid.length = pairs.length := hrel.length_eq.symm
  have hne' : pairs' ≠ [] := by
    intro e
    rw [e] at hperm
    rw [List.perm_nil.1 hperm] at hlen
    exact hne (List.length_eq_zero_iff.1 hlen.symm)
  have hmem : ∀ p' ∈ pairs', p'.1 ≠ 0 := by
    intro p' hp'
    have : p' ∈ mid := hperm.mem_iff.2 hp'
    obtain ⟨i, hi, rfl⟩ := List.getElem_of_mem this
    obtain ⟨ε, he, h1, -⟩ := (List.forall₂_iff_get.1 hrel).2 i (by omega) hi
    simp only [List.get_eq_getElem] at h1
    rw [h1]
    have he0 : ε ≠ 0 := by rcases he with rfl | rfl <;> norm_num
    exact mul_ne_zero (mul_ne_zero hc he0) (h0 _ (List.getElem_mem _))
  have hsp : ∀ θ, (pairs'.map fun p => apparentSpeed p θ).Perm ((pairs.map fun p => apparentSpeed p (θ - α)).map fun v => k / c * v) := by
    intro θ
    refine (hperm.symm.map _).trans (List.Perm.of_eq ?_)
    have aux : ∀ {l m : List (ℝ × Vec)}, List.Forall₂ (PairRel c k α) l m → (∀ p ∈ l, p.1 ≠ 0) →
        (m.map fun p => apparentSpeed p θ) = (l.map fun p => apparentSpeed p (θ - α)).map fun v => k / c * v := by
      intro l m h
      induction h with
      | nil => intro _; rfl
      | cons hab _ ih =>
        intro hl
        simp only [List.map_cons]
        rw [ih fun p hp => hl p (List.mem_cons_of_mem _ hp), hab.speed hc (hl _ List.mem_cons_self)]
    exact aux hrel h0
  obtain ⟨P, Q, S, hg⟩ := variance_speed pairs
  have hQS : Q ≠ 0 ∨ S ≠ 0 := by
    by_contra h
    push Not at h
    obtain ⟨t, t', ht⟩ := hdir
    rw [hg, hg, h.1, h.2] at ht
    simp at ht
  have hvar' : ∀ θ, variance (pairs'.map fun p => apparentSpeed p θ) = (k / c) ^ 2 * variance (pairs.map fun p => apparentSpeed p (θ - α)) := by
    intro θ
    have := variance_affine 0 (k / c) (pairs.map fun p => apparentSpeed p (θ - α)) (by simpa using hne)
    simp only [zero_add] at this
    rw [variance_congr (hsp θ), this]
  -- the two minima
  set θ := x.minimizeScalar (fun t => some (variance (pairs.map fun p => apparentSpeed p t))) with hθ
  set θ' := x'.minimizeScalar (fun t => some (variance (pairs'.map fun p => apparentSpeed p t))) with hθ'
  have hG : (fun t => variance (pairs.map fun p => apparentSpeed p t)) = fun t => P + Q * Real.cos (2 * t) + S * Real.sin (2 * t) := funext hg
  have m1 : IsLocalMin (fun t => variance (pairs.map fun p => apparentSpeed p t)) θ := by
    apply hx
    rw [hG]
    exact trig_hasMin P Q S
  have hex' : ∃ y, IsLocalMin (fun t => variance (pairs'.map fun p => apparentSpeed p t)) y := by
    obtain ⟨y, hy⟩ := trig_hasMin P Q S
    refine ⟨y + α, ?_⟩
    have hsub : Filter.Tendsto (fun t : ℝ => t - α) (nhds (y + α)) (nhds y) := by
      have := (continuous_sub_right α).tendsto (y + α)
      simpa using this
    have := hsub.eventually hy
    filter_upwards [this] with t ht
    rw [hvar', hvar', add_sub_cancel_right, hg, hg]
    exact mul_le_mul_of_nonneg_left ht (sq_nonneg _)
  have m2 : IsLocalMin (fun t => variance (pairs'.map fun p => apparentSpeed p t)) θ' := hx' _ hex'
  have m3 : IsLocalMin (fun t => P + Q * Real.cos (2 * t) + S * Real.sin (2 * t)) (θ' - α) := by
    have hadd : Filter.Tendsto (fun t : ℝ => t + α) (nhds (θ' - α)) (nhds θ') := by
      have := (continuous_add_right α).tendsto (θ' - α)
      simpa using this
    have := hadd.eventually m2
    filter_upwards [this] with t ht
    rw [hvar', hvar', add_sub_cancel_right, hg, hg] at ht
    exact le_of_mul_le_mul_left ht (by positivity)
  rw [hG] at m1
  have hsin := trig_localMin_unique (P := P) hQS (trig_localMin m3) (trig_localMin m1)
  have hcos : Real.cos (θ' - α - θ) = 1 ∨ Real.cos (θ' - α - θ) = -1 := by
    have := Real.sin_sq_add_cos_sq (θ' - α - θ)
    rw [hsin] at this
    have h2 : (Real.cos (θ' - α - θ) - 1) * (Real.cos (θ' - α - θ) + 1) = 0 := by linarith
    rcases mul_eq_zero.1 h2 with h | h
    · left; linarith
    · right; linarith
  obtain ⟨σ, hσ, hcσ⟩ : ∃ σ : ℝ, (σ = 1 ∨ σ = -1) ∧ Real.cos (θ' - α - θ) = σ := ⟨_, hcos, rfl⟩
  have hσ0 : σ ≠ 0 := by rcases hσ with rfl | rfl <;> norm_num
  have hσ2 : σ * σ = 1 := by rcases hσ with rfl | rfl <;> norm_num
  have ec : Real.cos (θ' - α) = σ * Real.cos θ := by
    have : θ' - α = (θ' - α - θ) + θ := by ring
    rw [this, Real.cos_add, hsin, hcσ]; ring
  have es : Real.sin (θ' - α) = σ * Real.sin θ := by
    have : θ' - α = (θ' - α - θ) + θ := by ring
    rw [this, Real.sin_add, hsin, hcσ]; ring
  have hfin : (pairs'.map fun p => apparentSpeed p θ').Perm ((pairs.map fun p => apparentSpeed p θ).map fun v => (k / c * σ) * v) := by
    refine (hsp θ').trans (List.Perm.of_eq ?_)
    rw [List.map_map, List.map_map]
    apply List.map_congr_left
    intro p _
    simp only [Function.comp, apparentSpeed, ec, es]
    ring
  have hfσ : k / c * σ ≠ 0 := mul_ne_zero hf hσ0
  obtain ⟨a1, a2, a3⟩ := jamaly_eq x pairs hne h0 θ hθ.symm
  obtain ⟨b1, b2, b3⟩ := jamaly_eq x' pairs' hne' hmem θ' hθ'.symm
  refine ⟨?_, ?_⟩
  · rw [Bool.eq_iff_iff, a3, b3]
    exact trend_scale hfσ _ _ hfin
  · obtain ⟨v, hv⟩ : ∃ v, median (pairs.map fun p => apparentSpeed p θ) = some v := by
      unfold median
      rw [if_neg (by simpa using hne)]
      simp only
      split_ifs <;> exact ⟨_, rfl⟩
    rw [median_congr hfin, median_mul hfσ, hv] at b1
    rw [hv] at a1
    refine ⟨v, θ, k / c * σ * v, θ', a1, a2, b1, b2, ?_⟩
    have e : θ' = (θ' - α) + α := by ring
    rw [e, Real.cos_add, Real.sin_add, ec, es]
    simp only [turnVec]
    refine Prod.ext_iff.2 ⟨?_, ?_⟩
    · linear_combination (k / c * v * (Real.cos θ * Real.cos α - Real.sin θ * Real.sin α)) * hσ2
    · linear_combination (k / c * v * (Real.sin θ * Real.cos α + Real.cos θ * Real.sin α)) * hσ2

/-! ## Gagne's method -/

theorem sqResid_nonneg (pairs : List (ℝ × Vec)) (a : Vec) : 0 ≤ sqResid pairs a := by
  unfold sqResid
  apply List.sum_nonneg
  intro x hx
  obtain ⟨p, -, rfl⟩ := List.mem_map.1 hx
  positivity

theorem sqResid_congr {l l' : List (ℝ × Vec)} (h : l.Perm l') (a : Vec) : sqResid l a = sqResid l' a := (h.map _).sum_eq

theorem sqResid_mid (pairs : List (ℝ × Vec)) (a b : Vec) :
    sqResid pairs ((a.1 + b.1) / 2, (a.2 + b.2) / 2) =
      (sqResid pairs a + sqResid pairs b) / 2 - (pairs.map fun p => (p.2.1 * (a.1 - b.1) + p.2.2 * (a.2 - b.2)) ^ 2).sum / 4 := by
  unfold sqResid
  induction pairs with
  | nil => simp
  | cons p l ih =>
    simp only [List.map_cons, List.sum_cons] at ih ⊢
    rw [ih]
    ring

/-- Least squares solutions are unique if the vectors span the plane. -/
theorem lsq_unique' (pairs : List (ℝ × Vec)) (a b : Vec) (hs : ∃ p ∈ pairs, ∃ q ∈ pairs, Independent p.2 q.2)
    (ha : ∀ c, sqResid pairs a ≤ sqResid pairs c) (hb : ∀ c, sqResid pairs b ≤ sqResid pairs c) : a = b := by
  have h1 := ha ((a.1 + b.1) / 2, (a.2 + b.2) / 2)
  rw [sqResid_mid] at h1
  have h2 := hb a
  have hall : ∀ w ∈ pairs.map fun p => (p.2.1 * (a.1 - b.1) + p.2.2 * (a.2 - b.2)) ^ 2, 0 ≤ w := by
    intro w hw
    obtain ⟨y, _, rfl⟩ := List.mem_map.1 hw
    positivity
  have h3 : (pairs.map fun p => (p.2.1 * (a.1 - b.1) + p.2.2 * (a.2 - b.2)) ^ 2).sum = 0 :=
    le_antisymm (by linarith [ha b]) (List.sum_nonneg hall)
  have hz : ∀ p ∈ pairs, p.2.1 * (a.1 - b.1) + p.2.2 * (a.2 - b.2) = 0 := by
    intro p hp
    exact sq_eq_zero_iff.1 (sum_zero_mem hall h3 (List.mem_map.2 ⟨p, hp, rfl⟩))
  obtain ⟨p, hp, q, hq, hpq⟩ := hs
  have z1 := hz p hp
  have z2 := hz q hq
  unfold Independent at hpq
  have e1 : (p.2.1 * q.2.2 - p.2.2 * q.2.1) * (a.1 - b.1) = 0 := by linear_combination q.2.2 * z1 - p.2.2 * z2
  have e2 : (p.2.1 * q.2.2 - p.2.2 * q.2.1) * (a.2 - b.2) = 0 := by linear_combination p.2.1 * z2 - q.2.1 * z1
  apply Prod.ext
  · have := (mul_eq_zero.1 e1).resolve_left hpq; linarith
  · have := (mul_eq_zero.1 e2).resolve_left hpq; linarith

theorem sqResid_turned {c k α : ℝ} (hc : c ≠ 0) {pairs mid : List (ℝ × Vec)} (hrel : List.Forall₂ (PairRel c k α) pairs mid) (a : Vec) :
    sqResid mid a = c ^ 2 * sqResid pairs (turnVec (k / c) (-α) a) := by
  unfold sqResid
  induction hrel with
  | nil => simp
  | cons hab _ ih =>
    obtain ⟨ε, he, h1, h2⟩ := hab
    have hε : ε ^ 2 = 1 := by rcases he with rfl | rfl <;> norm_num
    simp only [List.map_cons, List.sum_cons]
    rw [ih, h1, h2]
    simp only [turnVec, Real.cos_neg, Real.sin_neg]
    rename_i p p' l m _
    refine Eq.trans ?_ (mul_add _ _ _).symm
    congr 1
    have hck : c * (k / c) = k := by field_simp
    have : c * ε * p.1 - (k * ε * (Real.cos α * p.2.1 - Real.sin α * p.2.2) * a.1 + k * ε * (Real.sin α * p.2.1 + Real.cos α * p.2.2) * a.2) =
        ε * (c * (p.1 - (p.2.1 * (k / c * (Real.cos α * a.1 - -Real.sin α * a.2)) + p.2.2 * (k / c * (-Real.sin α * a.1 + Real.cos α * a.2))))) := by
      linear_combination (-ε * ((Real.cos α * p.2.1 - Real.sin α * p.2.2) * a.1 + (Real.sin α * p.2.1 + Real.cos α * p.2.2) * a.2)) * (-hck)
    rw [this, mul_pow, hε, mul_pow, one_mul]

theorem turn_inv {k : ℝ} (hk : k ≠ 0) (α : ℝ) (a : Vec) : turnVec k (-α) (turnVec (1 / k) α a) = a := by
  have h := Real.sin_sq_add_cos_sq α
  simp only [turnVec, Real.cos_neg, Real.sin_neg]
  refine Prod.ext_iff.2 ⟨?_, ?_⟩
  · field_simp
    linear_combination a.1 * h
  · field_simp
    linear_combination a.2 * h

theorem turn_inv' {k : ℝ} (hk : k ≠ 0) (α : ℝ) (a : Vec) : turnVec (1 / k) α (turnVec k (-α) a) = a := by
  have h := Real.sin_sq_add_cos_sq α
  simp only [turnVec, Real.cos_neg, Real.sin_neg]
  refine Prod.ext_iff.2 ⟨?_, ?_⟩
  · field_simp
    linear_combination a.1 * h
  · field_simp
    linear_combination a.2 * h

theorem gagne_turned (x x' : Ext) (hx : ExactLsq x.leastsq) (hx' : ExactLsq x'.leastsq) {c k α : ℝ} (hc : c ≠ 0) (hk : k ≠ 0)
    (pairs mid pairs' : List (ℝ × Vec)) (hrel : List.Forall₂ (PairRel c k α) pairs mid)
    (hperm : mid.Perm pairs') (hs : ∃ p ∈ pairs, ∃ q ∈ pairs, Independent p.2 q.2) :
    (gagne x (asGood pairs) = (none, none) ∧ gagne x' (asGood pairs') = (none, none)) ∨
    ∃ V V' : Vec, V' = turnVec (k / c) α V ∧ gagne x (asGood pairs) = (some (magnitude V), some (arctan2 V.2 V.1)) ∧
      gagne x' (asGood pairs') = (some (magnitude V'), some (arctan2 V'.2 V'.1)) := by
  have hf : k / c ≠ 0 := div_ne_zero hk hc
  set a := x.leastsq (asGood pairs) with ha
  set a' := x'.leastsq (asGood pairs') with ha'
  have hmin : ∀ b, sqResid pairs a ≤ sqResid pairs b := fun b => hx pairs b
  have hmin' : ∀ b, sqResid pairs' a' ≤ sqResid pairs' b := fun b => hx' pairs' b
  have e : turnVec (k / c) (-α) a' = a := by
    apply lsq_unique' pairs _ _ hs _ hmin
    intro b
    have := hmin' (turnVec (1 / (k / c)) α b)
    rw [← sqResid_congr hperm, ← sqResid_congr hperm, sqResid_turned hc hrel, sqResid_turned hc hrel, turn_inv hf] at this
    exact le_of_mul_le_mul_left this (by positivity)
  have e' : a' = turnVec (1 / (k / c)) α a := by rw [← e, turn_inv' hf]
  have hN : a'.1 ^ 2 + a'.2 ^ 2 = (1 / (k / c)) ^ 2 * (a.1 ^ 2 + a.2 ^ 2) := by
    have h := Real.sin_sq_add_cos_sq α
    rw [e']
    simp only [turnVec]
    linear_combination (1 / (k / c)) ^ 2 * (a.1 ^ 2 + a.2 ^ 2) * h
  unfold gagne
  simp only [← ha, ← ha']
  by_cases h0 : a.1 ^ 2 + a.2 ^ 2 = 0
  · left
    rw [if_pos h0, if_pos (by rw [hN, h0, mul_zero])]
    exact ⟨rfl, rfl⟩
  · right
    have h0' : a'.1 ^ 2 + a'.2 ^ 2 ≠ 0 := by
      rw [hN]
      exact mul_ne_zero (pow_ne_zero 2 (one_div_ne_zero hf)) h0
    rw [if_neg h0, if_neg h0']
    refine ⟨(1 / (a.1 ^ 2 + a.2 ^ 2) * a.1, 1 / (a.1 ^ 2 + a.2 ^ 2) * a.2), (1 / (a'.1 ^ 2 + a'.2 ^ 2) * a'.1, 1 / (a'.1 ^ 2 + a'.2 ^ 2) * a'.2), ?_, rfl, rfl⟩
    rw [hN, e']
    simp only [turnVec]
    refine Prod.ext_iff.2 ⟨?_, ?_⟩ <;> simp only <;> field_simp

/-! ## Flags -/

theorem lastFailing_unique {l : List (Flag × Prop)} {f g : Flag} (hf : IsLastFailing l f) (hg : IsLastFailing l g) : f = g := by
  rcases hf with ⟨rfl, hf⟩ | ⟨l1, c, l2, e1, hc, rfl, h2⟩
  · rcases hg with ⟨rfl, -⟩ | ⟨l1, c, l2, e1, hc, rfl, h2⟩
    · rfl
    · exact absurd hc (hf c (by rw [e1]; simp))
  · rcases hg with ⟨rfl, hg⟩ | ⟨m1, d, m2, e2, hd, rfl, h3⟩
    · exact absurd hc (hg c (by rw [e1]; simp))
    · rw [e1] at e2
      rcases List.append_eq_append_iff.1 e2 with ⟨k, ek, e⟩ | ⟨k, ek, e⟩
      · cases k with
        | nil => simp at e; rw [e.1]
        | cons y k =>
          simp only [List.cons_append, List.cons.injEq] at e
          exact absurd hd (h2 d (by rw [e.2]; simp))
      · cases k with
        | nil => simp at e; rw [e.1]
        | cons y k =>
          simp only [List.cons_append, List.cons.injEq] at e
          exact absurd hc (h3 c (by rw [e.2]; simp))

theorem magnitude_turn (k α : ℝ) (v : Vec) : magnitude (turnVec k α v) = |k| * magnitude v := by
  unfold magnitude turnVec
  have h := Real.sin_sq_add_cos_sq α
  have e : (k * (Real.cos α * v.1 - Real.sin α * v.2)) ^ 2 + (k * (Real.sin α * v.1 + Real.cos α * v.2)) ^ 2 = k ^ 2 * (v.1 ^ 2 + v.2 ^ 2) := by
    linear_combination k ^ 2 * (v.1 ^ 2 + v.2 ^ 2) * h
  simp only
  rw [e, Real.sqrt_mul (sq_nonneg _), Real.sqrt_sq_eq_abs]

variable {ι κ : Type} [DecidableEq ι] [DecidableEq κ]

/-- Corresponding pairs of two systems of coordinates; the second pair may name its sites in the opposite order. -/
structure StatRel (c k α : ℝ) (p : PairStat ι) (p' : PairStat κ) : Prop where
  same : p'.a = p'.b ↔ p.a = p.b
  std : ∀ t, (StdBelow p'.sigA t ∨ StdBelow p'.sigB t) ↔ (StdBelow p.sigA t ∨ StdBelow p.sigB t)
  max : ∀ t, (MaxBelow p'.sigA t ∨ MaxBelow p'.sigB t) ↔ (MaxBelow p.sigA t ∨ MaxBelow p.sigB t)
  var : ∀ t, (LowVariation p'.sigA t ∨ LowVariation p'.sigB t) ↔ (LowVariation p.sigA t ∨ LowVariation p.sigB t)
  peak : p'.peak = p.peak
  mean : p'.meanCorr = p.meanCorr
  lag : p'.delay.map (fun t => |t|) = p.delay.map (fun t => |c| * |t|)
  dist : magnitude p'.vec = |k| * magnitude p.vec
  moved : p.peak ≠ none → ∃ ε : ℝ, (ε = 1 ∨ ε = -1) ∧ p'.delay = p.delay.map (fun t => c * ε * t) ∧ p'.vec = turnVec (k * ε) α p.vec

/-- The limits of the velocity are converted along. -/
def OptsRel (f : ℝ) (o o' : Dict) : Prop :=
  opt o' "ktlim" = opt o "ktlim" ∧ opt o' "var_s_lim" = opt o "var_s_lim" ∧ opt o' "mincorr" = opt o "mincorr" ∧
  opt o' "minvelocity" = |f| * opt o "minvelocity" ∧ opt o' "maxvelocity" = |f| * opt o "maxvelocity"

theorem velocityInside_scale {c k : ℝ} (hc : c ≠ 0) (hk : k ≠ 0) {m m' : ℝ} {d d' : Option ℝ} (hm : m' = |k| * m)
    (hd : d'.map (fun t => |t|) = d.map (fun t => |c| * |t|)) (lo hi : ℝ) :
    VelocityInside m' d' (|k / c| * lo) (|k / c| * hi) ↔ VelocityInside m d lo hi := by
  have hf : 0 < |k / c| := abs_pos.2 (div_ne_zero hk hc)
  cases d with
  | none => cases d' <;> simp_all [VelocityInside]
  | some t =>
    cases d' with
    | none => simp at hd
    | some t' =>
      simp only [Option.map_some, Option.some.injEq] at hd
      have e : m' / |t'| = |k / c| * (m / |t|) := by rw [hm, hd, abs_div, div_mul_div_comm]
      have hz : t' ≠ 0 ↔ t ≠ 0 := by rw [← abs_ne_zero, hd, mul_ne_zero_iff, abs_ne_zero, abs_ne_zero]; simp [hc]
      simp only [VelocityInside, Option.some.injEq, exists_eq_left', e, hz, mul_lt_mul_iff_right₀ hf]

theorem flag_turned {c k α : ℝ} (hc : c ≠ 0) (hk : k ≠ 0) {method : String} {o o' : Dict} (ho : opt o' "ktlim" = opt o "ktlim")
    (hj : method = "jamaly" → OptsRel (k / c) o o') {p : PairStat ι} {p' : PairStat κ} (h : StatRel c k α p p') :
    pairFlag method o' p' = pairFlag method o p := by
  have hlag : p'.delay = some 0 ↔ p.delay = some 0 := by
    have hl := h.lag
    cases hd : p.delay <;> cases hd' : p'.delay <;> rw [hd, hd'] at hl <;> simp at hl
    · rename_i t t'
      simp only [Option.some.injEq]
      rw [← abs_eq_zero, hl, mul_eq_zero, abs_eq_zero, abs_eq_zero]
      simp [hc]
  have hchecks : checks method o' p' = checks method o p := by
    unfold checks
    rw [propext h.same, propext (h.std _), propext hlag, h.peak, h.mean, ho, propext (h.max _)]
    congr 1
    by_cases hm : method = "jamaly"
    · obtain ⟨-, o2, o3, o4, o5⟩ := hj hm
      rw [if_pos hm, if_pos hm, o2, o3, o4, o5, propext (h.var _), propext (velocityInside_scale hc hk h.dist h.lag _ _)]
    · rw [if_neg hm, if_neg hm]
  have h1 := pairFlag_last method o p
  have h2 := pairFlag_last method o' p'
  rw [hchecks] at h2
  exact lastFailing_unique h2 h1

/-- Corresponding rows: same flag. -/
def RowRel (R : PairStat ι → PairStat κ → Prop) (r : PairStat ι × Flag) (r' : PairStat κ × Flag) : Prop := R r.1 r'.1 ∧ r'.2 = r.2

theorem reaches_congr (t : ℝ) {p : PairStat ι} {p' : PairStat κ} (h : p'.peak = p.peak) : reaches t p' = reaches t p := by
  unfold reaches
  rw [h]

theorem countGood_congr {R : PairStat ι → PairStat κ → Prop} (hR : ∀ p p', R p p' → p'.peak = p.peak) {t : ℝ} {rows : List (PairStat ι × Flag)} {mid rows' : List (PairStat κ × Flag)} (h : List.Forall₂ (RowRel R) rows mid)
    (hp : mid.Perm rows') : countGood t rows' = countGood t rows := by
  unfold countGood
  rw [← hp.countP_eq]
  clear hp
  induction h with
  | nil => rfl
  | cons hab _ ih =>
    rw [List.countP_cons, List.countP_cons, ih]
    obtain ⟨h1, h2⟩ := hab
    rw [h2, reaches_congr t (hR _ _ h1)]

theorem select_turned {R : PairStat ι → PairStat κ → Prop} (hR : ∀ p p', R p p' → p'.peak = p.peak) {rows : List (PairStat ι × Flag)} {mid rows' : List (PairStat κ × Flag)} (h : List.Forall₂ (RowRel R) rows mid)
    (hp : mid.Perm rows') :
    (gagneSelect rows').1 = (gagneSelect rows).1 ∧
    ∃ mid', List.Forall₂ (RowRel R) (gagneSelect rows).2 mid' ∧ mid'.Perm (gagneSelect rows').2 := by
  have hcnt : ∀ t, countGood t rows' = countGood t rows := fun t => countGood_congr hR h hp
  unfold gagneSelect
  simp only [hcnt]
  refine ⟨trivial, ?_⟩
  generalize (if countGood (if countGood 0.99 rows < 12 then (0.95 : ℝ) else 0.99) rows < 12 then (0.9 : ℝ) else
    if countGood 0.99 rows < 12 then 0.95 else 0.99) = t
  refine ⟨mid.map fun r => (r.1, if reaches t r.1 then r.2 else .lowcorr), ?_, hp.map _⟩
  rw [List.forall₂_map_left_iff, List.forall₂_map_right_iff]
  refine h.imp ?_
  rintro r r' ⟨h1, h2⟩
  refine ⟨h1, ?_⟩
  simp only [h2, reaches_congr t (hR _ _ h1)]

theorem good_turned {c k α : ℝ} {R : PairStat ι → PairStat κ → Prop} (hR : ∀ p p', R p p' → StatRel c k α p p') {rows : List (PairStat ι × Flag)} {mid rows' : List (PairStat κ × Flag)} (h : List.Forall₂ (RowRel R) rows mid)
    (hp : mid.Perm rows') (hfin : ∀ r ∈ rows, r.2 = .good → r.1.peak ≠ none ∧ r.1.delay ≠ none) :
    ∃ pairs midp pairs', goodPairs rows = asGood pairs ∧ goodPairs rows' = asGood pairs' ∧ List.Forall₂ (PairRel c k α) pairs midp ∧ midp.Perm pairs' := by
  have aux : ∃ pairs midp, goodPairs rows = asGood pairs ∧ goodPairs mid = asGood midp ∧ List.Forall₂ (PairRel c k α) pairs midp := by
    clear hp
    induction h with
    | nil => exact ⟨[], [], rfl, rfl, .nil⟩
    | @cons r r' l l' hab _ ih =>
      obtain ⟨pairs, midp, e1, e2, e3⟩ := ih fun r hr => hfin r (List.mem_cons_of_mem _ hr)
      obtain ⟨h1, h2⟩ := hab
      unfold goodPairs at e1 e2 ⊢
      by_cases hg : r.2 = .good
      · obtain ⟨t, ht⟩ := Option.ne_none_iff_exists'.1 (hfin r List.mem_cons_self hg).2
        obtain ⟨ε, he, hd, hv⟩ := (hR _ _ h1).moved (hfin r List.mem_cons_self hg).1
        refine ⟨(t, r.1.vec) :: pairs, (c * ε * t, r'.1.vec) :: midp, ?_, ?_, .cons ⟨ε, he, rfl, hv⟩ e3⟩
        · rw [List.filter_cons_of_pos (by simpa using hg), List.map_cons, e1, ht]; rfl
        · rw [List.filter_cons_of_pos (by simpa [h2] using hg), List.map_cons, e2, hd, ht]; rfl
      · refine ⟨pairs, midp, ?_, ?_, e3⟩
        · rw [List.filter_cons_of_neg (by simpa using hg), e1]
        · rw [List.filter_cons_of_neg (by simpa [h2] using hg), e2]
  obtain ⟨pairs, midp, e1, e2, e3⟩ := aux
  have hpg : (goodPairs mid).Perm (goodPairs rows') := by
    unfold goodPairs
    exact (hp.filter _).map _
  rw [e2] at hpg
  -- the delays of `rows'` are finite too
  have hall : ∀ q ∈ goodPairs rows', ∃ t v, q = (some t, v) := by
    intro q hq
    obtain ⟨p, -, rfl⟩ := List.mem_map.1 (hpg.mem_iff.2 hq)
    exact ⟨_, _, rfl⟩
  let g : Option ℝ × Vec → ℝ × Vec := fun q => (q.1.getD 0, q.2)
  have hgg : ∀ l : List (Option ℝ × Vec), (∀ q ∈ l, ∃ t v, q = (some t, v)) → l = asGood (l.map g) := by
    intro l hl
    unfold asGood
    rw [List.map_map]
    conv_lhs => rw [← List.map_id l]
    apply List.map_congr_left
    intro q hq
    obtain ⟨t, v, rfl⟩ := hl q hq
    rfl
  refine ⟨pairs, midp, (goodPairs rows').map g, e1, hgg _ hall, e3, ?_⟩
  have := hpg.map g
  have e : (asGood midp).map g = midp := by
    unfold asGood
    rw [List.map_map]
    conv_rhs => rw [← List.map_id midp]
    apply List.map_congr_left
    intro q _
    rfl
  rwa [e] at this

/-! ## Speed and direction -/

theorem speed_turned {f α s t s' t' : ℝ} (hs : 0 ≤ s) (hs' : 0 ≤ s') (h : (s' * Real.cos t', s' * Real.sin t') = turnVec f α (s * Real.cos t, s * Real.sin t)) :
    s' = |f| * s := by
  obtain ⟨h1, h2⟩ := Prod.mk.inj h
  have a := Real.sin_sq_add_cos_sq α
  have b := Real.sin_sq_add_cos_sq t
  have b' := Real.sin_sq_add_cos_sq t'
  have e : s' ^ 2 = (|f| * s) ^ 2 := by
    rw [mul_pow, sq_abs]
    have l : s' ^ 2 = (s' * Real.cos t') ^ 2 + (s' * Real.sin t') ^ 2 := by linear_combination (-s' ^ 2) * b'
    rw [l, h1, h2]
    simp only
    linear_combination f ^ 2 * s ^ 2 * (Real.cos t ^ 2 + Real.sin t ^ 2) * a + f ^ 2 * s ^ 2 * b
  exact (pow_left_inj₀ hs' (by positivity) (by norm_num)).1 e

theorem normalise_turned {f α v θ v' θ' : ℝ} (h : (v' * Real.cos θ', v' * Real.sin θ') = turnVec f α (v * Real.cos θ, v * Real.sin θ)) :
    TurnedMotion f α (normalise (some v) (some θ)) (normalise (some v') (some θ')) := by
  obtain ⟨t, h1, -, -, h2⟩ := normalise_some v θ
  obtain ⟨t', h1', -, -, h2'⟩ := normalise_some v' θ'
  unfold pol2rect at h2 h2'
  have hh : (|v'| * Real.cos t', |v'| * Real.sin t') = turnVec f α (|v| * Real.cos t, |v| * Real.sin t) := by rw [h2', h, h2]
  exact .inr ⟨_, _, _, _, h1, h1', speed_turned (abs_nonneg _) (abs_nonneg _) hh, hh⟩

theorem goodPairs_moves {rows : List (PairStat ι × Flag)} (h : ∀ r ∈ rows, r.2 = .good → r.1.delay ≠ none) : goodPairs rows = asGood (goodMoves rows) := by
  unfold goodPairs goodMoves asGood
  induction rows with
  | nil => rfl
  | cons r l ih =>
    have ih := ih fun r hr => h r (List.mem_cons_of_mem _ hr)
    by_cases hg : r.2 = .good
    · obtain ⟨t, ht⟩ := Option.ne_none_iff_exists'.1 (h r List.mem_cons_self hg)
      rw [List.filter_cons_of_pos (by simpa using hg), List.map_cons, ih, List.filterMap_cons]
      simp [hg, ht]
    · rw [List.filter_cons_of_neg (by simpa using hg), ih, List.filterMap_cons]
      simp [hg]

theorem finish_turned (x x' : Ext) {c k α : ℝ} {R : PairStat ι → PairStat κ → Prop} (hR : ∀ p p', R p p' → StatRel c k α p p') (hc : c ≠ 0) (hk : k ≠ 0) {method : String} (hm : method = "jamaly" ∨ method = "gagne") {o o' : Dict}
    (ho : opt o' "ktlim" = opt o "ktlim") (hj : method = "jamaly" → OptsRel (k / c) o o')
    (stats : List (PairStat ι)) (mid stats' : List (PairStat κ)) (hrel : List.Forall₂ R stats mid) (hperm : mid.Perm stats')
    (hfin : ∀ p ∈ stats, p.peak ≠ none → p.delay ≠ none)
    (hxg : method = "gagne" → ExactLsq x'.leastsq) (hxj : method = "jamaly" → LocalMinimizer x'.minimizeScalar)
    (hdet : 2 ≤ (goodMoves (finish x method o stats).rows).length → Determined x method (goodMoves (finish x method o stats).rows)) :
    (finish x' method o' stats').flag = (finish x method o stats).flag ∧
    TurnedMotion (k / c) α ((finish x method o stats).speed, (finish x method o stats).angle) ((finish x' method o' stats').speed, (finish x' method o' stats').angle) ∧
    ∃ midr, List.Forall₂ (RowRel R) (finish x method o stats).rows midr ∧ midr.Perm (finish x' method o' stats').rows := by
  -- rows after the checks
  have hrows0 : List.Forall₂ (RowRel R) (stats.map fun p => (p, pairFlag method o p)) (mid.map fun p => (p, pairFlag method o' p)) := by
    rw [List.forall₂_map_left_iff, List.forall₂_map_right_iff]
    exact hrel.imp fun p p' h => ⟨h, flag_turned hc hk ho hj (hR _ _ h)⟩
  have hperm0 := hperm.map fun p => (p, pairFlag method o' p)
  -- rows after the selection
  obtain ⟨rows, hrowsdef⟩ : ∃ r, r = (if method = "gagne" then gagneSelect (stats.map fun p => (p, pairFlag method o p))
        else (Flag.good, stats.map fun p => (p, pairFlag method o p))) := ⟨_, rfl⟩
  obtain ⟨rows', hrowsdef'⟩ : ∃ r, r = (if method = "gagne" then gagneSelect (stats'.map fun p => (p, pairFlag method o' p))
        else (Flag.good, stats'.map fun p => (p, pairFlag method o' p))) := ⟨_, rfl⟩
  have hsel : rows'.1 = rows.1 ∧ ∃ mid', List.Forall₂ (RowRel R) rows.2 mid' ∧ mid'.Perm rows'.2 := by
    rw [hrowsdef, hrowsdef']
    split_ifs
    · exact select_turned (fun p p' h => (hR p p' h).peak) hrows0 hperm0
    · exact ⟨rfl, _, hrows0, hperm0⟩
  obtain ⟨hflag, midr, hmr, hpr⟩ := hsel
  have hrfin : ∀ r ∈ rows.2, r.2 = .good → (r.1.peak ≠ none ∧ r.1.delay ≠ none) ∧ r.1.delay ≠ some 0 := by
    have base : ∀ r ∈ stats.map fun p => (p, pairFlag method o p), r.2 = .good → (r.1.peak ≠ none ∧ r.1.delay ≠ none) ∧ r.1.delay ≠ some 0 := by
      intro r hr hg
      obtain ⟨p, hp, rfl⟩ := List.mem_map.1 hr
      have := pairFlag_last method o p
      simp only at hg
      rw [hg] at this
      rcases this with ⟨-, h⟩ | ⟨l1, d, l2, e1, hd, e2, -⟩
      · have hpk : p.peak ≠ none := fun hn => h (.lowcorr, p.peak = none ∨ p.meanCorr = none) (by simp [checks]) (.inl hn)
        refine ⟨⟨hpk, hfin p hp hpk⟩, fun hn => ?_⟩
        · exact h (.nolag, p.delay = some 0) (by simp [checks]) hn
      · exfalso
        have hmem : d ∈ checks method o p := by rw [e1]; simp
        unfold checks at hmem
        split_ifs at hmem <;> simp at hmem <;> rcases hmem with h | h | h | h | h <;>
          first
            | (rw [h] at e2; simp at e2)
            | (rcases h with h | h | h | h <;> rw [h] at e2 <;> simp at e2)
    rw [hrowsdef]
    by_cases hmg : method = "gagne"
    · rw [if_pos hmg]
      intro r hr hg
      unfold gagneSelect at hr
      simp only at hr
      obtain ⟨r0, hr0, rfl⟩ := List.mem_map.1 hr
      simp only at hg ⊢
      refine base r0 hr0 ?_
      by_contra hne
      generalize reaches _ r0.1 = b at hg
      cases b
      · cases hg
      · exact hne hg
    · rw [if_neg hmg]
      exact base
  obtain ⟨pairs, midp, pairs', e1, e2, e3, e4⟩ := good_turned hR hmr hpr fun r hr hg => (hrfin r hr hg).1
  have hz : ∀ p ∈ pairs, p.1 ≠ 0 := by
    intro p hp h0
    have : (some p.1, p.2) ∈ goodPairs rows.2 := by rw [e1]; exact List.mem_map.2 ⟨p, hp, rfl⟩
    unfold goodPairs at this
    obtain ⟨r, hr, e⟩ := List.mem_map.1 this
    rw [List.mem_filter] at hr
    refine (hrfin r hr.1 (by simpa using hr.2)).2 ?_
    rw [(Prod.mk.inj e).1, h0]
  have hlen : (goodPairs rows'.2).length = (goodPairs rows.2).length := by
    rw [e1, e2, asGood, asGood, List.length_map, List.length_map, ← e4.length_eq, e3.length_eq]
  have hfr : (finish x method o stats).rows = rows.2 := by rw [hrowsdef]; unfold finish; simp only; split_ifs <;> rfl
  rw [hfr] at hdet
  have hfr' : (finish x' method o' stats').rows = rows'.2 := by rw [hrowsdef']; unfold finish; simp only; split_ifs <;> rfl
  have hrest : (finish x' method o' stats').flag = (finish x method o stats).flag ∧
      TurnedMotion (k / c) α ((finish x method o stats).speed, (finish x method o stats).angle) ((finish x' method o' stats').speed, (finish x' method o' stats').angle) := by
    unfold finish
    simp only [← hrowsdef, ← hrowsdef', hlen]
    by_cases h1 : (goodPairs rows.2).length ≤ 1
    · rw [if_pos h1, if_pos h1]
      exact ⟨rfl, .inr ⟨0, 0, 0, 0, rfl, rfl, by simp, by simp [turnVec]⟩⟩
    · rw [if_neg h1, if_neg h1]
      simp only
      rw [hflag]
      have hgm := goodPairs_moves fun r hr hg => (hrfin r hr hg).1.2
      obtain ⟨pr, hprdef⟩ : ∃ pr, pr = goodMoves rows.2 := ⟨_, rfl⟩
      have hdt : Determined x method pr := by
        rw [hprdef]
        refine hdet ?_
        rw [hgm, asGood, List.length_map] at h1
        omega
      have : pr = pairs := by
        rw [e1, ← hprdef] at hgm
        unfold asGood at hgm
        exact (List.map_injective_iff.2 (fun a b h => by simpa [Prod.ext_iff] using h) hgm).symm
      subst this
      have hne : pr ≠ [] := by
        rintro rfl
        rw [e1] at h1
        exact h1 (by simp [asGood])
      by_cases hmj : method = "jamaly"
      · obtain ⟨q1, q3⟩ := hdt.2 hmj
        have q2 := hxj hmj
        obtain ⟨t1, v, θ, v', θ', t2, t3, t4, t5, t6⟩ := jamaly_turned x x' q1 q2 hc hk pr midp pairs' hne hz e3 e4 q3
        rw [e1, e2, t1]
        refine ⟨rfl, ?_⟩
        rw [if_pos hmj, if_pos hmj]
        simp only [t2, t3, t4, t5]
        exact normalise_turned t6
      · have hmg : method = "gagne" := hm.resolve_left hmj
        obtain ⟨q1, q3⟩ := hdt.1 hmg
        have q2 := hxg hmg
        refine ⟨by simp [hmj], ?_⟩
        rw [if_neg hmj, if_neg hmj, e1, e2]
        rcases gagne_turned x x' q1 q2 hc hk pr midp pairs' e3 e4 q3 with ⟨t1, t2⟩ | ⟨V, V', t1, t2, t3⟩
        · rw [t1, t2]
          exact .inl ⟨rfl, rfl⟩
        · rw [t2, t3]
          simp only
          apply normalise_turned
          rw [← (polar_of_vec (V := V)).1, ← (polar_of_vec (V := V)).2, ← (polar_of_vec (V := V')).1, ← (polar_of_vec (V := V')).2, t1]
  exact ⟨hrest.1, hrest.2, midr, by rw [hfr]; exact hmr, by rw [hfr']; exact hpr⟩

end SST.Cmv
