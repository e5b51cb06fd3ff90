import Verif.Model.Corr
import Verif.Spec.Corr
import Verif.Proofs.Dft
import Verif.Proofs.CmvMethods
import Mathlib.Algebra.BigOperators.Finprod
import Mathlib.Algebra.Order.BigOperators.Ring.Finset

/-! # Helper lemmas: cross-correlation -/

namespace SST.Corr
open SST SST.Dft SST.Spec SST.Cmv

theorem atZ_ext (x : List ℝ) (i : ℤ) : atZ x i = ext x i := by
  unfold atZ ext at0
  by_cases h : 0 ≤ i
  · by_cases h2 : i.toNat < x.length
    · rw [if_pos h, dif_pos ⟨h, h2⟩]; simp [h2]
    · rw [if_pos h, dif_neg (fun hh => h2 hh.2)]; simp [Nat.not_lt.1 h2]
  · rw [if_neg h, dif_neg (fun hh => h hh.1)]

theorem at0_ext (x : List ℝ) (i : ℕ) : at0 x i = ext x i := by
  rw [← atZ_ext]; simp [atZ]

theorem ext_of_neg {x : List ℝ} {i : ℤ} (h : i < 0) : ext x i = 0 := by
  unfold ext; rw [dif_neg]; rintro ⟨h1, _⟩; omega

theorem ext_of_ge {x : List ℝ} {i : ℤ} (h : (x.length : ℤ) ≤ i) : ext x i = 0 := by
  unfold ext; rw [dif_neg]; rintro ⟨_, h1⟩; omega

theorem ext_get {x : List ℝ} {i : ℕ} (h : i < x.length) : ext x i = x[i] := by
  rw [← at0_ext, at0_of_lt h]

/-- The window `0 .. n-1` as a set of integers. -/
def win (n : ℕ) : Finset ℤ := (Finset.range n).map Nat.castEmbedding

theorem sum_win (n : ℕ) (F : ℤ → ℝ) : ∑ z ∈ win n, F z = ∑ i ∈ Finset.range n, F i := by
  simp [win]

theorem mem_win {n : ℕ} {z : ℤ} : z ∈ win n ↔ 0 ≤ z ∧ z < n := by
  simp only [win, Finset.mem_map, Finset.mem_range, Nat.castEmbedding_apply]
  constructor
  · rintro ⟨a, h, rfl⟩; omega
  · rintro ⟨h1, h2⟩; exact ⟨z.toNat, by omega, by omega⟩

theorem ext_support {x : List ℝ} {z : ℤ} (h : ext x z ≠ 0) : z ∈ win x.length := by
  rw [mem_win]
  by_contra hn
  rw [not_and_or] at hn
  rcases hn with hn | hn
  · exact h (ext_of_neg (by omega))
  · exact h (ext_of_ge (by omega))

theorem finsum_win {n : ℕ} {F : ℤ → ℝ} (h : ∀ z, F z ≠ 0 → z ∈ win n) : ∑ᶠ z, F z = ∑ i ∈ Finset.range n, F i := by
  rw [← sum_win]
  exact finsum_eq_sum_of_support_subset F (fun z hz => h z hz)

theorem xcorrAt_finsum (x y : List ℝ) (lag : ℤ) : xcorrAt x y lag = ∑ᶠ i : ℤ, ext x (i + lag) * ext y i := by
  rw [finsum_win (n := y.length)]
  · rfl
  · intro z hz
    exact ext_support (right_ne_zero_of_mul hz)

theorem xcorrAt_finsum' (x y : List ℝ) (lag : ℤ) : xcorrAt x y lag = ∑ᶠ i : ℤ, ext x i * ext y (i - lag) := by
  rw [xcorrAt_finsum]
  have := finsum_comp_equiv (Equiv.addRight lag) (f := fun i : ℤ => ext x i * ext y (i - lag))
  rw [← this]
  simp

theorem xcorrAt_swap (x y : List ℝ) (lag : ℤ) : xcorrAt y x (-lag) = xcorrAt x y lag := by
  rw [xcorrAt_finsum, xcorrAt_finsum']
  congr 1
  funext i
  rw [mul_comm]; rfl

theorem xcorrAt_range (x y : List ℝ) (lag : ℤ) :
    xcorrAt x y lag = ∑ l ∈ Finset.range x.length, ext x l * ext y (l - lag) := by
  rw [xcorrAt_finsum', finsum_win (n := x.length)]
  intro z hz
  exact ext_support (left_ne_zero_of_mul hz)

theorem correlate_eq (x y : List ℝ) : correlate x y = (lagsOf x.length y.length).map (xcorrAt x y) := by
  unfold correlate lagsOf
  rw [List.map_map]
  apply List.map_congr_left
  intro k _
  simp only [Function.comp]
  rw [xcorrAt_range]
  apply Finset.sum_congr rfl
  intro l _
  rw [at0_ext, atZ_ext]
  congr 2
  ring

@[simp] theorem lagsOf_length (n m : ℕ) : (lagsOf n m).length = n + m - 1 := by simp [lagsOf]

@[simp] theorem correlate_length (x y : List ℝ) : (correlate x y).length = x.length + y.length - 1 := by simp [correlate]

theorem lagsOf_get {n m k : ℕ} (h : k < n + m - 1) : (lagsOf n m)[k]? = some ((k : ℤ) - (m - 1)) := by
  simp [lagsOf, List.getElem?_map, List.getElem?_range h]

theorem correlate_get {x y : List ℝ} {k : ℕ} (h : k < x.length + y.length - 1) :
    (correlate x y)[k]? = some (xcorrAt x y ((k : ℤ) - (y.length - 1))) := by
  rw [correlate_eq, List.getElem?_map, lagsOf_get h]; rfl

theorem sum_ext (x : List ℝ) : ∑ i ∈ Finset.range x.length, ext x i = x.sum := by
  induction x with
  | nil => simp
  | cons a x ih =>
    rw [List.length_cons, Finset.sum_range_succ', List.sum_cons, ← ih, add_comm]
    congr 1
    all_goals first
      | (apply Finset.sum_congr rfl
         intro i hi
         rw [ext_get (by simpa using hi), ext_get (by simpa using hi)]
         simp)
      | (rw [ext_get (by simp)]; simp)

theorem sum_ext_sq (x : List ℝ) : ∑ i ∈ Finset.range x.length, ext x i ^ 2 = energyOf x := by
  unfold energyOf
  rw [← sum_ext, List.length_map]
  apply Finset.sum_congr rfl
  intro i hi
  rw [ext_get (by simpa using hi), ext_get (by simpa using hi)]
  simp

theorem energyOf_nonneg (x : List ℝ) : 0 ≤ energyOf x := by
  rw [← sum_ext_sq]; positivity

theorem energyOf_pos {x : List ℝ} (h : ∃ v ∈ x, v ≠ 0) : 0 < energyOf x := by
  obtain ⟨v, hv, h0⟩ := h
  apply lt_of_le_of_ne (energyOf_nonneg x)
  intro he
  unfold energyOf at he
  have := sum_zero_mem (l := x.map fun v => v ^ 2) (fun w hw => by
    obtain ⟨u, _, rfl⟩ := List.mem_map.1 hw; positivity) he.symm (List.mem_map.2 ⟨v, hv, rfl⟩)
  exact h0 (pow_eq_zero_iff (two_ne_zero) |>.1 this)

/-- Cauchy-Schwarz for every lag. -/
theorem xcorrAt_sq_le (x y : List ℝ) (lag : ℤ) : xcorrAt x y lag ^ 2 ≤ energyOf x * energyOf y := by
  unfold xcorrAt
  refine (Finset.sum_mul_sq_le_sq_mul_sq _ _ _).trans ?_
  rw [sum_ext_sq]
  apply mul_le_mul_of_nonneg_right _ (energyOf_nonneg y)
  rw [← sum_ext_sq, ← sum_win y.length (fun z => ext x (z + lag) ^ 2), ← sum_win x.length (fun z => ext x z ^ 2)]
  have h1 : ∑ z ∈ win y.length, ext x (z + lag) ^ 2 = ∑ z ∈ (win y.length).map (addRightEmbedding lag), ext x z ^ 2 := by
    simp
  rw [h1]
  have h2 : ∑ z ∈ (win y.length).map (addRightEmbedding lag) ∩ win x.length, ext x z ^ 2 =
      ∑ z ∈ (win y.length).map (addRightEmbedding lag), ext x z ^ 2 := by
    apply Finset.sum_subset Finset.inter_subset_left
    intro z hz hz'
    have : ext x z = 0 := by
      by_contra h
      exact hz' (Finset.mem_inter.2 ⟨hz, ext_support h⟩)
    rw [this]; ring
  rw [← h2]
  exact Finset.sum_le_sum_of_subset_of_nonneg Finset.inter_subset_right (fun _ _ _ => by positivity)

theorem abs_xcorrAt_le (x y : List ℝ) (lag : ℤ) : |xcorrAt x y lag| ≤ Real.sqrt (energyOf x) * Real.sqrt (energyOf y) := by
  rw [← Real.sqrt_mul (energyOf_nonneg x)]
  exact Real.abs_le_sqrt (xcorrAt_sq_le x y lag)

theorem xcorrAt_zero_self (x : List ℝ) : xcorrAt x x 0 = energyOf x := by
  unfold xcorrAt
  rw [← sum_ext_sq]
  apply Finset.sum_congr rfl
  intro i _
  rw [add_zero]; ring

/-- A nonzero finite signal correlates with itself strictly best at lag zero. -/
theorem autocorr_lt {x : List ℝ} (h : ∃ v ∈ x, v ≠ 0) {lag : ℤ} (hl : lag ≠ 0) : xcorrAt x x lag < energyOf x := by
  -- Σ (x(i+lag) - x(i))² over a window containing everything
  set S : Finset ℤ := win x.length ∪ (win x.length).map (addRightEmbedding (-lag)) with hS
  have hsup : ∀ z, ext x z ≠ 0 → z ∈ S := fun z hz => Finset.mem_union_left _ (ext_support hz)
  have hsup2 : ∀ z, ext x (z + lag) ≠ 0 → z ∈ S := by
    intro z hz
    apply Finset.mem_union_right
    rw [Finset.mem_map]
    exact ⟨z + lag, ext_support hz, by simp⟩
  have e1 : ∑ z ∈ S, ext x z ^ 2 = energyOf x := by
    rw [← finsum_eq_sum_of_support_subset (fun z => ext x z ^ 2) (s := S)
      (fun z hz => hsup z (by intro h0; apply hz; simp [h0])), finsum_win (n := x.length)
      (fun z hz => ext_support (by intro h0; apply hz; simp [h0])), sum_ext_sq]
  have e2 : ∑ z ∈ S, ext x (z + lag) ^ 2 = energyOf x := by
    rw [← finsum_eq_sum_of_support_subset (fun z => ext x (z + lag) ^ 2) (s := S)
      (fun z hz => hsup2 z (by intro h0; apply hz; simp [h0]))]
    have := finsum_comp_equiv (Equiv.addRight lag) (f := fun i : ℤ => ext x i ^ 2)
    simp only [Equiv.coe_addRight] at this
    rw [this, finsum_win (n := x.length)
      (fun z hz => ext_support (by intro h0; apply hz; simp [h0])), sum_ext_sq]
  have e3 : ∑ z ∈ S, ext x (z + lag) * ext x z = xcorrAt x x lag := by
    rw [xcorrAt_finsum, finsum_eq_sum_of_support_subset (s := S)]
    intro z hz
    exact hsup z (right_ne_zero_of_mul hz)
  have e4 : ∑ z ∈ S, (ext x (z + lag) - ext x z) ^ 2 = 2 * energyOf x - 2 * xcorrAt x x lag := by
    have : ∀ z, (ext x (z + lag) - ext x z) ^ 2 =
        ext x (z + lag) ^ 2 - 2 * (ext x (z + lag) * ext x z) + ext x z ^ 2 := fun z => by ring
    simp only [this, Finset.sum_add_distrib, Finset.sum_sub_distrib, ← Finset.mul_sum, e1, e2, e3]
    ring
  have hnn : 0 ≤ ∑ z ∈ S, (ext x (z + lag) - ext x z) ^ 2 := Finset.sum_nonneg fun _ _ => by positivity
  by_contra hge
  have hz : ∑ z ∈ S, (ext x (z + lag) - ext x z) ^ 2 = 0 := by linarith
  have hall : ∀ z, ext x (z + lag) = ext x z := by
    intro z
    by_cases hzS : z ∈ S
    · have := (Finset.sum_eq_zero_iff_of_nonneg (fun _ _ => by positivity)).1 hz z hzS
      exact sub_eq_zero.1 (pow_eq_zero_iff two_ne_zero |>.1 this)
    · have h1 : ext x z = 0 := by by_contra h0; exact hzS (hsup z h0)
      have h2 : ext x (z + lag) = 0 := by by_contra h0; exact hzS (hsup2 z h0)
      rw [h1, h2]
  have hper : ∀ (k : ℕ) z, ext x (z + k * lag) = ext x z := by
    intro k
    induction k with
    | zero => intro z; simp
    | succ k ih =>
      intro z
      have : z + ((k + 1 : ℕ) : ℤ) * lag = (z + k * lag) + lag := by push_cast; ring
      rw [this, hall, ih]
  obtain ⟨v, hv, h0⟩ := h
  obtain ⟨i, hi, rfl⟩ := List.mem_iff_getElem.1 hv
  have h1 := hper x.length i
  rw [ext_get hi] at h1
  apply h0
  rw [← h1]
  rcases lt_or_gt_of_ne hl with hneg | hpos
  · apply ext_of_neg
    nlinarith
  · apply ext_of_ge
    nlinarith

/-! ## argmax -/

theorem argmax_spec {l : List ℝ} (h : l ≠ []) :
    ∃ hk : argmax l < l.length, (∀ x ∈ l, x ≤ l[argmax l]) ∧ ∀ j (hj : j < argmax l), l[j] < l[argmax l] := by
  induction l with
  | nil => exact absurd rfl h
  | cons a l ih =>
    unfold argmax
    split_ifs with hc
    · refine ⟨by simp, ?_, by intro j hj; omega⟩
      intro x hx
      simp only [List.getElem_cons_zero]
      rcases List.mem_cons.1 hx with rfl | hx
      · exact le_refl _
      · exact hc x hx
    · have hne : l ≠ [] := by rintro rfl; simp at hc
      obtain ⟨hk, h1, h2⟩ := ih hne
      push Not at hc
      obtain ⟨y, hy, hay⟩ := hc
      have ha : a < l[argmax l] := lt_of_lt_of_le hay (h1 y hy)
      refine ⟨by simpa using hk, ?_, ?_⟩
      · intro x hx
        simp only [List.getElem_cons_succ]
        rcases List.mem_cons.1 hx with rfl | hx
        · exact ha.le
        · exact h1 x hx
      · intro j hj
        simp only [List.getElem_cons_succ]
        cases j with
        | zero => simpa using ha
        | succ j => simpa using h2 j (by omega)

theorem argmax_unique {l : List ℝ} {k : ℕ} (hk : k < l.length) (h : ∀ j (hj : j < l.length), j ≠ k → l[j] < l[k]) :
    argmax l = k := by
  have hne : l ≠ [] := by rintro rfl; simp at hk
  obtain ⟨h1, h2, -⟩ := argmax_spec hne
  by_contra hn
  have h3 := h _ h1 hn
  have h4 := h2 l[k] (List.getElem_mem hk)
  linarith

theorem argmax_map_mono {l : List ℝ} {f : ℝ → ℝ} (hf : StrictMono f) : argmax (l.map f) = argmax l := by
  induction l with
  | nil => rfl
  | cons a l ih =>
    rw [List.map_cons, argmax, argmax, ih]
    have : (∀ y ∈ l.map f, y ≤ f a) ↔ ∀ y ∈ l, y ≤ a := by
      simp [hf.le_iff_le]
    by_cases hc : ∀ y ∈ l, y ≤ a
    · rw [if_pos hc, if_pos (this.2 hc)]
    · rw [if_neg hc, if_neg (fun h => hc (this.1 h))]

/-! ## Mean removal and scaling -/

@[simp] theorem center_length (x : List ℝ) : (center x).length = x.length := by simp [center]

theorem center_sum (x : List ℝ) : (center x).sum = 0 := by
  unfold center
  rcases eq_or_ne x [] with rfl | h
  · simp
  · have hn : (x.length : ℝ) ≠ 0 := by simpa using h
    have : (x.map fun v => v - mean x).sum = x.sum - x.length * mean x := by
      simp only [sub_eq_add_neg]
      rw [List.sum_map_add]
      simp
    rw [this, mean]
    field_simp
    ring

theorem mean_def (x : List ℝ) : mean x = x.sum / x.length := rfl

theorem energy_center (x : List ℝ) : energyOf (center x) = x.length * variance x := by
  rcases eq_or_ne x [] with rfl | h
  · simp [energyOf, center]
  · have hn : (x.length : ℝ) ≠ 0 := by simpa using h
    unfold energyOf center variance
    rw [mean_def (x.map fun v => (v - mean x) ^ 2), List.map_map, List.length_map]
    field_simp
    rfl

theorem variance_zero_iff (x : List ℝ) : variance x = 0 ↔ IsConst x := by
  constructor
  · intro h a ha b hb
    by_contra hab
    exact (variance_pos ha hb hab).ne' h
  · intro h
    rcases eq_or_ne x [] with rfl | hne
    · simp [variance, mean]
    · obtain ⟨c, hc⟩ := List.exists_mem_of_ne_nil x hne
      have hall : ∀ v ∈ x, v = c := fun v hv => h v hv c hc
      have hx : x = List.replicate x.length c := List.eq_replicate_iff.2 ⟨rfl, hall⟩
      have hn : (x.length : ℝ) ≠ 0 := by simpa using hne
      have hm : mean x = c := by
        rw [mean, hx]; simp only [List.sum_replicate, List.length_replicate, nsmul_eq_mul]
        field_simp
      have : x.map (fun v => (v - mean x) ^ 2) = x.map fun _ => (0 : ℝ) := by
        apply List.map_congr_left
        intro v hv
        rw [hm, hall v hv]; ring
      rw [variance, this]
      simp [mean]

theorem std_sq (x : List ℝ) : std x * std x = variance x := Real.mul_self_sqrt (variance_nonneg x)

theorem std_nonneg (x : List ℝ) : 0 ≤ std x := Real.sqrt_nonneg _

theorem std_pos {x : List ℝ} (h : ¬ IsConst x) : 0 < std x := by
  apply Real.sqrt_pos.2
  exact lt_of_le_of_ne (variance_nonneg x) (fun h0 => h ((variance_zero_iff x).1 h0.symm))

theorem std_zero {x : List ℝ} (h : IsConst x) : std x = 0 := by
  unfold std; rw [(variance_zero_iff x).2 h, Real.sqrt_zero]

theorem sqrt_energy_center (x : List ℝ) : Real.sqrt (energyOf (center x)) = Real.sqrt x.length * std x := by
  rw [energy_center, Real.sqrt_mul (by positivity)]; rfl

theorem center_const {x : List ℝ} (h : IsConst x) : ∀ v ∈ center x, v = 0 := by
  have h0 : energyOf (center x) = 0 := by rw [energy_center, (variance_zero_iff x).2 h, mul_zero]
  intro v hv
  by_contra hne
  exact (energyOf_pos ⟨v, hv, hne⟩).ne' h0

theorem ext_zero {x : List ℝ} (h : ∀ v ∈ x, v = 0) (i : ℤ) : ext x i = 0 := by
  unfold ext
  split_ifs with hh
  · exact h _ (List.getElem_mem _)
  · rfl

theorem ext_map (f : ℝ → ℝ) (hf : f 0 = 0) (x : List ℝ) (i : ℤ) : ext (x.map f) i = f (ext x i) := by
  unfold ext
  by_cases h : 0 ≤ i ∧ i.toNat < x.length
  · rw [dif_pos h, dif_pos (by simpa using h)]; simp
  · rw [dif_neg h, dif_neg (by simpa using h), hf]

theorem xcorrAt_smul_left (c : ℝ) (x y : List ℝ) (lag : ℤ) :
    xcorrAt (x.map fun v => c * v) y lag = c * xcorrAt x y lag := by
  unfold xcorrAt
  rw [Finset.mul_sum]
  apply Finset.sum_congr rfl
  intro i _
  rw [ext_map _ (by ring)]; ring

theorem xcorrAt_smul_right (c : ℝ) (x y : List ℝ) (lag : ℤ) :
    xcorrAt x (y.map fun v => c * v) lag = c * xcorrAt x y lag := by
  rw [← xcorrAt_swap, xcorrAt_smul_left, xcorrAt_swap]

theorem correlate_smul (c d : ℝ) (x y : List ℝ) :
    correlate (x.map fun v => c * v) (y.map fun v => d * v) = (correlate x y).map fun v => c * d * v := by
  rw [correlate_eq, correlate_eq, List.map_map, List.length_map, List.length_map]
  apply List.map_congr_left
  intro lag _
  rw [xcorrAt_smul_left, xcorrAt_smul_right]
  simp only [Function.comp]; ring

theorem mean_affine (a b : ℝ) (x : List ℝ) (h : x ≠ []) : mean (x.map fun v => a * v + b) = a * mean x + b := by
  have hn : (x.length : ℝ) ≠ 0 := by simpa using h
  unfold mean
  rw [List.sum_map_add, List.sum_map_mul_left, List.length_map]
  simp
  field_simp

theorem center_affine (a b : ℝ) (x : List ℝ) : center (x.map fun v => a * v + b) = (center x).map fun v => a * v := by
  rcases eq_or_ne x [] with rfl | h
  · rfl
  · unfold center
    rw [mean_affine a b x h, List.map_map, List.map_map]
    apply List.map_congr_left
    intro v _
    simp only [Function.comp]; ring

theorem std_affine (a b : ℝ) (ha : 0 < a) (x : List ℝ) : std (x.map fun v => a * v + b) = a * std x := by
  rcases eq_or_ne x [] with rfl | h
  · simp [std, variance, mean]
  · have : (x.map fun v => a * v + b) = x.map fun v => b + a * v := by
      apply List.map_congr_left; intro v _; ring
    unfold std
    rw [this, variance_affine b a x h, Real.sqrt_mul (sq_nonneg a), Real.sqrt_sq ha.le]

theorem sum_map_range (n : ℕ) (f : ℕ → ℝ) : ((List.range n).map f).sum = ∑ k ∈ Finset.range n, f k := by
  induction n with
  | zero => simp
  | succ n ih => rw [List.range_succ, List.map_append, List.sum_append, ih, Finset.sum_range_succ]; simp

/-- The sum of the full correlation is the product of the sums. -/
theorem sum_correlate (x y : List ℝ) : (correlate x y).sum = x.sum * y.sum := by
  rcases eq_or_ne x [] with rfl | hx
  · unfold correlate; simp
  rcases eq_or_ne y [] with rfl | hy
  · rw [correlate_eq]
    have : (lagsOf x.length ([] : List ℝ).length).map (xcorrAt x []) = (lagsOf x.length 0).map fun _ => (0 : ℝ) := by
      apply List.map_congr_left; intro a _; simp [xcorrAt]
    rw [this]; simp
  have hxl : 0 < x.length := List.length_pos_iff.2 hx
  have hyl : 0 < y.length := List.length_pos_iff.2 hy
  have h1 : (correlate x y).sum = ∑ k ∈ Finset.range (x.length + y.length - 1),
      ∑ i ∈ Finset.range y.length, ext x ((i : ℤ) + ((k : ℤ) - (y.length - 1))) * ext y i := by
    rw [correlate_eq, lagsOf, List.map_map, sum_map_range]
    rfl
  rw [h1, Finset.sum_comm, ← sum_ext x, ← sum_ext y, mul_comm, Finset.sum_mul]
  apply Finset.sum_congr rfl
  intro i hi
  rw [← Finset.sum_mul, mul_comm]
  congr 1
  have hi' := Finset.mem_range.1 hi
  have h2 : ∑ k ∈ Finset.range (x.length + y.length - 1), ext x ((i : ℤ) + ((k : ℤ) - (y.length - 1))) =
      ∑ z ∈ (win (x.length + y.length - 1)).map (addRightEmbedding ((i : ℤ) - (y.length - 1))), ext x z := by
    rw [Finset.sum_map, ← sum_win (x.length + y.length - 1) (fun z => ext x ((i : ℤ) + (z - (y.length - 1))))]
    apply Finset.sum_congr rfl
    intro z _
    simp only [addRightEmbedding_apply]
    congr 1; ring
  rw [h2, ← sum_win x.length (fun z => ext x z)]
  symm
  apply Finset.sum_subset
  · intro z hz
    rw [mem_win] at hz
    rw [Finset.mem_map]
    refine ⟨z - ((i : ℤ) - (y.length - 1)), ?_, by simp⟩
    rw [mem_win]
    omega
  · intro z _ hz
    by_contra h0
    exact hz (ext_support h0)

/-! ## FFT mode -/

theorem pad_length {x : List ℝ} (h : x ≠ []) : (pad x).length = 2 * x.length - 1 := by
  have : 0 < x.length := List.length_pos_iff.2 h
  simp [pad]; omega

theorem ext_pad (x : List ℝ) (i : ℤ) : ext (pad x) i = ext x i := by
  by_cases h : 0 ≤ i
  · obtain ⟨k, rfl⟩ := Int.eq_ofNat_of_zero_le h
    rw [← at0_ext, ← at0_ext]
    unfold at0 pad
    rw [List.getElem?_append]
    split_ifs with hk
    · rfl
    · rw [List.getElem?_eq_none (l := x) (by omega), List.getElem?_replicate]
      split_ifs <;> rfl
  · rw [ext_of_neg (by omega), ext_of_neg (by omega)]

theorem fftXcorr_length {a b : List ℝ} (hl : a.length = b.length) : (fftXcorr a b).length = a.length := by
  simp [fftXcorr, hl]

theorem fftXcorr_at (a b : List ℝ) (hl : a.length = b.length) {m : ℕ} (hm : m < a.length) :
    at0 (fftXcorr a b) m = ∑ l ∈ Finset.range a.length, ext a ((l + m) % a.length : ℕ) * ext b l := by
  unfold fftXcorr
  rw [at0_map Complex.re (by simp), circ_corr _ _ (by simp [hl]) (by simpa using hm), List.length_map, Complex.re_sum]
  apply Finset.sum_congr rfl
  intro l _
  rw [at0_map (fun v : ℝ => (v : ℂ)) (by simp), at0_map (fun v : ℝ => (v : ℂ)) (by simp), Complex.conj_ofReal, ← Complex.ofReal_mul,
    Complex.ofReal_re, at0_ext, at0_ext]

/-- Lag of entry `m` of the padded circular correlation. -/
theorem fftXcorr_pad (x y : List ℝ) (hl : x.length = y.length) {m : ℕ} (hm : m < 2 * x.length - 1) :
    at0 (fftXcorr (pad x) (pad y)) m =
      xcorrAt x y (if m < x.length then (m : ℤ) else (m : ℤ) - (2 * x.length - 1)) := by
  have hx : x ≠ [] := by rintro rfl; simp at hm
  have hy : y ≠ [] := by rintro rfl; simp at hl; exact hx hl
  have hxl : 0 < x.length := List.length_pos_iff.2 hx
  rw [fftXcorr_at _ _ (by rw [pad_length hx, pad_length hy, hl]) (by rw [pad_length hx]; exact hm), pad_length hx]
  simp only [ext_pad]
  unfold xcorrAt
  rw [← hl]
  have hsub : Finset.range x.length ⊆ Finset.range (2 * x.length - 1) := by
    apply Finset.range_subset_range.2; omega
  rw [← Finset.sum_subset hsub]
  · apply Finset.sum_congr rfl
    intro l hlr
    have hl' := Finset.mem_range.1 hlr
    congr 1
    by_cases hmx : m < x.length
    · rw [if_pos hmx, Nat.mod_eq_of_lt (by omega)]
      push_cast; rfl
    · rw [if_neg hmx]
      by_cases hw : l + m < 2 * x.length - 1
      · rw [Nat.mod_eq_of_lt hw, ext_of_ge (by omega), ext_of_neg (by omega)]
      · have : (l + m) % (2 * x.length - 1) = l + m - (2 * x.length - 1) := by
          rw [Nat.mod_eq_sub_mod (by omega), Nat.mod_eq_of_lt (by omega)]
        rw [this]
        congr 1
        omega
  · intro l _ hnot
    rw [Finset.mem_range] at hnot
    rw [ext_of_ge (x := y) (by omega), mul_zero]

end SST.Corr
