import Verif.Proofs.CloudLaw
import Verif.Props.CloudMore
import Mathlib.Probability.Independence.InfinitePi
import Mathlib.Probability.Moments.Variance

/-!
# Law of the random fields

C226: mean, covariances and range of dependence of a stacked random field.
-/

namespace SST.Props.CloudLaw
open SST SST.Spec SST.Cloud MeasureTheory ProbabilityTheory

/-! ## C226 -/

theorem sum_getD (l : List ℝ) (g : ℝ → ℝ) : ∑ k ∈ Finset.range l.length, g (l.getD k 0) = (l.map g).sum := by
  induction l with
  | nil => simp
  | cons a l ih =>
    rw [List.length_cons, Finset.sum_range_succ', List.map_cons, List.sum_cons, ← ih, add_comm]
    simp

theorem stack_ok (R : ℕ → ℕ → ℕ → ℝ) {weights : List ℝ} {scales : List ℤ} (hl : weights.length = scales.length) (m n : ℕ) :
    stackField R weights scales m n false = .ok (stackSum R weights scales m n) := by
  unfold stackField
  rw [if_neg (by simp [hl])]
  rfl

theorem coef_sum {weights : List ℝ} {scales : List ℤ} (hl : weights.length = scales.length) {m n i j : ℕ} (hi : i < m) (hj : j < n) :
    ∑ p ∈ stackIdx scales m n, stackCoef weights scales m n i j p = weights.sum := by
  unfold stackIdx
  rw [Finset.sum_product]
  have : ∀ k ∈ Finset.range scales.length, ∑ q ∈ Finset.range (stackN scales m n) ×ˢ Finset.range (stackN scales m n),
      stackCoef weights scales m n i j (k, q) = weights.getD k 0 := by
    intro k hk
    obtain ⟨h0, h1⟩ := stackN_le scales m n (Finset.mem_range.1 hk)
    unfold stackCoef
    simp only
    rw [← Finset.mul_sum, Finset.sum_product]
    simp only [← Finset.mul_sum, hat_total hj h1, mul_one, hat_total hi h0]
  rw [Finset.sum_congr rfl this, ← hl]
  simpa using sum_getD weights id

theorem coef_prod (weights : List ℝ) (scales : List ℤ) (m n i j i' j' : ℕ) :
    ∑ p ∈ stackIdx scales m n, stackCoef weights scales m n i j p * stackCoef weights scales m n i' j' p =
      ∑ k ∈ Finset.range scales.length, weights.getD k 0 ^ 2 *
        ((∑ a ∈ Finset.range (stackN scales m n), hat (scaledSize m (scales.getD k 0)) m i a * hat (scaledSize m (scales.getD k 0)) m i' a) *
          ∑ b ∈ Finset.range (stackN scales m n), hat (scaledSize n (scales.getD k 0)) n j b * hat (scaledSize n (scales.getD k 0)) n j' b) := by
  unfold stackIdx
  rw [Finset.sum_product]
  refine Finset.sum_congr rfl fun k _ => ?_
  rw [Finset.sum_mul_sum, Finset.sum_product, Finset.mul_sum]
  refine Finset.sum_congr rfl fun a _ => ?_
  rw [Finset.mul_sum]
  refine Finset.sum_congr rfl fun b _ => ?_
  unfold stackCoef
  ring

/-- C226: each cell of a stacked field has half the total weight as its mean, variance between 1/48 and 1/12 of the sum of the squared weights, and no
two cells have a negative covariance or one above 1/12 of the sum of the squared weights. -/
theorem C226_moments {Ω : Type} [MeasurableSpace Ω] (P : Measure Ω) [IsProbabilityMeasure P] (R : Ω → ℕ → ℕ → ℕ → ℝ) (hR : UniformDraws P R)
    (weights : List ℝ) (scales : List ℤ) (hl : weights.length = scales.length) (m n : ℕ) :
    ∃ f : Ω → ℕ → ℕ → ℝ, (∀ ω, stackField (R ω) weights scales m n false = .ok (f ω)) ∧ ∀ i j, i < m → j < n →
      ∫ ω, f ω i j ∂P = weights.sum / 2 ∧
      (weights.map (· ^ 2)).sum / 48 ≤ Var[fun ω => f ω i j; P] ∧ Var[fun ω => f ω i j; P] ≤ (weights.map (· ^ 2)).sum / 12 ∧
      ∀ i' j', i' < m → j' < n → 0 ≤ cov[fun ω => f ω i j, fun ω => f ω i' j'; P] ∧
        cov[fun ω => f ω i j, fun ω => f ω i' j'; P] ≤ (weights.map (· ^ 2)).sum / 12 := by
  refine ⟨fun ω => stackSum (R ω) weights scales m n, fun ω => stack_ok _ hl m n, fun i j hi hj => ?_⟩
  have hs : ∀ i j, i < m → j < n → (fun ω => stackSum (R ω) weights scales m n i j) =
      fun ω => ∑ p ∈ stackIdx scales m n, stackCoef weights scales m n i j p * R ω p.1 p.2.1 p.2.2 := fun i j hi hj => by
    ext ω
    exact stackSum_eq _ _ _ hi hj
  have hw : (weights.map (· ^ 2)).sum = ∑ k ∈ Finset.range scales.length, weights.getD k 0 ^ 2 := by
    rw [← hl, sum_getD weights (· ^ 2)]
  have hcov : ∀ i' j', i' < m → j' < n → 0 ≤ cov[fun ω => stackSum (R ω) weights scales m n i j, fun ω => stackSum (R ω) weights scales m n i' j'; P] ∧
      cov[fun ω => stackSum (R ω) weights scales m n i j, fun ω => stackSum (R ω) weights scales m n i' j'; P] ≤ (weights.map (· ^ 2)).sum / 12 := by
    intro i' j' hi' hj'
    rw [hs i j hi hj, hs i' j' hi' hj', comb_cov hR, coef_prod, hw]
    constructor
    · apply div_nonneg _ (by norm_num)
      refine Finset.sum_nonneg fun k hk => ?_
      obtain ⟨h0, h1⟩ := stackN_le scales m n (Finset.mem_range.1 hk)
      exact mul_nonneg (sq_nonneg _) (mul_nonneg (hat_cross hi hi' h0).1 (hat_cross hj hj' h1).1)
    · apply div_le_div_of_nonneg_right _ (by norm_num)
      refine Finset.sum_le_sum fun k hk => ?_
      obtain ⟨h0, h1⟩ := stackN_le scales m n (Finset.mem_range.1 hk)
      exact mul_le_of_le_one_right (sq_nonneg _) (mul_le_one₀ (hat_cross hi hi' h0).2 (hat_cross hj hj' h1).1 (hat_cross hj hj' h1).2)
  have hself : Var[fun ω => stackSum (R ω) weights scales m n i j; P] =
      cov[fun ω => stackSum (R ω) weights scales m n i j, fun ω => stackSum (R ω) weights scales m n i j; P] := by
    rw [covariance_self]
    rw [hs i j hi hj]
    exact (stack_memLp hR _ _).aestronglyMeasurable.aemeasurable
  refine ⟨?_, ?_, ?_, hcov⟩
  · beta_reduce
    rw [hs i j hi hj, comb_mean hR, coef_sum hl hi hj]
  · rw [hself, hs i j hi hj, comb_cov hR, coef_prod, hw, show (48 : ℝ) = 4 * 12 by norm_num, ← div_div]
    apply div_le_div_of_nonneg_right _ (by norm_num)
    rw [Finset.sum_div]
    refine Finset.sum_le_sum fun k hk => ?_
    obtain ⟨h0, h1⟩ := stackN_le scales m n (Finset.mem_range.1 hk)
    have a := hat_sq hi h0
    have b := hat_sq hj h1
    have := mul_le_mul a b (by norm_num) (le_trans (by norm_num) a)
    have h2 := mul_le_mul_of_nonneg_left this (sq_nonneg (weights.getD k 0))
    linarith
  · rw [hself]
    exact (hcov i j hi hj).2

/-- C226: two cells are independent if, at every scale, they are at least two grid steps apart in rows or in columns. -/
theorem C226_apart {Ω : Type} [MeasurableSpace Ω] (P : Measure Ω) [IsProbabilityMeasure P] (R : Ω → ℕ → ℕ → ℕ → ℝ) (hR : UniformDraws P R)
    (weights : List ℝ) (scales : List ℤ) (hl : weights.length = scales.length) (m n : ℕ) (hm : 2 ≤ m) (hn : 2 ≤ n) (i j i' j' : ℕ)
    (hi : i < m) (hj : j < n) (hi' : i' < m) (hj' : j' < n)
    (hd : ∀ s ∈ scales, 2 * ((m : ℝ) - 1) ≤ |(i : ℝ) - i'| * (⌊(m : ℝ) * 2 ^ (1 - s)⌋ - 1) ∨
      2 * ((n : ℝ) - 1) ≤ |(j : ℝ) - j'| * (⌊(n : ℝ) * 2 ^ (1 - s)⌋ - 1)) :
    ∃ f : Ω → ℕ → ℕ → ℝ, (∀ ω, stackField (R ω) weights scales m n false = .ok (f ω)) ∧ IndepFun (fun ω => f ω i j) (fun ω => f ω i' j') P := by
  classical
  refine ⟨fun ω => stackSum (R ω) weights scales m n, fun ω => stack_ok _ hl m n, ?_⟩
  have hsz : ∀ (m : ℕ) (s : ℤ), scaledSize m s = ⌊(m : ℝ) * 2 ^ (1 - s)⌋ := by
    intro m s
    unfold scaledSize
    rw [SST.Props.CloudTs.pyInt_nonneg (by positivity), show -s + 1 = 1 - s by ring]
  set c := stackCoef weights scales m n i j with hc
  set c' := stackCoef weights scales m n i' j' with hc'
  set S := (stackIdx scales m n).filter fun p => c p ≠ 0 with hS
  set S' := (stackIdx scales m n).filter fun p => c' p ≠ 0 with hS'
  have hdis : Disjoint S S' := by
    rw [Finset.disjoint_left]
    intro p hp hp'
    rw [hS, Finset.mem_filter] at hp
    rw [hS', Finset.mem_filter] at hp'
    have hk : p.1 < scales.length := by
      have := hp.1
      unfold stackIdx at this
      exact Finset.mem_range.1 (Finset.mem_product.1 this).1
    have hmem : scales.getD p.1 0 ∈ scales := by
      rw [List.getD_eq_getElem _ _ hk]
      exact List.getElem_mem hk
    have z : hat (scaledSize m (scales.getD p.1 0)) m i p.2.1 ≠ 0 ∧ hat (scaledSize n (scales.getD p.1 0)) n j p.2.2 ≠ 0 := by
      have := hp.2
      rw [hc] at this
      unfold stackCoef at this
      exact ⟨fun h => this (by rw [h]; ring), fun h => this (by rw [h]; ring)⟩
    have z' : hat (scaledSize m (scales.getD p.1 0)) m i' p.2.1 ≠ 0 ∧ hat (scaledSize n (scales.getD p.1 0)) n j' p.2.2 ≠ 0 := by
      have := hp'.2
      rw [hc'] at this
      unfold stackCoef at this
      exact ⟨fun h => this (by rw [h]; ring), fun h => this (by rw [h]; ring)⟩
    rcases hd _ hmem with h | h
    · rw [← hsz] at h
      rcases hat_apart hm hi hi' h p.2.1 with h | h
      · exact z.1 h
      · exact z'.1 h
    · rw [← hsz] at h
      rcases hat_apart hn hj hj' h p.2.2 with h | h
      · exact z.2 h
      · exact z'.2 h
  have key := hR.indep.indepFun_finset S S' hdis fun p => hR.measurable p.1 p.2.1 p.2.2
  have hm1 : ∀ (T : Finset (ℕ × ℕ × ℕ)) (d : ℕ × ℕ × ℕ → ℝ), Measurable fun x : T → ℝ => ∑ p : T, d p * x p := fun T d =>
    Finset.measurable_sum _ fun p _ => (measurable_pi_apply p).const_mul _
  have h2 := key.comp (hm1 S c) (hm1 S' c')
  have e : ∀ (T : Finset (ℕ × ℕ × ℕ)) (i j : ℕ) (_ : i < m) (_ : j < n) (_ : T = (stackIdx scales m n).filter fun p => stackCoef weights scales m n i j p ≠ 0),
      (fun ω => stackSum (R ω) weights scales m n i j) =
        (fun x : T → ℝ => ∑ p : T, stackCoef weights scales m n i j p * x p) ∘ fun ω (p : T) => R ω p.1.1 p.1.2.1 p.1.2.2 := by
    intro T i j hi hj hT
    ext ω
    rw [stackSum_eq _ _ _ hi hj]
    simp only [Function.comp]
    rw [Finset.sum_coe_sort T fun p => stackCoef weights scales m n i j p * R ω p.1 p.2.1 p.2.2, hT, Finset.sum_filter]
    refine Finset.sum_congr rfl fun p _ => ?_
    split_ifs with h
    · rfl
    · push Not at h
      rw [h, zero_mul]
  rw [e S i j hi hj hS, e S' i' j' hi' hj' hS']
  exact h2

/-- Independent uniform draws exist. -/
theorem exists_draws : UniformDraws (Measure.infinitePi fun _ : ℕ × ℕ × ℕ => uniform01) fun u k a b => u (k, a, b) where
  measurable k a b := measurable_pi_apply (k, a, b)
  indep := iIndepFun_infinitePi (X := fun _ x => x) fun _ => measurable_id
  law k a b := Measure.infinitePi_map_eval (fun _ : ℕ × ℕ × ℕ => uniform01) (k, a, b)

/-- The weights 0.2, 0.3, 0.5 at the scales 1, 2, 3. -/
example : ∃ f : (ℕ × ℕ × ℕ → ℝ) → ℕ → ℕ → ℝ, (∀ u, stackField (fun k a b => u (k, a, b)) [0.2, 0.3, 0.5] [1, 2, 3] 100 80 false = .ok (f u)) ∧
    ∀ i j, i < 100 → j < 80 → ∫ u, f u i j ∂(Measure.infinitePi fun _ : ℕ × ℕ × ℕ => uniform01) = 1 / 2 := by
  obtain ⟨f, h1, h2⟩ := C226_moments _ _ exists_draws [0.2, 0.3, 0.5] [1, 2, 3] rfl 100 80
  exact ⟨f, h1, fun i j hi hj => by rw [(h2 i j hi hj).1]; norm_num⟩

/-- At the scales 1, 2, 3 the coarsest grid of 100 rows has 25 rows, so that cells more than nine rows apart are independent. -/
example : ∃ f : (ℕ × ℕ × ℕ → ℝ) → ℕ → ℕ → ℝ, (∀ u, stackField (fun k a b => u (k, a, b)) [0.2, 0.3, 0.5] [1, 2, 3] 100 80 false = .ok (f u)) ∧
    IndepFun (fun u => f u 20 7) (fun u => f u 29 7) (Measure.infinitePi fun _ : ℕ × ℕ × ℕ => uniform01) := by
  refine C226_apart _ _ exists_draws [0.2, 0.3, 0.5] [1, 2, 3] rfl 100 80 (by norm_num) (by norm_num) 20 7 29 7 (by norm_num) (by norm_num) (by norm_num) (by norm_num) ?_
  intro s hs
  left
  simp only [List.mem_cons, List.not_mem_nil, or_false] at hs
  rcases hs with rfl | rfl | rfl
  · rw [show ⌊((100 : ℕ) : ℝ) * 2 ^ (1 - 1 : ℤ)⌋ = 100 by norm_num]
    norm_num
  · rw [show ⌊((100 : ℕ) : ℝ) * 2 ^ (1 - 2 : ℤ)⌋ = 50 by rw [show ((100 : ℕ) : ℝ) * 2 ^ (1 - 2 : ℤ) = ((50 : ℤ) : ℝ) by norm_num, Int.floor_intCast]]
    norm_num
  · rw [show ⌊((100 : ℕ) : ℝ) * 2 ^ (1 - 3 : ℤ)⌋ = 25 by rw [show ((100 : ℕ) : ℝ) * 2 ^ (1 - 3 : ℤ) = ((25 : ℤ) : ℝ) by norm_num [zpow_neg], Int.floor_intCast]]
    norm_num

end SST.Props.CloudLaw
