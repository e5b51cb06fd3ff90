import Verif.Proofs.Copula

/-!
# Properties of the one-dimensional parts of `synthirrad/copula.py`

C71 mixture density and distribution function, C72 inverse sampling, C73 mixture parameters, C76 decay
parameter, C122 the distribution function at a single point, C123 inverse sampling at the nodes, C124 order
of the component means, C125 decay parameter of an array.
-/

namespace SST.Copula
open SST

/-! ## C71 -/

theorem sum_eq_range (l : List ℝ) (n : ℕ) (f : ℕ → ℝ) (hl : l.length = n) (h : ∀ i < n, l.getD i 0 = f i) :
    l.sum = ∑ i ∈ Finset.range n, f i := by
  subst hl
  rw [Finset.sum_range, ← Fin.sum_univ_getElem]
  apply Finset.sum_congr rfl
  intro i _
  rw [← h i i.2, List.getD_eq_getElem _ _ i.2]

/-- C71: the density at each grid point is the weighted sum of normal densities. -/
theorem C71_density (xs mu p : List ℝ) (vars : List NNReal) (hx : xs ≠ []) (hm : mu.length = p.length) (hv : vars.length = p.length)
    (hpos : ∀ v ∈ vars, 0 < v) (hw : ∀ w ∈ p, 0 ≤ w) (hw' : ∃ w ∈ p, 0 < w) :
    ∃ pdf cdf, gmdistribution xs mu (vars.map fun v : NNReal => (v : ℝ)) p = .ok (pdf, cdf) ∧ pdf.length = xs.length ∧
      ∀ (k : ℕ) (hk : k < xs.length), pdf[k]? = some (∑ c ∈ Finset.range p.length,
        p.getD c 0 * ProbabilityTheory.gaussianPDFReal (mu.getD c 0) (vars.getD c 0) xs[k]) := by
  have hpos' : ∀ v ∈ vars.map (fun v : NNReal => (v : ℝ)), 0 < v := by
    intro v hv
    obtain ⟨u, hu, rfl⟩ := List.mem_map.1 hv
    exact_mod_cast hpos u hu
  refine ⟨_, _, gmdistribution_eq hx hm (by simpa using hv) hpos' hw hw', by simp, ?_⟩
  intro k hk
  rw [List.getElem?_map, List.getElem?_eq_getElem hk, Option.map_some]
  congr 1
  unfold mixPdf
  apply sum_eq_range _ _ _ (by simp; omega)
  intro c hc
  rw [List.getD_eq_getElem _ _ (by simp; omega), List.getD_eq_getElem _ _ hc, List.getD_eq_getElem _ _ (by omega : c < mu.length),
    List.getD_eq_getElem _ _ (by omega : c < vars.length)]
  simp [normPdf_eq]

/-- C71: the discretised distribution function is positive, strictly increasing, at most one, one at the last
grid point, and equals the normalised running sum of the density values. -/
theorem C71_cdf (xs mu vars p : List ℝ) (hx : xs ≠ []) (hm : mu.length = p.length) (hv : vars.length = p.length)
    (hpos : ∀ v ∈ vars, 0 < v) (hw : ∀ w ∈ p, 0 ≤ w) (hw' : ∃ w ∈ p, 0 < w) :
    ∃ pdf cdf, gmdistribution xs mu vars p = .ok (pdf, cdf) ∧ cdf.length = xs.length ∧ (∀ a ∈ pdf, 0 < a) ∧
      (∀ v ∈ cdf, 0 < v ∧ v ≤ 1) ∧ cdf.Pairwise (· < ·) ∧ cdf.getLast? = some 1 ∧
      ∀ (k : ℕ) (hk : k < cdf.length), cdf[k] = (pdf.take (k + 1)).sum / pdf.sum := by
  refine ⟨_, _, gmdistribution_eq hx hm hv hpos hw hw', ?_⟩
  set pdf := xs.map (mixPdf (mu.zip (vars.zip p))) with hpdf
  have hp0 : ∀ a ∈ pdf, 0 < a := by
    intro a ha
    obtain ⟨x, _, rfl⟩ := List.mem_map.1 ha
    exact mixPdf_pos hm hv hpos hw hw' x
  have hne : pdf ≠ [] := by simpa [hpdf] using hx
  have hsum : 0 < pdf.sum := List.sum_pos _ hp0 hne
  have hlen : ((cumsumFrom 0 pdf).map fun v => v / pdf.sum).length = pdf.length := by simp [cumsumFrom_length]
  have hent : ∀ (k : ℕ) (hk : k < ((cumsumFrom 0 pdf).map fun v => v / pdf.sum).length),
      ((cumsumFrom 0 pdf).map fun v => v / pdf.sum)[k] = (pdf.take (k + 1)).sum / pdf.sum := by
    intro k hk
    rw [List.getElem_map, cumsumFrom_getElem, zero_add]
  have htk : ∀ k, k < pdf.length → 0 < (pdf.take (k + 1)).sum := by
    intro k hk
    apply List.sum_pos _ (fun a ha => hp0 a (List.mem_of_mem_take ha))
    intro h
    have := congrArg List.length h
    rw [List.length_take, List.length_nil] at this
    omega
  refine ⟨by rw [hlen, hpdf, List.length_map], hp0, ?_, ?_, ?_, hent⟩
  · intro v hv
    obtain ⟨k, hk, rfl⟩ := List.getElem_of_mem hv
    rw [hent k hk]
    refine ⟨div_pos (htk k (by omega)) hsum, ?_⟩
    rw [div_le_one hsum]
    exact take_sum_le (fun a ha => (hp0 a ha).le) _
  · rw [List.pairwise_iff_getElem]
    intro i j hi hj hij
    rw [hent i hi, hent j hj]
    apply div_lt_div_of_pos_right _ hsum
    have h1 : (pdf.take (j + 1)).sum = (pdf.take (i + 1)).sum + ((pdf.take (j + 1)).drop (i + 1)).sum := by
      conv_lhs => rw [← List.take_append_drop (i + 1) (pdf.take (j + 1)), List.sum_append, List.take_take, min_eq_left (by omega)]
    have h2 : 0 < ((pdf.take (j + 1)).drop (i + 1)).sum := by
      apply List.sum_pos _ (fun a ha => hp0 a (List.mem_of_mem_take (List.mem_of_mem_drop ha)))
      intro h
      have := congrArg List.length h
      rw [List.length_drop, List.length_take, List.length_nil] at this
      omega
    linarith
  · rw [List.getLast?_eq_getElem?, List.getElem?_eq_getElem (by rw [hlen]; have := List.length_pos_iff.2 hne; omega), hent]
    rw [hlen, List.take_of_length_le (by omega), div_self hsum.ne']

/-- C71: variances that are not positive are rejected with `ValueError`. -/
theorem C71_bad_variance (xs mu vars p : List ℝ) (v : ℝ) (hv : v ∈ vars) (h0 : v ≤ 0) : Raises (gmdistribution xs mu vars p) .valueError := by
  unfold Raises gmdistribution
  by_cases h : mu.length ≠ p.length ∨ vars.length ≠ p.length
  · rw [if_pos h]
  · rw [if_neg h, if_pos ⟨v, hv, h0⟩]

example : ∃ pdf cdf, gmdistribution [0, 1, 2] [0.2, 1] [0.1, 0.3] [0.25, 0.75] = .ok (pdf, cdf) ∧ cdf.length = 3 := by
  obtain ⟨a, b, h, hl, _⟩ := C71_cdf [0, 1, 2] [0.2, 1] [0.1, 0.3] [0.25, 0.75] (by simp) rfl rfl (by simp; norm_num) (by simp; norm_num)
    ⟨0.25, by simp, by norm_num⟩
  exact ⟨a, b, h, hl⟩

/-! ## C122 -/

/-- C122 is violated: for a scalar (or one-point) input the reported distribution function is one whatever
the point and the mixture. -/
theorem C122_violated_scalar (x : ℝ) (mu vars p : List ℝ) (hm : mu.length = p.length) (hv : vars.length = p.length)
    (hpos : ∀ v ∈ vars, 0 < v) (hw : ∀ w ∈ p, 0 ≤ w) (hw' : ∃ w ∈ p, 0 < w) :
    ∃ d, gmdistributionScalar x mu vars p = .ok (d, 1) := by
  obtain ⟨pdf, cdf, h, hl, _, _, _, hlast, _⟩ := C71_cdf [x] mu vars p (by simp) hm hv hpos hw hw'
  unfold gmdistributionScalar
  rw [h]
  obtain ⟨c, rfl⟩ := List.length_eq_one_iff.1 (by simpa using hl : cdf.length = 1)
  refine ⟨_, by simp only [List.headD_cons]; simp at hlast; rw [hlast]⟩

/-- C122 (the part that holds): the density of a scalar is the density the array code gives at that point.
Missing: the distribution function at a point, which depends on the other grid points. -/
theorem C122_density_partial (x : ℝ) (xs mu vars p : List ℝ) (hm : mu.length = p.length) (hv : vars.length = p.length)
    (hpos : ∀ v ∈ vars, 0 < v) (hw : ∀ w ∈ p, 0 ≤ w) (hw' : ∃ w ∈ p, 0 < w) (k : ℕ) (hk : xs[k]? = some x) :
    ∃ d c pdf cdf, gmdistributionScalar x mu vars p = .ok (d, c) ∧ gmdistribution xs mu vars p = .ok (pdf, cdf) ∧ pdf[k]? = some d := by
  have hx : xs ≠ [] := by rintro rfl; simp at hk
  have h1 := gmdistribution_eq (xs := [x]) (by simp) hm hv hpos hw hw'
  have h2 := gmdistribution_eq hx hm hv hpos hw hw'
  have h3 : ∃ c, gmdistributionScalar x mu vars p = .ok (mixPdf (mu.zip (vars.zip p)) x, c) := by
    unfold gmdistributionScalar
    rw [h1]
    exact ⟨_, rfl⟩
  obtain ⟨c, hc⟩ := h3
  exact ⟨_, c, _, _, hc, h2, by rw [List.getElem?_map, hk]; rfl⟩

example : ∃ d, gmdistributionScalar (-5) [0.2, 1] [0.1, 0.3] [0.25, 0.75] = .ok (d, 1) :=
  C122_violated_scalar (-5) _ _ _ rfl rfl (by simp; norm_num) (by simp; norm_num) ⟨0.25, by simp, by norm_num⟩

/-! ## C72 -/

/-- C72: the sampled value lies in `[-2, 2]` for a grid in `[-2, 2]`, for every CDF array and every number. -/
theorem C72_bounded (x cdf : List ℝ) (hlen : cdf.length ≤ x.length) (hx2 : ∀ v ∈ x, -2 ≤ v ∧ v ≤ 2) (r : ℝ) :
    ∃ s, inverseSample x cdf r = .ok s ∧ -2 ≤ s ∧ s ≤ 2 := by
  unfold inverseSample
  rw [knots_ok hlen]
  refine ⟨_, rfl, ?_⟩
  apply interp_bounds _ (by simp)
  intro p hp
  simp only [List.cons_append, List.mem_cons, List.mem_append, List.mem_map, List.not_mem_nil, or_false] at hp
  rcases hp with rfl | ⟨q, hq, rfl⟩ | rfl
  · norm_num
  · obtain ⟨hk, _⟩ := uniqueIdx_mem hq
    rw [List.getD_eq_getElem x 0 (by omega : q.2 < x.length)]
    exact hx2 _ (List.getElem_mem _)
  · norm_num

/-- C72: sampling is monotone in the uniform number for an increasing grid in `[-2, 2]` and a nondecreasing CDF in `[0, 1]`. -/
theorem C72_monotone (x cdf : List ℝ) (hlen : cdf.length ≤ x.length) (hx : x.Pairwise (· ≤ ·)) (hc : cdf.Pairwise (· ≤ ·))
    (hx2 : ∀ v ∈ x, -2 ≤ v ∧ v ≤ 2) (hc1 : ∀ v ∈ cdf, 0 ≤ v ∧ v ≤ 1) (r r' : ℝ) (hr : r ≤ r') :
    ∃ s s', inverseSample x cdf r = .ok s ∧ inverseSample x cdf r' = .ok s' ∧ s ≤ s' := by
  unfold inverseSample
  rw [knots_ok hlen]
  exact ⟨_, _, rfl, rfl, interp_mono _ (knots_pairwise hx hc hlen hx2 hc1) hr⟩

/-- C72: below zero and above one the padding values are returned. -/
theorem C72_outside (x cdf : List ℝ) (hlen : cdf.length ≤ x.length) (hc1 : ∀ v ∈ cdf, v ≤ 1) (r : ℝ) :
    (r < 0 → inverseSample x cdf r = .ok (-2)) ∧ (1 < r → inverseSample x cdf r = .ok 2) := by
  unfold inverseSample
  rw [knots_ok hlen]
  constructor
  · intro hr
    generalize (uniqueIdx cdf).map (fun p => (p.1, x.getD p.2 0)) = l
    cases l <;> simp [interp, hr]
  · intro hr
    simp only
    congr 1
    have key : ∀ l : List (ℝ × ℝ), (∀ p ∈ l, p.1 ≤ 1) → interp (l ++ [(1, 2)]) r = 2 := by
      intro l
      induction l with
      | nil => intro _; simp [interp]
      | cons a l ih =>
        intro h
        have ha := h a (by simp)
        have hi := ih fun p hp => h p (by simp [hp])
        cases l with
        | nil =>
          simp only [List.nil_append, List.cons_append] at hi ⊢
          rw [interp, if_neg (by linarith), if_neg (by simp only; linarith)]
          exact hi
        | cons b l =>
          have hb := h b (by simp)
          simp only [List.cons_append] at hi ⊢
          rw [interp, if_neg (by linarith), if_neg (by linarith)]
          exact hi
    apply key
    intro p hp
    rcases List.mem_cons.1 hp with rfl | hp
    · norm_num
    · obtain ⟨q, hq, rfl⟩ := List.mem_map.1 hp
      obtain ⟨hk, he⟩ := uniqueIdx_mem hq
      simp only [he]
      exact hc1 _ (List.getElem_mem hk)

example : ∃ s s', inverseSample [-1, 0, 1] [0.2, 0.2, 1] 0.1 = .ok s ∧ inverseSample [-1, 0, 1] [0.2, 0.2, 1] 0.7 = .ok s' ∧ s ≤ s' :=
  C72_monotone [-1, 0, 1] [0.2, 0.2, 1] (by simp) (by simp) (by simp; norm_num) (by simp; norm_num) (by simp; norm_num) _ _ (by norm_num)

/-! ## C123 -/

/-- C123 (the part that holds): at a CDF value below one, sampling returns the first grid point with that CDF value.
Missing: the CDF value one (see `C123_violated_last`). -/
theorem C123_nodes_partial (x cdf : List ℝ) (hlen : x.length = cdf.length) (hc : cdf.Pairwise (· ≤ ·))
    (hc1 : ∀ v ∈ cdf, 0 ≤ v ∧ v ≤ 1) (k : ℕ) (hk : k < cdf.length) (hlt : cdf[k] < 1)
    (hfirst : ∀ (j : ℕ) (hj : j < k), cdf[j] < cdf[k]) : inverseSample x cdf cdf[k] = .ok (x[k]'(hlen ▸ hk)) := by
  unfold inverseSample
  rw [knots_ok (by omega)]
  simp only
  congr 1
  have hmem := uniqueIdx_first hc k hk hfirst
  obtain ⟨l1, l2, hsplit⟩ := List.append_of_mem hmem
  have hstrict := uniqueIdx_strict cdf
  rw [hsplit] at hstrict ⊢
  have h1 := (List.pairwise_append.1 hstrict).2.2
  have h2 := List.pairwise_cons.1 (List.pairwise_append.1 hstrict).2.1
  set g : ℝ × ℕ → ℝ × ℝ := fun p => (p.1, x.getD p.2 0) with hg
  have := interp_at ((0, -2) :: l1.map g) (l2.map g ++ [(1, 2)]) (g (cdf[k], k)) ?_ ?_
  · rw [List.map_append, List.map_cons]
    simp only [List.cons_append, List.append_assoc] at this ⊢
    rw [show cdf[k] = (g (cdf[k], k)).1 from rfl]
    refine this.trans ?_
    simp only [hg]
    rw [List.getD_eq_getElem x 0 (by omega : k < x.length)]
  · intro q hq
    rcases List.mem_cons.1 hq with rfl | hq
    · exact (hc1 _ (List.getElem_mem hk)).1
    · obtain ⟨s, hs, rfl⟩ := List.mem_map.1 hq
      exact (h1 s hs (cdf[k], k) (by simp)).le
  · intro q hq
    rcases List.mem_append.1 hq with hq | hq
    · obtain ⟨s, hs, rfl⟩ := List.mem_map.1 hq
      exact h2.1 s hs
    · rw [List.mem_singleton] at hq
      subst hq
      exact hlt

/-- C123 is violated at the end of the grid: for the sample one, the value is the padding `2.0` whatever the grid,
although the last grid point has distribution function one. -/
theorem C123_violated_last (x cdf : List ℝ) (hlen : cdf.length ≤ x.length) (hc1 : ∀ v ∈ cdf, v ≤ 1) : inverseSample x cdf 1 = .ok 2 := by
  unfold inverseSample
  rw [knots_ok hlen]
  simp only
  congr 1
  have := interp_at ((0, -2) :: (uniqueIdx cdf).map fun p => (p.1, x.getD p.2 0)) [] (1, 2) ?_ (by simp)
  · exact this
  · intro q hq
    rcases List.mem_cons.1 hq with rfl | hq
    · norm_num
    · obtain ⟨s, hs, rfl⟩ := List.mem_map.1 hq
      obtain ⟨hk, he⟩ := uniqueIdx_mem hs
      simp only [he]
      exact hc1 _ (List.getElem_mem hk)

example : inverseSample [-1, 0, 1] [0.2, 0.6, 1] 0.6 = .ok 0 :=
  C123_nodes_partial [-1, 0, 1] [0.2, 0.6, 1] rfl (by simp; norm_num) (by simp; norm_num) 1 (by simp) (by norm_num)
    (by intro j hj; obtain rfl : j = 0 := by omega
        norm_num)

example : inverseSample [-1, 0, 1] [0.2, 0.6, 1] 1 = .ok 2 := C123_violated_last _ _ (by simp) (by simp; norm_num)

/-! ## C73 -/

theorem sigmoid_pos (x a c : ℝ) : 0 < sigmoid x a c := by unfold sigmoid; positivity

theorem sigmoid_lt_one (x a c : ℝ) : sigmoid x a c < 1 := by
  unfold sigmoid
  rw [div_lt_one (by positivity)]
  linarith [Real.exp_pos (-a * (x - c))]

theorem sigmoid_mono {a : ℝ} (ha : 0 ≤ a) (c : ℝ) {x y : ℝ} (h : x ≤ y) : sigmoid x a c ≤ sigmoid y a c := by
  unfold sigmoid
  apply one_div_le_one_div_of_le (by positivity)
  have : Real.exp (-a * (y - c)) ≤ Real.exp (-a * (x - c)) := Real.exp_le_exp.2 (by nlinarith)
  linarith

theorem processParams_ok (K : ℝ) (P : Params) (h0 : 0 ≤ P.comp0) (h1 : P.comp0 ≤ 1) : ∃ m, processParams K P = .ok m ∧
    m.w1 = 1 - P.comp0 * sigmoid K P.comp1 P.comp2 ∧ m.w2 = 1 - m.w1 ∧ 0 < m.w1 ∧
    m.mu2 = P.mean0 * m.w1 * K + P.mean1 * (1 - m.w1) * (K - P.mean2) ∧ m.mu1 = (K - m.w2 * m.mu2) / m.w1 ∧
    m.var1 = (P.cloud0 * sigmoid K P.cloud1 P.cloud2) ^ 2 ∧ m.var2 = (P.clear0 * (1 - sigmoid K P.clear1 P.clear2)) ^ 2 ∧
    m.k = decay K P.corrQuadr := by
  have hs0 := sigmoid_pos K P.comp1 P.comp2
  have hs1 := sigmoid_lt_one K P.comp1 P.comp2
  have hw : 0 < 1 - P.comp0 * sigmoid K P.comp1 P.comp2 := by nlinarith
  unfold processParams
  simp only
  rw [if_neg hw.ne']
  exact ⟨_, rfl, rfl, rfl, hw, rfl, rfl, rfl, rfl, rfl⟩

/-- C73: the weights are in `[0, 1]`, sum to one (the cloudy weight is positive), the weighted mean of the components
is the requested mean, for every mean and every parameter set with `comp[0]` in `[0, 1]`. -/
theorem C73_mean (K : ℝ) (P : Params) (h0 : 0 ≤ P.comp0) (h1 : P.comp0 ≤ 1) : ∃ m, processParams K P = .ok m ∧
    0 < m.w1 ∧ m.w1 ≤ 1 ∧ 0 ≤ m.w2 ∧ m.w2 < 1 ∧ m.w1 + m.w2 = 1 ∧ m.w1 * m.mu1 + m.w2 * m.mu2 = K := by
  obtain ⟨m, hm, hw1, hw2, hpos, hmu2, hmu1, _⟩ := processParams_ok K P h0 h1
  have hs0 := sigmoid_pos K P.comp1 P.comp2
  refine ⟨m, hm, hpos, ?_, ?_, ?_, ?_, ?_⟩
  · rw [hw1]; nlinarith
  · rw [hw2, hw1]; nlinarith
  · rw [hw2]; linarith
  · rw [hw2]; ring
  · rw [hmu1, mul_div_cancel₀ _ hpos.ne']; ring

/-- C73: both variances are positive when the maximal standard deviations are not zero, so the mixture is accepted. -/
theorem C73_variances (K : ℝ) (P : Params) (h0 : 0 ≤ P.comp0) (h1 : P.comp0 ≤ 1) (hc : P.cloud0 ≠ 0) (hk : P.clear0 ≠ 0) :
    ∃ m, processParams K P = .ok m ∧ 0 < m.var1 ∧ 0 < m.var2 ∧ m.var1 ≤ P.cloud0 ^ 2 ∧ m.var2 ≤ P.clear0 ^ 2 := by
  obtain ⟨m, hm, _, _, _, _, _, hv1, hv2, _⟩ := processParams_ok K P h0 h1
  have a0 := sigmoid_pos K P.cloud1 P.cloud2
  have a1 := sigmoid_lt_one K P.cloud1 P.cloud2
  have b0 := sigmoid_pos K P.clear1 P.clear2
  have b1 := sigmoid_lt_one K P.clear1 P.clear2
  have hb : 0 < 1 - sigmoid K P.clear1 P.clear2 := by linarith
  refine ⟨m, hm, by rw [hv1]; positivity, by rw [hv2]; have := hb.ne'; positivity, ?_, ?_⟩
  · rw [hv1, mul_pow]
    nlinarith [sq_nonneg P.cloud0, pow_le_one₀ a0.le a1.le (n := 2)]
  · rw [hv2, mul_pow]
    nlinarith [sq_nonneg P.clear0, pow_le_one₀ hb.le (by linarith : 1 - sigmoid K P.clear1 P.clear2 ≤ 1) (n := 2)]

/-- C73: a higher mean clear-sky index never gets a larger cloudy weight (slope parameter not negative). -/
theorem C73_weight_monotone (K K' : ℝ) (hK : K ≤ K') (P : Params) (h0 : 0 ≤ P.comp0) (h1 : P.comp0 ≤ 1) (hs : 0 ≤ P.comp1) :
    ∃ m m', processParams K P = .ok m ∧ processParams K' P = .ok m' ∧ m'.w1 ≤ m.w1 := by
  obtain ⟨m, hm, hw, _⟩ := processParams_ok K P h0 h1
  obtain ⟨m', hm', hw', _⟩ := processParams_ok K' P h0 h1
  refine ⟨m, m', hm, hm', ?_⟩
  rw [hw, hw']
  have := mul_le_mul_of_nonneg_left (sigmoid_mono hs P.comp2 hK) h0
  linarith

/-- C73: with the default parameters the whole `_solar_gmm` succeeds for every mean, on every nonempty grid, and
returns a strictly increasing CDF ending at one. -/
theorem C73_solar_gmm (csi : List ℝ) (hne : csi ≠ []) (K : ℝ) (P : Params) (h0 : 0 ≤ P.comp0) (h1 : P.comp0 ≤ 1)
    (hc : P.cloud0 ≠ 0) (hk : P.clear0 ≠ 0) : ∃ pdf cdf k, solarGmm csi K P = .ok (pdf, cdf, k) ∧ pdf.length = csi.length ∧ cdf.length = csi.length ∧
      (∀ v ∈ cdf, 0 < v ∧ v ≤ 1) ∧ cdf.Pairwise (· < ·) ∧ cdf.getLast? = some 1 ∧ k = decay K P.corrQuadr := by
  obtain ⟨m, hm, hw1, _, hw2, _⟩ := C73_mean K P h0 h1
  obtain ⟨m', hm', hv1, hv2, _⟩ := C73_variances K P h0 h1 hc hk
  obtain ⟨m'', hm'', _, _, _, _, _, _, _, hkk⟩ := processParams_ok K P h0 h1
  rw [hm] at hm' hm''
  cases hm'
  cases hm''
  have hp1 : ∀ v ∈ [m.var1, m.var2], 0 < v := by simp [hv1, hv2]
  have hp2 : ∀ w ∈ [m.w1, m.w2], 0 ≤ w := by simp [hw1.le, hw2]
  have hp3 : ∃ w ∈ [m.w1, m.w2], 0 < w := ⟨m.w1, by simp, hw1⟩
  obtain ⟨pdf, cdf, h, hl, _, hb, hp, hlast, _⟩ := C71_cdf csi [m.mu1, m.mu2] [m.var1, m.var2] [m.w1, m.w2] hne rfl rfl hp1 hp2 hp3
  refine ⟨pdf, cdf, m.k, ?_, ?_, hl, hb, hp, hlast, hkk⟩
  · unfold solarGmm
    rw [hm]
    simp only [h]
  · have h' := gmdistribution_eq (xs := csi) (mu := [m.mu1, m.mu2]) (vars := [m.var1, m.var2]) (p := [m.w1, m.w2]) hne rfl rfl hp1 hp2 hp3
    rw [h] at h'
    cases h'
    simp

theorem default_comp : 0 ≤ defaultParams.comp0 ∧ defaultParams.comp0 ≤ 1 ∧ 0 ≤ defaultParams.comp1 ∧ defaultParams.cloud0 ≠ 0 ∧ defaultParams.clear0 ≠ 0 := by
  simp only [defaultParams]; norm_num

example : ∃ m, processParams 0.52 defaultParams = .ok m ∧ m.w1 * m.mu1 + m.w2 * m.mu2 = 0.52 := by
  obtain ⟨m, h, _, _, _, _, _, h2⟩ := C73_mean 0.52 defaultParams default_comp.1 default_comp.2.1
  exact ⟨m, h, h2⟩

/-! ## C124 -/

/-- C124 is violated: with the default parameters and mean clear-sky index 0, the "clear" component has a negative
mean, below the "cloudy" one. -/
theorem C124_violated_overcast : ∃ m, processParams 0 defaultParams = .ok m ∧ m.mu2 < 0 ∧ 0 < m.mu1 ∧ m.mu2 < m.mu1 := by
  obtain ⟨m, hm, hw1, hw2, hpos, hmu2, hmu1, _⟩ := processParams_ok 0 defaultParams default_comp.1 default_comp.2.1
  have hs0 := sigmoid_pos 0 defaultParams.comp1 defaultParams.comp2
  have hw2p : 0 < m.w2 := by
    rw [hw2, hw1]
    have : 0 < defaultParams.comp0 := by simp only [defaultParams]; norm_num
    have := mul_pos this hs0
    linarith
  have h2 : m.mu2 < 0 := by
    rw [hmu2, ← hw2]
    simp only [defaultParams]
    nlinarith
  have h1 : 0 < m.mu1 := by
    rw [hmu1]
    apply div_pos _ hpos
    nlinarith
  exact ⟨m, hm, h2, h1, h2.trans h1⟩

/-- C124 (the part that holds): the clear component is not below the requested mean exactly when the cloudy one is
not above it, so whenever the clear mean is at least the requested mean the order is right.
Missing: the clear mean is at least the requested mean for every mean in [0, 1]. -/
theorem C124_order_partial (K : ℝ) (P : Params) (h0 : 0 < P.comp0) (h1 : P.comp0 ≤ 1) :
    ∃ m, processParams K P = .ok m ∧ (K ≤ m.mu2 ↔ m.mu1 ≤ K) ∧ (m.mu1 ≤ m.mu2 ↔ K ≤ m.mu2) := by
  obtain ⟨m, hm, hw1, hw2, hpos, hmu2, hmu1, _⟩ := processParams_ok K P h0.le h1
  have hs0 := sigmoid_pos K P.comp1 P.comp2
  have hw2p : 0 < m.w2 := by
    rw [hw2, hw1]
    have := mul_pos h0 hs0
    linarith
  have hsum : m.w1 * m.mu1 + m.w2 * m.mu2 = K := by rw [hmu1, mul_div_cancel₀ _ hpos.ne']; ring
  have h12 : m.w2 = 1 - m.w1 := hw2
  have e1 : m.mu2 - K = m.w1 * (m.mu2 - m.mu1) := by rw [← hsum, h12]; ring
  have e2 : K - m.mu1 = m.w2 * (m.mu2 - m.mu1) := by rw [← hsum, h12]; ring
  have i1 : K ≤ m.mu2 ↔ m.mu1 ≤ m.mu2 := by
    rw [← sub_nonneg, e1, mul_nonneg_iff_of_pos_left hpos, sub_nonneg]
  have i2 : m.mu1 ≤ K ↔ m.mu1 ≤ m.mu2 := by
    rw [← sub_nonneg, e2, mul_nonneg_iff_of_pos_left hw2p, sub_nonneg]
  exact ⟨m, hm, i1.trans i2.symm, i1.symm⟩

theorem exp_ge_pow {y : ℝ} (h : -8 ≤ y) : (1 + y / 8) ^ 8 ≤ Real.exp y := by
  have h1 : 1 + y / 8 ≤ Real.exp (y / 8) := by linarith [Real.add_one_le_exp (y / 8)]
  have h2 := pow_le_pow_left₀ (by linarith : 0 ≤ 1 + y / 8) h1 8
  rw [← Real.exp_nat_mul] at h2
  have h3 : ((8 : ℕ) : ℝ) * (y / 8) = y := by push_cast; ring
  rwa [h3] at h2

/-- `exp (-a (K - c))` on an interval, from a bound at its right end. -/
theorem exp_interval {K b v : ℝ} (hb : K ≤ b) (h1 : -8 ≤ -7.3605 * (b - 0.7092)) (h : v ≤ (1 + -7.3605 * (b - 0.7092) / 8) ^ 8) :
    v ≤ Real.exp (-7.3605 * (K - 0.7092)) :=
  h.trans ((exp_ge_pow h1).trans (Real.exp_le_exp.2 (by linarith)))

/-- C124 (the part that holds, default parameters): for every mean from 0.01 to 1 the cloudy mean is below the clear mean,
and the requested mean lies between. Missing: means between 0 and 0.01, where the claim is false (`C124_violated_overcast`). -/
theorem C124_default_partial (K : ℝ) (h0 : 0.01 ≤ K) (h1 : K ≤ 1) :
    ∃ m, processParams K defaultParams = .ok m ∧ m.mu1 ≤ K ∧ K ≤ m.mu2 := by
  obtain ⟨m, hm, hi1, _⟩ := C124_order_partial K defaultParams (by simp only [defaultParams]; norm_num) default_comp.2.1
  obtain ⟨m', hm', hw1, hw2, hpos, hmu2, hmu1, _⟩ := processParams_ok K defaultParams default_comp.1 default_comp.2.1
  rw [hm] at hm'
  cases hm'
  suffices h : K ≤ m.mu2 from ⟨m, hm, hi1.1 h, h⟩
  have hK : 0 < K := by linarith
  set E := Real.exp (-7.3605 * (K - 0.7092)) with hE
  have hE0 : 0 < E := Real.exp_pos _
  have key : 0.3049 ≤ (E + 0.2447) * K := by
    rcases le_total K 0.02 with h2 | h2
    · have := exp_interval (v := 40) h2 (by norm_num) (by norm_num)
      nlinarith
    rcases le_total K 0.06 with h3 | h3
    · have := exp_interval (v := 20) h3 (by norm_num) (by norm_num)
      nlinarith
    rcases le_total K 0.3 with h4 | h4
    · have := exp_interval (v := 10) h4 (by norm_num) (by norm_num)
      nlinarith
    rcases le_total K 0.7092 with h5 | h5
    · have := exp_interval (v := 1) h5 (by norm_num) (by norm_num)
      nlinarith
    rcases le_total K 0.9 with h6 | h6
    · have := exp_interval (v := 0.21) h6 (by norm_num) (by norm_num)
      nlinarith
    rcases le_total K 0.95 with h7 | h7
    · have := exp_interval (v := 0.13) h7 (by norm_num) (by norm_num)
      nlinarith
    · have := exp_interval (v := 0.082) h1 (by norm_num) (by norm_num)
      nlinarith
  have hsig : sigmoid K defaultParams.comp1 defaultParams.comp2 = 1 / (1 + E) := rfl
  have hc0 : defaultParams.comp0 = 0.8051 := rfl
  rw [hmu2, hw1, hsig, hc0]
  simp only [show defaultParams.mean0 = 2.2928 from rfl, show defaultParams.mean1 = 1.0801 from rfl, show defaultParams.mean2 = 0.4532 from rfl]
  have hd : 0 < 1 + E := by linarith
  have hs : (1 / (1 + E)) * (1 + E) = 1 := by field_simp
  set t := 1 / (1 + E) with ht
  have ht0 : 0 < t := by positivity
  have h3 : 0.3049 * t ≤ (1 - t + 0.2447 * t) * K := by
    have : (E + 0.2447) * K * t = (1 - t + 0.2447 * t) * K := by
      have : E * t = 1 - t := by linarith
      linear_combination K * this
    rw [← this]
    nlinarith
  nlinarith

example : ∃ m, processParams 0.5 defaultParams = .ok m ∧ (0.5 ≤ m.mu2 ↔ m.mu1 ≤ 0.5) := by
  obtain ⟨m, h, h2, _⟩ := C124_order_partial 0.5 defaultParams (by simp only [defaultParams]; norm_num) default_comp.2.1
  exact ⟨m, h, h2⟩

/-! ## C76 -/

/-- C76: the decay parameter is `p K (1 - K)`, but at least `10⁻⁵`. -/
theorem C76_value (K p : ℝ) : decay K p = max (p * K * (1 - K)) (1 / 100000) := by
  unfold decay
  simp only
  split_ifs with h
  · rw [max_eq_right h.le]
  · rw [max_eq_left (not_lt.1 h)]

/-- C76: larger quadratic parameter, faster decay (mean in `[0, 1]`). -/
theorem C76_monotone_p (K p p' : ℝ) (h0 : 0 ≤ K) (h1 : K ≤ 1) (hp : p ≤ p') : decay K p ≤ decay K p' := by
  rw [C76_value, C76_value]
  apply max_le_max _ le_rfl
  have := mul_nonneg h0 (by linarith : 0 ≤ 1 - K)
  nlinarith

/-- C76 (the part that holds of "higher K, slower decay"): for means from one half upwards. Missing: means below one half. -/
theorem C76_monotone_K_partial (K K' p : ℝ) (hp : 0 ≤ p) (h : 1 / 2 ≤ K) (hK : K ≤ K') : decay K' p ≤ decay K p := by
  rw [C76_value, C76_value]
  apply max_le_max _ le_rfl
  have : K' * (1 - K') ≤ K * (1 - K) := by nlinarith
  nlinarith

/-- C76 is violated below one half: with any `p` above `10⁻³`, raising the mean from 0.1 to 0.5 makes the decay faster. -/
theorem C76_violated_K (p : ℝ) (hp : 1 / 1000 < p) : decay 0.1 p < decay 0.5 p := by
  rw [C76_value, C76_value]
  rw [max_eq_left (by nlinarith), max_eq_left (by nlinarith)]
  nlinarith

example : decay 0.1 0.0043 < decay 0.5 0.0043 := C76_violated_K _ (by norm_num)

/-! ## C125 -/

/-- C125 (the part that holds): arrays of two or more means give the elementwise result. Missing: one-element arrays. -/
theorem C125_elementwise_partial (K : List ℝ) (p : ℝ) (h : 2 ≤ K.length) :
    decayArr K p = .list (K.map fun k : ℝ => max (p * k * (1 - k)) (1 / 100000)) := by
  match K, h with
  | a :: b :: l, _ =>
    simp only [decayArr]
    congr 1
    apply List.map_congr_left
    intro k _
    exact C76_value k p

/-- C125 is violated for one-element arrays: below the threshold the array is replaced by a number. -/
theorem C125_violated_one (k p : ℝ) (h : p * k * (1 - k) < 1 / 100000) : decayArr [k] p = .scalar (1 / 100000) := by
  simp only [decayArr]
  rw [if_pos h]

example : decayArr [1] 0.0043 = .scalar (1 / 100000) := C125_violated_one _ _ (by norm_num)
example : decayArr [1, 0.5] 2 = .list [1 / 100000, 1 / 2] := by
  rw [C125_elementwise_partial _ _ (by simp)]; norm_num

end SST.Copula
