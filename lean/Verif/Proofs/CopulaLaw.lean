import Verif.Props.Copula
import Mathlib.Probability.Independence.InfinitePi
import Mathlib.Topology.Order.IntermediateValue

/-! # Law of one value of the copula field: normal scores, the probability integral transform, interpolation between nodes -/

namespace SST.Copula
open SST SST.Spec SST.Spatial MeasureTheory ProbabilityTheory

/-! ## Linear combinations of independent standard normal variables -/

theorem sum_law {Ω : Type} [MeasurableSpace Ω] {P : Measure Ω} [IsProbabilityMeasure P] {z : ℕ → Ω → ℝ}
    (hm : ∀ k, Measurable (z k)) (hi : iIndepFun z P) (hl : ∀ k, P.map (z k) = gaussianReal 0 1) (a : ℕ → ℝ) (d : ℕ) :
    P.map (fun ω => ∑ k ∈ Finset.range d, z k ω * a k) = gaussianReal 0 (∑ k ∈ Finset.range d, (a k ^ 2).toNNReal) := by
  have hm' : ∀ k, Measurable (fun ω => z k ω * a k) := fun k => (hm k).mul_const _
  have hi' : iIndepFun (fun k ω => z k ω * a k) P := hi.comp (fun k x => x * a k) fun k => measurable_id.mul_const _
  have hl' : ∀ k, P.map (fun ω => z k ω * a k) = gaussianReal 0 (a k ^ 2).toNNReal := by
    intro k
    have h := (gaussianReal_mul_const (X := z k) (P := P) ⟨(hm k).aemeasurable, hl k⟩ (a k)).map_eq
    rw [h, mul_zero, mul_one]
    congr 1
    ext
    simp [Real.coe_toNNReal _ (sq_nonneg (a k))]
  have hfun : (fun ω => ∑ k ∈ Finset.range d, z k ω * a k) = ∑ k ∈ Finset.range d, fun ω => z k ω * a k := by
    ext ω
    simp
  rw [hfun]
  clear hfun
  induction d with
  | zero =>
    simp only [Finset.range_zero, Finset.sum_empty, gaussianReal_zero_var]
    rw [show (0 : Ω → ℝ) = fun _ => (0 : ℝ) from rfl, Measure.map_const]
    simp
  | succ d ih =>
    rw [Finset.sum_range_succ, Finset.sum_range_succ]
    have := gaussianReal_add_gaussianReal_of_indepFun (hi'.indepFun_finsetSum_of_notMem hm' (s := Finset.range d) (i := d) (by simp)) ih (hl' d)
    rw [zero_add] at this
    exact this

theorem sum_law_unit {Ω : Type} [MeasurableSpace Ω] {P : Measure Ω} [IsProbabilityMeasure P] {z : ℕ → Ω → ℝ}
    (hm : ∀ k, Measurable (z k)) (hi : iIndepFun z P) (hl : ∀ k, P.map (z k) = gaussianReal 0 1) (a : ℕ → ℝ) (d : ℕ)
    (ha : ∑ k ∈ Finset.range d, a k * a k = 1) :
    P.map (fun ω => ∑ k ∈ Finset.range d, z k ω * a k) = gaussianReal 0 1 := by
  rw [sum_law hm hi hl a d]
  congr 1
  ext
  rw [NNReal.coe_sum, NNReal.coe_one, ← ha]
  apply Finset.sum_congr rfl
  intro k _
  rw [Real.coe_toNNReal _ (sq_nonneg (a k))]
  ring

/-! ## The normal distribution function -/

theorem Phi_strict {a b : ℝ} (h : a < b) : Phi a < Phi b := by
  have hmu : (gaussianReal 0 1) (Set.Ioc a b) ≠ 0 := by
    intro h0
    have := gaussianReal_absolutelyContinuous' 0 (one_ne_zero) h0
    rw [Real.volume_Ioc, ENNReal.ofReal_eq_zero] at this
    linarith
  rw [← measure_cdf (gaussianReal 0 1), StieltjesFunction.measure_Ioc, ne_eq, ENNReal.ofReal_eq_zero] at hmu
  unfold Phi
  push Not at hmu
  linarith

theorem Phi_continuous : Continuous Phi := by
  rw [continuous_iff_continuousAt]
  intro a
  have hmono : Monotone (cdf (gaussianReal 0 1)) := monotone_cdf _
  show ContinuousAt (cdf (gaussianReal 0 1)) a
  rw [hmono.continuousAt_iff_leftLim_eq_rightLim, StieltjesFunction.rightLim_eq]
  have h0 : (gaussianReal 0 1) {a} = 0 := by
    have := nullSingletonClass_gaussianReal (μ := 0) (v := 1) one_ne_zero
    exact measure_singleton a
  rw [← measure_cdf (gaussianReal 0 1), StieltjesFunction.measure_singleton, ENNReal.ofReal_eq_zero] at h0
  have := hmono.leftLim_le (le_refl a)
  linarith

theorem Phi_lt_one (z : ℝ) : Phi z < 1 := lt_of_lt_of_le (Phi_strict (lt_add_one z)) (Phi_mem _).2

theorem Phi_pos (z : ℝ) : 0 < Phi z := lt_of_le_of_lt (Phi_mem (z - 1)).1 (Phi_strict (by linarith))

theorem Phi_surj {u : ℝ} (h0 : 0 < u) (h1 : u < 1) : ∃ q, Phi q = u := by
  obtain ⟨a, ha⟩ : ∃ a, Phi a < u := ((tendsto_cdf_atBot (gaussianReal 0 1)).eventually (gt_mem_nhds h0)).exists
  obtain ⟨b, hb⟩ : ∃ b, u < Phi b := ((tendsto_cdf_atTop (gaussianReal 0 1)).eventually (lt_mem_nhds h1)).exists
  have hab : a ≤ b := by
    by_contra h
    have := Phi_mono (not_le.1 h).le
    linarith
  obtain ⟨q, _, hq⟩ := intermediate_value_Icc hab Phi_continuous.continuousOn ⟨ha.le, hb.le⟩
  exact ⟨q, hq⟩

/-- Probability integral transform. -/
theorem Phi_uniform {Ω : Type} [MeasurableSpace Ω] {P : Measure Ω} {X : Ω → ℝ} (hX : Measurable X)
    (hl : P.map X = gaussianReal 0 1) {u : ℝ} (h0 : 0 < u) (h1 : u < 1) : P {ω | Phi (X ω) ≤ u} = ENNReal.ofReal u := by
  obtain ⟨q, rfl⟩ := Phi_surj h0 h1
  have hset : {ω | Phi (X ω) ≤ Phi q} = X ⁻¹' Set.Iic q := by
    ext ω
    simp only [Set.mem_setOf_eq, Set.mem_preimage, Set.mem_Iic]
    exact ⟨fun h => by by_contra hc; exact absurd h (not_le.2 (Phi_strict (not_le.1 hc))), Phi_mono⟩
  rw [hset, ← Measure.map_apply hX measurableSet_Iic, hl]
  exact (ofReal_cdf (gaussianReal 0 1) q).symm

/-! ## Interpolation on both sides of a node -/

theorem interp_le_node (l1 l2 : List (ℝ × ℝ)) (p : ℝ × ℝ) (h : (l1 ++ p :: l2).Pairwise fun p q => p.1 ≤ q.1 ∧ p.2 ≤ q.2)
    (h1 : l1 ≠ []) {r : ℝ} (hr : r < p.1) : interp (l1 ++ p :: l2) r ≤ p.2 := by
  induction l1 with
  | nil => exact absurd rfl h1
  | cons a l ih =>
    have hap := (List.pairwise_cons.1 h).1 p (by simp)
    cases l with
    | nil =>
      simp only [List.cons_append, List.nil_append, interp]
      split_ifs with h2
      · exact hap.2
      · push Not at h2
        have : (p.2 - a.2) / (p.1 - a.1) * (r - a.1) ≤ p.2 - a.2 := by
          rw [div_mul_eq_mul_div, div_le_iff₀ (by linarith)]
          exact mul_le_mul_of_nonneg_left (by linarith) (by linarith)
        linarith
    | cons b l =>
      have ih' := ih (List.pairwise_cons.1 h).2 (by simp)
      have hab := (List.pairwise_cons.1 h).1 b (by simp)
      have hbp := (List.pairwise_cons.1 (List.pairwise_cons.1 h).2).1 p (by simp)
      simp only [List.cons_append, interp] at ih' ⊢
      split_ifs with h2 h3
      · exact hap.2
      · push Not at h2
        have : (b.2 - a.2) / (b.1 - a.1) * (r - a.1) ≤ b.2 - a.2 := by
          rw [div_mul_eq_mul_div, div_le_iff₀ (by linarith)]
          exact mul_le_mul_of_nonneg_left (by linarith) (by linarith)
        linarith [hbp.2]
      · exact ih'

theorem interp_gt_node (l1 l2 : List (ℝ × ℝ)) (p : ℝ × ℝ) (h : (l1 ++ p :: l2).Pairwise fun p q => p.1 ≤ q.1 ∧ p.2 ≤ q.2)
    (h2 : l2 ≠ []) (hs : ∀ q ∈ l2, p.1 < q.1 ∧ p.2 < q.2) {r : ℝ} (hr : p.1 < r) : p.2 < interp (l1 ++ p :: l2) r := by
  induction l1 with
  | nil =>
    cases l2 with
    | nil => exact absurd rfl h2
    | cons q l =>
      have hq := hs q (by simp)
      simp only [List.nil_append, interp]
      rw [if_neg (by linarith)]
      split_ifs with h3
      · have : 0 < (q.2 - p.2) / (q.1 - p.1) * (r - p.1) := mul_pos (div_pos (by linarith) (by linarith)) (by linarith)
        linarith
      · obtain ⟨M, hM⟩ : ∃ M, ∀ x ∈ q :: l, x.2 ≤ M := by
          refine ⟨((q :: l).map fun x : ℝ × ℝ => |x.2|).sum, fun x hx => (le_abs_self _).trans ?_⟩
          exact List.single_le_sum (by simp only [List.mem_map]; rintro _ ⟨y, _, rfl⟩; exact abs_nonneg _) _ (List.mem_map.2 ⟨x, hx, rfl⟩)
        have hq2 : ∀ x ∈ q :: l, q.2 ≤ x.2 ∧ x.2 ≤ M := by
          intro x hx
          refine ⟨?_, hM x hx⟩
          rcases List.mem_cons.1 hx with rfl | hx
          · exact le_refl _
          · exact ((List.pairwise_cons.1 (List.pairwise_cons.1 h).2).1 x hx).2
        have := (interp_bounds (q :: l) (by simp) hq2 r).1
        linarith
  | cons a l ih =>
    have ih' := ih (List.pairwise_cons.1 h).2
    have hap := (List.pairwise_cons.1 h).1 p (by simp)
    cases l with
    | nil =>
      simp only [List.cons_append, List.nil_append, interp] at ih' ⊢
      rw [if_neg (by linarith), if_neg (by linarith)]
      exact ih'
    | cons b l =>
      have hbp := (List.pairwise_cons.1 (List.pairwise_cons.1 h).2).1 p (by simp)
      simp only [List.cons_append, interp] at ih' ⊢
      rw [if_neg (by linarith), if_neg (by linarith)]
      exact ih'

/-- The interpolated value is at most the `k`-th grid point exactly when the sample is at most the `k`-th CDF value. -/
theorem interp_nodes_le {cdf : List ℝ} (hlen : cdf.length = csiGrid.length) (hp : cdf.Pairwise (· < ·)) (hb : ∀ v ∈ cdf, 0 < v ∧ v ≤ 1)
    (k : ℕ) (hk : k < cdf.length) {r : ℝ} (hr1 : r < 1) :
    interp (nodes cdf) r ≤ csiGrid[k]'(by omega) ↔ r ≤ cdf[k] := by
  have hle : cdf.Pairwise (· ≤ ·) := hp.imp le_of_lt
  have hmem := uniqueIdx_first hle k hk (fun j hj => List.pairwise_iff_getElem.1 hp j k (by omega) hk hj)
  have hpw := knots_pairwise (csiGrid_sorted.imp le_of_lt) hle hlen.le (fun v hv => csiGrid_mem hv) (fun v hv => ⟨(hb v hv).1.le, (hb v hv).2⟩)
  obtain ⟨l1, l2, hsplit⟩ := List.append_of_mem hmem
  have hstrict := uniqueIdx_strict cdf
  set g : ℝ × ℕ → ℝ × ℝ := fun p => (p.1, csiGrid.getD p.2 0) with hg
  have hgk : g (cdf[k], k) = (cdf[k], csiGrid[k]'(by omega)) := by
    rw [hg]
    simp only
    rw [List.getD_eq_getElem csiGrid 0 (by omega : k < csiGrid.length)]
  have hn : nodes cdf = ((0, -2) :: l1.map g) ++ (cdf[k], csiGrid[k]'(by omega)) :: (l2.map g ++ [(1, 2)]) := by
    unfold nodes
    rw [hsplit, ← hgk]
    simp [hg]
  have hpw' : (nodes cdf).Pairwise fun p q : ℝ × ℝ => p.1 ≤ q.1 ∧ p.2 ≤ q.2 := hpw
  rw [hn] at hpw' ⊢
  have hidx : ∀ q ∈ l2, ∃ h : q.2 < cdf.length, q.1 = cdf[q.2] ∧ cdf[k] < q.1 := by
    intro q hq
    obtain ⟨h1, h2⟩ := uniqueIdx_mem (cdf := cdf) (p := q) (by rw [hsplit]; simp [hq])
    rw [hsplit] at hstrict
    exact ⟨h1, h2, (List.pairwise_cons.1 (List.pairwise_append.1 hstrict).2.1).1 q hq⟩
  constructor
  · intro h
    by_contra hc
    push Not at hc
    by_cases hlt : cdf[k] < 1
    · refine absurd h (not_le.2 (interp_gt_node _ _ _ hpw' (by simp) ?_ hc))
      intro q hq
      rcases List.mem_append.1 hq with hq | hq
      · obtain ⟨s, hs, rfl⟩ := List.mem_map.1 hq
        obtain ⟨h1, h2, h3⟩ := hidx s hs
        refine ⟨h3, ?_⟩
        have hks : k < s.2 := by
          by_contra hks
          push Not at hks
          rw [h2] at h3
          rcases hks.lt_or_eq with hks | hks
          · have := List.pairwise_iff_getElem.1 hp s.2 k h1 hk hks
            linarith
          · simp only [hks, lt_self_iff_false] at h3
        simp only [hg]
        rw [List.getD_eq_getElem csiGrid 0 (by omega : s.2 < csiGrid.length)]
        exact List.pairwise_iff_getElem.1 csiGrid_sorted k s.2 (by omega) (by omega) hks
      · simp only [List.mem_singleton] at hq
        subst hq
        refine ⟨hlt, ?_⟩
        simp only [csiGrid, List.getElem_map, List.getElem_range]
        have : (k : ℝ) < 400 := by
          have := csiGrid_length
          exact_mod_cast (by omega : k < 400)
        linarith
    · linarith
  · intro h
    rcases h.lt_or_eq with h | h
    · exact interp_le_node _ _ _ hpw' (by simp) h
    · have h1 : cdf[k] < 1 := h ▸ hr1
      have := C123_nodes_partial csiGrid cdf hlen.symm hle (fun v hv => ⟨(hb v hv).1.le, (hb v hv).2⟩) k hk h1
        (fun j hj => List.pairwise_iff_getElem.1 hp j k (by omega) hk hj)
      unfold inverseSample at this
      rw [knots_ok hlen.le] at this
      simp only [Except.ok.injEq] at this
      have h2 : interp (nodes cdf) cdf[k] = csiGrid[k]'(by omega) := this
      rw [h, ← hn, h2]

end SST.Copula
