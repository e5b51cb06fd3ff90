import Verif.Model.Copula
import Verif.Proofs.Kernel
import Verif.Proofs.Spatial

/-! Helper lemmas for the copula properties. -/

namespace SST.Copula
open SST SST.Spec

/-! ## Mixture and cumulative sums -/

theorem normPdf_eq (mu x : ℝ) (v : NNReal) : normPdf mu v x = ProbabilityTheory.gaussianPDFReal mu v x := by
  unfold normPdf ProbabilityTheory.gaussianPDFReal
  rw [div_eq_mul_inv, mul_comm]

theorem normPdf_pos (mu x : ℝ) {v : ℝ} (hv : 0 < v) : 0 < normPdf mu v x := by
  unfold normPdf
  have := Real.pi_pos
  positivity

theorem cumsumFrom_length (s : ℝ) (l : List ℝ) : (cumsumFrom s l).length = l.length := by
  induction l generalizing s with
  | nil => rfl
  | cons a l ih => simp [cumsumFrom, ih]

theorem cumsumFrom_getElem (s : ℝ) (l : List ℝ) (k : ℕ) (hk : k < (cumsumFrom s l).length) :
    (cumsumFrom s l)[k] = s + (l.take (k + 1)).sum := by
  induction l generalizing s k with
  | nil => simp [cumsumFrom] at hk
  | cons a l ih =>
    cases k with
    | zero => simp [cumsumFrom]
    | succ k =>
      simp only [cumsumFrom, List.getElem_cons_succ]
      rw [ih]
      simp [add_assoc]

theorem take_sum_le {l : List ℝ} (h : ∀ a ∈ l, 0 ≤ a) (k : ℕ) : (l.take k).sum ≤ l.sum := by
  have h1 : l.sum = (l.take k).sum + (l.drop k).sum := by rw [← List.sum_append, List.take_append_drop]
  have h2 : 0 ≤ (l.drop k).sum := List.sum_nonneg fun a ha => h a (List.mem_of_mem_drop ha)
  linarith

theorem maxFrom_spec (a : ℝ) (l : List ℝ) : maxFrom a l ∈ a :: l ∧ ∀ b ∈ a :: l, b ≤ maxFrom a l := by
  induction l generalizing a with
  | nil => simp [maxFrom]
  | cons c l ih =>
    have := ih (max a c)
    simp only [maxFrom, List.foldl_cons] at this ⊢
    obtain ⟨h1, h2⟩ := this
    have h3 := h2 (max a c) (by simp)
    refine ⟨?_, ?_⟩
    · rcases List.mem_cons.1 h1 with h | h
      · rw [h]
        rcases max_choice a c with h' | h' <;> rw [h'] <;> simp
      · simp [h]
    · intro b hb
      rcases List.mem_cons.1 hb with rfl | hb
      · exact (le_max_left _ _).trans h3
      · rcases List.mem_cons.1 hb with rfl | hb
        · exact (le_max_right _ _).trans h3
        · exact h2 b (by simp [hb])

theorem maxFrom_cumsum {pdf : List ℝ} (h : ∀ a ∈ pdf, 0 ≤ a) {c : ℝ} {cs : List ℝ} (hc : cumsumFrom 0 pdf = c :: cs) :
    maxFrom c cs = pdf.sum := by
  have hlen := cumsumFrom_length 0 pdf
  rw [hc, List.length_cons] at hlen
  obtain ⟨h1, h2⟩ := maxFrom_spec c cs
  apply le_antisymm
  · rw [← hc] at h1
    obtain ⟨k, hk, hk'⟩ := List.getElem_of_mem h1
    rw [cumsumFrom_getElem] at hk'
    rw [← hk', zero_add]
    exact take_sum_le h _
  · have hk : pdf.length - 1 < (cumsumFrom 0 pdf).length := by rw [cumsumFrom_length]; omega
    have := h2 ((cumsumFrom 0 pdf)[pdf.length - 1]) (by rw [← hc]; exact List.getElem_mem _)
    rw [cumsumFrom_getElem, zero_add, List.take_of_length_le (by omega)] at this
    exact this

theorem mixPdf_pos {mu vars p : List ℝ} (hm : mu.length = p.length) (hv : vars.length = p.length) (hpos : ∀ v ∈ vars, 0 < v)
    (hw : ∀ w ∈ p, 0 ≤ w) (hw' : ∃ w ∈ p, 0 < w) (x : ℝ) : 0 < mixPdf (mu.zip (vars.zip p)) x := by
  unfold mixPdf
  have hnn : ∀ a ∈ (mu.zip (vars.zip p)).map (fun c => c.2.2 * normPdf c.1 c.2.1 x), 0 ≤ a := by
    intro a ha
    obtain ⟨c, hc, rfl⟩ := List.mem_map.1 ha
    have h2 := List.of_mem_zip hc
    have h3 := List.of_mem_zip h2.2
    exact mul_nonneg (hw _ h3.2) (normPdf_pos _ _ (hpos _ h3.1)).le
  obtain ⟨w, hwp, hw0⟩ := hw'
  obtain ⟨k, hk, rfl⟩ := List.getElem_of_mem hwp
  have hterm : p[k] * normPdf (mu[k]'(by omega)) (vars[k]'(by omega)) x ∈ (mu.zip (vars.zip p)).map (fun c => c.2.2 * normPdf c.1 c.2.1 x) := by
    refine List.mem_map.2 ⟨(mu[k]'(by omega), (vars[k]'(by omega)), p[k]), ?_, rfl⟩
    refine List.mem_iff_getElem.2 ⟨k, by simp; omega, by simp⟩
  have hle := List.single_le_sum hnn _ hterm
  have := mul_pos hw0 (normPdf_pos (mu[k]'(by omega)) x (hpos _ (List.getElem_mem (by omega : k < vars.length))))
  linarith

/-- What `gmdistribution` returns for a proper mixture. -/
theorem gmdistribution_eq {xs mu vars p : List ℝ} (hx : xs ≠ []) (hm : mu.length = p.length) (hv : vars.length = p.length)
    (hpos : ∀ v ∈ vars, 0 < v) (hw : ∀ w ∈ p, 0 ≤ w) (hw' : ∃ w ∈ p, 0 < w) :
    gmdistribution xs mu vars p = .ok (xs.map (mixPdf (mu.zip (vars.zip p))),
      (cumsumFrom 0 (xs.map (mixPdf (mu.zip (vars.zip p))))).map fun v => v / (xs.map (mixPdf (mu.zip (vars.zip p)))).sum) := by
  set pdf := xs.map (mixPdf (mu.zip (vars.zip p))) with hpdf
  have hp0 : ∀ a ∈ pdf, 0 < a := by
    intro a ha
    obtain ⟨x, _, rfl⟩ := List.mem_map.1 ha
    exact mixPdf_pos hm hv hpos hw hw' x
  have hne : pdf ≠ [] := by simpa [hpdf] using hx
  have hsum : 0 < pdf.sum := List.sum_pos _ hp0 hne
  unfold gmdistribution
  rw [if_neg (by push Not; exact ⟨hm, hv⟩), if_neg (by push Not; exact hpos), if_neg (by push Not; exact hw)]
  simp only [← hpdf]
  cases hc : cumsumFrom 0 pdf with
  | nil =>
    have := cumsumFrom_length 0 pdf
    rw [hc] at this
    exact absurd (List.length_eq_zero_iff.1 this.symm) hne
  | cons c cs =>
    have hmax := maxFrom_cumsum (fun a ha => (hp0 a ha).le) hc
    simp only [hmax]
    rw [if_neg hsum.ne']

/-! ## Interpolation -/

theorem interp_bounds {a b : ℝ} (k : List (ℝ × ℝ)) (hk : k ≠ []) (h : ∀ p ∈ k, a ≤ p.2 ∧ p.2 ≤ b) (r : ℝ) :
    a ≤ interp k r ∧ interp k r ≤ b := by
  induction k with
  | nil => exact absurd rfl hk
  | cons p l ih =>
    cases l with
    | nil => simpa [interp] using h p (by simp)
    | cons q l =>
      have hp := h p (by simp)
      have hq := h q (by simp)
      simp only [interp]
      split_ifs with h1 h2
      · exact hp
      · push Not at h1
        have hd : 0 < q.1 - p.1 := by linarith
        set t := (r - p.1) / (q.1 - p.1) with ht
        have ht0 : 0 ≤ t := div_nonneg (by linarith) hd.le
        have ht1 : t ≤ 1 := by rw [ht, div_le_one hd]; linarith
        have he : (q.2 - p.2) / (q.1 - p.1) * (r - p.1) + p.2 = (1 - t) * p.2 + t * q.2 := by
          rw [ht]; field_simp; ring
        rw [he]
        constructor
        · nlinarith [mul_le_mul_of_nonneg_left hp.1 (by linarith : 0 ≤ 1 - t), mul_le_mul_of_nonneg_left hq.1 ht0]
        · nlinarith [mul_le_mul_of_nonneg_left hp.2 (by linarith : 0 ≤ 1 - t), mul_le_mul_of_nonneg_left hq.2 ht0]
      · exact ih (by simp) (fun s hs => h s (by simp only [List.mem_cons] at hs ⊢; tauto))

theorem interp_mono (k : List (ℝ × ℝ)) (h : k.Pairwise fun p q => p.1 ≤ q.1 ∧ p.2 ≤ q.2) {r r' : ℝ} (hr : r ≤ r') :
    interp k r ≤ interp k r' := by
  induction k with
  | nil => simp [interp]
  | cons p l ih =>
    cases l with
    | nil => simp [interp]
    | cons q l =>
      have hpq := (List.pairwise_cons.1 h).1 q (by simp)
      have htail := (List.pairwise_cons.1 h).2
      have hlow : ∀ s, p.2 ≤ interp (p :: q :: l) s := by
        intro s
        obtain ⟨M, hM⟩ : ∃ M, ∀ x ∈ p :: q :: l, x.2 ≤ M := by
          refine ⟨((p :: q :: l).map Prod.snd).foldr max p.2, ?_⟩
          intro x hx
          generalize p :: q :: l = L at hx
          induction L with
          | nil => simp at hx
          | cons y L ihL =>
            simp only [List.map_cons, List.foldr_cons]
            rcases List.mem_cons.1 hx with rfl | hx
            · exact le_max_left _ _
            · exact (ihL hx).trans (le_max_right _ _)
        refine (interp_bounds (a := p.2) (b := M) (p :: q :: l) (by simp) ?_ s).1
        intro x hx
        refine ⟨?_, hM x hx⟩
        rcases List.mem_cons.1 hx with rfl | hx
        · exact le_rfl
        · exact ((List.pairwise_cons.1 h).1 x hx).2
      have hlow' : ∀ s, q.2 ≤ interp (q :: l) s := by
        intro s
        obtain ⟨M, hM⟩ : ∃ M, ∀ x ∈ q :: l, x.2 ≤ M := by
          refine ⟨((q :: l).map Prod.snd).foldr max q.2, ?_⟩
          intro x hx
          generalize q :: l = L at hx
          induction L with
          | nil => simp at hx
          | cons y L ihL =>
            simp only [List.map_cons, List.foldr_cons]
            rcases List.mem_cons.1 hx with rfl | hx
            · exact le_max_left _ _
            · exact (ihL hx).trans (le_max_right _ _)
        refine (interp_bounds (a := q.2) (b := M) (q :: l) (by simp) ?_ s).1
        intro x hx
        refine ⟨?_, hM x hx⟩
        rcases List.mem_cons.1 hx with rfl | hx
        · exact le_rfl
        · exact ((List.pairwise_cons.1 htail).1 x hx).2
      by_cases h1 : r < p.1
      · have : interp (p :: q :: l) r = p.2 := by simp [interp, h1]
        rw [this]; exact hlow r'
      · have h1' : ¬ r' < p.1 := by linarith
        by_cases h2 : r < q.1
        · have hd : 0 < q.1 - p.1 := by linarith
          have hsl : 0 ≤ (q.2 - p.2) / (q.1 - p.1) := div_nonneg (by linarith [hpq.2]) hd.le
          by_cases h3 : r' < q.1
          · simp only [interp, h1, h1', h2, h3, if_true, if_false]
            have := mul_le_mul_of_nonneg_left (sub_le_sub_right hr p.1) hsl
            linarith
          · simp only [interp, h1, h1', h2, h3, if_true, if_false]
            have h4 : (q.2 - p.2) / (q.1 - p.1) * (r - p.1) ≤ (q.2 - p.2) / (q.1 - p.1) * (q.1 - p.1) :=
              mul_le_mul_of_nonneg_left (by linarith) hsl
            rw [div_mul_cancel₀ _ hd.ne'] at h4
            linarith [hlow' r']
        · have h3 : ¬ r' < q.1 := by linarith
          simp only [interp, h1, h1', h2, h3, if_false]
          exact ih htail

/-- Interpolation returns the node value at the last node with that abscissa. -/
theorem interp_at (l1 l2 : List (ℝ × ℝ)) (p : ℝ × ℝ) (h1 : ∀ q ∈ l1, q.1 ≤ p.1) (h2 : ∀ q ∈ l2, p.1 < q.1) :
    interp (l1 ++ p :: l2) p.1 = p.2 := by
  induction l1 with
  | nil =>
    cases l2 with
    | nil => simp [interp]
    | cons q l => simp [interp, h2 q (by simp)]
  | cons a l ih =>
    have ha := h1 a (by simp)
    have ih' := ih fun q hq => h1 q (by simp [hq])
    cases l with
    | nil =>
      simp only [List.nil_append, List.cons_append] at ih' ⊢
      simp only [interp, ha.not_gt, lt_irrefl, if_false]
      exact ih'
    | cons b l =>
      have hb := h1 b (by simp)
      simp only [List.cons_append] at ih' ⊢
      simp only [interp, ha.not_gt, hb.not_gt, if_false]
      exact ih'

/-! ## `np.unique` -/

theorem dedupFst_sublist (l : List (ℝ × ℕ)) : (dedupFst l).Sublist l := by
  induction l using dedupFst.induct with
  | case1 => simp [dedupFst]
  | case2 p => simp [dedupFst]
  | case3 p q l h ih => rw [dedupFst, if_pos h]; exact ih.trans (by simp)
  | case4 p q l h ih => rw [dedupFst, if_neg h]; exact ih.cons_cons p

theorem dedupFst_head (p : ℝ × ℕ) (l : List (ℝ × ℕ)) : p ∈ dedupFst (p :: l) := by
  induction l generalizing p with
  | nil => simp [dedupFst]
  | cons q l ih =>
    rw [dedupFst]
    split_ifs with h
    · exact ih p
    · simp

theorem dedupFst_strict (l : List (ℝ × ℕ)) (h : l.Pairwise fun p q => p.1 ≤ q.1) :
    (dedupFst l).Pairwise fun p q => p.1 < q.1 := by
  induction l using dedupFst.induct with
  | case1 => simp [dedupFst]
  | case2 p => simp [dedupFst]
  | case3 p q l hpq ih =>
    rw [dedupFst, if_pos hpq]
    apply ih
    exact h.sublist (by simp)
  | case4 p q l hpq ih =>
    rw [dedupFst, if_neg hpq, List.pairwise_cons]
    refine ⟨?_, ih (List.pairwise_cons.1 h).2⟩
    intro s hs
    have hs' := (dedupFst_sublist _).mem hs
    have h1 := (List.pairwise_cons.1 h).1 q (by simp)
    rcases List.mem_cons.1 hs' with rfl | hs''
    · exact lt_of_le_of_ne h1 hpq
    · exact lt_of_lt_of_le (lt_of_le_of_ne h1 hpq) ((List.pairwise_cons.1 (List.pairwise_cons.1 h).2).1 s hs'')

/-- In a sorted list, an element strictly above all earlier ones is kept. -/
theorem dedupFst_keeps (l1 l2 : List (ℝ × ℕ)) (p : ℝ × ℕ) (h : ∀ q ∈ l1, q.1 < p.1) : p ∈ dedupFst (l1 ++ p :: l2) := by
  induction hn : l1.length generalizing l1 with
  | zero => rw [List.length_eq_zero_iff.1 hn]; exact dedupFst_head p l2
  | succ n ih =>
    cases l1 with
    | nil => simp at hn
    | cons a l =>
      cases l with
      | nil =>
        simp only [List.cons_append, List.nil_append]
        rw [dedupFst, if_neg (h a (by simp)).ne]
        exact List.mem_cons_of_mem _ (dedupFst_head p l2)
      | cons b l =>
        simp only [List.cons_append]
        rw [dedupFst]
        split_ifs with hab
        · exact ih (a :: l) (fun q hq => h q (by simp only [List.mem_cons] at hq ⊢; tauto)) (by simpa using hn)
        · exact List.mem_cons_of_mem _ (ih (b :: l) (fun q hq => h q (by simp only [List.mem_cons] at hq ⊢; tauto)) (by simpa using hn))

theorem uniqueIdx_mem {cdf : List ℝ} {p : ℝ × ℕ} (h : p ∈ uniqueIdx cdf) : ∃ hk : p.2 < cdf.length, p.1 = cdf[p.2] := by
  unfold uniqueIdx at h
  have h1 := (dedupFst_sublist _).mem h
  have h2 := (List.perm_insertionSort _ _).mem_iff.1 h1
  obtain ⟨a, b⟩ := p
  have h3 := List.mem_zipIdx' h2
  exact ⟨h3.1, h3.2⟩

theorem zipIdx_sorted {cdf : List ℝ} (h : cdf.Pairwise (· ≤ ·)) : cdf.zipIdx.Pairwise fun p q => p.1 ≤ q.1 := by
  have h1 : (cdf.zipIdx.map Prod.fst).Pairwise (· ≤ ·) := by rw [List.zipIdx_map_fst]; exact h
  exact List.pairwise_map.1 h1

theorem zipIdx_idx_sorted (cdf : List ℝ) : cdf.zipIdx.Pairwise fun p q => p.2 < q.2 := by
  have h1 : (cdf.zipIdx.map Prod.snd).Pairwise (· < ·) := by
    rw [List.zipIdx_map_snd]; exact List.pairwise_lt_range'
  exact List.pairwise_map.1 h1

theorem uniqueIdx_sorted {cdf : List ℝ} (h : cdf.Pairwise (· ≤ ·)) : uniqueIdx cdf = dedupFst cdf.zipIdx := by
  classical
  unfold uniqueIdx
  congr 1
  apply List.Pairwise.insertionSort_eq
  exact zipIdx_sorted h

theorem uniqueIdx_strict (cdf : List ℝ) : (uniqueIdx cdf).Pairwise fun p q => p.1 < q.1 := by
  classical
  unfold uniqueIdx
  apply dedupFst_strict
  have : IsTrans (ℝ × ℕ) fun p q => p.1 ≤ q.1 := ⟨fun a b c h1 h2 => le_trans h1 h2⟩
  have : Std.Total (α := ℝ × ℕ) fun p q => p.1 ≤ q.1 := ⟨fun a b => le_total a.1 b.1⟩
  exact List.pairwise_insertionSort (fun p q : ℝ × ℕ => p.1 ≤ q.1) _

theorem knots_ok {x cdf : List ℝ} (h : cdf.length ≤ x.length) :
    knots x cdf = .ok ((0, -2) :: (uniqueIdx cdf).map (fun p => (p.1, x.getD p.2 0)) ++ [(1, 2)]) := by
  unfold knots
  simp only
  rw [if_pos]
  intro p hp
  obtain ⟨hk, _⟩ := uniqueIdx_mem hp
  omega

theorem knots_pairwise {x cdf : List ℝ} (hx : x.Pairwise (· ≤ ·)) (hc : cdf.Pairwise (· ≤ ·)) (hlen : cdf.length ≤ x.length)
    (hx2 : ∀ v ∈ x, -2 ≤ v ∧ v ≤ 2) (hc1 : ∀ v ∈ cdf, 0 ≤ v ∧ v ≤ 1) :
    List.Pairwise (fun p q : ℝ × ℝ => p.1 ≤ q.1 ∧ p.2 ≤ q.2)
      ((0, -2) :: (uniqueIdx cdf).map (fun p => (p.1, x.getD p.2 0)) ++ [(1, 2)]) := by
  have hb : ∀ p ∈ uniqueIdx cdf, (0 ≤ p.1 ∧ p.1 ≤ 1) ∧ (-2 ≤ x.getD p.2 0 ∧ x.getD p.2 0 ≤ 2) := by
    intro p hp
    obtain ⟨hk, he⟩ := uniqueIdx_mem hp
    refine ⟨he ▸ hc1 _ (List.getElem_mem hk), ?_⟩
    rw [List.getD_eq_getElem x 0 (by omega : p.2 < x.length)]
    exact hx2 _ (List.getElem_mem _)
  rw [List.cons_append, List.pairwise_cons]
  refine ⟨?_, ?_⟩
  · intro q hq
    rcases List.mem_append.1 hq with hq | hq
    · obtain ⟨p, hp, rfl⟩ := List.mem_map.1 hq
      exact ⟨(hb p hp).1.1, (hb p hp).2.1⟩
    · rw [List.mem_singleton] at hq
      subst hq
      norm_num
  · rw [List.pairwise_append]
    refine ⟨?_, by simp, ?_⟩
    · rw [List.pairwise_map, uniqueIdx_sorted hc]
      have h1 := (zipIdx_sorted hc).sublist (dedupFst_sublist _)
      have h2 := (zipIdx_idx_sorted cdf).sublist (dedupFst_sublist _)
      have h3 := (h1.and h2)
      refine h3.imp_of_mem ?_
      intro p q hp hq hpq
      refine ⟨hpq.1, ?_⟩
      rw [← uniqueIdx_sorted hc] at hp hq
      obtain ⟨hk, _⟩ := uniqueIdx_mem hp
      obtain ⟨hk', _⟩ := uniqueIdx_mem hq
      rw [List.getD_eq_getElem x 0 (by omega : p.2 < x.length), List.getD_eq_getElem x 0 (by omega : q.2 < x.length)]
      exact List.pairwise_iff_getElem.1 hx _ _ _ _ hpq.2
    · intro p hp q hq
      rw [List.mem_singleton] at hq
      subst hq
      obtain ⟨s, hs, rfl⟩ := List.mem_map.1 hp
      exact ⟨(hb s hs).1.2, (hb s hs).2.2⟩

theorem uniqueIdx_first {cdf : List ℝ} (hc : cdf.Pairwise (· ≤ ·)) (k : ℕ) (hk : k < cdf.length)
    (hfirst : ∀ (j : ℕ) (hj : j < k), cdf[j] < cdf[k]) : (cdf[k], k) ∈ uniqueIdx cdf := by
  rw [uniqueIdx_sorted hc]
  have hk' : k < cdf.zipIdx.length := by simpa using hk
  have hsplit : cdf.zipIdx = cdf.zipIdx.take k ++ (cdf[k], k) :: cdf.zipIdx.drop (k + 1) := by
    conv_lhs => rw [← List.take_append_drop k cdf.zipIdx, List.drop_eq_getElem_cons hk']
    simp
  rw [hsplit]
  apply dedupFst_keeps
  intro q hq
  obtain ⟨j, hj, rfl⟩ := List.getElem_of_mem hq
  simp only [List.length_take, List.length_zipIdx] at hj
  simp only [List.getElem_take, List.getElem_zipIdx]
  exact hfirst j (by omega)

end SST.Copula
