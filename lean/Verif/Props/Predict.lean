import Verif.Proofs.Predict

/-!
# Properties C22-C24, C87: `compute_predicted_position` of `field.py`

Specifications: `Spec/Predict.lean`.  The two data sets enter through the cloud vector and the delay
and coherence of every site (`none` = NaN), which are the results of `compute_delays_tf`; because
labels are unique they are given as functions of the label.
-/

namespace SST.Props.Predict
open SST SST.Field SST.Spec SST.Spatial

variable {ι : Type} [DecidableEq ι]

/-- The arrays of one case, in the row order of `pos_utm`. -/
def case (pts : List (ι × Vec)) (V : Vec) (τ γ : ι → Option ℝ) : CloudCase :=
  ⟨V, pts.map fun p => τ p.1, pts.map fun p => γ p.1⟩

/-- The hypothesis on the external sort is satisfiable. -/
example : ∃ sort : SortValues ℕ, IsSortValues sort := exists_sort

theorem ne_of_cross {V1 V2 : Vec} (hX : V1.1 * V2.2 - V1.2 * V2.1 ≠ 0) : V1 ≠ 0 ∧ V2 ≠ 0 :=
  ⟨by rintro rfl; simp at hX, by rintro rfl; simp at hX⟩

private theorem mean_err (pts : List (ι × Vec)) (hn : (pts.map Prod.fst).Nodup) (r V p : Vec) (hV : V ≠ 0)
    (τ γ : ι → Option ℝ) (ref : ι) (ix : List ι) (hne : ix ≠ []) (hix : ∀ l ∈ ix, l ∈ pts.map Prod.fst)
    (href : ref ∉ ix)
    (hw : ∀ q ∈ pts, q.1 ≠ ref → τ q.1 = some (planeDelay q.2 p V)) :
    meanO (ix.filterMap fun l => (siteRow r V (τ l) (γ l) (posOf pts l)).errorDist) =
      some (((p.1 - r.1) * V.1 + (p.2 - r.2) * V.2) / magnitude V) := by
  have hE : ∀ l ∈ ix, (siteRow r V (τ l) (γ l) (posOf pts l)).errorDist =
      some (((p.1 - r.1) * V.1 + (p.2 - r.2) * V.2) / magnitude V) := by
    intro l hl
    obtain ⟨q, hq, rfl⟩ := List.mem_map.1 (hix l hl)
    rw [hw q hq (fun h => href (h ▸ hl)), posOf_mem hn hq]
    exact planeWave_error r V p q.2 hV _
  apply meanO_const
  · obtain ⟨l, hl⟩ := List.exists_mem_of_ne_nil ix hne
    intro h
    rw [List.filterMap_eq_nil_iff] at h
    have := h l hl
    rw [hE l hl] at this; cases this
  · intro x hx
    obtain ⟨l, hl, hl'⟩ := List.mem_filterMap.1 hx
    rw [hE l hl] at hl'
    exact (Option.some.inj hl').symm

/-! ## C22 -/

/-- In coherence mode the reference (strictly best coherence) is the dropped site. -/
private theorem ref_dropped {sort : SortValues ι} (hs : IsSortValues sort) (pts : List (ι × Vec))
    (hn : (pts.map Prod.fst).Nodup) (ref : ι) (r : Vec) (hr : (ref, r) ∈ pts) (n : ℤ) (h2 : 2 ≤ n)
    (F : ι → PosRow) (g : ℝ) (hg : (F ref).coh = some g)
    (hbest : ∀ q ∈ pts, q.1 ≠ ref → ∀ c, (F q.1).coh = some c → c < g)
    (hother : ∃ q ∈ pts, q.1 ≠ ref ∧ (F q.1).coh ≠ none) :
    let S := selectCoherence sort n ((pts.map Prod.fst).map fun l => (l, F l))
    ref ∉ S ∧ S ≠ [] ∧ ∀ l ∈ S, l ∈ pts.map Prod.fst := by
  intro S
  set fin := (pts.map Prod.fst).filter fun l => (F l).coh.isSome with hfin
  have hS : S = (pySlice (sort (fin.map fun l => (l, (F l).coh))) (-n) (-1)).map Prod.fst :=
    selectCoherence_eq sort n _ F
  have hbb := bestButTop hs fin (hn.filter _) (fun l => (F l).coh) n (by omega)
  rw [← hS] at hbb
  obtain ⟨hSn, hSl, hSlen, htop⟩ := hbb
  have hrefm : ref ∈ fin := by
    rw [hfin, List.mem_filter]
    exact ⟨List.mem_map.2 ⟨_, hr, rfl⟩, by simp [hg]⟩
  obtain ⟨q, hq, hqr, hqc⟩ := hother
  have hqm : q.1 ∈ fin := by
    rw [hfin, List.mem_filter]
    exact ⟨List.mem_map_of_mem hq, by simpa [Option.isSome_iff_ne_none] using hqc⟩
  have hlen : 2 ≤ fin.length := by
    have hsub : [ref, q.1] ⊆ fin := by
      intro x hx
      simp at hx
      rcases hx with rfl | rfl <;> assumption
    have hnd : [ref, q.1].Nodup := by simpa using hqr.symm
    simpa using (hnd.subperm hsub).length_le
  obtain ⟨top, ht1, ht2, ht3, -⟩ := htop (List.ne_nil_of_mem hrefm)
  refine ⟨?_, ?_, ?_⟩
  · have : top = ref := by
      by_contra hne
      obtain ⟨hm, hc⟩ := List.mem_filter.1 ht1
      obtain ⟨q', hq', rfl⟩ := List.mem_map.1 hm
      obtain ⟨c, hc⟩ := Option.isSome_iff_exists.1 hc
      have h1 := ht3 ref hrefm
      simp only [hg, hc, nanLE] at h1
      linarith [hbest q' hq' hne c hc]
    rw [← this]; exact ht2
  · intro h
    rw [h] at hSlen
    simp at hSlen
    omega
  · intro l hl
    exact (List.mem_filter.1 (hSl l hl)).1

/-- C22: coherence mode.  Plane-wave delays of the true position `p` at all sites other than the
reference, the reference strictly best in coherence, at least one other site with a finite
coherence, `ndownsel ≥ 2`, cloud vectors not parallel, and a displacement not perpendicular to
either of them: the predicted position is exactly `p`. -/
theorem C22_coherence_exact {sort : SortValues ι} (hs : IsSortValues sort) (pts : List (ι × Vec))
    (hn : (pts.map Prod.fst).Nodup) (ref : ι) (r p : Vec) (hr : (ref, r) ∈ pts)
    (V1 V2 : Vec) (τ1 γ1 τ2 γ2 : ι → Option ℝ) (n : ℤ) (h2 : 2 ≤ n)
    (hX : V1.1 * V2.2 - V1.2 * V2.1 ≠ 0)
    (hw1 : ∀ q ∈ pts, q.1 ≠ ref → τ1 q.1 = some (planeDelay q.2 p V1))
    (hw2 : ∀ q ∈ pts, q.1 ≠ ref → τ2 q.1 = some (planeDelay q.2 p V2))
    (g1 g2 : ℝ) (hg1 : γ1 ref = some g1) (hg2 : γ2 ref = some g2)
    (hb1 : ∀ q ∈ pts, q.1 ≠ ref → ∀ c, γ1 q.1 = some c → c < g1)
    (hb2 : ∀ q ∈ pts, q.1 ≠ ref → ∀ c, γ2 q.1 = some c → c < g2)
    (ho1 : ∃ q ∈ pts, q.1 ≠ ref ∧ γ1 q.1 ≠ none) (ho2 : ∃ q ∈ pts, q.1 ≠ ref ∧ γ2 q.1 ≠ none)
    (hd1 : (p.1 - r.1) * V1.1 + (p.2 - r.2) * V1.2 ≠ 0)
    (hd2 : (p.1 - r.1) * V2.1 + (p.2 - r.2) * V2.2 ≠ 0) :
    ∃ full, predictedPosition sort pts false ref "coherence" n (case pts V1 τ1 γ1) (case pts V2 τ2 γ2) =
      .ok ((.fin p.1, .fin p.2), full) := by
  obtain ⟨hV1, hV2⟩ := ne_of_cross hX
  have m1 := magnitude_pos hV1
  have m2 := magnitude_pos hV2
  obtain ⟨a1, a2, a3⟩ := ref_dropped hs pts hn ref r hr n h2
    (fun l => siteRow r V1 (τ1 l) (γ1 l) (posOf pts l)) g1 hg1 hb1 ho1
  obtain ⟨b1, b2, b3⟩ := ref_dropped hs pts hn ref r hr n h2
    (fun l => siteRow r V2 (τ2 l) (γ2 l) (posOf pts l)) g2 hg2 hb2 ho2
  have hev := predict_eval sort pts hn false ref r hr "coherence" n V1 V2 hV1 hV2 τ1 γ1 τ2 γ2 _ _
    (by simp only [downselect, true_or, if_true]) a3 b3
  rw [mean_err pts hn r V1 p hV1 τ1 γ1 ref _ a2 a3 a1 hw1,
    mean_err pts hn r V2 p hV2 τ2 γ2 ref _ b2 b3 b1 hw2,
    position_solves V1 V2 (p.1 - r.1, p.2 - r.2) _ hX _ _ (div_mul_cancel₀ _ m1.ne')
      (div_mul_cancel₀ _ m2.ne') (div_ne_zero hd1 m1.ne') (div_ne_zero hd2 m2.ne')] at hev
  simp only [Bool.false_eq_true, if_false, sub_add_cancel] at hev
  exact ⟨_, hev⟩

/-- C22: mode 'global_coherence', all coherences finite and the reference strictly best in the sum of
the squared coherences: again exactly `p`. -/
theorem C22_global_exact {sort : SortValues ι} (hs : IsSortValues sort) (pts : List (ι × Vec))
    (hn : (pts.map Prod.fst).Nodup) (ref : ι) (r p : Vec) (hr : (ref, r) ∈ pts)
    (V1 V2 : Vec) (τ1 τ2 : ι → Option ℝ) (g1 g2 : ι → ℝ) (n : ℤ) (h2 : 2 ≤ n) (hN : 2 ≤ pts.length)
    (hX : V1.1 * V2.2 - V1.2 * V2.1 ≠ 0)
    (hw1 : ∀ q ∈ pts, q.1 ≠ ref → τ1 q.1 = some (planeDelay q.2 p V1))
    (hw2 : ∀ q ∈ pts, q.1 ≠ ref → τ2 q.1 = some (planeDelay q.2 p V2))
    (hb : ∀ q ∈ pts, q.1 ≠ ref → g1 q.1 ^ 2 + g2 q.1 ^ 2 < g1 ref ^ 2 + g2 ref ^ 2)
    (hd1 : (p.1 - r.1) * V1.1 + (p.2 - r.2) * V1.2 ≠ 0)
    (hd2 : (p.1 - r.1) * V2.1 + (p.2 - r.2) * V2.2 ≠ 0) :
    ∃ full, predictedPosition sort pts false ref "global_coherence" n
      (case pts V1 τ1 fun l => some (g1 l)) (case pts V2 τ2 fun l => some (g2 l)) =
      .ok ((.fin p.1, .fin p.2), full) := by
  obtain ⟨hV1, hV2⟩ := ne_of_cross hX
  have m1 := magnitude_pos hV1
  have m2 := magnitude_pos hV2
  set val : ι → Option ℝ := fun l => some (g1 l ^ 2 + g2 l ^ 2) with hval
  obtain ⟨i1, i2, i3, i4⟩ := bestButTop hs (pts.map Prod.fst) hn val n (by omega)
  set ix := (pySlice (sort ((pts.map Prod.fst).map fun l => (l, val l))) (-n) (-1)).map Prod.fst with hix
  have hrm : ref ∈ pts.map Prod.fst := List.mem_map.2 ⟨_, hr, rfl⟩
  obtain ⟨top, t1, t2, t3, -⟩ := i4 (List.ne_nil_of_mem hrm)
  have htop : top = ref := by
    by_contra hne
    obtain ⟨q, hq, rfl⟩ := List.mem_map.1 t1
    have h1 := t3 ref hrm
    simp only [val, nanLE] at h1
    linarith [hb q hq hne]
  have hne : ix ≠ [] := by
    intro h; rw [h] at i3; simp at i3; omega
  have hsel : downselect sort "global_coherence" n pts r
      ((pts.map Prod.fst).map fun l => (l, siteRow r V1 (τ1 l) (some (g1 l)) (posOf pts l)))
      ((pts.map Prod.fst).map fun l => (l, siteRow r V2 (τ2 l) (some (g2 l)) (posOf pts l))) = .ok (ix, ix) := by
    have hg : globalCoh ((pts.map Prod.fst).map fun l => (l, siteRow r V1 (τ1 l) (some (g1 l)) (posOf pts l)))
        ((pts.map Prod.fst).map fun l => (l, siteRow r V2 (τ2 l) (some (g2 l)) (posOf pts l))) =
        (pts.map Prod.fst).map fun l => (l, val l) := by
      unfold globalCoh
      rw [List.zipWith_map]
      rw [List.zipWith_self]
      rfl
    simp only [downselect, hg]
    simp [hix]
  have hev := predict_eval sort pts hn false ref r hr "global_coherence" n V1 V2 hV1 hV2 τ1
    (fun l => some (g1 l)) τ2 (fun l => some (g2 l)) ix ix hsel i2 i2
  have hnot : ref ∉ ix := htop ▸ t2
  rw [mean_err pts hn r V1 p hV1 τ1 _ ref _ hne i2 hnot hw1,
    mean_err pts hn r V2 p hV2 τ2 _ ref _ hne i2 hnot hw2,
    position_solves V1 V2 (p.1 - r.1, p.2 - r.2) _ hX _ _ (div_mul_cancel₀ _ m1.ne')
      (div_mul_cancel₀ _ m2.ne') (div_ne_zero hd1 m1.ne') (div_ne_zero hd2 m2.ne')] at hev
  simp only [Bool.false_eq_true, if_false, sub_add_cancel] at hev
  exact ⟨_, hev⟩

/-- The hypotheses are met: two sites, the reference (plan position (0, 0)) really being at (1, 1),
and clouds moving along (1, 0) and (1, 1). -/
example : ∃ sort : SortValues ℕ, ∃ full,
    predictedPosition sort [(0, (0, 0)), (1, (5, 0))] false 0 "coherence" 8
      (case [(0, (0, 0)), (1, (5, 0))] (1, 0)
        (fun l => if l = 0 then some 0 else some (planeDelay (5, 0) (1, 1) (1, 0)))
        (fun l => if l = 0 then some 1 else some 0.5))
      (case [(0, (0, 0)), (1, (5, 0))] (1, 1)
        (fun l => if l = 0 then some 0 else some (planeDelay (5, 0) (1, 1) (1, 1)))
        (fun l => if l = 0 then some 1 else some 0.5)) = .ok ((.fin 1, .fin 1), full) := by
  obtain ⟨sort, hs⟩ := exists_sort (ι := ℕ)
  refine ⟨sort, ?_⟩
  refine C22_coherence_exact hs [(0, (0, 0)), (1, (5, 0))] (by simp) 0 (0, 0) (1, 1) (by simp) (1, 0) (1, 1)
    _ _ _ _ 8 (by norm_num) (by norm_num) ?_ ?_ 1 1 rfl rfl ?_ ?_ ?_ ?_ (by norm_num) (by norm_num)
  · simp
  · simp
  · intro q hq hne c hc
    simp [hne] at hc; rw [← hc]; norm_num
  · intro q hq hne c hc
    simp [hne] at hc; rw [← hc]; norm_num
  · exact ⟨(1, (5, 0)), by simp, by simp, by simp⟩
  · exact ⟨(1, (5, 0)), by simp, by simp, by simp⟩

private theorem mean_shrunk (pts : List (ι × Vec)) (hn : (pts.map Prod.fst).Nodup) (r V p : Vec) (hV : V ≠ 0)
    (τ γ : ι → Option ℝ) (ref : ι) (hr : (ref, r) ∈ pts) (ix : List ι) (hixn : ix.Nodup)
    (hix : ∀ l ∈ ix, l ∈ pts.map Prod.fst) (href : ref ∈ ix) (h0 : τ ref = some 0)
    (hw : ∀ q ∈ pts, q.1 ≠ ref → τ q.1 = some (planeDelay q.2 p V)) :
    meanO (ix.filterMap fun l => (siteRow r V (τ l) (γ l) (posOf pts l)).errorDist) =
      some ((((ix.length - 1 : ℝ) / ix.length) * (p.1 - r.1) * V.1 +
        ((ix.length - 1 : ℝ) / ix.length) * (p.2 - r.2) * V.2) / magnitude V) := by
  set e := ((p.1 - r.1) * V.1 + (p.2 - r.2) * V.2) / magnitude V with he
  have hE : ∀ l ∈ ix, l ≠ ref → (siteRow r V (τ l) (γ l) (posOf pts l)).errorDist = some e := by
    intro l hl hne
    obtain ⟨q, hq, rfl⟩ := List.mem_map.1 (hix l hl)
    rw [hw q hq hne, posOf_mem hn hq]
    exact planeWave_error r V p q.2 hV _
  have hR : (siteRow r V (τ ref) (γ ref) (posOf pts ref)).errorDist = some 0 := by
    have : posOf pts ref = r := posOf_mem hn hr
    rw [h0, this]
    simp [siteRow]
  have hfm : ix.filterMap (fun l => (siteRow r V (τ l) (γ l) (posOf pts l)).errorDist) =
      ix.map fun l => if l = ref then 0 else e := by
    rw [← List.filterMap_eq_map]
    apply List.filterMap_congr
    intro l hl
    by_cases h : l = ref
    · subst h; simp [hR]
    · simp [h, hE l hl h]
  rw [hfm]
  have hne : ix ≠ [] := List.ne_nil_of_mem href
  have hsum : (ix.map fun l => if l = ref then 0 else e).sum = (ix.length - 1 : ℝ) * e := by
    have hp := List.perm_cons_erase href
    rw [(hp.map _).sum_eq]
    have hrest : ∀ l ∈ ix.erase ref, (if l = ref then (0 : ℝ) else e) = e := by
      intro l hl
      rw [if_neg]
      rintro rfl
      exact hixn.not_mem_erase hl
    rw [List.map_cons, List.sum_cons, if_pos rfl, List.map_congr_left hrest]
    have hlen : ((ix.erase ref).length : ℝ) = ix.length - 1 := by
      have := hp.length_eq
      rw [this]; simp
    simp [hlen]
  have hl0 : (ix.length : ℝ) ≠ 0 := by simpa using hne
  have hm := magnitude_pos hV
  unfold meanO mean
  rw [if_neg (by simpa using hne), hsum, List.length_map]
  congr 1
  rw [he]
  field_simp

private theorem shrunk_result {sort : SortValues ι} (pts : List (ι × Vec))
    (hn : (pts.map Prod.fst).Nodup) (ref : ι) (r p : Vec) (hr : (ref, r) ∈ pts)
    (V1 V2 : Vec) (τ1 γ1 τ2 γ2 : ι → Option ℝ) (mode : String) (n : ℤ)
    (hX : V1.1 * V2.2 - V1.2 * V2.1 ≠ 0)
    (hw1 : ∀ q ∈ pts, q.1 ≠ ref → τ1 q.1 = some (planeDelay q.2 p V1))
    (hw2 : ∀ q ∈ pts, q.1 ≠ ref → τ2 q.1 = some (planeDelay q.2 p V2))
    (h01 : τ1 ref = some 0) (h02 : τ2 ref = some 0)
    (hd1 : (p.1 - r.1) * V1.1 + (p.2 - r.2) * V1.2 ≠ 0)
    (hd2 : (p.1 - r.1) * V2.1 + (p.2 - r.2) * V2.2 ≠ 0)
    (ix : List ι) (hixn : ix.Nodup) (hix : ∀ l ∈ ix, l ∈ pts.map Prod.fst) (href : ref ∈ ix)
    (h2 : 2 ≤ ix.length)
    (hd : ∀ d1 d2, downselect sort mode n pts r d1 d2 = .ok (ix, ix)) :
    ∃ full, predictedPosition sort pts false ref mode n (case pts V1 τ1 γ1) (case pts V2 τ2 γ2) =
      .ok ((.fin (r.1 + ((ix.length - 1 : ℝ) / ix.length) * (p.1 - r.1)),
        .fin (r.2 + ((ix.length - 1 : ℝ) / ix.length) * (p.2 - r.2))), full) := by
  obtain ⟨hV1, hV2⟩ := ne_of_cross hX
  have m1 := magnitude_pos hV1
  have m2 := magnitude_pos hV2
  have hev := predict_eval sort pts hn false ref r hr mode n V1 V2 hV1 hV2 τ1 γ1 τ2 γ2 ix ix (hd _ _) hix hix
  have hk : ((ix.length : ℝ) - 1) / ix.length ≠ 0 := by
    have : (2 : ℝ) ≤ ix.length := by exact_mod_cast h2
    apply div_ne_zero <;> linarith
  set k := ((ix.length : ℝ) - 1) / ix.length with hkd
  have e1 : k * (p.1 - r.1) * V1.1 + k * (p.2 - r.2) * V1.2 ≠ 0 := by
    rw [show k * (p.1 - r.1) * V1.1 + k * (p.2 - r.2) * V1.2 =
      k * ((p.1 - r.1) * V1.1 + (p.2 - r.2) * V1.2) by ring]
    exact mul_ne_zero hk hd1
  have e2 : k * (p.1 - r.1) * V2.1 + k * (p.2 - r.2) * V2.2 ≠ 0 := by
    rw [show k * (p.1 - r.1) * V2.1 + k * (p.2 - r.2) * V2.2 =
      k * ((p.1 - r.1) * V2.1 + (p.2 - r.2) * V2.2) by ring]
    exact mul_ne_zero hk hd2
  rw [mean_shrunk pts hn r V1 p hV1 τ1 γ1 ref hr ix hixn hix href h01 hw1,
    mean_shrunk pts hn r V2 p hV2 τ2 γ2 ref hr ix hixn hix href h02 hw2,
    position_solves V1 V2 (k * (p.1 - r.1), k * (p.2 - r.2)) _ hX _ _ (div_mul_cancel₀ _ m1.ne')
      (div_mul_cancel₀ _ m2.ne') (div_ne_zero e1 m1.ne') (div_ne_zero e2 m2.ne')] at hev
  simp only [Bool.false_eq_true, if_false] at hev
  rw [add_comm r.1, add_comm r.2]
  exact ⟨_, hev⟩

/-- C22: mode 'all' includes the reference itself (delay 0), so with `N` sites the predicted
displacement is only (N-1)/N of the true one. -/
theorem C22_all_shrinks (sort : SortValues ι) (pts : List (ι × Vec))
    (hn : (pts.map Prod.fst).Nodup) (ref : ι) (r p : Vec) (hr : (ref, r) ∈ pts)
    (V1 V2 : Vec) (τ1 γ1 τ2 γ2 : ι → Option ℝ) (n : ℤ) (hN : 2 ≤ pts.length)
    (hX : V1.1 * V2.2 - V1.2 * V2.1 ≠ 0)
    (hw1 : ∀ q ∈ pts, q.1 ≠ ref → τ1 q.1 = some (planeDelay q.2 p V1))
    (hw2 : ∀ q ∈ pts, q.1 ≠ ref → τ2 q.1 = some (planeDelay q.2 p V2))
    (h01 : τ1 ref = some 0) (h02 : τ2 ref = some 0)
    (hd1 : (p.1 - r.1) * V1.1 + (p.2 - r.2) * V1.2 ≠ 0)
    (hd2 : (p.1 - r.1) * V2.1 + (p.2 - r.2) * V2.2 ≠ 0) :
    ∃ full, predictedPosition sort pts false ref "all" n (case pts V1 τ1 γ1) (case pts V2 τ2 γ2) =
      .ok ((.fin (r.1 + ((pts.length - 1 : ℝ) / pts.length) * (p.1 - r.1)),
        .fin (r.2 + ((pts.length - 1 : ℝ) / pts.length) * (p.2 - r.2))), full) := by
  have := shrunk_result (sort := sort) pts hn ref r p hr V1 V2 τ1 γ1 τ2 γ2 "all" n hX hw1 hw2 h01 h02 hd1 hd2
    (pts.map Prod.fst) hn (fun _ h => h) (List.mem_map.2 ⟨_, hr, rfl⟩) (by simpa using hN)
    (by intro d1 d2; simp [downselect])
  simpa using this

/-- C22: mode 'distance' with `ndownsel = n ≥ 2` and no other site at the plan position of the
reference: the displacement is shrunk by (k-1)/k with k = min(n, number of sites). -/
theorem C22_distance_shrinks {sort : SortValues ι} (hs : IsSortValues sort) (pts : List (ι × Vec))
    (hn : (pts.map Prod.fst).Nodup) (ref : ι) (r p : Vec) (hr : (ref, r) ∈ pts)
    (V1 V2 : Vec) (τ1 γ1 τ2 γ2 : ι → Option ℝ) (n : ℤ) (h2 : 2 ≤ n) (hN : 2 ≤ pts.length)
    (hX : V1.1 * V2.2 - V1.2 * V2.1 ≠ 0)
    (hdist : ∀ q ∈ pts, q.1 ≠ ref → q.2 ≠ r)
    (hw1 : ∀ q ∈ pts, q.1 ≠ ref → τ1 q.1 = some (planeDelay q.2 p V1))
    (hw2 : ∀ q ∈ pts, q.1 ≠ ref → τ2 q.1 = some (planeDelay q.2 p V2))
    (h01 : τ1 ref = some 0) (h02 : τ2 ref = some 0)
    (hd1 : (p.1 - r.1) * V1.1 + (p.2 - r.2) * V1.2 ≠ 0)
    (hd2 : (p.1 - r.1) * V2.1 + (p.2 - r.2) * V2.2 ≠ 0) :
    let k : ℝ := min n.toNat pts.length
    ∃ full, predictedPosition sort pts false ref "distance" n (case pts V1 τ1 γ1) (case pts V2 τ2 γ2) =
      .ok ((.fin (r.1 + ((k - 1) / k) * (p.1 - r.1)), .fin (r.2 + ((k - 1) / k) * (p.2 - r.2))), full) := by
  intro k
  let val : ι → Option ℝ := fun l => some (magnitude ((posOf pts l).1 - r.1, (posOf pts l).2 - r.2))
  have hsm := smallest hs (pts.map Prod.fst) hn val n (by omega)
  set ix := (pySlice (sort ((pts.map Prod.fst).map fun l => (l, val l))) 0 n).map Prod.fst with hix
  obtain ⟨i1, i2, i3, i4⟩ := hsm
  have hrm : ref ∈ pts.map Prod.fst := List.mem_map.2 ⟨_, hr, rfl⟩
  have hrp : posOf pts ref = r := posOf_mem hn hr
  have hlen : ix.length = min n.toNat pts.length := by simpa using i3
  have hmem : ref ∈ ix := by
    by_contra hnot
    have hne : ix ≠ [] := by
      intro h; rw [h] at hlen; simp at hlen; omega
    obtain ⟨s, hs'⟩ := List.exists_mem_of_ne_nil ix hne
    have hle := i4 s hs' ref hrm hnot
    obtain ⟨q, hq, rfl⟩ := List.mem_map.1 (i2 s hs')
    have hqr : q.1 ≠ ref := fun h => hnot (h ▸ hs')
    simp only [val, hrp, posOf_mem hn hq, nanLE, sub_self] at hle
    have h0 : magnitude ((0 : ℝ), (0 : ℝ)) = 0 := by simp [magnitude]
    rw [h0] at hle
    have hz : magnitude (q.2.1 - r.1, q.2.2 - r.2) = 0 := le_antisymm hle (magnitude_nonneg _)
    rw [magnitude_eq_zero] at hz
    have h1 := congrArg Prod.fst hz
    have h2 := congrArg Prod.snd hz
    simp only [Prod.fst_zero, Prod.snd_zero] at h1 h2
    exact hdist q hq hqr (Prod.ext (by linarith) (by linarith))
  have hsel : ∀ d1 d2, downselect sort "distance" n pts r d1 d2 = .ok (ix, ix) := by
    intro d1 d2
    have hval : (pts.map fun p => (p.1, some (magnitude (p.2.1 - r.1, p.2.2 - r.2)))) =
        (pts.map Prod.fst).map fun l => (l, val l) := by
      rw [List.map_map]
      apply List.map_congr_left
      intro q hq
      simp only [Function.comp_apply, val, posOf_mem hn hq]
    simp only [downselect, hval]
    simp [hix]
  have := shrunk_result (sort := sort) pts hn ref r p hr V1 V2 τ1 γ1 τ2 γ2 "distance" n hX hw1 hw2 h01 h02 hd1 hd2
    ix i1 i2 hmem (by rw [hlen]; omega) hsel
  rw [hlen] at this
  simpa [k] using this

/-! ## C23 -/

/-- C23: mode 'coherence' (and its old name 'preavg'): from the sites with a finite coherence the
best one is dropped and the next `ndownsel - 1` best are used (all of them if there are fewer);
the choice is made separately for the two data sets. -/
theorem C23_coherence {sort : SortValues ι} (hs : IsSortValues sort) (pts : List (ι × Vec))
    (hn : (pts.map Prod.fst).Nodup) (ne : Bool) (ref : ι) (r : Vec) (hr : (ref, r) ∈ pts)
    (V1 V2 : Vec) (hV1 : V1 ≠ 0) (hV2 : V2 ≠ 0) (τ1 γ1 τ2 γ2 : ι → Option ℝ) (n : ℤ) (h1 : 1 ≤ n)
    (mode : String) (hm : mode = "coherence" ∨ mode = "preavg") :
    ∃ pos f1 f2, predictedPosition sort pts ne ref mode n (case pts V1 τ1 γ1) (case pts V2 τ2 γ2) =
      .ok (pos, f1, f2) ∧
      BestButTop ((pts.map Prod.fst).filter fun l => (γ1 l).isSome) γ1 n.toNat (f1.map Prod.fst) ∧
      BestButTop ((pts.map Prod.fst).filter fun l => (γ2 l).isSome) γ2 n.toNat (f2.map Prod.fst) ∧
      (∀ x ∈ f1, x.2.coh = γ1 x.1 ∧ x.2.delay = τ1 x.1) ∧
      (∀ x ∈ f2, x.2.coh = γ2 x.1 ∧ x.2.delay = τ2 x.1) := by
  have B : ∀ (V : Vec) (τ γ : ι → Option ℝ),
      BestButTop ((pts.map Prod.fst).filter fun l => (γ l).isSome) γ n.toNat
        (selectCoherence sort n ((pts.map Prod.fst).map fun l => (l, siteRow r V (τ l) (γ l) (posOf pts l)))) := by
    intro V τ γ
    rw [selectCoherence_eq]
    exact bestButTop hs _ (hn.filter _) γ n h1
  have b1 := B V1 τ1 γ1
  have b2 := B V2 τ2 γ2
  have hev := predict_eval sort pts hn ne ref r hr mode n V1 V2 hV1 hV2 τ1 γ1 τ2 γ2 _ _
    (by simp only [downselect, hm, if_true])
    (fun l hl => (List.mem_filter.1 (b1.2.1 l hl)).1) (fun l hl => (List.mem_filter.1 (b2.2.1 l hl)).1)
  refine ⟨_, _, _, hev, ?_, ?_, ?_, ?_⟩
  · simpa [Function.comp_def] using b1
  · simpa [Function.comp_def] using b2
  · intro x hx; obtain ⟨l, _, rfl⟩ := List.mem_map.1 hx; exact ⟨rfl, rfl⟩
  · intro x hx; obtain ⟨l, _, rfl⟩ := List.mem_map.1 hx; exact ⟨rfl, rfl⟩

example : ((1 : ℝ), (0 : ℝ)) ≠ 0 ∧ (1 : ℤ) ≤ 8 := by simp [Prod.ext_iff]

/-- C23: mode 'global_coherence' uses one selection for both data sets, by the sum of the squared
coherences; sites whose sum is NaN rank highest (they are sorted last). -/
theorem C23_global_coherence {sort : SortValues ι} (hs : IsSortValues sort) (pts : List (ι × Vec))
    (hn : (pts.map Prod.fst).Nodup) (ne : Bool) (ref : ι) (r : Vec) (hr : (ref, r) ∈ pts)
    (V1 V2 : Vec) (hV1 : V1 ≠ 0) (hV2 : V2 ≠ 0) (τ1 γ1 τ2 γ2 : ι → Option ℝ) (n : ℤ) (h1 : 1 ≤ n) :
    ∃ pos f1 f2, predictedPosition sort pts ne ref "global_coherence" n (case pts V1 τ1 γ1)
        (case pts V2 τ2 γ2) = .ok (pos, f1, f2) ∧ f1.map Prod.fst = f2.map Prod.fst ∧
      BestButTop (pts.map Prod.fst) (fun l => (γ1 l).bind fun x => (γ2 l).map fun y => x ^ 2 + y ^ 2)
        n.toNat (f1.map Prod.fst) := by
  set val : ι → Option ℝ := fun l => (γ1 l).bind fun x => (γ2 l).map fun y => x ^ 2 + y ^ 2 with hval
  have hb := bestButTop hs (pts.map Prod.fst) hn val n h1
  set ix := (pySlice (sort ((pts.map Prod.fst).map fun l => (l, val l))) (-n) (-1)).map Prod.fst with hix
  have hsel : downselect sort "global_coherence" n pts r
      ((pts.map Prod.fst).map fun l => (l, siteRow r V1 (τ1 l) (γ1 l) (posOf pts l)))
      ((pts.map Prod.fst).map fun l => (l, siteRow r V2 (τ2 l) (γ2 l) (posOf pts l))) = .ok (ix, ix) := by
    have hg : globalCoh ((pts.map Prod.fst).map fun l => (l, siteRow r V1 (τ1 l) (γ1 l) (posOf pts l)))
        ((pts.map Prod.fst).map fun l => (l, siteRow r V2 (τ2 l) (γ2 l) (posOf pts l))) =
        (pts.map Prod.fst).map fun l => (l, val l) := by
      unfold globalCoh
      rw [List.zipWith_map]
      rw [List.zipWith_self]
      rfl
    simp only [downselect, hg]
    simp [hix]
  have hev := predict_eval sort pts hn ne ref r hr "global_coherence" n V1 V2 hV1 hV2 τ1 γ1 τ2 γ2 ix ix
    hsel hb.2.1 hb.2.1
  refine ⟨_, _, _, hev, by simp [Function.comp_def], ?_⟩
  simpa [Function.comp_def] using hb

/-- C23: mode 'distance' uses the `ndownsel` sites nearest to the plan position of the reference
(the reference itself is one of the candidates). -/
theorem C23_distance {sort : SortValues ι} (hs : IsSortValues sort) (pts : List (ι × Vec))
    (hn : (pts.map Prod.fst).Nodup) (ne : Bool) (ref : ι) (r : Vec) (hr : (ref, r) ∈ pts)
    (V1 V2 : Vec) (hV1 : V1 ≠ 0) (hV2 : V2 ≠ 0) (τ1 γ1 τ2 γ2 : ι → Option ℝ) (n : ℤ) (h0 : 0 ≤ n) :
    ∃ pos f1 f2, predictedPosition sort pts ne ref "distance" n (case pts V1 τ1 γ1)
        (case pts V2 τ2 γ2) = .ok (pos, f1, f2) ∧ f1.map Prod.fst = f2.map Prod.fst ∧
      Smallest (pts.map Prod.fst) (fun l => some (pdist (posOf pts l) r)) n.toNat (f1.map Prod.fst) := by
  set val : ι → Option ℝ := fun l => some (pdist (posOf pts l) r) with hval
  have hb := smallest hs (pts.map Prod.fst) hn val n h0
  set ix := (pySlice (sort ((pts.map Prod.fst).map fun l => (l, val l))) 0 n).map Prod.fst with hix
  have hsel : ∀ d1 d2, downselect sort "distance" n pts r d1 d2 = .ok (ix, ix) := by
    intro d1 d2
    have hv : (pts.map fun p => (p.1, some (magnitude (p.2.1 - r.1, p.2.2 - r.2)))) =
        (pts.map Prod.fst).map fun l => (l, val l) := by
      rw [List.map_map]
      apply List.map_congr_left
      intro q hq
      simp only [Function.comp_apply, val, posOf_mem hn hq]
      rfl
    simp only [downselect, hv]
    simp [hix]
  have hev := predict_eval sort pts hn ne ref r hr "distance" n V1 V2 hV1 hV2 τ1 γ1 τ2 γ2 ix ix
    (hsel _ _) hb.2.1 hb.2.1
  refine ⟨_, _, _, hev, by simp [Function.comp_def], ?_⟩
  simpa [Function.comp_def] using hb

/-- C23: mode 'all' uses every site; any unknown mode raises `ValueError`. -/
theorem C23_all_and_invalid (sort : SortValues ι) (pts : List (ι × Vec))
    (hn : (pts.map Prod.fst).Nodup) (ne : Bool) (ref : ι) (r : Vec) (hr : (ref, r) ∈ pts)
    (V1 V2 : Vec) (hV1 : V1 ≠ 0) (hV2 : V2 ≠ 0) (τ1 γ1 τ2 γ2 : ι → Option ℝ) (n : ℤ) :
    (∃ pos f1 f2, predictedPosition sort pts ne ref "all" n (case pts V1 τ1 γ1)
        (case pts V2 τ2 γ2) = .ok (pos, f1, f2) ∧ f1.map Prod.fst = pts.map Prod.fst ∧
        f2.map Prod.fst = pts.map Prod.fst) ∧
    ∀ mode, mode ∉ ["coherence", "preavg", "global_coherence", "distance", "all"] →
      Raises (predictedPosition sort pts ne ref mode n (case pts V1 τ1 γ1) (case pts V2 τ2 γ2)) .valueError := by
  constructor
  · have hev := predict_eval sort pts hn ne ref r hr "all" n V1 V2 hV1 hV2 τ1 γ1 τ2 γ2 _ _
      (by simp only [downselect]; simp) (fun _ h => h) (fun _ h => h)
    refine ⟨_, _, _, hev, ?_, ?_⟩ <;> simp [Function.comp_def]
  · intro mode hm
    simp only [List.mem_cons, List.not_mem_nil, or_false, not_or] at hm
    unfold predictedPosition case
    rw [dictGet?_of_mem hn hr]
    simp only [posData_label pts hn r V1 hV1, posData_label pts hn r V2 hV2]
    show Except.map _ (downselect sort mode n pts r _ _) = _
    simp only [downselect, hm, or_self, if_false]
    rfl

example : "best" ∉ ["coherence", "preavg", "global_coherence", "distance", "all"] := by decide

/-! ## C24 -/

/-- C24 violated: an entity that is exactly where the plan says (all delays are the plane-wave
delays of its plan position) gets the prediction (NaN, NaN), for every layout, every pair of cloud
vectors and every mode 'all' call. -/
theorem C24_violated_correct_entity_nan (sort : SortValues ι) (pts : List (ι × Vec))
    (hn : (pts.map Prod.fst).Nodup) (ne : Bool) (ref : ι) (r : Vec) (hr : (ref, r) ∈ pts)
    (V1 V2 : Vec) (hV1 : V1 ≠ 0) (hV2 : V2 ≠ 0) (γ1 γ2 : ι → Option ℝ) (n : ℤ) :
    ∃ full, predictedPosition sort pts ne ref "all" n
      (case pts V1 (fun l => some (planeDelay (posOf pts l) r V1)) γ1)
      (case pts V2 (fun l => some (planeDelay (posOf pts l) r V2)) γ2) = .ok ((.nan, .nan), full) := by
  have hev := predict_eval sort pts hn ne ref r hr "all" n V1 V2 hV1 hV2
    (fun l => some (planeDelay (posOf pts l) r V1)) γ1 (fun l => some (planeDelay (posOf pts l) r V2)) γ2 _ _
    (by simp only [downselect]; simp) (fun _ h => h) (fun _ h => h)
  have hne : pts.map Prod.fst ≠ [] := List.ne_nil_of_mem (List.mem_map.2 ⟨_, hr, rfl⟩)
  have hz : ∀ (V : Vec) (γ : ι → Option ℝ), V ≠ 0 → meanO ((pts.map Prod.fst).filterMap fun l =>
      (siteRow r V (some (planeDelay (posOf pts l) r V)) (γ l) (posOf pts l)).errorDist) = some 0 := by
    intro V γ hV
    have hE : ∀ l, (siteRow r V (some (planeDelay (posOf pts l) r V)) (γ l) (posOf pts l)).errorDist = some 0 := by
      intro l
      rw [planeWave_error r V r _ hV]; simp
    simp only [hE]
    apply meanO_const
    · intro h
      rw [List.filterMap_eq_nil_iff] at h
      obtain ⟨l, hl⟩ := List.exists_mem_of_ne_nil _ hne
      have := h l hl
      cases this
    · intro x hx
      obtain ⟨l, _, hl⟩ := List.mem_filterMap.1 hx
      exact (Option.some.inj hl).symm
  rw [hz V1 γ1 hV1, hz V2 γ2 hV2, position_zero 0 0 V1 V2 _ (Or.inl rfl)] at hev
  exact ⟨_, hev⟩

/-- C24 violated, general form: as soon as ONE of the two mean errors is exactly zero the position is
NaN (not only when both are). -/
theorem C24_violated_one_zero_error (a b : ℝ) (V1 V2 rv : Vec) (h : a = 0 ∨ b = 0) :
    positionFrom (some a) (some b) V1 V2 rv = (.nan, .nan) := position_zero a b V1 V2 rv h

example : (0 : ℝ) = 0 ∨ (3 : ℝ) = 0 := Or.inl rfl

/-- C24 (partial): for nonzero mean errors the prediction is finite and lies within
(|e_a| + |e_b|)·|V1||V2| / |V1 × V2| of the plan position, so it tends to the plan position as the errors
tend to zero. Missing: the errors being exactly zero, where the result is NaN
(`C24_violated_correct_entity_nan`). -/
theorem C24_near_plan_partial (a b : ℝ) (V1 V2 rv : Vec) (hX : V1.1 * V2.2 - V1.2 * V2.1 ≠ 0)
    (ha : a ≠ 0) (hb : b ≠ 0) :
    ∃ x y, positionFrom (some a) (some b) V1 V2 rv = (.fin x, .fin y) ∧
      |V1.1 * V2.2 - V1.2 * V2.1| * pdist (x, y) rv ≤
        (|a| + |b|) * (magnitude V1 * magnitude V2) := by
  obtain ⟨hV1, hV2⟩ := ne_of_cross hX
  have m1 := magnitude_pos hV1
  have m2 := magnitude_pos hV2
  have s1 := magnitude_sq V1
  have s2 := magnitude_sq V2
  set D := V1.1 * V2.2 - V1.2 * V2.1 with hD
  set w : Vec := ((a * magnitude V1 * V2.2 - b * magnitude V2 * V1.2) / D,
    (b * magnitude V2 * V1.1 - a * magnitude V1 * V2.1) / D) with hw
  have h := position_solves V1 V2 w rv hX a b (by
      simp only [hw]; field_simp; rw [hD]; ring) (by
      simp only [hw]; field_simp; rw [hD]; ring) ha hb
  refine ⟨_, _, h, ?_⟩
  have hpd : pdist (w.1 + rv.1, w.2 + rv.2) rv = magnitude w := by
    simp [pdist, magnitude]
  rw [hpd]
  have hDw : |D| * magnitude w = magnitude (a * magnitude V1 * V2.2 - b * magnitude V2 * V1.2,
      b * magnitude V2 * V1.1 - a * magnitude V1 * V2.1) := by
    unfold magnitude
    rw [← Real.sqrt_sq_eq_abs, ← Real.sqrt_mul (sq_nonneg D)]
    congr 1
    simp only [hw, magnitude]
    field_simp
  rw [hDw]
  have hR : 0 ≤ (|a| + |b|) * (magnitude V1 * magnitude V2) := by positivity
  unfold magnitude at *
  apply Real.sqrt_le_iff.2
  refine ⟨hR, ?_⟩
  set A := √(V1.1 ^ 2 + V1.2 ^ 2)
  set B := √(V2.1 ^ 2 + V2.2 ^ 2)
  have hcs : V1.1 * V2.1 + V1.2 * V2.2 ≤ A * B ∧ -(A * B) ≤ V1.1 * V2.1 + V1.2 * V2.2 := by
    apply abs_le.1 _ |>.symm
    apply abs_le_of_sq_le_sq _ (by positivity)
    rw [mul_pow, s1, s2]
    nlinarith [sq_nonneg (V1.1 * V2.2 - V1.2 * V2.1)]
  have expand : (a * A * V2.2 - b * B * V1.2) ^ 2 + (b * B * V1.1 - a * A * V2.1) ^ 2 =
      (a * A) ^ 2 * B ^ 2 + (b * B) ^ 2 * A ^ 2 - 2 * (a * b) * (A * B) * (V1.1 * V2.1 + V1.2 * V2.2) := by
    rw [s1, s2]; ring
  rw [expand]
  have hab : -(2 * (a * b) * (A * B) * (V1.1 * V2.1 + V1.2 * V2.2)) ≤ 2 * (|a| * |b|) * (A * B) * (A * B) := by
    have h1 : |a * b * (V1.1 * V2.1 + V1.2 * V2.2)| ≤ |a| * |b| * (A * B) := by
      rw [abs_mul, abs_mul]
      exact mul_le_mul_of_nonneg_left (abs_le.2 hcs.symm) (by positivity)
    have h2 := (abs_le.1 h1).1
    have hAB : 0 ≤ A * B := by positivity
    nlinarith
  have ea := sq_abs a
  have eb := sq_abs b
  have : ((|a| + |b|) * (A * B)) ^ 2 = a ^ 2 * (A * B) ^ 2 + b ^ 2 * (A * B) ^ 2 + 2 * (|a| * |b|) * (A * B) * (A * B) := by
    rw [← ea, ← eb]; ring
  rw [this]
  nlinarith

example : ((1 : ℝ), (0 : ℝ)).1 * ((1 : ℝ), (1 : ℝ)).2 - ((1 : ℝ), (0 : ℝ)).2 * ((1 : ℝ), (1 : ℝ)).1 ≠ 0 := by
  norm_num

/-! ## C87 -/

/-- C87 violated: the position is shifted by the raw row of `pos_utm`, so with the columns stored in
the order (N, E) the coordinates of the reference are added swapped: whenever the (E, N) result is
finite, the (N, E) result is off by exactly (N - E, E - N) of the reference. -/
theorem C87_violated_column_order {sort : SortValues ι} (pts : List (ι × Vec))
    (ref : ι) (r : Vec) (hn : (pts.map Prod.fst).Nodup) (hr : (ref, r) ∈ pts)
    (mode : String) (n : ℤ) (c1 c2 : CloudCase) (x y : ℝ) (full : List (ι × PosRow) × List (ι × PosRow))
    (h : predictedPosition sort pts false ref mode n c1 c2 = .ok ((.fin x, .fin y), full)) :
    predictedPosition sort pts true ref mode n c1 c2 =
      .ok ((.fin (x + (r.2 - r.1)), .fin (y + (r.1 - r.2))), full) := by
  unfold predictedPosition at *
  rw [dictGet?_of_mem hn hr] at *
  simp only at *
  cases hd1 : posData pts r c1 with
  | error e => rw [hd1] at h; cases h
  | ok d1 =>
    rw [hd1] at h
    cases hd2 : posData pts r c2 with
    | error e => rw [hd2] at h; cases h
    | ok d2 =>
      rw [hd2] at h
      change Except.map _ (downselect sort mode n pts r d1 d2) = _ at h
      show Except.map _ (downselect sort mode n pts r d1 d2) = _
      cases hds : downselect sort mode n pts r d1 d2 with
      | error e => rw [hds] at h; cases h
      | ok ix =>
        rw [hds] at h
        simp only [Except.map, Except.ok.injEq, Prod.mk.injEq, Bool.false_eq_true, if_false, if_true] at h ⊢
        obtain ⟨hp, hf⟩ := h
        refine ⟨?_, hf⟩
        unfold positionFrom at hp ⊢
        cases ha : meanError (locRows d1 ix.1) with
        | none => rw [ha] at hp; simp at hp
        | some a =>
          cases hb : meanError (locRows d2 ix.2) with
          | none => rw [ha, hb] at hp; simp at hp
          | some b =>
            rw [ha, hb] at hp
            simp only at hp ⊢
            set c := intersect1 (pol2rect a (rect2pol c1.vec.1 c1.vec.2).2)
              (pol2rect b (rect2pol c2.vec.1 c2.vec.2).2)
            obtain ⟨c1', c2'⟩ := c
            cases c1' <;> cases c2' <;> simp [XR.addR] at hp ⊢
            constructor <;> linarith [hp.1, hp.2]

/-- The hypotheses hold in a concrete case: the reference at (3, 4), its data from (4, 5), the columns stored as (N, E). -/
example : ∃ sort : SortValues ℕ, ∃ c1 c2 full, predictedPosition sort [(0, (3, 4)), (1, (8, 4))] true 0 "coherence" 8 c1 c2 =
    .ok ((.fin (4 + (4 - 3)), .fin (5 + (3 - 4))), full) := by
  obtain ⟨sort, hs⟩ := exists_sort (ι := ℕ)
  obtain ⟨full, h⟩ := C22_coherence_exact hs [(0, (3, 4)), (1, (8, 4))] (by simp) 0 (3, 4) (4, 5) (by simp) (1, 0) (1, 1)
    (fun l => if l = 0 then some 0 else some (planeDelay (8, 4) (4, 5) (1, 0))) (fun l => if l = 0 then some 1 else some 0.5)
    (fun l => if l = 0 then some 0 else some (planeDelay (8, 4) (4, 5) (1, 1))) (fun l => if l = 0 then some 1 else some 0.5)
    8 (by norm_num) (by norm_num) (by simp) (by simp) 1 1 rfl rfl
    (fun q _ hne c hc => by simp [hne] at hc; rw [← hc]; norm_num) (fun q _ hne c hc => by simp [hne] at hc; rw [← hc]; norm_num)
    ⟨(1, (8, 4)), by simp, by simp, by simp⟩ ⟨(1, (8, 4)), by simp, by simp, by simp⟩ (by norm_num) (by norm_num)
  exact ⟨sort, _, _, full, C87_violated_column_order _ 0 (3, 4) (by simp) (by simp) _ _ _ _ 4 5 full h⟩

/-- C87 (partial): the selection of sites and all returned site data do not depend on the column
order; only the final shift does. -/
theorem C87_selection_independent_partial {sort : SortValues ι} (pts : List (ι × Vec))
    (ref : ι) (mode : String) (n : ℤ) (c1 c2 : CloudCase) :
    (predictedPosition sort pts true ref mode n c1 c2).map Prod.snd =
      (predictedPosition sort pts false ref mode n c1 c2).map Prod.snd := by
  unfold predictedPosition
  cases dictGet? pts ref with
  | none => rfl
  | some r =>
    simp only
    cases posData pts r c1 with
    | error e => rfl
    | ok d1 =>
      cases posData pts r c2 with
      | error e => rfl
      | ok d2 =>
        show Except.map _ (Except.map _ (downselect sort mode n pts r d1 d2)) =
          Except.map _ (Except.map _ (downselect sort mode n pts r d1 d2))
        cases downselect sort mode n pts r d1 d2 <;> rfl

end SST.Props.Predict
