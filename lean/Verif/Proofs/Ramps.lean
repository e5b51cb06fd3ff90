import Verif.Proofs.Stats
import Mathlib.Data.List.GetD

/-! # Helper lemmas: ramps, total variation, path length -/

namespace SST.Stats
open SST

/-- The ramps `s[i + tau] - s[i]` between samples that are both present, in order. -/
noncomputable def ramps (s : List (Option ℝ)) (tau : ℕ) : List ℝ :=
  (List.range (s.length - tau)).filterMap fun i => osub (s.getD (i + tau) none) (s.getD i none)

theorem zipWith_drop_eq (s : List (Option ℝ)) (tau : ℕ) :
    List.zipWith osub (s.drop tau) s = (List.range (s.length - tau)).map fun i => osub (s.getD (i + tau) none) (s.getD i none) := by
  apply List.ext_getElem
  · simp
  · intro i h1 h2
    simp only [List.length_map, List.length_range] at h2
    simp only [List.getElem_zipWith, List.getElem_map, List.getElem_range, List.getElem_drop]
    rw [List.getD_eq_getElem _ _ (by omega), List.getD_eq_getElem _ _ (by omega)]
    simp only [Nat.add_comm]

theorem diffs_present (s : List (Option ℝ)) (tau : ℕ) : (diffs s tau).filterMap id = ramps s tau := by
  unfold diffs ramps
  rw [List.filterMap_append, zipWith_drop_eq, List.filterMap_map]
  have : (List.replicate (min tau s.length) (none : Option ℝ)).filterMap id = [] := by
    rw [List.filterMap_eq_nil_iff]; intro a ha; rw [(List.mem_replicate.1 ha).2]; rfl
  rw [this, List.nil_append]
  rfl

theorem filterMap_omap (m : List (Option ℝ)) (F : ℝ → ℝ) : (m.map (Option.map F)).filterMap id = (m.filterMap id).map F := by
  rw [List.filterMap_map, List.map_filterMap]; rfl

theorem mem_ramps {s : List (Option ℝ)} {tau : ℕ} {v : ℝ} : v ∈ ramps s tau ↔
    ∃ i a b, s[i + tau]? = some (some a) ∧ s[i]? = some (some b) ∧ v = a - b := by
  unfold ramps
  simp only [List.mem_filterMap, List.mem_range]
  constructor
  · rintro ⟨i, hi, h⟩
    rw [List.getD_eq_getElem _ _ (by omega), List.getD_eq_getElem _ _ (by omega)] at h
    rcases ha : s[i + tau]'(by omega) with _ | a
    · rw [ha] at h; simp [osub] at h
    · rcases hb : s[i]'(by omega) with _ | b
      · rw [ha, hb] at h; simp [osub] at h
      · rw [ha, hb] at h
        refine ⟨i, a, b, ?_, ?_, ?_⟩
        · rw [List.getElem?_eq_getElem (by omega), ha]
        · rw [List.getElem?_eq_getElem (by omega), hb]
        · simpa [osub] using h.symm
  · rintro ⟨i, a, b, ha, hb, rfl⟩
    have hi : i + tau < s.length := by
      by_contra hc
      rw [List.getElem?_eq_none (by omega)] at ha; simp at ha
    refine ⟨i, by omega, ?_⟩
    simp [List.getD_eq_getElem?_getD, ha, hb, osub]

/-! ## `omax` -/

theorem foldl_max_le (l : List ℝ) (a : ℝ) : a ≤ l.foldl max a ∧ (∀ u ∈ l, u ≤ l.foldl max a) ∧ (l.foldl max a = a ∨ l.foldl max a ∈ l) := by
  induction l generalizing a with
  | nil => simp
  | cons b l ih =>
    obtain ⟨h1, h2, h3⟩ := ih (max a b)
    rw [List.foldl_cons]
    refine ⟨(le_max_left _ _).trans h1, ?_, ?_⟩
    · intro u hu
      rcases List.mem_cons.1 hu with rfl | hu
      · exact (le_max_right _ _).trans h1
      · exact h2 u hu
    · rcases h3 with h | h
      · rw [h]
        rcases max_choice a b with h' | h'
        · left; exact h'
        · right; rw [h']; simp
      · right; exact List.mem_cons_of_mem _ h

theorem omax_eq_none {l : List (Option ℝ)} : omax l = none ↔ l.filterMap id = [] := by
  unfold omax
  cases l.filterMap id <;> simp

theorem omax_eq_some {l : List (Option ℝ)} {v : ℝ} : omax l = some v ↔ v ∈ l.filterMap id ∧ ∀ u ∈ l.filterMap id, u ≤ v := by
  unfold omax
  cases l.filterMap id with
  | nil => simp
  | cons a r =>
    obtain ⟨h1, h2, h3⟩ := foldl_max_le r a
    have hm : r.foldl max a ∈ a :: r := by
      rcases h3 with h | h
      · rw [h]; simp
      · exact List.mem_cons_of_mem _ h
    have hu : ∀ u ∈ a :: r, u ≤ r.foldl max a := by
      intro u hu
      rcases List.mem_cons.1 hu with rfl | hu
      · exact h1
      · exact h2 u hu
    simp only [Option.some.injEq]
    constructor
    · rintro rfl; exact ⟨hm, hu⟩
    · rintro ⟨ha, hb⟩; exact le_antisymm (hb _ hm) (hu _ ha)

/-! ## Exceedance probability -/

open Classical in
/-- Share of the values of `l` that exceed `r`, ties other than `r` itself counted half. -/
noncomputable def exceed (l : List ℝ) (r : ℝ) : ℝ :=
  ((l.countP fun v => r < v) + ((l.countP fun v => v = r : ℕ) - 1 : ℝ) / 2) / l.length

open Classical in
theorem count_three (l : List ℝ) (r : ℝ) :
    l.countP (fun v => v < r) + l.countP (fun v => v = r) + l.countP (fun v => r < v) = l.length := by
  induction l with
  | nil => simp
  | cons a l ih =>
    simp only [List.countP_cons, List.length_cons]
    rcases lt_trichotomy a r with h | h | h
    · simp [h, h.ne, h.not_gt]; omega
    · simp [h]; omega
    · simp [h, h.ne', h.not_gt]; omega

theorem one_sub_rank (rows : List (Option ℝ)) (r : ℝ) (h : rows.filterMap id ≠ []) :
    1 - rankPct rows r = exceed (rows.filterMap id) r := by
  unfold rankPct exceed
  generalize rows.filterMap id = l at *
  have hn : (0 : ℝ) < l.length := by exact_mod_cast List.length_pos_iff.2 h
  have hc := count_three l r
  have hc' : ((l.countP (fun v => v < r) : ℕ) : ℝ) + (l.countP (fun v => v = r) : ℕ) + (l.countP (fun v => r < v) : ℕ) = l.length := by
    exact_mod_cast hc
  rw [← List.countP_eq_length_filter, ← List.countP_eq_length_filter]
  field_simp
  linarith

theorem scoreRaw_eq (s : List (Option ℝ)) (tau : ℕ) :
    scoreRaw s tau = omax ((((ramps s tau).map fun (v : ℝ) => |v|).map fun (r : ℝ) =>
      r * exceed ((ramps s tau).map fun (v : ℝ) => |v|) r).map some) := by
  unfold scoreRaw
  simp only
  have hx : ((diffs s tau).map (Option.map fun (v : ℝ) => |v|)).filterMap id = (ramps s tau).map fun (v : ℝ) => |v| := by
    rw [filterMap_omap, diffs_present]
  unfold omax
  rw [filterMap_some, filterMap_omap, hx]
  by_cases h : ramps s tau = []
  · simp [h]
  · have : ∀ r, (1 - rankPct ((diffs s tau).map (Option.map fun (v : ℝ) => |v|)) r) = exceed ((ramps s tau).map fun (v : ℝ) => |v|) r := by
      intro r
      rw [one_sub_rank _ _ (by rw [hx]; simpa using h), hx]
    simp only [this]

theorem exceed_bounds {l : List ℝ} {r : ℝ} (hr : r ∈ l) : 0 ≤ exceed l r ∧ exceed l r ≤ (l.length - 1) / l.length := by
  classical
  have hn : (0 : ℝ) < l.length := by exact_mod_cast List.length_pos_of_mem hr
  have hc := count_three l r
  have hc' : ((l.countP (fun v => v < r) : ℕ) : ℝ) + (l.countP (fun v => v = r) : ℕ) + (l.countP (fun v => r < v) : ℕ) = l.length := by
    exact_mod_cast hc
  have h1 : 1 ≤ l.countP (fun v => v = r) := List.countP_pos_iff.2 ⟨r, hr, by simp⟩
  have h1' : (1 : ℝ) ≤ (l.countP (fun v => v = r) : ℕ) := by exact_mod_cast h1
  have h2 : (0 : ℝ) ≤ (l.countP (fun v => v < r) : ℕ) := Nat.cast_nonneg _
  have h3 : (0 : ℝ) ≤ (l.countP (fun v => r < v) : ℕ) := Nat.cast_nonneg _
  unfold exceed
  constructor
  · apply div_nonneg _ hn.le
    linarith
  · apply div_le_div_of_nonneg_right _ hn.le
    linarith

theorem exceed_scale {l : List ℝ} {c r : ℝ} (hc : 0 < c) : exceed (l.map fun (v : ℝ) => c * v) (c * r) = exceed l r := by
  unfold exceed
  rw [List.countP_map, List.countP_map, List.length_map]
  congr 3
  · congr 1
    funext v
    simp [hc]
  · congr 1
    congr 1
    apply List.countP_congr
    intro v _
    simp [hc.ne']

theorem ramps_map (s : List (Option ℝ)) (tau : ℕ) (F G : ℝ → ℝ) (h : ∀ x y, F x - F y = G (x - y)) :
    ramps (s.map (Option.map F)) tau = (ramps s tau).map G := by
  unfold ramps
  rw [List.map_filterMap, List.length_map]
  apply List.filterMap_congr
  intro i _
  have : ∀ k, (s.map (Option.map F)).getD k none = (s.getD k none).map F := by
    intro k; simp [List.getD_eq_getElem?_getD]; cases s[k]? <;> rfl
  rw [this, this]
  rcases s.getD (i + tau) none with _ | a <;> rcases s.getD i none with _ | b <;> simp [osub, h]

/-! ## Total variation -/

/-- Sum of `F` over the consecutive differences. -/
noncomputable def vsum (F : ℝ → ℝ) : List ℝ → ℝ
  | [] => 0
  | [_] => 0
  | a :: b :: l => F (b - a) + vsum F (b :: l)

theorem ramps_one_cons (a b : Option ℝ) (l : List (Option ℝ)) : ramps (a :: b :: l) 1 = (osub b a).toList ++ ramps (b :: l) 1 := by
  unfold ramps
  simp only [List.length_cons, Nat.add_sub_cancel]
  rw [List.range_succ_eq_map, List.filterMap_cons, List.filterMap_map]
  simp only [Nat.zero_add]
  cases h : osub ((a :: b :: l).getD 1 none) ((a :: b :: l).getD 0 none) with
  | none =>
    have : osub b a = none := h
    rw [this]
    simp
  | some v =>
    have : osub b a = some v := h
    rw [this]
    simp

theorem ramps_short (s : List (Option ℝ)) (tau : ℕ) (h : s.length ≤ tau) : ramps s tau = [] := by
  unfold ramps; rw [Nat.sub_eq_zero_of_le h]; rfl

theorem ramps_length (l : List ℝ) (tau : ℕ) : (ramps (l.map some) tau).length = l.length - tau := by
  unfold ramps
  have h : ∀ i ∈ List.range ((l.map some).length - tau), osub ((l.map some).getD (i + tau) none) ((l.map some).getD i none) = some (l.getD (i + tau) 0 - l.getD i 0) := by
    intro i hi
    simp only [List.length_map, List.mem_range] at hi
    rw [List.getD_eq_getElem _ _ (by simp; omega), List.getD_eq_getElem _ _ (by simp; omega), List.getD_eq_getElem _ _ (by omega), List.getD_eq_getElem _ _ (by omega)]
    simp [osub]
  rw [List.filterMap_congr h]
  simp

theorem ramps_full (l : List ℝ) (tau : ℕ) : ramps (l.map some) tau = (List.range (l.length - tau)).map fun i => l.getD (i + tau) 0 - l.getD i 0 := by
  unfold ramps
  have h : ∀ i ∈ List.range ((l.map some).length - tau), osub ((l.map some).getD (i + tau) none) ((l.map some).getD i none) = some (l.getD (i + tau) 0 - l.getD i 0) := by
    intro i hi
    simp only [List.length_map, List.mem_range] at hi
    rw [List.getD_eq_getElem _ _ (by simp; omega), List.getD_eq_getElem _ _ (by simp; omega), List.getD_eq_getElem _ _ (by omega), List.getD_eq_getElem _ _ (by omega)]
    simp [osub]
  rw [List.filterMap_congr h]
  simp

theorem vsum_eq (F : ℝ → ℝ) (l : List ℝ) : ((ramps (l.map some) 1).map F).sum = vsum F l := by
  induction l with
  | nil => simp [ramps, vsum]
  | cons a l ih =>
    cases l with
    | nil => simp [ramps, vsum]
    | cons b l =>
      simp only [List.map_cons] at ih ⊢
      rw [ramps_one_cons, List.map_append, List.sum_append, ih]
      simp [osub, vsum]

theorem darrRaw_eq (s : List (Option ℝ)) (tau : ℕ) : darrRaw s tau = ((ramps s tau).map fun (v : ℝ) => |v|).sum := by
  unfold darrRaw; rw [diffs_present]

theorem pathLength_eq (s : List (Option ℝ)) (dt : ℝ) : pathLength s dt = ((ramps s 1).map fun (v : ℝ) => Real.sqrt (v ^ 2 + dt ^ 2)).sum := by
  unfold pathLength; rw [diffs_present]

theorem vsum_tri (a x : ℝ) (l : List ℝ) : vsum (fun v => |v|) (a :: l) ≤ |x - a| + vsum (fun v => |v|) (x :: l) := by
  cases l with
  | nil => simp [vsum]
  | cons b l =>
    simp only [vsum]
    have : |b - a| ≤ |x - a| + |b - x| := by
      calc |b - a| = |(x - a) + (b - x)| := by congr 1; ring
        _ ≤ _ := abs_add_le _ _
    linarith

theorem vsum_nonneg {F : ℝ → ℝ} (hF : ∀ x, 0 ≤ F x) (l : List ℝ) : 0 ≤ vsum F l := by
  rw [← vsum_eq]
  exact sum_nonneg' fun a _ => hF a

theorem vsum_sublist_cons {l' l : List ℝ} (h : l'.Sublist l) (a : ℝ) : vsum (fun v => |v|) (a :: l') ≤ vsum (fun v => |v|) (a :: l) := by
  induction h generalizing a with
  | slnil => exact le_rfl
  | cons x h ih =>
    refine (vsum_tri a x _).trans ?_
    simp only [vsum]
    have := ih x
    linarith
  | cons_cons x h ih =>
    simp only [vsum]
    have := ih x
    linarith

theorem vsum_sublist {l' l : List ℝ} (h : l'.Sublist l) : vsum (fun v => |v|) l' ≤ vsum (fun v => |v|) l := by
  induction h with
  | slnil => exact le_rfl
  | @cons l1 l2 x h ih =>
    refine ih.trans ?_
    cases l2 with
    | nil => simp [vsum]
    | cons b l => simp only [vsum]; have := abs_nonneg (b - x); linarith
  | cons_cons x h ih => exact vsum_sublist_cons h x

end SST.Stats
