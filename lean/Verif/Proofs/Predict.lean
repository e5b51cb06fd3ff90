import Verif.Spec.Predict
import Verif.Spec.Assign
import Verif.Proofs.Assign
import Verif.Proofs.Spatial
import Mathlib.Tactic.Module

/-! # Proofs about `compute_predicted_position` -/

namespace SST.Field
open SST SST.Spec SST.Spatial

variable {ι : Type}

theorem exists_sort : ∃ sort : SortValues ι, IsSortValues sort := by
  classical
  refine ⟨fun l => l.mergeSort fun a b => decide (nanLE a.2 b.2), fun l => ⟨List.mergeSort_perm _ _, ?_⟩⟩
  refine (List.pairwise_mergeSort (le := fun a b : ι × Option ℝ => decide (nanLE a.2 b.2)) ?_ ?_ l).imp
    (by simp)
  · rintro ⟨_, a⟩ ⟨_, b⟩ ⟨_, c⟩ h1 h2
    simp only [decide_eq_true_eq] at *
    cases a <;> cases b <;> cases c <;> simp_all [nanLE]
    exact h1.trans h2
  · rintro ⟨_, a⟩ ⟨_, b⟩
    simp only [Bool.or_eq_true, decide_eq_true_eq]
    cases a <;> cases b <;> simp [nanLE]
    exact le_total _ _

/-- The top slice `[-n:-1]` of a list. -/
theorem topSlice {α : Type} (L : List α) (hne : L ≠ []) (n : ℤ) (hn : 1 ≤ n) :
    ∃ R T x, L = R ++ T ++ [x] ∧ pySlice L (-n) (-1) = T ∧
      T.length = min (n.toNat - 1) (L.length - 1) := by
  obtain ⟨L', x, rfl⟩ : ∃ L' x, L = L' ++ [x] := ⟨L.dropLast, L.getLast hne, (List.dropLast_append_getLast hne).symm⟩
  refine ⟨L'.take (L'.length + 1 - n.toNat), L'.drop (L'.length + 1 - n.toNat), x, ?_, ?_, ?_⟩
  · rw [List.take_append_drop]
  · unfold pySlice pyBound
    have h1 : ((-1 : ℤ) + ((L' ++ [x]).length : ℤ)).toNat = L'.length := by simp
    have h2 : ((-n : ℤ) + ((L' ++ [x]).length : ℤ)).toNat = L'.length + 1 - n.toNat := by
      simp; omega
    rw [if_pos (by omega), if_pos (by omega), h1, h2]
    simp
  · simp; omega

/-- Data of one case, when delays and coherences are given per label. -/
noncomputable def siteRow (r V : Vec) (τ γ : Option ℝ) (x : Vec) : PosRow :=
  let plan := ((r.1 - x.1) * V.1 + (r.2 - x.2) * V.2) / magnitude V
  ⟨τ, some plan, τ.map fun d => -d * magnitude V - plan, γ⟩

theorem posData_eq (pts : List (ι × Vec)) (r V : Vec) (hV : V ≠ 0) (τ γ : ι → Option ℝ) :
    posData pts r ⟨V, pts.map fun p => τ p.1, pts.map fun p => γ p.1⟩ =
      .ok (pts.map fun p => (p.1, siteRow r V (τ p.1) (γ p.1) p.2)) := by
  have hm := magnitude_pos hV
  unfold posData
  simp only [List.length_map, and_self, if_true]
  congr 1
  apply List.ext_getElem
  · simp [projectVectors, computeVectors]
  · intro i h1 h2
    simp [projectVectors, computeVectors, unit, hm.ne', siteRow]
    refine ⟨by ring, ?_⟩
    cases τ (pts[i]'(by simpa using h2)).1 with
    | none => rfl
    | some d => simp; ring

theorem locRows_eq [DecidableEq ι] (labels : List ι) (hn : labels.Nodup) (F : ι → PosRow) (ix : List ι)
    (h : ∀ l ∈ ix, l ∈ labels) :
    locRows (labels.map fun l => (l, F l)) ix = ix.map fun l => (l, F l) := by
  induction ix with
  | nil => rfl
  | cons l ix ih =>
    have hl : dictGet? (labels.map fun l => (l, F l)) l = some (F l) := by
      apply dictGet?_of_mem
      · simpa [Function.comp_def] using hn
      · exact List.mem_map.2 ⟨l, h l (by simp), rfl⟩
    unfold locRows at *
    rw [List.filterMap_cons, hl, List.map_cons]
    simp only [Option.map_some]
    rw [ih (fun k hk => h k (by simp [hk]))]

theorem meanO_const (l : List ℝ) (e : ℝ) (hne : l ≠ []) (h : ∀ x ∈ l, x = e) : meanO l = some e := by
  have hs : l.sum = l.length * e := by
    rw [List.eq_replicate_of_mem h]; simp
  have hl : (l.length : ℝ) ≠ 0 := by
    simpa using hne
  unfold meanO mean
  rw [if_neg hne, hs, mul_div_cancel_left₀ _ hl]

theorem pol2rect_arg (a : ℝ) (V : Vec) (hV : V ≠ 0) :
    pol2rect a (rect2pol V.1 V.2).2 = (a * (V.1 / magnitude V), a * (V.2 / magnitude V)) := by
  have hz : (⟨V.1, V.2⟩ : ℂ) ≠ 0 := by
    intro h
    apply hV
    have h1 := congrArg Complex.re h
    have h2 := congrArg Complex.im h
    exact Prod.ext h1 h2
  have hn : ‖(⟨V.1, V.2⟩ : ℂ)‖ = magnitude V := by
    rw [Complex.norm_def, Complex.normSq_mk]
    unfold magnitude
    congr 1; ring
  unfold pol2rect rect2pol arctan2
  rw [Complex.cos_arg hz, Complex.sin_arg, hn]

theorem intersect_unique (A B : Vec) (h : A.1 * B.2 - A.2 * B.1 ≠ 0) (x y : ℝ)
    (h1 : (x - A.1) * A.1 + (y - A.2) * A.2 = 0) (h2 : (x - B.1) * B.1 + (y - B.2) * B.2 = 0) :
    intersect1 A B = (.fin x, .fin y) := by
  have hd : B.1 * A.2 - A.1 * B.2 ≠ 0 := by
    intro h'; apply h; linarith
  simp only [intersect1, XR.div, hd, if_false]
  congr 2
  · rw [div_eq_iff hd]; linear_combination B.2 * h1 - A.2 * h2
  · rw [div_eq_iff hd]; linear_combination -B.1 * h1 + A.1 * h2

theorem position_solves (V1 V2 w rv : Vec) (hX : V1.1 * V2.2 - V1.2 * V2.1 ≠ 0)
    (a b : ℝ) (ha : a * magnitude V1 = w.1 * V1.1 + w.2 * V1.2)
    (hb : b * magnitude V2 = w.1 * V2.1 + w.2 * V2.2) (ha0 : a ≠ 0) (hb0 : b ≠ 0) :
    positionFrom (some a) (some b) V1 V2 rv = (.fin (w.1 + rv.1), .fin (w.2 + rv.2)) := by
  have hV1 : V1 ≠ 0 := by rintro rfl; simp at hX
  have hV2 : V2 ≠ 0 := by rintro rfl; simp at hX
  have m1 := magnitude_pos hV1
  have m2 := magnitude_pos hV2
  have s1 := magnitude_sq V1
  have s2 := magnitude_sq V2
  have key := intersect_unique (a * (V1.1 / magnitude V1), a * (V1.2 / magnitude V1))
    (b * (V2.1 / magnitude V2), b * (V2.2 / magnitude V2)) (by
      intro h
      apply hX
      simp only at h
      field_simp at h
      rw [mul_zero] at h
      exact (mul_eq_zero.1 h).resolve_left (mul_ne_zero ha0 hb0)) w.1 w.2
    (by
      simp only
      field_simp
      linear_combination -a * magnitude V1 * ha + a ^ 2 * s1)
    (by
      simp only
      field_simp
      linear_combination -b * magnitude V2 * hb + b ^ 2 * s2)
  unfold positionFrom
  simp only [pol2rect_arg _ _ hV1, pol2rect_arg _ _ hV2, key, XR.addR]

theorem cross_comm_zero (A B : Vec) (h : A = 0 ∨ B = 0) : intersect1 A B = (.nan, .nan) := by
  rcases h with rfl | rfl <;> simp [intersect1, XR.div]

theorem position_zero (a b : ℝ) (V1 V2 rv : Vec) (h : a = 0 ∨ b = 0) :
    positionFrom (some a) (some b) V1 V2 rv = (.nan, .nan) := by
  unfold positionFrom
  have : intersect1 (pol2rect a (rect2pol V1.1 V1.2).2) (pol2rect b (rect2pol V2.1 V2.2).2) =
      (.nan, .nan) := by
    apply cross_comm_zero
    rcases h with rfl | rfl
    · left; simp [pol2rect]
    · right; simp [pol2rect]
  simp only [this, XR.addR]

theorem sort_keys {sort : SortValues ι} (hs : IsSortValues sort) (labs : List ι) (val : ι → Option ℝ) :
    ∃ K : List ι, K.Perm labs ∧ sort (labs.map fun l => (l, val l)) = K.map (fun l => (l, val l)) ∧
      K.Pairwise fun a b => nanLE (val a) (val b) := by
  obtain ⟨hp, hpw⟩ := hs (labs.map fun l => (l, val l))
  obtain ⟨K, h1, h2⟩ := perm_map_lift (fun l => (l, val l)) hp.symm labs rfl
  refine ⟨K, h1, h2.symm, ?_⟩
  rw [← h2, List.pairwise_map] at hpw
  exact hpw

theorem map_pySlice {α β : Type} (f : α → β) (l : List α) (a b : ℤ) :
    (pySlice (l.map f) a b) = (pySlice l a b).map f := by
  simp [pySlice, List.map_drop, List.map_take]

theorem bestButTop {sort : SortValues ι} (hs : IsSortValues sort) (labs : List ι) (hn : labs.Nodup)
    (val : ι → Option ℝ) (n : ℤ) (h1 : 1 ≤ n) :
    BestButTop labs val n.toNat
      ((pySlice (sort (labs.map fun l => (l, val l))) (-n) (-1)).map Prod.fst) := by
  obtain ⟨K, hK, hKs, hKp⟩ := sort_keys hs labs val
  have e : (pySlice (sort (labs.map fun l => (l, val l))) (-n) (-1)).map Prod.fst = pySlice K (-n) (-1) := by
    rw [hKs, map_pySlice, List.map_map]
    simp [Function.comp_def]
  rw [e]
  by_cases hne : K = []
  · subst hne
    have : labs = [] := by simpa using hK.symm
    subst this
    have : pySlice ([] : List ι) (-n) (-1) = [] := by simp [pySlice]
    rw [this]
    exact ⟨by simp, by simp, by simp, by simp⟩
  · obtain ⟨R, T, x, e1, e2, e3⟩ := topSlice K hne n h1
    rw [e2]
    have hKn : K.Nodup := hK.nodup_iff.2 hn
    rw [e1] at hKn hKp
    have hmem : ∀ l, l ∈ labs ↔ l ∈ R ++ T ++ [x] := fun l => by rw [← e1]; exact hK.mem_iff.symm
    rw [List.nodup_append, List.nodup_append] at hKn
    rw [List.pairwise_append, List.pairwise_append] at hKp
    obtain ⟨⟨pR, pT, pRT⟩, -, pX⟩ := hKp
    refine ⟨hKn.1.2.1, fun l hl => (hmem l).2 (by simp [hl]), by rw [e3, hK.length_eq], fun _ => ?_⟩
    refine ⟨x, (hmem x).2 (by simp), fun h => hKn.2.2 x (by simp [h]) x (by simp) rfl, ?_, ?_⟩
    · intro l hl
      rw [hmem, List.mem_append] at hl
      rcases hl with hl | hl
      · exact pX l hl x (by simp)
      · have : l = x := by simpa using hl
        subst this
        cases val l <;> simp [nanLE]
    · intro s hs' u hu hus hux
      rw [hmem, List.mem_append, List.mem_append] at hu
      rcases hu with (hu | hu) | hu
      · exact pRT u hu s hs'
      · exact absurd hu hus
      · exact absurd (by simpa using hu) hux

theorem smallest {sort : SortValues ι} (hs : IsSortValues sort) (labs : List ι) (hn : labs.Nodup)
    (val : ι → Option ℝ) (n : ℤ) (h1 : 0 ≤ n) :
    Smallest labs val n.toNat
      ((pySlice (sort (labs.map fun l => (l, val l))) 0 n).map Prod.fst) := by
  obtain ⟨K, hK, hKs, hKp⟩ := sort_keys hs labs val
  have e : (pySlice (sort (labs.map fun l => (l, val l))) 0 n).map Prod.fst = K.take n.toNat := by
    rw [hKs, map_pySlice, List.map_map]
    simp only [Function.comp_def, List.map_id']
    unfold pySlice pyBound
    rw [if_neg (by omega), if_neg (by omega)]
    simp
  rw [e]
  have hKn : K.Nodup := hK.nodup_iff.2 hn
  have hsp : K = K.take n.toNat ++ K.drop n.toNat := (List.take_append_drop _ _).symm
  refine ⟨hKn.sublist (List.take_sublist _ _), fun l hl => hK.mem_iff.1 (List.mem_of_mem_take hl),
    by rw [List.length_take, hK.length_eq], ?_⟩
  intro s hs' u hu hus
  rw [hsp, List.pairwise_append] at hKp
  have hu' : u ∈ K.take n.toNat ++ K.drop n.toNat := by rw [← hsp]; exact hK.mem_iff.2 hu
  rcases List.mem_append.1 hu' with h | h
  · exact absurd h hus
  · exact hKp.2.2 s hs' u h

/-- Data tables by label. -/
theorem posData_label [DecidableEq ι] (pts : List (ι × Vec)) (hn : (pts.map Prod.fst).Nodup) (r V : Vec)
    (hV : V ≠ 0) (τ γ : ι → Option ℝ) :
    posData pts r ⟨V, pts.map fun p => τ p.1, pts.map fun p => γ p.1⟩ =
      .ok ((pts.map Prod.fst).map fun l => (l, siteRow r V (τ l) (γ l) (posOf pts l))) := by
  rw [posData_eq pts r V hV]
  congr 1
  rw [List.map_map]
  apply List.map_congr_left
  intro p hp
  simp only [Function.comp_apply, posOf_mem hn hp]

theorem predict_eval [DecidableEq ι] (sort : SortValues ι) (pts : List (ι × Vec))
    (hn : (pts.map Prod.fst).Nodup) (ne : Bool) (ref : ι) (r : Vec) (hr : (ref, r) ∈ pts)
    (mode : String) (n : ℤ) (V1 V2 : Vec) (hV1 : V1 ≠ 0) (hV2 : V2 ≠ 0) (τ1 γ1 τ2 γ2 : ι → Option ℝ)
    (ix1 ix2 : List ι)
    (hd : downselect sort mode n pts r
      ((pts.map Prod.fst).map fun l => (l, siteRow r V1 (τ1 l) (γ1 l) (posOf pts l)))
      ((pts.map Prod.fst).map fun l => (l, siteRow r V2 (τ2 l) (γ2 l) (posOf pts l))) = .ok (ix1, ix2))
    (h1 : ∀ l ∈ ix1, l ∈ pts.map Prod.fst) (h2 : ∀ l ∈ ix2, l ∈ pts.map Prod.fst) :
    predictedPosition sort pts ne ref mode n ⟨V1, pts.map fun p => τ1 p.1, pts.map fun p => γ1 p.1⟩
      ⟨V2, pts.map fun p => τ2 p.1, pts.map fun p => γ2 p.1⟩ =
    .ok (positionFrom (meanO (ix1.filterMap fun l => (siteRow r V1 (τ1 l) (γ1 l) (posOf pts l)).errorDist))
        (meanO (ix2.filterMap fun l => (siteRow r V2 (τ2 l) (γ2 l) (posOf pts l)).errorDist)) V1 V2
        (if ne then (r.2, r.1) else r),
      ix1.map (fun l => (l, siteRow r V1 (τ1 l) (γ1 l) (posOf pts l))),
      ix2.map (fun l => (l, siteRow r V2 (τ2 l) (γ2 l) (posOf pts l)))) := by
  unfold predictedPosition
  rw [dictGet?_of_mem hn hr]
  simp only [posData_label pts hn r V1 hV1, posData_label pts hn r V2 hV2]
  show Except.map _ (downselect sort mode n pts r _ _) = _
  rw [hd]
  show Except.ok _ = _
  simp only [locRows_eq _ hn (fun l => siteRow r V1 (τ1 l) (γ1 l) (posOf pts l)) ix1 h1,
    locRows_eq _ hn (fun l => siteRow r V2 (τ2 l) (γ2 l) (posOf pts l)) ix2 h2, meanError,
    List.filterMap_map, Function.comp_def]

/-- Selection of the coherence mode, by label. -/
theorem selectCoherence_eq (sort : SortValues ι) (n : ℤ) (labels : List ι) (F : ι → PosRow) :
    selectCoherence sort n (labels.map fun l => (l, F l)) =
      (pySlice (sort ((labels.filter fun l => (F l).coh.isSome).map fun l => (l, (F l).coh))) (-n) (-1)).map
        Prod.fst := by
  unfold selectCoherence
  simp only [List.map_map, Function.comp_def, List.filter_map]

theorem planeWave_error (r V p x : Vec) (hV : V ≠ 0) (γ : Option ℝ) :
    (siteRow r V (some (planeDelay x p V)) γ x).errorDist =
      some (((p.1 - r.1) * V.1 + (p.2 - r.2) * V.2) / magnitude V) := by
  have hm := magnitude_pos hV
  have hs := magnitude_sq V
  simp only [siteRow, planeDelay, Option.map_some, Option.some.injEq, ← hs]
  field_simp
  ring

end SST.Field
