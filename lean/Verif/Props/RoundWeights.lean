import Verif.Model.RoundWeights
import Verif.Props.RoundPlant

/-!
# Property C284: weights of the wavelet modes with rounding
-/

namespace SST.Round
open SST SST.Stats SST.Cloud

variable {u : ℝ} {A : Arith}

private theorem mode_near (h : FloatLike u A) {N : ℕ} {row : List (Option ℝ)} (hN : row.length ≤ N) :
    BothOr (fun x v => 0 ≤ x ∧ Near u (N + 1) x v) (pdMean (row.map (Option.map fun (v : ℝ) => v ^ 2)))
      (meanOF A ((row.map (Option.map fun (v : ℝ) => A.fl (v ^ 2))).filterMap id)) := by
  have e : ∀ f : ℝ → ℝ, (row.map (Option.map f)).filterMap id = (row.filterMap id).map f := by
    intro f
    rw [List.filterMap_map, List.map_filterMap]
    rfl
  have h0 := u_nonneg h.rounds
  unfold pdMean
  rw [e, e]
  have hl : (row.filterMap id).length ≤ N := (List.length_filterMap_le _ _).trans hN
  generalize row.filterMap id = l at hl
  unfold meanO meanOF
  simp only [List.map_eq_nil_iff]
  by_cases hne : l = []
  · simp [hne, BothOr]
  · rw [if_neg hne, if_neg hne]
    have hp : 0 < l.length := List.length_pos_iff.2 hne
    have s := (h.sums (l.map fun v => A.fl (v ^ 2)) (by simpa using hne)).near_map h.rounds h.lt_one (f := fun v : ℝ => v ^ 2) (k := 1)
      (fun x _ => sq_nonneg x) (fun x _ => near_fl h.rounds h.lt_one (sq_nonneg x))
    have s0 : 0 ≤ (l.map fun v : ℝ => v ^ 2).sum := List.sum_nonneg (by
      intro x hx
      obtain ⟨y, -, rfl⟩ := List.mem_map.1 hx
      exact sq_nonneg y)
    have lp : (0 : ℝ) < l.length := by exact_mod_cast hp
    have d := s.div h0 h.lt_one s0 lp (Near.refl (u := u) (l.length : ℝ))
    have d0 : 0 ≤ (l.map fun v : ℝ => v ^ 2).sum / l.length := div_nonneg s0 lp.le
    have r := d.rnd h.rounds h.lt_one d0
    simp only [BothOr, mean, List.length_map]
    exact ⟨d0, r.mono h0 h.lt_one (by omega) d0⟩

private theorem modes_near (h : FloatLike u A) {N : ℕ} (waves : List (List (Option ℝ))) (hN : ∀ row ∈ waves, row.length ≤ N) :
    match waves.mapM (fun row => pdMean (row.map (Option.map fun (v : ℝ) => v ^ 2))),
      waves.mapM (fun row => meanOF A ((row.map (Option.map fun (v : ℝ) => A.fl (v ^ 2))).filterMap id)) with
    | none, none => True
    | some s, some s' => s.length = waves.length ∧ List.Forall₂ (fun x v => 0 ≤ x ∧ Near u (N + 1) x v) s s'
    | _, _ => False := by
  induction waves with
  | nil => simp
  | cons row rest ih =>
    have m := mode_near h (hN row (by simp))
    have ih := ih fun r hr => hN r (by simp [hr])
    rw [List.mapM_cons, List.mapM_cons]
    generalize pdMean (row.map (Option.map fun (v : ℝ) => v ^ 2)) = a at m
    generalize meanOF A ((row.map (Option.map fun (v : ℝ) => A.fl (v ^ 2))).filterMap id) = a' at m
    generalize rest.mapM (fun row => pdMean (row.map (Option.map fun (v : ℝ) => v ^ 2))) = b at ih
    generalize rest.mapM (fun row => meanOF A ((row.map (Option.map fun (v : ℝ) => A.fl (v ^ 2))).filterMap id)) = b' at ih
    cases a <;> cases a' <;> simp only [BothOr] at m
    · simp
    · cases b <;> cases b' <;> simp only at ih
      · simp
      · simp [ih.1, m, ih.2]

private theorem forall_sum {k : ℕ} {s s' : List ℝ} (h : List.Forall₂ (fun x v => 0 ≤ x ∧ Near u k x v) s s') : 0 ≤ s.sum ∧ Near u k s.sum s'.sum := by
  induction h with
  | nil => simp [Near]
  | cons a _ ih =>
    simp only [List.sum_cons]
    exact ⟨add_nonneg a.1 ih.1, a.2.add ih.2⟩

/-- C284: the weights of `k` modes of up to `N` samples are NaN exactly where those of exact arithmetic are; otherwise each is at
least 0 and within `2 N + k + 2` roundings of the exact one, and their sum is within as many roundings of 1. -/
theorem C284_weights (h : FloatLike u A) {N : ℕ} (waves : List (List (Option ℝ))) (hN : ∀ row ∈ waves, row.length ≤ N) :
    (waveletWeightsF A waves = none ∧ waveletWeights waves = none) ∨
    ∃ w w', waveletWeights waves = some w ∧ waveletWeightsF A waves = some w' ∧ w'.length = waves.length ∧ (∀ x ∈ w', 0 ≤ x) ∧
      List.Forall₂ (Near u (2 * N + waves.length + 2)) w w' ∧ Near u (2 * N + waves.length + 2) 1 w'.sum := by
  have h0 := u_nonneg h.rounds
  have m := modes_near h waves hN
  unfold waveletWeights waveletWeightsF
  generalize waves.mapM (fun row => pdMean (row.map (Option.map fun (v : ℝ) => v ^ 2))) = b at m ⊢
  generalize waves.mapM (fun row => meanOF A ((row.map (Option.map fun (v : ℝ) => A.fl (v ^ 2))).filterMap id)) = b' at m ⊢
  cases b with
  | none => cases b' with
    | none => exact Or.inl ⟨rfl, rfl⟩
    | some s' => exact m.elim
  | some s => cases b' with
    | none => exact m.elim
    | some s' =>
      obtain ⟨hl, hf⟩ := m
      obtain ⟨s0, sn⟩ := forall_sum hf
      have hl' : s'.length = waves.length := by rw [← hf.length_eq, hl]
      dsimp only
      by_cases hne : s' = []
      · have : s = [] := List.length_eq_zero_iff.1 (by rw [hf.length_eq, hne]; rfl)
        left
        rw [hne, h.empty, this]
        simp
      have t := (h.sums s' hne).near h.rounds h.lt_one (by
        intro x hx
        obtain ⟨i, hi, rfl⟩ := List.mem_iff_getElem.1 hx
        have := (List.forall₂_iff_get.1 hf).2 i (by rw [hf.length_eq]; exact hi) hi
        exact this.2.nonneg h.lt_one this.1)
      have T := sn.trans h0 h.lt_one t
      have wp : 0 < waves.length := by rw [← hl']; exact List.length_pos_iff.2 hne
      rw [hl'] at T
      rcases s0.eq_or_lt with z | z
      · left
        rw [← z] at T
        rw [if_pos (T.zero h0 h.lt_one), if_pos z.symm]
        exact ⟨rfl, rfl⟩
      · right
        have sp := T.pos h0 h.lt_one z
        rw [if_neg z.ne', if_neg sp.ne']
        have key : List.Forall₂ (fun x v => 0 ≤ x ∧ Near u (2 * N + waves.length + 2) x v) (s.map fun x => x / s.sum) (s'.map fun x => A.fl (x / A.sum s')) := by
          rw [List.forall₂_map_left_iff, List.forall₂_map_right_iff]
          refine hf.imp ?_
          intro x v hx
          have d0 : 0 ≤ x / s.sum := div_nonneg hx.1 z.le
          exact ⟨d0, ((hx.2.div h0 h.lt_one hx.1 z T).rnd h.rounds h.lt_one d0).mono h0 h.lt_one (by omega) d0⟩
        refine ⟨_, _, rfl, rfl, by rw [List.length_map, hl'], ?_, key.imp fun _ _ q => q.2, ?_⟩
        · intro x hx
          obtain ⟨i, hi, rfl⟩ := List.mem_iff_getElem.1 hx
          have := (List.forall₂_iff_get.1 key).2 i (by rw [key.length_eq]; exact hi) hi
          exact this.2.nonneg h.lt_one this.1
        · have := (forall_sum key).2
          have e : (s.map fun x => x / s.sum).sum = 1 := by
            simp only [div_eq_mul_inv]
            rw [List.sum_map_mul_right, List.map_id', mul_inv_cancel₀ z.ne']
          rwa [e] at this

/-- The hypotheses hold in a concrete case: float64, two modes. -/
example : FloatLike (2 ^ (-53 : ℤ)) ⟨even53, sumEven⟩ ∧ (∀ row ∈ [[some (1 : ℝ), none, some 2], [some 0.1, some 0.2, none]], row.length ≤ 3) :=
  ⟨floatEven, by simp⟩

end SST.Round
