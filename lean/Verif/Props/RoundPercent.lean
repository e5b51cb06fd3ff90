import Verif.Model.RoundPercent
import Verif.Props.RoundScore
import Verif.Proofs.RoundErr

/-!
# Property C276: variability in percent with rounding
-/

namespace SST.Round
open SST SST.Stats

variable {u : ℝ} {A : Arith}

private theorem Err.absVal {k : ℕ} {S x v : ℝ} (h : Err u k S x v) : Err u k S |x| |v| :=
  ⟨by rw [abs_abs]; exact h.1, (abs_abs_sub_abs_le _ _).trans h.2⟩

private theorem scale_err (h : FloatLike u A) {x M : ℝ} (hx : |x| ≤ M) : Err u 2 (M / 10) (x * 100 / 1000) (A.fl (A.fl (x * 100) / 1000)) := by
  have h0 := u_nonneg h.rounds
  have M0 := (abs_nonneg _).trans hx
  have a : Err u 1 (M * 100) (x * 100) (A.fl (x * 100)) := Err.rnd h.rounds h.lt_one (Err.exact (by rw [abs_mul, abs_of_pos (by norm_num : (0 : ℝ) < 100)]; linarith))
  have b : Err u 1 (M / 10) (x * 100 / 1000) (A.fl (x * 100) / 1000) := by
    obtain ⟨a1, a2⟩ := a
    refine ⟨?_, ?_⟩
    · rw [abs_div, abs_of_pos (by norm_num : (0 : ℝ) < 1000)]; linarith
    · rw [← sub_div, abs_div, abs_of_pos (by norm_num : (0 : ℝ) < 1000)]; linarith
  exact b.rnd h.rounds h.lt_one

/-- C276: the aggregate ramp rate in percent is right to within the error of `n + 2` roundings of the largest value it can take, `n` the number of samples. -/
theorem C276_darr (h : FloatLike u A) (t : List ℝ) (s : List (Option ℝ)) (tau : ℕ) {M : ℝ} (M0 : 0 ≤ M) (hM : ∀ x, some x ∈ s → |x| ≤ M) :
    ∃ d, darr true t s tau false true = .ok d ∧ |darrPctF A s tau - d| ≤ (1 / (1 - u) ^ (s.length + 2) - 1) * (s.length * (M / 5)) := by
  have h0 := u_nonneg h.rounds
  have h1 := h.lt_one
  refine ⟨_, by simp only [darr]; rfl, ?_⟩
  simp only [Bool.false_eq_true, false_and, if_false, if_true]
  unfold darrPctF darrRaw darrRawF
  rw [diffs_rows, diffsF_rows, ← List.map_drop, ← List.map_drop, rows_map, rows_map]
  have fm : ∀ f : ℝ × ℝ → ℝ × ℝ, ((rowsOf s (s.drop tau)).map (Option.map f)).filterMap id = ((rowsOf s (s.drop tau)).filterMap id).map f := by
    intro f; rw [List.filterMap_map, List.map_filterMap]; rfl
  rw [fm, fm, List.map_map, List.map_map, List.map_map, List.map_map]
  have len : ((rowsOf s (s.drop tau)).filterMap id).length ≤ s.length := rows_length _ _
  have mem : ∀ p ∈ (rowsOf s (s.drop tau)).filterMap id, |p.1| ≤ M ∧ |p.2| ≤ M := fun p hp =>
    ⟨hM _ (List.mem_of_mem_drop (rows_mem hp).1), hM _ (rows_mem hp).2⟩
  generalize (rowsOf s (s.drop tau)).filterMap id = R at *
  have len' : (R.length : ℝ) ≤ s.length := by exact_mod_cast len
  by_cases hR : R = []
  · subst hR
    simp only [List.map_nil, h.empty, List.sum_nil, sub_self, abs_zero]
    exact mul_nonneg (gr_nonneg h0 h1 _) (by positivity)
  · have e := Err.sum h.rounds h1 (k := 3) (S := M / 5) (n := s.length) (h.sums _ (by simpa using hR)) (l := R)
      (f := (fun (v : ℝ) => |v|) ∘ (fun p : ℝ × ℝ => p.1 - p.2) ∘ fun p => (p.1 * 100 / 1000, p.2 * 100 / 1000))
      (g := (fun (v : ℝ) => |v|) ∘ (fun p : ℝ × ℝ => A.fl (p.1 - p.2)) ∘ fun p => (A.fl (A.fl (p.1 * 100) / 1000), A.fl (A.fl (p.2 * 100) / 1000)))
      (fun p hp => by
        have a := ((scale_err h (mem p hp).1).sub (scale_err h (mem p hp).2)).rnd h.rounds h1
        exact (a.mono h0 h1 le_rfl (by linarith)).absVal) len
    refine (e.mono h0 h1 (by omega) (mul_le_mul_of_nonneg_right len' (by positivity))).2

/-- C276: the variability score in percent is one tenth of the plain one to within two roundings. -/
theorem C276_score (h : FloatLike u A) (s : List (Option ℝ)) (tau : ℕ) :
    (scorePctF A s tau = none ↔ scoreRawF A s tau = none) ∧
    ∀ v v', scoreRawF A s tau = some v → scorePctF A s tau = some v' → |v' - v / 10| ≤ (1 / (1 - u) ^ 2 - 1) * |v / 10| := by
  have h0 := u_nonneg h.rounds
  have h1 := h.lt_one
  unfold scorePctF
  refine ⟨by simp, ?_⟩
  intro v v' hv hv'
  rw [hv, Option.map_some, Option.some.injEq] at hv'
  subst hv'
  have a : Err u 1 (1 / 10) (1 / 10) (A.fl (100 / 1000)) := by
    rw [show (100 / 1000 : ℝ) = 1 / 10 by norm_num]
    exact Err.rnd h.rounds h1 (Err.exact (by rw [abs_of_pos]; norm_num))
  have b := ((a.mul h0 h1 (Err.exact (u := u) (le_refl |v|))).rnd h.rounds h1).2
  rw [show (1 / 10 : ℝ) * v = v / 10 by ring, show (1 / 10 : ℝ) * |v| = |v / 10| by rw [abs_div, abs_of_pos (by norm_num : (0 : ℝ) < 10)]; ring] at b
  exact b

/-- The hypotheses of C276 hold for float64 and a morning with a gap. -/
example : FloatLike (2 ^ (-53 : ℤ)) ⟨even53, sumEven⟩ ∧ (∀ x, some x ∈ ([some 400.5, none, some 180.25, some 640.1] : List (Option ℝ)) → |x| ≤ 1000) ∧
    ∃ v v', scoreRawF ⟨even53, sumEven⟩ [some 400.5, some 180.25] 1 = some v ∧ scorePctF ⟨even53, sumEven⟩ [some 400.5, some 180.25] 1 = some v' := by
  refine ⟨floatEven, ?_, ?_⟩
  · intro x hx
    simp only [List.mem_cons, Option.some.injEq, reduceCtorEq, List.not_mem_nil, or_false, false_or] at hx
    rcases hx with rfl | rfl | rfl <;> rw [abs_of_pos] <;> norm_num
  · cases hv : scoreRawF ⟨even53, sumEven⟩ [some 400.5, some 180.25] 1 with
    | none => simp [scoreRawF, diffsF, osubF, omax] at hv
    | some v => exact ⟨v, _, rfl, by unfold scorePctF; rw [hv]; rfl⟩

end SST.Round
