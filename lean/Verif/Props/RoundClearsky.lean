import Verif.Model.RoundClearsky
import Verif.Props.RoundIndex

/-!
# Property C275: the clear-sky index with rounding
-/

namespace SST.Irradiance
open SST SST.Round

variable {u : ℝ} {A : Arith}

/-- The entry of the result at column `j` and row `i`. -/
theorem clearskyF_at (isFrame : Bool) (ghi : List (List (Option ℝ))) (cs : List (Option ℝ)) (mx : ℝ) (i j : ℕ) (col : List (Option ℝ)) (g c : Option ℝ)
    (hcol : ghi[j]? = some col) (hg : col[i]? = some g) (hc : cs[i]? = some c) :
    ((clearskyIndexF A isFrame ghi cs mx)[j]?.bind (·[i]?)) = some (pvlibClearskyF A g c (if isFrame then 2 else mx)) ∧
    ((clearskyIndex isFrame ghi cs mx)[j]?.bind (·[i]?)) = some (pvlibClearsky g c (if isFrame then 2 else mx)) := by
  simp [clearskyIndexF, clearskyIndex, hcol, List.getElem?_zipWith, hg, hc]

private theorem ratio_close (h : FloatLike u A) {m : ℝ} (hm : 0 ≤ m) (ρ : ℝ) : |min (max (A.fl ρ) 0) m - min (max ρ 0) m| ≤ u * min (max ρ 0) m := by
  have h0 := u_nonneg h.rounds
  have h1 := h.lt_one
  have r := h.rounds ρ
  rcases le_or_gt ρ 0 with hn | hp
  · rw [abs_of_nonpos hn, abs_le] at r
    have : A.fl ρ ≤ 0 := by nlinarith [r.2]
    rw [max_eq_right hn, max_eq_right this, min_eq_left hm]
    simp
  · rw [abs_of_pos hp, abs_le] at r
    have f0 : 0 ≤ A.fl ρ := by nlinarith [r.1]
    rw [max_eq_left hp.le, max_eq_left f0, abs_le]
    rcases le_total ρ m with a | a <;> rcases le_total (A.fl ρ) m with b | b <;> simp only [min_eq_left, min_eq_right, a, b] <;> constructor <;> nlinarith [r.1, r.2, mul_nonneg h0 hm]

/-- C275: with rounding every index is within a relative error `u` of the exact one, lies between 0 and the maximum, and is NaN exactly if one of the samples is. -/
theorem C275_error (h : FloatLike u A) (isFrame : Bool) (ghi : List (List (Option ℝ))) (cs : List (Option ℝ)) {mx : ℝ} (hmx : 0 ≤ mx) (i j : ℕ) (col : List (Option ℝ)) (g c : Option ℝ)
    (hcol : ghi[j]? = some col) (hg : col[i]? = some g) (hc : cs[i]? = some c) :
    (g = none ∨ c = none → ((clearskyIndexF A isFrame ghi cs mx)[j]?.bind (·[i]?)) = some none) ∧
    (g ≠ none → c ≠ none → ∃ k k' : ℝ, ((clearskyIndexF A isFrame ghi cs mx)[j]?.bind (·[i]?)) = some (some k') ∧
      ((clearskyIndex isFrame ghi cs mx)[j]?.bind (·[i]?)) = some (some k) ∧ |k' - k| ≤ u * k ∧ 0 ≤ k' ∧ k' ≤ if isFrame then 2 else mx) := by
  obtain ⟨e1, e2⟩ := clearskyF_at (A := A) isFrame ghi cs mx i j col g c hcol hg hc
  rw [e1, e2]
  have m0 : 0 ≤ if isFrame then 2 else mx := by split_ifs <;> [norm_num; exact hmx]
  generalize (if isFrame then 2 else mx) = m at *
  constructor
  · rintro (rfl | rfl)
    · rfl
    · cases g <;> rfl
  · intro h1 h2
    obtain ⟨a, rfl⟩ := Option.ne_none_iff_exists'.mp h1
    obtain ⟨b, rfl⟩ := Option.ne_none_iff_exists'.mp h2
    refine ⟨_, _, rfl, rfl, ?_, le_min (le_max_right _ _) m0, min_le_right _ _⟩
    beta_reduce
    by_cases hb : b = 0
    · rw [if_pos hb, if_pos hb]; simp [m0]
    · rw [if_neg hb, if_neg hb]; exact ratio_close h m0 _

/-- C275: where the irradiance is that of the clear sky the index is exactly 1, and more irradiance under the same clear sky never gives a smaller index. -/
theorem C275_order (hk : KeepsIntegers A.fl) (isFrame : Bool) (ghi ghi' : List (List (Option ℝ))) (cs : List (Option ℝ)) {mx : ℝ} (i j : ℕ) (col col' : List (Option ℝ)) (g g' c : ℝ)
    (hcol : ghi[j]? = some col) (hg : col[i]? = some (some g)) (hcol' : ghi'[j]? = some col') (hg' : col'[i]? = some (some g')) (hc : cs[i]? = some (some c)) (c0 : 0 < c) :
    (1 ≤ mx → g = c → ((clearskyIndexF A isFrame ghi cs mx)[j]?.bind (·[i]?)) = some (some 1)) ∧
    (g ≤ g' → ∃ k k' : ℝ, ((clearskyIndexF A isFrame ghi cs mx)[j]?.bind (·[i]?)) = some (some k) ∧ ((clearskyIndexF A isFrame ghi' cs mx)[j]?.bind (·[i]?)) = some (some k') ∧ k ≤ k') := by
  obtain ⟨e1, -⟩ := clearskyF_at (A := A) isFrame ghi cs mx i j col _ _ hcol hg hc
  obtain ⟨e2, -⟩ := clearskyF_at (A := A) isFrame ghi' cs mx i j col' _ _ hcol' hg' hc
  rw [e1, e2]
  constructor
  · rintro h1 rfl
    have m1 : 1 ≤ if isFrame then 2 else mx := by split_ifs <;> [norm_num; exact h1]
    generalize (if isFrame then 2 else mx) = m at *
    have := hk.int 1 (by norm_num)
    rw [Int.cast_one] at this
    simp only [pvlibClearskyF, Option.bind_some, Option.map_some, if_neg c0.ne', div_self c0.ne', this, max_eq_left zero_le_one, min_eq_left m1]
  · intro hle
    refine ⟨_, _, rfl, rfl, ?_⟩
    simp only [if_neg c0.ne']
    exact min_le_min_right _ (max_le_max_right _ (hk.mono (div_le_div_of_nonneg_right hle c0.le)))

/-- The hypotheses of C275 hold for a noon sample of two sensors and 53 digits. -/
example : FloatLike (2 ^ (-53 : ℤ)) ⟨round53, sum53⟩ ∧ KeepsIntegers round53 ∧
    ((clearskyIndexF ⟨round53, sum53⟩ true [[some 0, some 912.4], [none, some 640.1]] [some 0, some 912.4] 2)[0]?.bind (·[1]?)) = some (some 1) := by
  refine ⟨float53, keeps53, ?_⟩
  exact (C275_order keeps53 true [[some 0, some 912.4], [none, some 640.1]] [[some 0, some 912.4], [none, some 640.1]] [some 0, some 912.4] 1 0 [some 0, some 912.4] [some 0, some 912.4] 912.4 912.4 912.4
    rfl rfl rfl rfl rfl (by norm_num)).1 (by norm_num) rfl

end SST.Irradiance
