import Verif.Model.RoundPolar
import Verif.Props.RoundFlat
import Verif.Props.RoundVec

/-!
# Property C272: polar coordinates with rounding
-/

namespace SST.Round
open SST SST.Spatial

variable {u : ℝ} {A : Arith}

theorem mag_abs (h : FloatLike u A) (hu : u ≤ 1.2e-16) (v : Vec) : Abs (3.7e-16 * magnitude v) (magnitude v) (magnitudeF A v) := by
  have h0 := u_nonneg h.rounds
  have m0 : 0 ≤ magnitude v := Real.sqrt_nonneg _
  have d := near_diff h0 h.lt_one m0 (C260_magnitude h v)
  have b : 1 / (1 - u) ^ 3 ≤ 1 / (1 - 1.2e-16) ^ 3 := one_div_le_one_div_of_le (by norm_num) (pow_le_pow_left₀ (by norm_num) (by linarith) 3)
  have c : 1 / (1 - 1.2e-16 : ℝ) ^ 3 ≤ 1 + 3.7e-16 := by norm_num
  refine le_trans (a := |_ - _|) d (mul_le_mul_of_nonneg_right (by linarith) m0)

private theorem prod_abs (h : FloatLike u A) (hu : u ≤ 1.2e-16) {r r' t c f' m : ℝ} (m0 : 0 ≤ m) (hr : |r| ≤ m) (h1 : Abs (3.7e-16 * m) r r') (hc : |c| ≤ 1) (h2 : Abs t c f') (ht : t ≤ 1e-3) :
    Abs ((6e-16 + 1.001 * t) * m) (r * c) (A.fl (r' * f')) := by
  have t0 := h2.nonneg
  have p := h1.mul h2 (X := m) (Y := 1) (c := (3.8e-16 + 1.0001 * t) * m) hr hc (by nlinarith [mul_nonneg m0 t0])
  refine p.rnd h.rounds hu (S := m) ?_ (by nlinarith [mul_nonneg m0 t0])
  rw [abs_mul]
  calc _ ≤ m * 1 := mul_le_mul hr hc (abs_nonneg _) m0
    _ = m := mul_one m

private theorem at_angle {f g : ℝ → ℝ} (hf : ∀ a b : ℝ, |f a - f b| ≤ |a - b|) (hg : ∀ x, |g x - f x| ≤ 1e-15) {θ θ' ε : ℝ} (hθ : |θ' - θ| ≤ ε) : Abs (1e-15 + ε) (f θ) (g θ') := by
  have a := hf θ' θ
  have b := hg θ'
  have c := abs_sub_le (g θ') (f θ') (f θ)
  unfold Abs
  linarith

/-- C272: with float64 and angle functions good to `10⁻¹⁵`, each coordinate of `pol2rect(rect2pol(x, y))` differs from `x`, `y` by at most `3·10⁻¹⁵` times the length of `(x, y)`. -/
theorem C272_round_trip (h : FloatLike (2 ^ (-53 : ℤ)) A) {at2 : ℝ → ℝ → ℝ} {cs sn : ℝ → ℝ} (hat : ∀ y x, |at2 y x - Complex.arg ⟨x, y⟩| ≤ 1e-15)
    (hcs : ∀ x, |cs x - Real.cos x| ≤ 1e-15) (hsn : ∀ x, |sn x - Real.sin x| ≤ 1e-15) (x y : ℝ) :
    |(pol2rectF A cs sn (rect2polF A at2 x y).1 (rect2polF A at2 x y).2).1 - x| ≤ 3e-15 * Real.sqrt (x ^ 2 + y ^ 2) ∧
    |(pol2rectF A cs sn (rect2polF A at2 x y).1 (rect2polF A at2 x y).2).2 - y| ≤ 3e-15 * Real.sqrt (x ^ 2 + y ^ 2) := by
  have hu : (2 : ℝ) ^ (-53 : ℤ) ≤ 1.2e-16 := by norm_num [zpow_neg]
  have m := mag_abs h hu (x, y)
  have m0 : 0 ≤ magnitude (x, y) := Real.sqrt_nonneg _
  have e : magnitude (x, y) = Real.sqrt (x ^ 2 + y ^ 2) := rfl
  have n : ‖(⟨x, y⟩ : ℂ)‖ = Real.sqrt (x ^ 2 + y ^ 2) := by rw [Complex.norm_def, Complex.normSq_mk]; congr 1; ring
  have ex : magnitude (x, y) * Real.cos (Complex.arg ⟨x, y⟩) = x := by
    rw [e, ← n]; exact Complex.norm_mul_cos_arg _
  have ey : magnitude (x, y) * Real.sin (Complex.arg ⟨x, y⟩) = y := by
    rw [e, ← n]; exact Complex.norm_mul_sin_arg _
  have k1 := prod_abs h hu m0 (abs_of_nonneg m0).le m (Real.abs_cos_le_one _) (at_angle (fun a b => cos_lip a b) hcs (hat y x)) (by norm_num)
  have k2 := prod_abs h hu m0 (abs_of_nonneg m0).le m (Real.abs_sin_le_one _) (at_angle (fun a b => sin_lip a b) hsn (hat y x)) (by norm_num)
  rw [ex] at k1
  rw [ey] at k2
  rw [← e]
  unfold rect2polF pol2rectF
  have b : (6e-16 + 1.001 * (1e-15 + 1e-15)) * magnitude (x, y) ≤ 3e-15 * magnitude (x, y) := mul_le_mul_of_nonneg_right (by norm_num) m0
  exact ⟨le_trans (a := |_ - _|) k1 b, le_trans (a := |_ - _|) k2 b⟩

/-- C272: for any radius and an angle known up to `ε ≤ 10⁻⁴`, the coordinates of `pol2rect` are right up to `2·10⁻¹⁵ + 1.001 ε` times the radius. -/
theorem C272_pol2rect (h : FloatLike (2 ^ (-53 : ℤ)) A) {cs sn : ℝ → ℝ} (hcs : ∀ x, |cs x - Real.cos x| ≤ 1e-15) (hsn : ∀ x, |sn x - Real.sin x| ≤ 1e-15) {r θ θ' ε : ℝ}
    (hθ : |θ' - θ| ≤ ε) (hε : ε ≤ 1e-4) :
    |(pol2rectF A cs sn r θ').1 - r * Real.cos θ| ≤ (2e-15 + 1.001 * ε) * |r| ∧ |(pol2rectF A cs sn r θ').2 - r * Real.sin θ| ≤ (2e-15 + 1.001 * ε) * |r| := by
  have hu : (2 : ℝ) ^ (-53 : ℤ) ≤ 1.2e-16 := by norm_num [zpow_neg]
  have r0 := abs_nonneg r
  have hr : Abs (3.7e-16 * |r|) r r := (Abs.exact r).mono (by positivity)
  have ε0 : 0 ≤ ε := (abs_nonneg _).trans hθ
  have k1 := prod_abs h hu r0 le_rfl hr (Real.abs_cos_le_one _) (at_angle (fun a b => cos_lip a b) hcs hθ) (by linarith)
  have k2 := prod_abs h hu r0 le_rfl hr (Real.abs_sin_le_one _) (at_angle (fun a b => sin_lip a b) hsn hθ) (by linarith)
  have b : (6e-16 + 1.001 * (1e-15 + ε)) * |r| ≤ (2e-15 + 1.001 * ε) * |r| := mul_le_mul_of_nonneg_right (by linarith) r0
  exact ⟨le_trans (a := |_ - _|) k1 b, le_trans (a := |_ - _|) k2 b⟩

/-- The hypotheses hold with 53 digits and exact angle functions. -/
example : |(pol2rectF ⟨round53, sum53⟩ Real.cos Real.sin (rect2polF ⟨round53, sum53⟩ arctan2 3 (-4)).1 (rect2polF ⟨round53, sum53⟩ arctan2 3 (-4)).2).2 - (-4)| ≤ 1.5e-14 := by
  have k := (C272_round_trip float53 (at2 := arctan2) (cs := Real.cos) (sn := Real.sin) (fun y x => by simp [arctan2]; norm_num) (fun x => by simp; norm_num) (fun x => by simp; norm_num) 3 (-4)).2
  have s : Real.sqrt (3 ^ 2 + (-4) ^ 2) = 5 := by
    rw [show (3 : ℝ) ^ 2 + (-4) ^ 2 = 5 ^ 2 by norm_num]; exact Real.sqrt_sq (by norm_num)
  rw [s] at k
  norm_num at k ⊢
  exact k

end SST.Round
