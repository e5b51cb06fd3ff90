import Verif.Model.RoundDelay
import Verif.Props.RoundFlat
import Verif.Props.RoundPlant
import Verif.Proofs.RoundErr
import Mathlib.Analysis.Real.Pi.Bounds
import Mathlib.Analysis.SpecialFunctions.Trigonometric.Bounds

/-!
# Property C278: applying a delay with rounding
-/

namespace SST.Round
open SST

section
variable {u : ℝ} {A : Arith}

private theorem prod_err (h : FloatLike u A) (hu : u ≤ 1.2e-16) {a c c' m : ℝ} (ha : |a| ≤ m) (hc : |c| ≤ 1) (hc' : Abs 1e-15 c c') : Abs (1.13e-15 * m) (a * c) (A.fl (a * c')) := by
  have m0 := (abs_nonneg _).trans ha
  have p : Abs (1e-15 * m) (a * c) (a * c') := (Abs.exact a).mul hc' ha hc (by linarith)
  refine p.rnd h.rounds hu (S := m) ?_ (by linarith)
  rw [abs_mul]
  calc _ ≤ m * 1 := mul_le_mul ha hc (abs_nonneg _) m0
    _ = m := mul_one m

private theorem prod_size {a c m : ℝ} (ha : |a| ≤ m) (hc : |c| ≤ 1) : |a * c| ≤ m := by
  have m0 := (abs_nonneg _).trans ha
  rw [abs_mul]
  calc _ ≤ m * 1 := mul_le_mul ha hc (abs_nonneg _) m0
    _ = m := mul_one m

/-- The product with a computed phase factor. -/
private theorem turn (h : FloatLike u A) (hu : u ≤ 1.2e-16) {cn sn : ℝ → ℝ} (hc : ∀ x, |cn x - Real.cos x| ≤ 1e-15) (hs : ∀ x, |sn x - Real.sin x| ≤ 1e-15) (z : ℂ) (θ : ℝ) :
    ‖cmulF A z ⟨cn θ, sn θ⟩ - z * Complex.exp (θ * Complex.I)‖ ≤ 6e-15 * ‖z‖ := by
  have r := Complex.abs_re_le_norm z
  have i := Complex.abs_im_le_norm z
  have c1 := Real.abs_cos_le_one θ
  have s1 := Real.abs_sin_le_one θ
  have m0 := norm_nonneg z
  generalize ‖z‖ = m at *
  have e : z * Complex.exp (θ * Complex.I) = ⟨z.re * Real.cos θ - z.im * Real.sin θ, z.re * Real.sin θ + z.im * Real.cos θ⟩ := by
    rw [Complex.exp_mul_I, ← Complex.ofReal_cos, ← Complex.ofReal_sin]
    apply Complex.ext <;> simp [-Complex.ofReal_cos, -Complex.ofReal_sin]
  have rc := prod_err h hu r c1 (hc θ)
  have is := prod_err h hu i s1 (hs θ)
  have rs := prod_err h hu r s1 (hs θ)
  have ic := prod_err h hu i c1 (hc θ)
  have re : Abs (2.6e-15 * m) (z.re * Real.cos θ - z.im * Real.sin θ) (A.fl (A.fl (z.re * cn θ) - A.fl (z.im * sn θ))) := by
    refine (rc.sub is (c := 2.26e-15 * m) (by linarith)).rnd h.rounds hu (S := 2 * m) ?_ (by linarith)
    exact (abs_sub _ _).trans (by linarith [prod_size r c1, prod_size i s1])
  have im : Abs (2.6e-15 * m) (z.re * Real.sin θ + z.im * Real.cos θ) (A.fl (A.fl (z.re * sn θ) + A.fl (z.im * cn θ))) := by
    have add : Abs (2.26e-15 * m) (z.re * Real.sin θ + z.im * Real.cos θ) (A.fl (z.re * sn θ) + A.fl (z.im * cn θ)) := by
      unfold Abs at *
      calc _ = |(A.fl (z.re * sn θ) - z.re * Real.sin θ) + (A.fl (z.im * cn θ) - z.im * Real.cos θ)| := by ring_nf
        _ ≤ _ := (abs_add_le _ _).trans (by linarith)
    refine add.rnd h.rounds hu (S := 2 * m) ?_ (by linarith)
    exact (abs_add_le _ _).trans (by linarith [prod_size r s1, prod_size i c1])
  rw [e]
  refine (Complex.norm_le_abs_re_add_abs_im _).trans ?_
  unfold Abs at re im
  simp only [cmulF, Complex.sub_re, Complex.sub_im]
  linarith

private theorem phase_err (h : FloatLike u A) (hu : u ≤ 1.2e-16) (f d : ℝ) : |phaseF A f d - -(2 * Real.pi * f * d)| ≤ 3.2e-15 * |f * d| := by
  have h0 := u_nonneg h.rounds
  have h1 := h.lt_one
  have pi0 := Real.pi_pos
  have a : Err u 1 Real.pi Real.pi (A.fl Real.pi) := Err.rnd h.rounds h1 (Err.exact (abs_of_pos pi0).le)
  have b : Err u 2 (2 * Real.pi) (2 * Real.pi) (A.fl (2 * A.fl Real.pi)) := by
    have := (Err.mul h0 h1 (Err.exact (u := u) (x := 2) (S := 2) (abs_of_pos (by norm_num)).le) a).rnd h.rounds h1
    exact this
  have c := ((b.mul h0 h1 (Err.exact (u := u) (le_refl |f|))).rnd h.rounds h1)
  have e := ((c.mul h0 h1 (Err.exact (u := u) (le_refl |(-d)|))).rnd h.rounds h1).2
  have g : gr u (2 + 0 + 1 + 0 + 1) ≤ 4.9e-16 := by
    unfold gr
    have b : 1 / (1 - u) ^ 4 ≤ 1 / (1 - 1.2e-16) ^ 4 := one_div_le_one_div_of_le (by norm_num) (pow_le_pow_left₀ (by norm_num) (by linarith) 4)
    have c : 1 / (1 - 1.2e-16 : ℝ) ^ 4 ≤ 1 + 4.9e-16 := by norm_num
    have : (2 + 0 + 1 + 0 + 1 : ℕ) = 4 := rfl
    rw [this]
    linarith
  have n0 : 0 ≤ |f * d| := abs_nonneg _
  calc _ = |A.fl (A.fl (A.fl (2 * A.fl Real.pi) * f) * -d) - 2 * Real.pi * f * -d| := by unfold phaseF; ring_nf
    _ ≤ gr u (2 + 0 + 1 + 0 + 1) * (2 * Real.pi * |f| * |(-d)|) := e
    _ = gr u (2 + 0 + 1 + 0 + 1) * (2 * Real.pi) * |f * d| := by rw [abs_neg, abs_mul]; ring
    _ ≤ 4.9e-16 * (2 * 3.15) * |f * d| := by
        refine mul_le_mul_of_nonneg_right (mul_le_mul g ?_ (by positivity) (by norm_num)) n0
        linarith [Real.pi_lt_d2]
    _ ≤ _ := by nlinarith

private theorem exp_lip (a b : ℝ) : ‖Complex.exp (a * Complex.I) - Complex.exp (b * Complex.I)‖ ≤ |a - b| := by
  have e : Complex.exp (a * Complex.I) - Complex.exp (b * Complex.I) = Complex.exp (b * Complex.I) * (Complex.exp (Complex.I * ((a - b : ℝ) : ℂ)) - 1) := by
    rw [mul_sub, ← Complex.exp_add, mul_one]
    congr 2
    push_cast
    ring
  rw [e, norm_mul, Complex.norm_exp_ofReal_mul_I, one_mul]
  exact Real.norm_exp_I_mul_ofReal_sub_one_le

/-- C278: with rounding `apply_delay` leaves every gain as it is to within 6e-15 of itself, however long the delay, and each value is right to within
6e-15 + 3.2e-15 times the number of periods it is delayed by. -/
theorem C278_delay (h : FloatLike u A) (hu : u ≤ 1.2e-16) (cn sn : ℝ → ℝ) (hc : ∀ x, |cn x - Real.cos x| ≤ 1e-15) (hs : ∀ x, |sn x - Real.sin x| ≤ 1e-15) (tf : List (ℝ × ℂ)) (delay : ℝ)
    (i : ℕ) (f : ℝ) (z : ℂ) (hi : tf[i]? = some (f, z)) :
    (applyDelayF A cn sn tf delay).length = tf.length ∧ ∃ v v', (applyDelayF A cn sn tf delay)[i]? = some v' ∧ (Tf.applyDelay tf delay)[i]? = some v ∧
      ‖v' - v‖ ≤ (6e-15 + 3.2e-15 * |f * delay|) * ‖z‖ ∧ |‖v'‖ - ‖z‖| ≤ 6e-15 * ‖z‖ := by
  refine ⟨by simp [applyDelayF], z * Complex.exp (2 * Real.pi * Complex.I * f * (-delay)), cmulF A z ⟨cn (phaseF A f delay), sn (phaseF A f delay)⟩, ?_, ?_, ?_, ?_⟩
  · simp [applyDelayF, hi]
  · simp [Tf.applyDelay, hi]
  · have t := turn h hu hc hs z (phaseF A f delay)
    have e : (2 * Real.pi * Complex.I * f * (-delay) : ℂ) = ((-(2 * Real.pi * f * delay) : ℝ) : ℂ) * Complex.I := by push_cast; ring
    have l := exp_lip (phaseF A f delay) (-(2 * Real.pi * f * delay))
    have p := phase_err h hu f delay
    have m := mul_le_mul_of_nonneg_left (l.trans p) (norm_nonneg z)
    rw [← norm_mul, mul_sub] at m
    rw [e]
    refine (norm_sub_le_norm_sub_add_norm_sub _ (z * Complex.exp (phaseF A f delay * Complex.I)) _).trans ?_
    linarith
  · have t := turn h hu hc hs z (phaseF A f delay)
    have n : ‖z * Complex.exp (phaseF A f delay * Complex.I)‖ = ‖z‖ := by rw [norm_mul, Complex.norm_exp_ofReal_mul_I, mul_one]
    rw [← n]
    refine (abs_norm_sub_norm_le _ _).trans ?_
    rw [n]
    exact t
end

/-- The hypotheses of C278 hold for float64 and two rows. -/
example : FloatLike (2 ^ (-53 : ℤ)) ⟨even53, sumEven⟩ ∧ (2 : ℝ) ^ (-53 : ℤ) ≤ 1.2e-16 ∧ (∀ x, |Real.cos x - Real.cos x| ≤ 1e-15) ∧
    ([(0, 1), (0.01, ⟨0.5, -0.5⟩)] : List (ℝ × ℂ))[1]? = some ((0.01 : ℝ), (⟨0.5, -0.5⟩ : ℂ)) := by
  refine ⟨floatEven, by norm_num, fun x => by norm_num, rfl⟩

end SST.Round
