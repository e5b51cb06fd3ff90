import Verif.Model.RoundMarcos
import Verif.Props.RoundSpacetime
import Verif.Proofs.RoundErr

/-!
# Property C279: the Marcos filter with rounding
-/

namespace SST.Round
open SST SST.Filters

section
variable {u : ℝ} {A : Arith}

/-- The parts of the exact filter. -/
theorem marcos_parts (s : ℝ) (freq : List ℝ) (i : ℕ) (f : ℝ) (hi : freq[i]? = some f) :
    (marcosFilter s (some freq))[i]? = some (f, ⟨1 / (1 + (f * (1 / (0.02 / Real.sqrt s))) ^ 2), -(f * (1 / (0.02 / Real.sqrt s))) / (1 + (f * (1 / (0.02 / Real.sqrt s))) ^ 2)⟩) := by
  have e : (1 : ℂ) / (Complex.I * f / ((0.02 / Real.sqrt s : ℝ) : ℂ) + 1) =
      ⟨1 / (1 + (f * (1 / (0.02 / Real.sqrt s))) ^ 2), -(f * (1 / (0.02 / Real.sqrt s))) / (1 + (f * (1 / (0.02 / Real.sqrt s))) ^ 2)⟩ := by
    generalize (0.02 / Real.sqrt s : ℝ) = c
    have e1 : Complex.I * f / (c : ℂ) + 1 = ⟨1, f * (1 / c)⟩ := by
      have : Complex.I * f / (c : ℂ) = Complex.I * ((f * (1 / c) : ℝ) : ℂ) := by push_cast; ring
      rw [this]
      apply Complex.ext <;> simp
    rw [e1]
    generalize f * (1 / c) = q
    have n : (1 : ℝ) * 1 + q * q = 1 + q ^ 2 := by ring
    apply Complex.ext
    · rw [one_div, Complex.inv_re, Complex.normSq_mk, n]
    · rw [one_div, Complex.inv_im, Complex.normSq_mk, n]
  unfold marcosFilter
  simp only [Option.getD_some, List.getElem?_map, hi, Option.map_some, ← e]

private theorem ratio_near (h : FloatLike u A) {s f : ℝ} (hs : 0 < s) (hf : 0 ≤ f) : Near u 5 (f * (1 / (0.02 / Real.sqrt s))) (ratioF A s f) := by
  have h0 := u_nonneg h.rounds
  have h1 := h.lt_one
  have r0 := Real.sqrt_pos.mpr hs
  have c0 : (0 : ℝ) < 0.02 / Real.sqrt s := by positivity
  have a := near_fl h.rounds h1 (x := 0.02) (by norm_num)
  have b := near_fl h.rounds h1 r0.le
  have c := (a.div h0 h1 (by norm_num) r0 b).rnd h.rounds h1 c0.le
  have d := ((Near.refl (u := u) 1).div h0 h1 zero_le_one c0 c).rnd h.rounds h1 (by positivity)
  exact ((Near.refl (u := u) f).mul h0 h1 hf (by positivity) d).rnd h.rounds h1 (by positivity)

private theorem recip_near (h : FloatLike u A) {q q' : ℝ} (hq : 0 ≤ q) (hq' : Near u 5 q q') :
    Near u 19 (1 / (1 + q ^ 2)) (recipF A q').re ∧ Near u 19 (q / (1 + q ^ 2)) (-(recipF A q').im) := by
  have h0 := u_nonneg h.rounds
  have h1 := h.lt_one
  have q0' := hq'.nonneg h1 hq
  have p : 0 < 1 + q ^ 2 := by positivity
  unfold recipF
  by_cases hc : |q'| ≤ 1
  · simp only [if_pos hc]
    have a : Near u 11 (q ^ 2) (A.fl (q' * q')) := by
      have := (hq'.mul h0 h1 hq hq hq').rnd h.rounds h1 (by positivity)
      rwa [← pow_two] at this
    have b := (((Near.refl (u := u) 1).mono h0 h1 (Nat.zero_le 11) zero_le_one).add a).rnd h.rounds h1 p.le
    have c : Near u 13 (1 / (1 + q ^ 2)) (A.fl (1 / A.fl (1 + A.fl (q' * q')))) := ((Near.refl (u := u) 1).div h0 h1 zero_le_one p b).rnd h.rounds h1 (by positivity)
    have s0 := c.nonneg h1 (by positivity)
    generalize A.fl (1 / A.fl (1 + A.fl (q' * q'))) = t at *
    refine ⟨c.mono h0 h1 (by norm_num) (by positivity), ?_⟩
    have d := hq'.mul h0 h1 hq (by positivity) c
    have n := near_abs h.rounds h1 (-q' * t)
    have sg : A.fl (-q' * t) ≤ 0 := by
      have := h.rounds (-q' * t)
      have m : 0 ≤ q' * t := mul_nonneg q0' s0
      rw [neg_mul, abs_neg, abs_of_nonneg m, abs_le] at this
      rw [neg_mul]
      nlinarith [this.2]
    rw [abs_of_nonpos sg, neg_mul, abs_neg, abs_of_nonneg (mul_nonneg q0' s0)] at n
    rw [← neg_mul] at n
    have e := d.trans h0 h1 n
    rw [show q * (1 / (1 + q ^ 2)) = q / (1 + q ^ 2) by ring] at e
    exact e
  · simp only [if_neg hc]
    have qp : 0 < q := by
      rcases hq.eq_or_lt with e | e
      · rw [← e] at hq'
        rw [hq'.zero h0 h1] at hc
        simp at hc
      · exact e
    have a : Near u 6 (1 / q) (A.fl (1 / q')) := ((Near.refl (u := u) 1).div h0 h1 zero_le_one qp hq').rnd h.rounds h1 (by positivity)
    have pq : 0 < q + 1 / q := by positivity
    have b := ((hq'.mono h0 h1 (by norm_num : 5 ≤ 6) hq).add a).rnd h.rounds h1 pq.le
    have c : Near u 8 (1 / (q + 1 / q)) (A.fl (1 / A.fl (q' + A.fl (1 / q')))) := ((Near.refl (u := u) 1).div h0 h1 zero_le_one pq b).rnd h.rounds h1 (by positivity)
    generalize A.fl (1 / A.fl (q' + A.fl (1 / q'))) = t at *
    have d := (a.mul h0 h1 (by positivity) (by positivity) c).rnd h.rounds h1 (by positivity)
    have e1 : 1 / q * (1 / (q + 1 / q)) = 1 / (1 + q ^ 2) := by field_simp; ring
    have e2 : 1 / (q + 1 / q) = q / (1 + q ^ 2) := by field_simp; ring
    rw [e1] at d
    rw [e2] at c
    refine ⟨d.mono h0 h1 (by norm_num) (by positivity), ?_⟩
    rw [neg_neg]
    exact c.mono h0 h1 (by norm_num) (by positivity)

private theorem single (h0 : 0 ≤ u) (h1 : u < 1) (hu : u ≤ 1.2e-16) {sg : ℝ → ℝ} (hg : RoundsTo (2 ^ (-24 : ℤ)) sg) {x v : ℝ} (hx : 0 ≤ x) (hv : Near u 19 x v) : |sg v - x| ≤ 6e-8 * x := by
  have d := near_diff h0 h1 hx hv
  have b : 1 / (1 - u) ^ 19 ≤ 1 / (1 - 1.2e-16) ^ 19 := one_div_le_one_div_of_le (by norm_num) (pow_le_pow_left₀ (by norm_num) (by linarith) 19)
  have c : 1 / (1 - 1.2e-16 : ℝ) ^ 19 ≤ 1 + 3e-15 := by norm_num
  have d' : |v - x| ≤ 3e-15 * x := d.trans (mul_le_mul_of_nonneg_right (by linarith) hx)
  have g := hg v
  have v0 := hv.nonneg h1 hx
  rw [abs_of_nonneg v0] at g
  have vx : v ≤ x + 3e-15 * x := by linarith [(abs_le.mp d').2]
  have k : (2 : ℝ) ^ (-24 : ℤ) ≤ 5.9605e-8 := by norm_num
  have g' : |sg v - v| ≤ 5.9605e-8 * (x + 3e-15 * x) := g.trans (mul_le_mul k vx v0 (by norm_num))
  have e := abs_sub_le (sg v) v x
  nlinarith

private theorem single_neg {sg : ℝ → ℝ} (hg : RoundsTo (2 ^ (-24 : ℤ)) sg) : RoundsTo (2 ^ (-24 : ℤ)) fun x => -sg (-x) := by
  intro x
  have := hg (-x)
  rw [abs_neg] at this
  calc |-sg (-x) - x| = |sg (-x) - -x| := by rw [← abs_neg]; ring_nf
    _ ≤ _ := this

/-- C279: for a plant of positive area and a frequency from 0 on, both parts of the filter are right to within 6e-8 of themselves: the accuracy of the single
precision that it is stored with, not of float64. -/
theorem C279_error (h : FloatLike u A) (hu : u ≤ 1.2e-16) (sg : ℝ → ℝ) (hg : RoundsTo (2 ^ (-24 : ℤ)) sg) (s : ℝ) (hs : 0 < s) (freq : List ℝ) (i : ℕ) (f : ℝ) (hi : freq[i]? = some f) (hf : 0 ≤ f) :
    ∃ z z' : ℂ, (marcosFilterF A sg s freq)[i]? = some (f, z') ∧ (marcosFilter s (some freq))[i]? = some (f, z) ∧ |z'.re - z.re| ≤ 6e-8 * |z.re| ∧ |z'.im - z.im| ≤ 6e-8 * |z.im| := by
  have h0 := u_nonneg h.rounds
  have r := ratio_near h hs hf
  have q0 : 0 ≤ f * (1 / (0.02 / Real.sqrt s)) := by positivity
  have n := recip_near h q0 r
  refine ⟨_, ⟨sg (recipF A (ratioF A s f)).re, sg (recipF A (ratioF A s f)).im⟩, by simp only [marcosFilterF, List.getElem?_map, hi, Option.map_some], marcos_parts s freq i f hi, ?_, ?_⟩
  · have p : (0 : ℝ) ≤ 1 / (1 + (f * (1 / (0.02 / Real.sqrt s))) ^ 2) := by positivity
    simp only
    rw [abs_of_nonneg p]
    exact single h0 h.lt_one hu hg p n.1
  · have p : (0 : ℝ) ≤ f * (1 / (0.02 / Real.sqrt s)) / (1 + (f * (1 / (0.02 / Real.sqrt s))) ^ 2) := by positivity
    have e := single h0 h.lt_one hu (single_neg hg) p n.2
    simp only [neg_neg] at e
    simp only
    rw [neg_div, abs_neg, abs_of_nonneg p]
    calc _ = |-sg (recipF A (ratioF A s f)).im - f * (1 / (0.02 / Real.sqrt s)) / (1 + (f * (1 / (0.02 / Real.sqrt s))) ^ 2)| := by rw [← abs_neg]; ring_nf
      _ ≤ _ := e

/-- C279: with roundings that treat both signs alike the value at `-f` is the conjugate of that at `f`, exactly, so that filtered series stay real. -/
theorem C279_conjugate (hodd : ∀ x, A.fl (-x) = -A.fl x) (sg : ℝ → ℝ) (hsg : ∀ x, sg (-x) = -sg x) (s : ℝ) (freq : List ℝ) (i j : ℕ) (f : ℝ) (hi : freq[i]? = some f) (hj : freq[j]? = some (-f)) :
    ∃ z : ℂ, (marcosFilterF A sg s freq)[i]? = some (f, z) ∧ (marcosFilterF A sg s freq)[j]? = some (-f, (starRingEnd ℂ) z) := by
  refine ⟨⟨sg (recipF A (ratioF A s f)).re, sg (recipF A (ratioF A s f)).im⟩, by simp only [marcosFilterF, List.getElem?_map, hi, Option.map_some], ?_⟩
  have r : ratioF A s (-f) = -ratioF A s f := by unfold ratioF; rw [neg_mul, hodd]
  have rc : ∀ q, recipF A (-q) = (starRingEnd ℂ) (recipF A q) := by
    intro q
    unfold recipF
    rw [abs_neg]
    split_ifs with hq
    · apply Complex.ext
      · simp
      · simp only [Complex.conj_im, neg_mul_neg, neg_neg]
        rw [neg_mul, hodd, neg_neg]
    · have e1 : A.fl (1 / -q) = -A.fl (1 / q) := by rw [div_neg, hodd]
      have e2 : A.fl (1 / A.fl (-q + -A.fl (1 / q))) = -A.fl (1 / A.fl (q + A.fl (1 / q))) := by
        rw [← neg_add, hodd, div_neg, hodd]
      apply Complex.ext
      · simp only [Complex.conj_re, e1, e2, neg_mul_neg]
      · simp only [Complex.conj_im, e1, e2]
  simp only [marcosFilterF, List.getElem?_map, hj, Option.map_some, r, rc, Complex.conj_re, Complex.conj_im, hsg]
  congr 1

/-- C279: the gain at frequency 0 is exactly 1. -/
theorem C279_dc (h : FloatLike u A) (one : A.fl 1 = 1) (sg : ℝ → ℝ) (h1 : sg 1 = 1) (h0 : sg 0 = 0) (s : ℝ) (freq : List ℝ) (i : ℕ) (hi : freq[i]? = some 0) :
    (marcosFilterF A sg s freq)[i]? = some (0, 1) := by
  have z : A.fl 0 = 0 := by
    have := h.rounds 0
    rw [abs_zero, mul_zero, sub_zero] at this
    exact abs_eq_zero.mp (le_antisymm this (abs_nonneg _))
  have r : ratioF A s 0 = 0 := by unfold ratioF; rw [zero_mul, z]
  simp only [marcosFilterF, List.getElem?_map, hi, Option.map_some, r, recipF, abs_zero, zero_le_one, if_true, mul_zero, z, add_zero, one, div_one, neg_zero, zero_mul, h1, h0]
  congr 2
end

/-- Rounding to 24 binary digits, halves to even, exponents unlimited. -/
noncomputable def even24 (x : ℝ) : ℝ := nearestEven (x / 2 ^ (Int.log 2 |x| - 23)) * 2 ^ (Int.log 2 |x| - 23)

theorem even24_rounds : RoundsTo (2 ^ (-24 : ℤ)) even24 := by
  intro x
  unfold even24
  rcases eq_or_ne x 0 with rfl | hx
  · have : nearestEven 0 = 0 := by have := nearestEven_int 0; simpa using this
    simp [this]
  have p : (0 : ℝ) < 2 ^ (Int.log 2 |x| - 23) := zpow_pos two_pos _
  have e : (nearestEven (x / 2 ^ (Int.log 2 |x| - 23)) : ℝ) * 2 ^ (Int.log 2 |x| - 23) - x =
      -((x / 2 ^ (Int.log 2 |x| - 23) - nearestEven (x / 2 ^ (Int.log 2 |x| - 23))) * 2 ^ (Int.log 2 |x| - 23)) := by
    field_simp
    ring
  rw [e, abs_neg, abs_mul, abs_of_pos p]
  have h := nearestEven_abs (x / 2 ^ (Int.log 2 |x| - 23))
  have l := Int.zpow_log_le_self (b := 2) (by norm_num) (abs_pos.mpr hx)
  calc _ ≤ 1 / 2 * (2 : ℝ) ^ (Int.log 2 |x| - 23) := mul_le_mul_of_nonneg_right h p.le
    _ = 2 ^ (-24 : ℤ) * 2 ^ Int.log 2 |x| := by
        rw [show Int.log 2 |x| - 23 = Int.log 2 |x| + (-23) by ring, zpow_add₀ (by norm_num), show (-24 : ℤ) = -23 + -1 by norm_num, zpow_add₀ (by norm_num)]
        norm_num
        ring
    _ ≤ 2 ^ (-24 : ℤ) * |x| := mul_le_mul_of_nonneg_left (by exact_mod_cast l) (by positivity)

/-- The hypotheses of C279 hold for float64, single precision, a plant of 45 ha and three frequencies. -/
example : FloatLike (2 ^ (-53 : ℤ)) ⟨even53, sumEven⟩ ∧ (2 : ℝ) ^ (-53 : ℤ) ≤ 1.2e-16 ∧ RoundsTo (2 ^ (-24 : ℤ)) even24 ∧ (∀ x, even53 (-x) = -even53 x) ∧ (∀ x, even24 (-x) = -even24 x) ∧
    even53 1 = 1 ∧ even24 1 = 1 ∧ even24 0 = 0 ∧ ([0, 0.01, -0.01] : List ℝ)[2]? = some (-(0.01 : ℝ)) := by
  refine ⟨floatEven, by norm_num, even24_rounds, even53_neg, ?_, ?_, ?_, ?_, ?_⟩
  · intro x
    unfold even24
    rw [abs_neg, neg_div, nearestEven_neg]
    push_cast
    ring
  · rw [even53_eq (k := 0) (n := 2 ^ 52)]
    · norm_num
    · norm_num
    · norm_num
    · rw [show (1 : ℝ) / 2 ^ (0 - 52 : ℤ) = ((2 ^ 52 : ℤ) : ℝ) by norm_num, nearestEven_int]
  · unfold even24
    rw [log_eq (k := 0) (by norm_num) (by norm_num), show (1 : ℝ) / 2 ^ (0 - 23 : ℤ) = ((2 ^ 23 : ℤ) : ℝ) by norm_num, nearestEven_int]
    norm_num
  · have := even24_rounds 0
    rw [abs_zero, mul_zero, sub_zero] at this
    exact abs_eq_zero.mp (le_antisymm this (abs_nonneg _))
  · rfl

end SST.Round
