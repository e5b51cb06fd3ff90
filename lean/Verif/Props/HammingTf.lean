import Verif.Model.Window
import Verif.Props.RobustTf
import Verif.Props.CmvTf

/-!
# Property C221 for the default window

Specifications: `Spec/RobustTf.lean`.
-/

namespace SST.Props.HammingTf
open SST SST.Tf SST.Spec

theorem telescope (f : ℤ → ℝ) (a b : ℤ) (h : a ≤ b) : ∑ i ∈ Finset.Ico a b, (f (i + 1) - f i) = f b - f a := by
  obtain ⟨n, rfl⟩ := Int.le.dest h
  clear h
  induction n with
  | zero => simp
  | succ n ih =>
    rw [show Finset.Ico a (a + ((n + 1 : ℕ) : ℤ)) = insert (a + (n : ℤ)) (Finset.Ico a (a + (n : ℤ))) by
        ext x; simp only [Finset.mem_Ico, Finset.mem_insert]; omega,
      Finset.sum_insert (by simp), ih]
    push_cast
    rw [add_assoc a]
    ring

/-- The variation of a sequence that rises up to `p` and then falls. -/
theorem variation (f : ℤ → ℝ) (a p b : ℤ) (h1 : a ≤ p) (h2 : p ≤ b) (hup : ∀ i, a ≤ i → i < p → f i ≤ f (i + 1))
    (hdown : ∀ i, p ≤ i → i < b → f (i + 1) ≤ f i) : ∑ i ∈ Finset.Ico a b, |f (i + 1) - f i| = 2 * f p - f a - f b := by
  have hu : Finset.Ico a b = Finset.Ico a p ∪ Finset.Ico p b := (Finset.Ico_union_Ico_eq_Ico h1 h2).symm
  rw [hu, Finset.sum_union (Finset.Ico_disjoint_Ico_consecutive a p b)]
  have e1 : ∑ i ∈ Finset.Ico a p, |f (i + 1) - f i| = f p - f a := by
    rw [← telescope f a p h1]
    refine Finset.sum_congr rfl fun i hi => abs_of_nonneg ?_
    rw [Finset.mem_Ico] at hi
    linarith [hup i hi.1 hi.2]
  have e2 : ∑ i ∈ Finset.Ico p b, |f (i + 1) - f i| = f p - f b := by
    have := telescope f p b h2
    rw [show ∑ i ∈ Finset.Ico p b, |f (i + 1) - f i| = -∑ i ∈ Finset.Ico p b, (f (i + 1) - f i) by
      rw [← Finset.sum_neg_distrib]
      refine Finset.sum_congr rfl fun i hi => abs_of_nonpos ?_
      rw [Finset.mem_Ico] at hi
      linarith [hdown i hi.1 hi.2], this]
    ring
  rw [e1, e2]
  ring

theorem hamming_getD (L j : ℕ) (hL : 1 < L) (hj : j < L) : ((hamming L)[j]?).getD 0 = 0.54 - 0.46 * Real.cos (2 * Real.pi * j / L) := by
  unfold hamming
  rw [if_neg (by omega)]
  simp [hj]

theorem tap_hamming (L : ℕ) (hL : 1 < L) (i : ℤ) (h0 : 0 ≤ i) (h1 : i < L) :
    tap (hamming L) L i = 0.54 - 0.46 * Real.cos (2 * Real.pi * i / L) := by
  unfold tap
  rw [if_pos ⟨h0, h1⟩, hamming_getD L _ hL (by omega)]
  congr 5
  exact_mod_cast Int.toNat_of_nonneg h0

theorem cos_step (L i : ℝ) : Real.cos (2 * Real.pi * (i + 1) / L) - Real.cos (2 * Real.pi * i / L) =
    -2 * Real.sin (Real.pi * (2 * i + 1) / L) * Real.sin (Real.pi / L) := by
  rw [Real.cos_sub_cos, show (2 * Real.pi * (i + 1) / L + 2 * Real.pi * i / L) / 2 = Real.pi * (2 * i + 1) / L by ring,
    show (2 * Real.pi * (i + 1) / L - 2 * Real.pi * i / L) / 2 = Real.pi / L by ring]

/-- The Hamming window is a single hump of height at most 1. -/
theorem hamming_variation (L : ℕ) : ∑ i ∈ Finset.Ico (-1) (L : ℤ), |tap (hamming L) L (i + 1) - tap (hamming L) L i| ≤ 2 := by
  rcases Nat.lt_or_ge 1 L with hL | hL
  swap
  · interval_cases L
    · rw [show Finset.Ico (-1 : ℤ) ((0 : ℕ) : ℤ) = {-1} by decide]
      simp [tap]
    · rw [show Finset.Ico (-1 : ℤ) ((1 : ℕ) : ℤ) = {-1, 0} by decide]
      simp [tap, hamming]
      norm_num
  have hLR : (0 : ℝ) < L := by exact_mod_cast (by omega : 0 < L)
  have hpi := Real.pi_pos
  have hs : 0 ≤ Real.sin (Real.pi / L) := by
    apply Real.sin_nonneg_of_nonneg_of_le_pi (by positivity)
    rw [div_le_iff₀ hLR]
    have : (1 : ℝ) ≤ L := by exact_mod_cast hL.le
    nlinarith
  have hpos : ∀ i : ℤ, 0 ≤ tap (hamming L) L i := by
    intro i
    by_cases h : 0 ≤ i ∧ i < L
    · rw [tap_hamming L hL i h.1 h.2]
      have := Real.cos_le_one (2 * Real.pi * i / L)
      linarith
    · unfold tap
      rw [if_neg h]
  have hout : ∀ i : ℤ, ¬ (0 ≤ i ∧ i < (L : ℤ)) → tap (hamming L) L i = 0 := by
    intro i h
    unfold tap
    rw [if_neg h]
  rw [variation (tap (hamming L) L) (-1) ((L / 2 : ℕ) : ℤ) L (by omega) (by omega)]
  · rw [hout (-1) (by omega), hout L (by omega), tap_hamming L hL _ (by omega) (by omega)]
    have := Real.neg_one_le_cos (2 * Real.pi * ((L / 2 : ℕ) : ℤ) / L)
    linarith
  · intro i h0 h1
    by_cases h : 0 ≤ i
    · rw [tap_hamming L hL i h (by omega), tap_hamming L hL (i + 1) (by omega) (by omega)]
      have e := cos_step L i
      have : 0 ≤ Real.sin (Real.pi * (2 * i + 1) / L) := by
        apply Real.sin_nonneg_of_nonneg_of_le_pi
        · have : (0 : ℝ) ≤ i := by exact_mod_cast h
          positivity
        · rw [div_le_iff₀ hLR]
          have : (2 * i + 1 : ℝ) ≤ L := by exact_mod_cast (by omega : 2 * i + 1 ≤ (L : ℤ))
          nlinarith
      push_cast
      nlinarith [mul_nonneg this hs]
    · rw [hout i (by omega)]
      exact hpos _
  · intro i h0 h1
    by_cases h : i + 1 < L
    · rw [tap_hamming L hL i (by omega) (by omega), tap_hamming L hL (i + 1) (by omega) h]
      have e := cos_step L i
      have : Real.sin (Real.pi * (2 * i + 1) / L) ≤ 0 := by
        rw [← Real.sin_sub_two_pi]
        apply Real.sin_nonpos_of_nonpos_of_neg_pi_le
        · rw [sub_nonpos, div_le_iff₀ hLR]
          have : (2 * i + 1 : ℝ) ≤ 2 * L := by exact_mod_cast (by omega : 2 * i + 1 ≤ 2 * (L : ℤ))
          nlinarith
        · have : Real.pi ≤ Real.pi * (2 * i + 1) / L := by
            rw [le_div_iff₀ hLR]
            have : (L : ℝ) ≤ 2 * i + 1 := by exact_mod_cast (by omega : (L : ℤ) ≤ 2 * i + 1)
            nlinarith
          linarith
      push_cast
      nlinarith [mul_nonneg (neg_nonneg.2 this) hs]
    · rw [hout (i + 1) (by omega)]
      exact hpos _

/-- C221: with the Hamming window the edge effect on a pattern bounded by `A` is at most `2 A |m|`. -/
theorem C221_hamming_edge (a : ℤ → ℝ) (L s : ℕ) (m : ℤ) (A : ℝ) (hA : ∀ t, |a t| ≤ A) : edgeEffect (hamming L) a L s m ≤ 2 * A * |m| := by
  have hA0 : 0 ≤ A := (abs_nonneg _).trans (hA 0)
  have hm : (0 : ℝ) ≤ ((|m| : ℤ) : ℝ) := by exact_mod_cast abs_nonneg m
  refine (Tf.C221_edge (hamming L) a L s m A hA).trans ?_
  have := mul_le_mul_of_nonneg_left (mul_le_mul_of_nonneg_left (hamming_variation L) hm) hA0
  push_cast at this ⊢
  linarith

theorem edge_nonneg (w : List ℝ) (a : ℤ → ℝ) (L s : ℕ) (m : ℤ) : 0 ≤ edgeEffect w a L s m :=
  Finset.sum_nonneg fun _ _ => mul_nonneg (abs_nonneg _) (abs_nonneg _)

/-- C221 with the Hamming window: `compute_delays_tf` finds the delay of a pattern bounded by `A` up to the error of C221 if in all bins below
the frequency limit the spectrum (root mean square over the segments) is at least `2 A |m| / ρ`. -/
theorem C221_hamming (u v : String) (a : ℤ → ℝ) (A : ℝ) (hA : ∀ t, |a t| ≤ A) (n navgs L h S K : ℕ) (m : ℤ) (dt ov fl ρ : ℝ) (det : Detrend)
    (cohLim : Option ℝ) (hdt : 0 < dt) (hov : 0 ≤ ov) (hL : L = n / navgs) (hh : h = L - ⌊(L : ℝ) * ov⌋₊) (hS : AsManyAsFit n L h S)
    (hρ0 : 0 ≤ ρ) (hm : 2 * |(m : ℝ)| < (1 - ρ) * L)
    (hspec : ∀ k : ℕ, k ≤ L / 2 → (k : ℝ) / (L * dt) < fl → 0 < ∑ i ∈ Finset.range S, ‖patternSpec (hamming L) a L (i * h) k‖ ^ 2 ∧
      S * (2 * A * |(m : ℝ)|) ^ 2 ≤ ρ ^ 2 * ∑ i ∈ Finset.range S, ‖patternSpec (hamming L) a L (i * h) k‖ ^ 2)
    (hcl : ∀ l, cohLim = some l → l < ((1 - ρ) / (1 + ρ)) ^ 2)
    (hK : 1 ≤ K) (hKL : K ≤ L / 2) (hKf : (K : ℝ) / (L * dt) < fl) (hKlast : K < L / 2 → fl ≤ (K + 1) / (L * dt)) :
    (∃ d mask mc, computeDelaysTf ⟨dt, navgs, ov, hamming, det⟩ [(u, recordOf a n 0)] [(v, recordOf a n m)] cohLim (some fl) "multi" =
        .ok [(some d, mask, mc)] ∧ |d - m * dt| ≤ ρ * (L * dt) / (2 * K)) ∧
    ∃ d mask mc, computeDelaysTf ⟨dt, navgs, ov, hamming, det⟩ [(u, recordOf a n 0)] [(v, recordOf a n m)] cohLim (some fl) "fit" =
        .ok [(some d, mask, mc)] ∧ |d - m * dt| ≤ 3 * ρ * (L * dt) / (4 * (2 * K + 1)) := by
  refine Tf.C221_frozen u v a n navgs L h S K m dt ov fl ρ hamming det cohLim hdt hov hL hh hS hρ0 hm ?_ hcl hK hKL hKf hKlast
  intro k hk hf
  obtain ⟨h1, h2⟩ := hspec k hk hf
  refine ⟨h1, le_trans ?_ h2⟩
  calc ∑ i ∈ Finset.range S, edgeEffect (hamming L) a L (i * h) m ^ 2 ≤ ∑ _i ∈ Finset.range S, (2 * A * |(m : ℝ)|) ^ 2 := by
        refine Finset.sum_le_sum fun i _ => ?_
        have := C221_hamming_edge a L (i * h) m A hA
        rw [Int.cast_abs] at this
        exact pow_le_pow_left₀ (edge_nonneg _ _ _ _ _) this 2
    _ = S * (2 * A * |(m : ℝ)|) ^ 2 := by simp

/-! ## A concrete case: a cloud of seven samples in a window of twelve -/

/-- One from sample 3 to sample 9. -/
noncomputable def cloud7 (t : ℤ) : ℝ := if 3 ≤ t ∧ t ≤ 9 then 1 else 0

theorem cloud_re (k : ℕ) : (patternSpec (hamming 12) cloud7 12 0 k).re =
    ∑ j ∈ Finset.range 12, cloud7 j * ((hamming 12)[j]?).getD 0 * Real.cos (2 * Real.pi * (j * k) / 12) := by
  unfold patternSpec
  rw [Complex.re_sum]
  refine Finset.sum_congr rfl fun j _ => ?_
  rw [show (-2 * Real.pi * Complex.I * ((j * k : ℤ) : ℂ) / (12 : ℕ) : ℂ) = ((-(2 * Real.pi * (j * k) / 12) : ℝ) : ℂ) * Complex.I by push_cast; ring,
    Complex.re_ofReal_mul, Complex.exp_ofReal_mul_I_re, Real.cos_neg]
  simp

/-- The cosines of multiples of a twelfth of a turn. -/
theorem cos_twelfths : Real.cos (2 * Real.pi * 3 / 12) = 0 ∧ Real.cos (2 * Real.pi * 4 / 12) = -(1 / 2) ∧ Real.cos (2 * Real.pi * 5 / 12) = -(√3 / 2) ∧
    Real.cos (2 * Real.pi * 6 / 12) = -1 ∧ Real.cos (2 * Real.pi * 7 / 12) = -(√3 / 2) ∧ Real.cos (2 * Real.pi * 8 / 12) = -(1 / 2) ∧
    Real.cos (2 * Real.pi * 9 / 12) = 0 := by
  refine ⟨?_, ?_, ?_, ?_, ?_, ?_, ?_⟩
  · rw [show 2 * Real.pi * 3 / 12 = Real.pi / 2 by ring, Real.cos_pi_div_two]
  · rw [show 2 * Real.pi * 4 / 12 = Real.pi - Real.pi / 3 by ring, Real.cos_pi_sub, Real.cos_pi_div_three]
  · rw [show 2 * Real.pi * 5 / 12 = Real.pi - Real.pi / 6 by ring, Real.cos_pi_sub, Real.cos_pi_div_six]
  · rw [show 2 * Real.pi * 6 / 12 = Real.pi by ring, Real.cos_pi]
  · rw [show 2 * Real.pi * 7 / 12 = Real.pi / 6 + Real.pi by ring, Real.cos_add_pi, Real.cos_pi_div_six]
  · rw [show 2 * Real.pi * 8 / 12 = Real.pi / 3 + Real.pi by ring, Real.cos_add_pi, Real.cos_pi_div_three]
  · rw [show 2 * Real.pi * 9 / 12 = Real.pi / 2 + Real.pi by ring, Real.cos_add_pi, Real.cos_pi_div_two, neg_zero]

theorem cloud_bins (k : ℕ) (hk : k = 0 ∨ k = 1) : 3 ≤ ‖patternSpec (hamming 12) cloud7 12 0 k‖ := by
  refine le_trans ?_ (Complex.abs_re_le_norm _)
  rw [cloud_re]
  obtain ⟨c3, c4, c5, c6, c7, c8, c9⟩ := cos_twelfths
  have h3 : (1.7 : ℝ) < √3 := by
    rw [Real.lt_sqrt (by norm_num)]
    norm_num
  have hsq : √3 * √3 = 3 := Real.mul_self_sqrt (by norm_num)
  have w : ∀ j : ℕ, j < 12 → ((hamming 12)[j]?).getD 0 = 0.54 - 0.46 * Real.cos (2 * Real.pi * j / 12) :=
    fun j hj => by have := hamming_getD 12 j (by norm_num) hj; exact_mod_cast this
  simp only [Finset.sum_range_succ, Finset.sum_range_zero]
  rw [w 3 (by norm_num), w 4 (by norm_num), w 5 (by norm_num), w 6 (by norm_num), w 7 (by norm_num), w 8 (by norm_num), w 9 (by norm_num)]
  rcases hk with rfl | rfl
  · rw [le_abs]
    left
    norm_num [cloud7, c3, c4, c5, c6, c7, c8, c9]
    norm_num at c3 c4 c5 c6 c7 c8 c9
    linarith
  · rw [le_abs]
    right
    norm_num [cloud7, c3, c4, c5, c6, c7, c8, c9]
    nlinarith

example : ∃ d mask mc, computeDelaysTf ⟨1, 1, 0, hamming, .none⟩ [("a", recordOf cloud7 12 0)] [("b", recordOf cloud7 12 1)] (some 0.03) (some 0.1) "multi" =
    .ok [(some d, mask, mc)] ∧ |d - 1| ≤ 4 := by
  obtain ⟨⟨d, mask, mc, h1, h2⟩, -⟩ := C221_hamming "a" "b" cloud7 1 (fun t => by unfold cloud7; split_ifs <;> norm_num) 12 1 12 12 1 1 1 1 0 0.1 (2 / 3) .none (some 0.03)
    (by norm_num) le_rfl (by norm_num) (by norm_num) (by unfold AsManyAsFit; omega) (by norm_num) (by norm_num)
    (by
      intro k _ hkf
      have hk : k = 0 ∨ k = 1 := by
        have : (k : ℝ) < 2 := by
          rw [div_lt_iff₀ (by norm_num)] at hkf
          norm_num at hkf
          linarith
        have : k < 2 := by exact_mod_cast this
        omega
      have hb := cloud_bins k hk
      have : (9 : ℝ) ≤ ‖patternSpec (hamming 12) cloud7 12 0 k‖ ^ 2 := by nlinarith
      simp only [Finset.range_one, Finset.sum_singleton, zero_mul]
      constructor
      · linarith
      · norm_num
        linarith)
    (by intro l hl; cases hl; norm_num) le_rfl (by norm_num) (by norm_num) (by norm_num)
  refine ⟨d, mask, mc, h1, ?_⟩
  norm_num at h2 ⊢
  exact h2

end SST.Props.HammingTf
