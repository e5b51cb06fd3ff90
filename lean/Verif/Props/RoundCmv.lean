import Verif.Model.RoundCmv
import Verif.Props.RoundPolar
import Verif.Props.RoundScore
import Verif.Proofs.RoundEven
import Mathlib.Analysis.Real.Pi.Bounds

/-!
# Property C280: the cloud motion vector with rounding
-/

namespace SST.Round
open SST SST.Spatial

section
variable {u : ℝ} {A : Arith}

private theorem twoPi_near : |2 * piF - 2 * Real.pi| ≤ 2.5e-16 := by
  have a := Real.pi_gt_d20
  have b := Real.pi_lt_d20
  unfold piF
  rw [abs_le]
  constructor <;> norm_num at a b ⊢ <;> linarith

private theorem twoPi_pos : (0 : ℝ) < 2 * piF := by unfold piF; norm_num

/-- A product with a positive number that is known to `k` roundings. -/
private theorem scale_near (h : FloatLike u A) {c c' : ℝ} {k : ℕ} (hc : 0 < c) (hn : Near u k c c') (x : ℝ) : ∃ ρ, Near u (k + 1) c ρ ∧ A.fl (c' * x) = x * ρ := by
  have h0 := u_nonneg h.rounds
  have h1 := h.lt_one
  have c0 := hn.nonneg h1 hc.le
  rcases eq_or_ne x 0 with rfl | hx
  · refine ⟨c', hn.mono h0 h1 (Nat.le_succ k) hc.le, ?_⟩
    have := h.rounds 0
    rw [abs_zero, mul_zero, sub_zero] at this
    rw [mul_zero, zero_mul]
    exact abs_eq_zero.mp (le_antisymm this (abs_nonneg _))
  · refine ⟨A.fl (c' * x) / x, ?_, by field_simp⟩
    have p := abs_pos.mpr hx
    have d : |A.fl (c' * x) / x - c'| ≤ u * c' := by
      have e := h.rounds (c' * x)
      rw [abs_mul, abs_of_nonneg c0, ← mul_assoc] at e
      have : A.fl (c' * x) / x - c' = (A.fl (c' * x) - c' * x) / x := by field_simp
      rw [this, abs_div, div_le_iff₀ p]
      exact e
    rw [abs_le] at d
    have n : Near u 1 c' (A.fl (c' * x) / x) := by
      constructor
      · rw [pow_one]; nlinarith [d.1]
      · rw [pow_one]; nlinarith [d.2, mul_nonneg (mul_nonneg h0 h0) c0]
    exact hn.trans h0 h1 n

private theorem small {k : ℕ} (hk : k ≤ 16) (h0 : 0 ≤ u) (hu : u ≤ 1.2e-16) {x v : ℝ} (hx : 0 ≤ x) (hn : Near u k x v) : |v - x| ≤ 2e-15 * x := by
  have h1 : u < 1 := by linarith
  have d := near_diff h0 h1 hx (hn.mono h0 h1 hk hx)
  have b : 1 / (1 - u) ^ 16 ≤ 1 / (1 - 1.2e-16) ^ 16 := one_div_le_one_div_of_le (by norm_num) (pow_le_pow_left₀ (by norm_num) (by linarith) 16)
  have c : 1 / (1 - 1.2e-16 : ℝ) ^ 16 ≤ 1 + 2e-15 := by norm_num
  exact d.trans (mul_le_mul_of_nonneg_right (by linarith) hx)

/-- The computed velocity: two components that are right to four roundings each. -/
private theorem gagne_parts (h : FloatLike u A) (at2 : ℝ → ℝ → ℝ) (a : Vec) (ha : 0 < a.1 ^ 2 + a.2 ^ 2) :
    ∃ r1 r2, Near u 4 (1 / (a.1 ^ 2 + a.2 ^ 2)) r1 ∧ Near u 4 (1 / (a.1 ^ 2 + a.2 ^ 2)) r2 ∧
      gagneF A at2 a = (some (magnitudeF A (a.1 * r1, a.2 * r2)), some (at2 (a.2 * r2) (a.1 * r1))) ∧
      Near u 8 (1 / Real.sqrt (a.1 ^ 2 + a.2 ^ 2)) (magnitude (a.1 * r1, a.2 * r2)) := by
  have h0 := u_nonneg h.rounds
  have h1 := h.lt_one
  have s := ((near_fl h.rounds h1 (sq_nonneg a.1)).add (near_fl h.rounds h1 (sq_nonneg a.2))).rnd h.rounds h1 ha.le
  have sp := s.pos h0 h1 ha
  have c : Near u 3 (1 / (a.1 ^ 2 + a.2 ^ 2)) (A.fl (1 / A.fl (A.fl (a.1 ^ 2) + A.fl (a.2 ^ 2)))) :=
    ((Near.refl (u := u) 1).div h0 h1 zero_le_one ha s).rnd h.rounds h1 (by positivity)
  have cp : 0 < 1 / (a.1 ^ 2 + a.2 ^ 2) := by positivity
  obtain ⟨r1, n1, e1⟩ := scale_near h cp c a.1
  obtain ⟨r2, n2, e2⟩ := scale_near h cp c a.2
  refine ⟨r1, r2, n1, n2, ?_, ?_⟩
  · unfold gagneF
    simp only [if_neg sp.ne', e1, e2]
  · have q1 := (Near.refl (u := u) (a.1 ^ 2)).mul h0 h1 (sq_nonneg _) (by positivity) (n1.mul h0 h1 cp.le cp.le n1)
    have q2 := (Near.refl (u := u) (a.2 ^ 2)).mul h0 h1 (sq_nonneg _) (by positivity) (n2.mul h0 h1 cp.le cp.le n2)
    have q := (q1.add q2).sqrt h0 h1
    have ex : a.1 ^ 2 * (1 / (a.1 ^ 2 + a.2 ^ 2) * (1 / (a.1 ^ 2 + a.2 ^ 2))) + a.2 ^ 2 * (1 / (a.1 ^ 2 + a.2 ^ 2) * (1 / (a.1 ^ 2 + a.2 ^ 2))) = 1 / (a.1 ^ 2 + a.2 ^ 2) := by
      field_simp
    have ev : a.1 ^ 2 * (r1 * r1) + a.2 ^ 2 * (r2 * r2) = (a.1 * r1) ^ 2 + (a.2 * r2) ^ 2 := by ring
    rw [ex, ev, Real.sqrt_div zero_le_one, Real.sqrt_one] at q
    exact q

/-- C280: the speed of Gagne's method is the inverse of the length of the slowness, to within `2·10⁻¹⁵` of itself. -/
theorem C280_speed (h : FloatLike u A) (hu : u ≤ 1.2e-16) (at2 : ℝ → ℝ → ℝ) (a : Vec) (ha : a ≠ (0, 0)) :
    ∃ v, (normaliseF A (gagneF A at2 a).1 (gagneF A at2 a).2).1 = some v ∧ |v - 1 / Real.sqrt (a.1 ^ 2 + a.2 ^ 2)| ≤ 2e-15 * (1 / Real.sqrt (a.1 ^ 2 + a.2 ^ 2)) := by
  have h0 := u_nonneg h.rounds
  have h1 := h.lt_one
  have p : 0 < a.1 ^ 2 + a.2 ^ 2 := by
    by_contra hc
    have z : a.1 ^ 2 + a.2 ^ 2 = 0 := le_antisymm (not_lt.mp hc) (by positivity)
    have z1 : a.1 = 0 := by nlinarith [sq_nonneg a.1, sq_nonneg a.2]
    have z2 : a.2 = 0 := by nlinarith [sq_nonneg a.1, sq_nonneg a.2]
    exact ha (Prod.ext z1 z2)
  obtain ⟨r1, r2, _, _, e, n⟩ := gagne_parts h at2 a p
  have m := n.trans h0 h1 (C260_magnitude h (a.1 * r1, a.2 * r2))
  have q : 0 ≤ 1 / Real.sqrt (a.1 ^ 2 + a.2 ^ 2) := by positivity
  refine ⟨magnitudeF A (a.1 * r1, a.2 * r2), ?_, small (by norm_num) h0 hu q m⟩
  rw [e]
  unfold normaliseF
  simp only [if_neg (not_lt.mpr (m.nonneg h1 q))]

private theorem fmod_neg {x m : ℝ} (hm : 0 < m) (hx : x < 0) : -m < fmod x m ∧ fmod x m ≤ 0 := by
  unfold fmod
  rw [if_neg (not_le.mpr hx)]
  have a := Int.le_ceil (x / m)
  have b := Int.ceil_lt_add_one (x / m)
  rw [div_le_iff₀ hm] at a
  have b' : (⌈x / m⌉ : ℝ) * m < x + m := by
    have := mul_lt_mul_of_pos_right b hm
    rwa [add_mul, div_mul_cancel₀ _ hm.ne', one_mul] at this
  constructor <;> linarith [mul_comm m (⌈x / m⌉ : ℝ)]

private theorem fmod_nonneg {x m : ℝ} (hm : 0 < m) (hx : 0 ≤ x) : 0 ≤ fmod x m ∧ fmod x m < m := by
  unfold fmod
  rw [if_pos hx]
  have a := Int.floor_le (x / m)
  have b := Int.lt_floor_add_one (x / m)
  rw [le_div_iff₀ hm] at a
  rw [div_lt_iff₀ hm] at b
  constructor <;> linarith [mul_comm m (⌊x / m⌋ : ℝ)]

/-- C280: with either method the direction is a number from 0 to `2 * np.pi`, both included, and the speed is not negative. -/
theorem C280_range (h : FloatLike u A) (mono : Monotone A.fl) (full : A.fl (2 * piF) = 2 * piF) (v θ : Option ℝ) :
    (∀ w, (normaliseF A v θ).1 = some w → 0 ≤ w) ∧ ∀ t, (normaliseF A v θ).2 = some t → 0 ≤ t ∧ t ≤ 2 * piF := by
  have m0 := twoPi_pos
  have z : A.fl 0 = 0 := by
    have := h.rounds 0
    rw [abs_zero, mul_zero, sub_zero] at this
    exact abs_eq_zero.mp (le_antisymm this (abs_nonneg _))
  have key : ∀ x, 0 ≤ pyModF A x (2 * piF) ∧ pyModF A x (2 * piF) ≤ 2 * piF := by
    intro x
    unfold pyModF
    split_ifs with hr
    · rcases lt_or_ge x 0 with hx | hx
      · have f := fmod_neg m0 hx
        constructor
        · rw [← z]; exact mono (by linarith)
        · exact (mono (by linarith : fmod x (2 * piF) + 2 * piF ≤ 2 * piF)).trans_eq full
      · exact absurd (fmod_nonneg m0 hx).1 (not_le.mpr hr)
    · rcases lt_or_ge x 0 with hx | hx
      · exact ⟨not_lt.mp hr, (fmod_neg m0 hx).2.trans m0.le⟩
      · exact ⟨not_lt.mp hr, (fmod_nonneg m0 hx).2.le⟩
  rcases v with _ | v
  · refine ⟨by simp [normaliseF], fun t ht => ?_⟩
    rcases θ with _ | x
    · simp [normaliseF] at ht
    · simp only [normaliseF, Option.map_some, Option.some.injEq] at ht
      rw [← ht]; exact key x
  · unfold normaliseF
    simp only
    split_ifs with hv
    · refine ⟨fun w hw => ?_, fun t ht => ?_⟩
      · simp only [Option.some.injEq] at hw
        linarith
      · rcases θ with _ | x
        · simp at ht
        · simp only [Option.map_some, Option.some.injEq] at ht
          rw [← ht]; exact key _
    · refine ⟨fun w hw => ?_, fun t ht => ?_⟩
      · simp only [Option.some.injEq] at hw
        linarith
      · rcases θ with _ | x
        · simp at ht
        · simp only [Option.map_some, Option.some.injEq] at ht
          rw [← ht]; exact key _

private theorem mod_small (h : FloatLike u A) (hu : u ≤ 1.2e-16) {x : ℝ} (hx : |x| < 2 * piF) : pyModF A x (2 * piF) = x ∨ |pyModF A x (2 * piF) - (x + 2 * Real.pi)| ≤ 1.1e-15 := by
  have m0 := twoPi_pos
  rw [abs_lt] at hx
  rcases lt_or_ge x 0 with hn | hn
  · right
    have c : ⌈x / (2 * piF)⌉ = 0 := by
      rw [Int.ceil_eq_iff]
      push_cast
      constructor
      · rw [lt_div_iff₀ m0]; linarith
      · exact div_nonpos_of_nonpos_of_nonneg hn.le m0.le
    have f : fmod x (2 * piF) = x := by
      unfold fmod
      rw [if_neg (not_le.mpr hn), c]
      simp
    unfold pyModF
    rw [f, if_pos hn]
    have r := h.rounds (x + 2 * piF)
    rw [abs_of_nonneg (by linarith : 0 ≤ x + 2 * piF)] at r
    have t := twoPi_near
    have b : 2 * piF ≤ 6.29 := by unfold piF; norm_num
    have h0 := u_nonneg h.rounds
    rw [abs_le] at r t ⊢
    constructor <;> nlinarith [r.1, r.2, t.1, t.2]
  · left
    have c : ⌊x / (2 * piF)⌋ = 0 := by
      rw [Int.floor_eq_iff]
      push_cast
      constructor
      · exact div_nonneg hn m0.le
      · rw [div_lt_iff₀ m0]; linarith
    have f : fmod x (2 * piF) = x := by
      unfold fmod
      rw [if_pos hn, c]
      simp
    unfold pyModF
    rw [f, if_neg (not_lt.mpr hn)]

/-- C280: the direction of Gagne's method is that of the slowness: the unit vectors differ by at most `5·10⁻¹⁵` in each component. -/
theorem C280_direction (h : FloatLike u A) (hu : u ≤ 1.2e-16) {at2 : ℝ → ℝ → ℝ} (hat : ∀ y x, |at2 y x - Complex.arg ⟨x, y⟩| ≤ 1e-15) (a : Vec) (ha : a ≠ (0, 0)) :
    ∃ t, (normaliseF A (gagneF A at2 a).1 (gagneF A at2 a).2).2 = some t ∧
      |Real.cos t - a.1 / Real.sqrt (a.1 ^ 2 + a.2 ^ 2)| ≤ 5e-15 ∧ |Real.sin t - a.2 / Real.sqrt (a.1 ^ 2 + a.2 ^ 2)| ≤ 5e-15 := by
  have h0 := u_nonneg h.rounds
  have h1 := h.lt_one
  have p : 0 < a.1 ^ 2 + a.2 ^ 2 := by
    by_contra hc
    have z : a.1 ^ 2 + a.2 ^ 2 = 0 := le_antisymm (not_lt.mp hc) (by positivity)
    have z1 : a.1 = 0 := by nlinarith [sq_nonneg a.1, sq_nonneg a.2]
    have z2 : a.2 = 0 := by nlinarith [sq_nonneg a.1, sq_nonneg a.2]
    exact ha (Prod.ext z1 z2)
  obtain ⟨r1, r2, n1, n2, e, n⟩ := gagne_parts h at2 a p
  have m := n.trans h0 h1 (C260_magnitude h (a.1 * r1, a.2 * r2))
  have rp : 0 < Real.sqrt (a.1 ^ 2 + a.2 ^ 2) := Real.sqrt_pos.mpr p
  have ip : 0 < 1 / Real.sqrt (a.1 ^ 2 + a.2 ^ 2) := by positivity
  have vp := n.pos h0 h1 ip
  have cp : 0 < 1 / (a.1 ^ 2 + a.2 ^ 2) := by positivity
  -- the direction of the computed velocity
  have nv : ‖(⟨a.1 * r1, a.2 * r2⟩ : ℂ)‖ = magnitude (a.1 * r1, a.2 * r2) := by
    rw [Complex.norm_def, Complex.normSq_mk]; unfold magnitude; congr 1; ring
  have key : ∀ x r, |x| ≤ Real.sqrt (a.1 ^ 2 + a.2 ^ 2) → Near u 4 (1 / (a.1 ^ 2 + a.2 ^ 2)) r → |x * r / magnitude (a.1 * r1, a.2 * r2) - x / Real.sqrt (a.1 ^ 2 + a.2 ^ 2)| ≤ 2e-15 := by
    intro x r hx hr
    have q := hr.div h0 h1 cp.le ip n
    have e1 : 1 / (a.1 ^ 2 + a.2 ^ 2) / (1 / Real.sqrt (a.1 ^ 2 + a.2 ^ 2)) = 1 / Real.sqrt (a.1 ^ 2 + a.2 ^ 2) := by
      have := Real.mul_self_sqrt p.le
      rw [div_div_eq_mul_div, div_one, one_div_mul_eq_div, div_eq_div_iff p.ne' rp.ne', this, one_mul]
    rw [e1] at q
    have d := small (by norm_num) h0 hu ip.le q
    have e2 : x * r / magnitude (a.1 * r1, a.2 * r2) - x / Real.sqrt (a.1 ^ 2 + a.2 ^ 2) = x * (r / magnitude (a.1 * r1, a.2 * r2) - 1 / Real.sqrt (a.1 ^ 2 + a.2 ^ 2)) := by ring
    rw [e2, abs_mul]
    calc _ ≤ Real.sqrt (a.1 ^ 2 + a.2 ^ 2) * (2e-15 * (1 / Real.sqrt (a.1 ^ 2 + a.2 ^ 2))) := mul_le_mul hx d (abs_nonneg _) rp.le
      _ = 2e-15 := by field_simp
  have k1 := key a.1 r1 (Real.abs_le_sqrt (by nlinarith [sq_nonneg a.2])) n1
  have k2 := key a.2 r2 (Real.abs_le_sqrt (by nlinarith [sq_nonneg a.1])) n2
  have c1 : Real.cos (Complex.arg ⟨a.1 * r1, a.2 * r2⟩) = a.1 * r1 / magnitude (a.1 * r1, a.2 * r2) := by
    rw [eq_div_iff vp.ne', ← nv, mul_comm]; exact Complex.norm_mul_cos_arg _
  have c2 : Real.sin (Complex.arg ⟨a.1 * r1, a.2 * r2⟩) = a.2 * r2 / magnitude (a.1 * r1, a.2 * r2) := by
    rw [eq_div_iff vp.ne', ← nv, mul_comm]; exact Complex.norm_mul_sin_arg _
  rw [← c1] at k1
  rw [← c2] at k2
  have k3 := hat (a.2 * r2) (a.1 * r1)
  have b := Complex.abs_arg_le_pi ⟨a.1 * r1, a.2 * r2⟩
  have lt : |at2 (a.2 * r2) (a.1 * r1)| < 2 * piF := by
    have pl := Real.pi_lt_d2
    have : (6.28 : ℝ) < 2 * piF := by unfold piF; norm_num
    rw [abs_le] at b k3
    rw [abs_lt]
    constructor <;> linarith [b.1, b.2, k3.1, k3.2]
  refine ⟨pyModF A (at2 (a.2 * r2) (a.1 * r1)) (2 * piF), ?_, ?_⟩
  · rw [e]
    unfold normaliseF
    simp only [if_neg (not_lt.mpr (m.nonneg h1 ip.le)), Option.map_some]
  · have fin : ∀ f : ℝ → ℝ, (∀ x y, |f x - f y| ≤ |x - y|) → (∀ x, f (x + 2 * Real.pi) = f x) → |f (pyModF A (at2 (a.2 * r2) (a.1 * r1)) (2 * piF)) - f (Complex.arg ⟨a.1 * r1, a.2 * r2⟩)| ≤ 2.5e-15 := by
      intro f lip per
      have l := lip (at2 (a.2 * r2) (a.1 * r1)) (Complex.arg ⟨a.1 * r1, a.2 * r2⟩)
      rcases mod_small h hu lt with hm | hm
      · rw [hm]; linarith
      · have l2 := lip (pyModF A (at2 (a.2 * r2) (a.1 * r1)) (2 * piF)) (at2 (a.2 * r2) (a.1 * r1) + 2 * Real.pi)
        rw [per] at l2
        have t := abs_sub_le (f (pyModF A (at2 (a.2 * r2) (a.1 * r1)) (2 * piF))) (f (at2 (a.2 * r2) (a.1 * r1))) (f (Complex.arg ⟨a.1 * r1, a.2 * r2⟩))
        linarith
    constructor
    · have f := fin Real.cos (fun x y => cos_lip x y) Real.cos_add_two_pi
      have t := abs_sub_le (Real.cos (pyModF A (at2 (a.2 * r2) (a.1 * r1)) (2 * piF))) (Real.cos (Complex.arg ⟨a.1 * r1, a.2 * r2⟩)) (a.1 / Real.sqrt (a.1 ^ 2 + a.2 ^ 2))
      linarith
    · have f := fin Real.sin (fun x y => sin_lip x y) Real.sin_add_two_pi
      have t := abs_sub_le (Real.sin (pyModF A (at2 (a.2 * r2) (a.1 * r1)) (2 * piF))) (Real.sin (Complex.arg ⟨a.1 * r1, a.2 * r2⟩)) (a.2 / Real.sqrt (a.1 ^ 2 + a.2 ^ 2))
      linarith
private theorem fmod_eq {m : ℝ} (hm : 0 < m) (x : ℝ) : ∃ q : ℤ, fmod x m = x - m * q ∧ |(q : ℝ)| ≤ |x| / m := by
  unfold fmod
  rcases lt_or_ge x 0 with hx | hx
  · refine ⟨⌈x / m⌉, by rw [if_neg (not_le.mpr hx)], ?_⟩
    have a := Int.le_ceil (x / m)
    have b : ((⌈x / m⌉ : ℤ) : ℝ) ≤ 0 := by exact_mod_cast Int.ceil_le.mpr (by push_cast; exact div_nonpos_of_nonpos_of_nonneg hx.le hm.le)
    rw [abs_of_nonpos b, abs_of_neg hx, neg_div]
    linarith
  · refine ⟨⌊x / m⌋, by rw [if_pos hx], ?_⟩
    have b : (0 : ℝ) ≤ ((⌊x / m⌋ : ℤ) : ℝ) := by exact_mod_cast Int.floor_nonneg.mpr (div_nonneg hx hm.le)
    rw [abs_of_nonneg b, abs_of_nonneg hx]
    exact Int.floor_le _

private theorem mod_any (h : FloatLike u A) (hu : u ≤ 1.2e-16) (x : ℝ) : ∃ q : ℤ, |pyModF A x (2 * piF) - (x - q * (2 * Real.pi))| ≤ 1.05e-15 + 4.1e-17 * |x| := by
  have m0 := twoPi_pos
  have h0 := u_nonneg h.rounds
  have b : 2 * piF ≤ 6.29 := by unfold piF; norm_num
  have b' : 1 / (2 * piF) ≤ 0.16 := by unfold piF; norm_num
  have t := twoPi_near
  obtain ⟨q, e, hq⟩ := fmod_eq m0 x
  have hq' : |(q : ℝ)| ≤ 0.16 * |x| := hq.trans (by rw [div_eq_mul_one_div, mul_comm]; exact mul_le_mul_of_nonneg_right b' (abs_nonneg x))
  unfold pyModF
  split_ifs with hr
  · refine ⟨q - 1, ?_⟩
    have lo : -(2 * piF) < fmod x (2 * piF) := by
      rcases lt_or_ge x 0 with hx | hx
      · exact (fmod_neg m0 hx).1
      · linarith [(fmod_nonneg m0 hx).1]
    have r := h.rounds (fmod x (2 * piF) + 2 * piF)
    rw [abs_of_pos (by linarith : 0 < fmod x (2 * piF) + 2 * piF)] at r
    have r' : |A.fl (fmod x (2 * piF) + 2 * piF) - (fmod x (2 * piF) + 2 * piF)| ≤ 7.6e-16 := r.trans (by nlinarith)
    have d : |(q - 1 : ℝ) * (2 * Real.pi - 2 * piF)| ≤ 2.5e-16 * (0.16 * |x| + 1) := by
      rw [abs_mul, abs_sub_comm (2 * Real.pi), mul_comm]
      refine mul_le_mul t ?_ (abs_nonneg _) (by norm_num)
      calc |(q : ℝ) - 1| ≤ |(q : ℝ)| + |(1 : ℝ)| := abs_sub _ _
        _ ≤ _ := by rw [abs_one]; linarith
    have s : A.fl (fmod x (2 * piF) + 2 * piF) - (x - ((q - 1 : ℤ) : ℝ) * (2 * Real.pi)) =
        (A.fl (fmod x (2 * piF) + 2 * piF) - (fmod x (2 * piF) + 2 * piF)) + (q - 1 : ℝ) * (2 * Real.pi - 2 * piF) := by
      rw [e]; push_cast; ring
    rw [s]
    refine (abs_add_le _ _).trans ?_
    linarith [abs_nonneg x]
  · refine ⟨q, ?_⟩
    have s : fmod x (2 * piF) - (x - q * (2 * Real.pi)) = q * (2 * Real.pi - 2 * piF) := by rw [e]; ring
    rw [s, abs_mul, abs_sub_comm (2 * Real.pi)]
    have := mul_le_mul hq' t (abs_nonneg _) (by positivity)
    linarith [abs_nonneg x]

/-- C280: making the speed positive and reducing the angle keeps the velocity: the direction is that of the angle found, the opposite one for a negative speed, to within
`2·10⁻¹⁵ + 2·10⁻¹⁶ |θ|` in each component. -/
theorem C280_reduced (h : FloatLike u A) (hu : u ≤ 1.2e-16) (v θ : ℝ) :
    ∃ t, normaliseF A (some v) (some θ) = (some |v|, some t) ∧
      |Real.cos t - (if v < 0 then -Real.cos θ else Real.cos θ)| ≤ 2e-15 + 2e-16 * |θ| ∧ |Real.sin t - (if v < 0 then -Real.sin θ else Real.sin θ)| ≤ 2e-15 + 2e-16 * |θ| := by
  have h0 := u_nonneg h.rounds
  have per : ∀ x y (q : ℤ), |y - (x - q * (2 * Real.pi))| ≤ 1.05e-15 + 4.1e-17 * |x| → |Real.cos y - Real.cos x| ≤ 1.05e-15 + 4.1e-17 * |x| ∧ |Real.sin y - Real.sin x| ≤ 1.05e-15 + 4.1e-17 * |x| := by
    intro x y q hy
    have c := (cos_lip y (x - q * (2 * Real.pi))).trans hy
    have s := (sin_lip y (x - q * (2 * Real.pi))).trans hy
    rw [Real.cos_sub_int_mul_two_pi] at c
    rw [Real.sin_sub_int_mul_two_pi] at s
    exact ⟨c, s⟩
  have a0 := abs_nonneg θ
  unfold normaliseF
  by_cases hv : v < 0
  · simp only [if_pos hv, Option.map_some]
    obtain ⟨q, hq⟩ := mod_any h hu (A.fl (θ + piF))
    refine ⟨_, by rw [abs_of_neg hv, mul_neg_one], ?_⟩
    have p := per _ _ q hq
    have r := h.rounds (θ + piF)
    have b : piF ≤ 3.1416 := by unfold piF; norm_num
    have b0 : 0 ≤ piF := by unfold piF; norm_num
    have t := twoPi_near
    have m : |θ + piF| ≤ |θ| + 3.1416 := (abs_add_le _ _).trans (by rw [abs_of_nonneg b0]; linarith)
    have r' : |A.fl (θ + piF) - (θ + piF)| ≤ 1.2e-16 * (|θ| + 3.1416) := r.trans (mul_le_mul hu m (abs_nonneg _) (by norm_num))
    have t' : |piF - Real.pi| ≤ 1.25e-16 := by
      have : piF - Real.pi = (2 * piF - 2 * Real.pi) / 2 := by ring
      rw [this, abs_div, abs_two]; linarith
    have d : |A.fl (θ + piF) - (θ + Real.pi)| ≤ 1.2e-16 * (|θ| + 3.1416) + 1.25e-16 := by
      have e : A.fl (θ + piF) - (θ + Real.pi) = (A.fl (θ + piF) - (θ + piF)) + (piF - Real.pi) := by ring
      rw [e]
      exact (abs_add_le _ _).trans (by linarith)
    have sz : |A.fl (θ + piF)| ≤ 1.0001 * (|θ| + 3.1416) := by
      have := abs_sub_abs_le_abs_sub (A.fl (θ + piF)) (θ + piF)
      linarith
    have c1 := (cos_lip (A.fl (θ + piF)) (θ + Real.pi)).trans d
    have s1 := (sin_lip (A.fl (θ + piF)) (θ + Real.pi)).trans d
    rw [Real.cos_add_pi] at c1
    rw [Real.sin_add_pi] at s1
    constructor
    · have := abs_sub_le (Real.cos (pyModF A (A.fl (θ + piF)) (2 * piF))) (Real.cos (A.fl (θ + piF))) (-Real.cos θ)
      linarith [p.1]
    · have := abs_sub_le (Real.sin (pyModF A (A.fl (θ + piF)) (2 * piF))) (Real.sin (A.fl (θ + piF))) (-Real.sin θ)
      linarith [p.2]
  · simp only [if_neg hv, Option.map_some]
    obtain ⟨q, hq⟩ := mod_any h hu θ
    have p := per _ _ q hq
    refine ⟨_, by rw [abs_of_nonneg (not_lt.mp hv)], ?_, ?_⟩
    · linarith [p.1]
    · linarith [p.2]
end

private theorem even_full {θ : ℝ} (h1 : -(2 ^ (-51 : ℤ)) < θ) (h2 : θ ≤ 0) : even53 (θ + 2 * piF) = 2 * piF := by
  have b1 : (4 : ℝ) ≤ θ + 2 * piF := by unfold piF; norm_num at h1 ⊢; linarith
  have b2 : θ + 2 * piF < 8 := by unfold piF; norm_num at h1 ⊢; linarith
  rw [even53_eq (k := 2) (n := 7074237752028440)]
  · unfold piF; norm_num
  · rw [abs_of_nonneg (by linarith)]; norm_num; linarith
  · rw [abs_of_nonneg (by linarith)]; norm_num; linarith
  · apply nearestEven_near
    have e : (θ + 2 * piF) / 2 ^ (2 - 52 : ℤ) - (7074237752028440 : ℤ) = θ * 2 ^ 50 := by unfold piF; norm_num; ring
    rw [e, abs_lt]
    norm_num at h1
    constructor <;> linarith

/-- C280: the full turn is reached: with float64 every angle below 0 by less than `2⁻⁵¹` comes out as exactly `2 * np.pi`, not below it. -/
theorem C280_full_turn (v θ : ℝ) (hv : 0 ≤ v) (h1 : -(2 ^ (-51 : ℤ)) < θ) (h2 : θ < 0) : normaliseF ⟨even53, sumEven⟩ (some v) (some θ) = (some v, some (2 * piF)) := by
  have m0 := twoPi_pos
  have big : (1 : ℝ) < 2 * piF := by unfold piF; norm_num
  have c : ⌈θ / (2 * piF)⌉ = 0 := by
    rw [Int.ceil_eq_iff]
    push_cast
    norm_num at h1
    constructor
    · rw [lt_div_iff₀ m0]; linarith
    · exact div_nonpos_of_nonpos_of_nonneg h2.le m0.le
  have f : fmod θ (2 * piF) = θ := by
    unfold fmod
    rw [if_neg (not_le.mpr h2), c]
    simp
  unfold normaliseF
  simp only [if_neg (not_lt.mpr hv), Option.map_some]
  unfold pyModF
  rw [f, if_pos h2]
  exact congrArg (fun z => (some v, some z)) (even_full h1 h2.le)

/-- The hypotheses of C280 hold for float64, an accurate `arctan2` and a slowness of 0.1 s/m towards the east and slightly to the south. -/
example : FloatLike (2 ^ (-53 : ℤ)) ⟨even53, sumEven⟩ ∧ (2 : ℝ) ^ (-53 : ℤ) ≤ 1.2e-16 ∧ Monotone even53 ∧ even53 (2 * piF) = 2 * piF ∧ (∀ y x : ℝ, |Complex.arg ⟨x, y⟩ - Complex.arg ⟨x, y⟩| ≤ 1e-15) ∧
    ((0.1, -0.01) : Vec) ≠ (0, 0) ∧ -(2 ^ (-51 : ℤ)) < (-(10 : ℝ) ^ (-16 : ℤ)) ∧ (-(10 : ℝ) ^ (-16 : ℤ)) < 0 := by
  refine ⟨floatEven, by norm_num, even53_mono, ?_, by intro y x; rw [sub_self, abs_zero]; norm_num, by simp [Prod.ext_iff]; norm_num, by norm_num, by norm_num⟩
  have := even_full (θ := 0) (by norm_num) le_rfl
  rwa [zero_add] at this

end SST.Round
