import Verif.Props.Round
import Verif.Model.RoundVec

/-!
# Property C260: plane vectors with rounding
-/

namespace SST.Round
open SST SST.Spatial

section
variable {u : ℝ} {A : Arith}

/-- C260: the length of a vector. -/
theorem C260_magnitude (h : FloatLike u A) (v : Vec) : Near u 3 (magnitude v) (magnitudeF A v) := by
  have h0 := u_nonneg h.rounds
  unfold magnitude magnitudeF
  exact ((((near_fl h.rounds h.lt_one (sq_nonneg v.1)).add (near_fl h.rounds h.lt_one (sq_nonneg v.2))).rnd h.rounds h.lt_one (by positivity)).sqrt h0 h.lt_one).rnd
    h.rounds h.lt_one (Real.sqrt_nonneg _)

/-- C260: the distance of a point from a reference. -/
theorem C260_distance (h : FloatLike u A) (p ref : Vec) : Near u 5 (Real.sqrt ((p.1 - ref.1) ^ 2 + (p.2 - ref.2) ^ 2)) (magnitudeF A (vectorF A p ref)) := by
  have h0 := u_nonneg h.rounds
  have e : ∀ a b : ℝ, Near u 3 ((a - b) ^ 2) (A.fl (A.fl (a - b) ^ 2)) := fun a b =>
    ((near_abs h.rounds h.lt_one _).sq h0 h.lt_one).rnd h.rounds h.lt_one (sq_nonneg _)
  unfold magnitudeF vectorF
  exact ((((e _ _).add (e _ _)).rnd h.rounds h.lt_one (by positivity)).sqrt h0 h.lt_one).rnd h.rounds h.lt_one (Real.sqrt_nonneg _)

/-- C260: the dot product; the error is relative to the two products, not to their sum. -/
theorem C260_dot (h : FloatLike u A) (a b : Vec) : |dotF A a b - (a.1 * b.1 + a.2 * b.2)| ≤ ((1 + u) ^ 2 - 1) * (|a.1 * b.1| + |a.2 * b.2|) := by
  have h0 := u_nonneg h.rounds
  unfold dotF
  generalize a.1 * b.1 = x
  generalize a.2 * b.2 = y
  have hx := h.rounds x
  have hy := h.rounds y
  have hs := h.rounds (A.fl x + A.fl y)
  have bx := abs_sub_abs_le_abs_sub (A.fl x) x
  have by' := abs_sub_abs_le_abs_sub (A.fl y) y
  have hb : |A.fl x + A.fl y| ≤ (1 + u) * (|x| + |y|) := (abs_add_le _ _).trans (by linarith)
  have e : A.fl (A.fl x + A.fl y) - (x + y) = (A.fl (A.fl x + A.fl y) - (A.fl x + A.fl y)) + ((A.fl x - x) + (A.fl y - y)) := by ring
  rw [e]
  refine (abs_add_le _ _).trans ?_
  have t := abs_add_le (A.fl x - x) (A.fl y - y)
  have m := mul_le_mul_of_nonneg_left hb h0
  calc _ ≤ u * ((1 + u) * (|x| + |y|)) + (u * |x| + u * |y|) := by linarith
    _ = _ := by ring

/-- A factor by which rounding changes a number of either sign. -/
theorem fl_factor (h : FloatLike u A) (x : ℝ) : ∃ θ, (1 - u) ≤ θ ∧ θ * (1 - u) ≤ 1 ∧ A.fl x = θ * x := by
  have h0 := u_nonneg h.rounds
  have h1 := h.lt_one
  have hx := h.rounds x
  rcases eq_or_ne x 0 with rfl | hne
  · rw [abs_zero, mul_zero, sub_zero] at hx
    exact ⟨1, by linarith, by linarith, by rw [mul_zero]; exact abs_eq_zero.mp (le_antisymm hx (abs_nonneg _))⟩
  · refine ⟨A.fl x / x, ?_, ?_, (div_mul_cancel₀ _ hne).symm⟩
    all_goals
      have p := abs_pos.mpr hne
      have e : |A.fl x / x - 1| ≤ u := by
        rw [← div_self hne, ← sub_div, abs_div, div_le_iff₀ p]
        exact hx
      rw [abs_le] at e
    · linarith [e.1]
    · nlinarith [e.2]

theorem unit_factor (h : FloatLike u A) {dir : Vec} (hd : dir ≠ 0) : ∃ α β, (1 - u) ^ 4 ≤ α ∧ α * (1 - u) ^ 4 ≤ 1 ∧ (1 - u) ^ 4 ≤ β ∧ β * (1 - u) ^ 4 ≤ 1 ∧
    0 < magnitude dir ∧ unitF A dir = some (α * (dir.1 / magnitude dir), β * (dir.2 / magnitude dir)) := by
  have h0 := u_nonneg h.rounds
  have h1 := h.lt_one
  have hn : 0 < 1 - u := by linarith
  have m0 : 0 < magnitude dir := by
    unfold magnitude
    refine Real.sqrt_pos.mpr ?_
    by_contra hc
    refine hd (Prod.ext ?_ ?_)
    · have := sq_nonneg dir.1; have := sq_nonneg dir.2
      exact pow_eq_zero_iff (two_ne_zero) |>.mp (by linarith)
    · have := sq_nonneg dir.1; have := sq_nonneg dir.2
      exact pow_eq_zero_iff (two_ne_zero) |>.mp (by linarith)
  have hm := C260_magnitude h dir
  have m0' := hm.pos h0 h1 m0
  have comp : ∀ a : ℝ, ∃ α, (1 - u) ^ 4 ≤ α ∧ α * (1 - u) ^ 4 ≤ 1 ∧ A.fl (a / magnitudeF A dir) = α * (a / magnitude dir) := by
    intro a
    obtain ⟨θ, t1, t2, t3⟩ := fl_factor h (a / magnitudeF A dir)
    have tp : 0 < θ := lt_of_lt_of_le hn t1
    have p3 : 0 < (1 - u) ^ 3 := by positivity
    refine ⟨θ * (magnitude dir / magnitudeF A dir), ?_, ?_, ?_⟩
    · have : (1 - u) ^ 3 ≤ magnitude dir / magnitudeF A dir := by rw [le_div_iff₀ m0']; exact hm.2
      calc (1 - u) ^ 4 = (1 - u) * (1 - u) ^ 3 := by ring
        _ ≤ _ := mul_le_mul t1 this p3.le tp.le
    · have : magnitude dir / magnitudeF A dir * (1 - u) ^ 3 ≤ 1 := by
        rw [div_mul_eq_mul_div, div_le_one m0', mul_comm]; exact hm.1
      calc θ * (magnitude dir / magnitudeF A dir) * (1 - u) ^ 4 = (θ * (1 - u)) * (magnitude dir / magnitudeF A dir * (1 - u) ^ 3) := by ring
        _ ≤ 1 * 1 := mul_le_mul t2 this (by positivity) zero_le_one
        _ = 1 := one_mul 1
    · rw [t3]
      field_simp
  obtain ⟨α, a1, a2, a3⟩ := comp dir.1
  obtain ⟨β, b1, b2, b3⟩ := comp dir.2
  refine ⟨α, β, a1, a2, b1, b2, m0, ?_⟩
  unfold unitF
  simp only [m0'.ne', if_false, a3, b3]

/-- C260: the unit vector of a direction other than zero exists, points into the same quadrant, and its length differs from 1 by rounding only. -/
theorem C260_unit (h : FloatLike u A) {dir : Vec} (hd : dir ≠ 0) : ∃ w, unitF A dir = some w ∧ 0 ≤ w.1 * dir.1 ∧ 0 ≤ w.2 * dir.2 ∧
    Near u 4 1 (Real.sqrt (w.1 ^ 2 + w.2 ^ 2)) := by
  obtain ⟨α, β, a1, a2, b1, b2, m0, e⟩ := unit_factor h hd
  have h0 := u_nonneg h.rounds
  have h1 := h.lt_one
  have hn : 0 < 1 - u := by linarith
  have p4 : 0 < (1 - u) ^ 4 := by positivity
  have ap := p4.trans_le a1
  have bp := p4.trans_le b1
  refine ⟨_, e, ?_, ?_, ?_⟩
  · have : α * (dir.1 / magnitude dir) * dir.1 = α * (dir.1 ^ 2 / magnitude dir) := by ring
    simp only; rw [this]; positivity
  · have : β * (dir.2 / magnitude dir) * dir.2 = β * (dir.2 ^ 2 / magnitude dir) := by ring
    simp only; rw [this]; positivity
  · have one : (dir.1 / magnitude dir) ^ 2 + (dir.2 / magnitude dir) ^ 2 = 1 := by
      rw [div_pow, div_pow, ← add_div]
      have : magnitude dir ^ 2 = dir.1 ^ 2 + dir.2 ^ 2 := Real.sq_sqrt (by positivity)
      rw [this, div_self]
      rw [← this]; positivity
    generalize dir.1 / magnitude dir = x at *
    generalize dir.2 / magnitude dir = y at *
    constructor
    · refine Real.le_sqrt_of_sq_le ?_
      simp only
      have i1 : (1 - u) ^ 4 * (1 - u) ^ 4 ≤ α * α := mul_le_mul a1 a1 p4.le ap.le
      have i2 : (1 - u) ^ 4 * (1 - u) ^ 4 ≤ β * β := mul_le_mul b1 b1 p4.le bp.le
      nlinarith [mul_le_mul_of_nonneg_right i1 (sq_nonneg x), mul_le_mul_of_nonneg_right i2 (sq_nonneg y)]
    · rw [← Real.sqrt_sq p4.le, ← Real.sqrt_mul (sq_nonneg _)]
      refine Real.sqrt_le_iff.mpr ⟨zero_le_one, ?_⟩
      have i1 : α * (1 - u) ^ 4 * (α * (1 - u) ^ 4) ≤ 1 * 1 := mul_le_mul a2 a2 (by positivity) zero_le_one
      have i2 : β * (1 - u) ^ 4 * (β * (1 - u) ^ 4) ≤ 1 * 1 := mul_le_mul b2 b2 (by positivity) zero_le_one
      simp only
      nlinarith [mul_le_mul_of_nonneg_right i1 (sq_nonneg x), mul_le_mul_of_nonneg_right i2 (sq_nonneg y)]

theorem two_roundings (h0 : 0 ≤ u) (h1 : u < 1) : ((1 + u) ^ 2 - 1) * (1 - u) ^ 2 ≤ 1 - (1 - u) ^ 2 := by
  have e : ((1 + u) ^ 2 - 1) * (1 - u) ^ 2 = (1 - u ^ 2) ^ 2 - (1 - u) ^ 2 := by ring
  have : (1 - u ^ 2) ^ 2 ≤ 1 := pow_le_one₀ (by nlinarith) (by nlinarith)
  rw [e]
  linarith

/-- C260: the distance along a direction; the error is a small part of the length of the vector. -/
theorem C260_project (h : FloatLike u A) (v : Vec) {dir : Vec} (hd : dir ≠ 0) : ∃ p, projectF A v dir = some p ∧
    |p - (v.1 * dir.1 + v.2 * dir.2) / Real.sqrt (dir.1 ^ 2 + dir.2 ^ 2)| * (1 - u) ^ 6 ≤ (1 - (1 - u) ^ 6) * Real.sqrt (v.1 ^ 2 + v.2 ^ 2) := by
  obtain ⟨α, β, a1, a2, b1, b2, m0, e⟩ := unit_factor h hd
  have h0 := u_nonneg h.rounds
  have h1 := h.lt_one
  have hn : 0 < 1 - u := by linarith
  have p4 : 0 < (1 - u) ^ 4 := by positivity
  refine ⟨dotF A v (α * (dir.1 / magnitude dir), β * (dir.2 / magnitude dir)), by unfold projectF; rw [e]; rfl, ?_⟩
  have hdot := C260_dot h v (α * (dir.1 / magnitude dir), β * (dir.2 / magnitude dir))
  simp only at hdot
  have em : Real.sqrt (dir.1 ^ 2 + dir.2 ^ 2) = magnitude dir := rfl
  rw [em]
  have one : (dir.1 / magnitude dir) ^ 2 + (dir.2 / magnitude dir) ^ 2 = 1 := by
    rw [div_pow, div_pow, ← add_div]
    have : magnitude dir ^ 2 = dir.1 ^ 2 + dir.2 ^ 2 := Real.sq_sqrt (by positivity)
    rw [this, div_self]
    rw [← this]; positivity
  have ex : (v.1 * dir.1 + v.2 * dir.2) / magnitude dir = v.1 * (dir.1 / magnitude dir) + v.2 * (dir.2 / magnitude dir) := by ring
  rw [ex]
  generalize dotF A v _ = p at *
  generalize dir.1 / magnitude dir = x at *
  generalize dir.2 / magnitude dir = y at *
  have cs : |v.1 * x| + |v.2 * y| ≤ Real.sqrt (v.1 ^ 2 + v.2 ^ 2) := by
    refine Real.le_sqrt_of_sq_le ?_
    rw [abs_mul, abs_mul]
    have s1 := sq_abs v.1
    have s2 := sq_abs v.2
    have s3 := sq_abs x
    have s4 := sq_abs y
    generalize |v.1| = a at *
    generalize |v.2| = b at *
    generalize |x| = c at *
    generalize |y| = d at *
    rw [← s1, ← s2]
    rw [← s3, ← s4] at one
    nlinarith [sq_nonneg (a * d - b * c)]
  refine le_trans ?_ (mul_le_mul_of_nonneg_left cs (by
    have := pow_le_one₀ (n := 6) hn.le (by linarith : 1 - u ≤ 1)
    linarith))
  have fac : ∀ γ : ℝ, (1 - u) ^ 4 ≤ γ → γ * (1 - u) ^ 4 ≤ 1 → ∀ z : ℝ, |z * γ - z| * (1 - u) ^ 4 ≤ (1 - (1 - u) ^ 4) * |z| ∧ |z * γ| * (1 - u) ^ 4 ≤ |z| := by
    intro γ g1 g2 z
    have gp := p4.trans_le g1
    constructor
    · have : z * γ - z = z * (γ - 1) := by ring
      rw [this, abs_mul, mul_assoc, mul_comm (1 - (1 - u) ^ 4)]
      refine mul_le_mul_of_nonneg_left ?_ (abs_nonneg z)
      have q1 : (1 - u) ^ 4 ≤ 1 := pow_le_one₀ hn.le (by linarith)
      rcases abs_cases (γ - 1) with ⟨r, -⟩ | ⟨r, -⟩ <;> rw [r] <;> nlinarith
    · rw [abs_mul, abs_of_pos gp, mul_assoc]
      exact mul_le_of_le_one_right (abs_nonneg z) g2
  obtain ⟨f1, f2⟩ := fac α a1 a2 (v.1 * x)
  obtain ⟨f3, f4⟩ := fac β b1 b2 (v.2 * y)
  have r1 : v.1 * (α * x) = v.1 * x * α := by ring
  have r2 : v.2 * (β * y) = v.2 * y * β := by ring
  rw [r1, r2] at hdot
  generalize v.1 * x = X at *
  generalize v.2 * y = Y at *
  have tri : |p - (X + Y)| ≤ ((1 + u) ^ 2 - 1) * (|X * α| + |Y * β|) + (|X * α - X| + |Y * β - Y|) := by
    have : p - (X + Y) = (p - (X * α + Y * β)) + ((X * α - X) + (Y * β - Y)) := by ring
    rw [this]
    exact (abs_add_le _ _).trans (add_le_add hdot (abs_add_le _ _))
  have u2 : ((1 + u) ^ 2 - 1) * (1 - u) ^ 2 ≤ 1 - (1 - u) ^ 2 := two_roundings h0 h1
  have q2 : 0 ≤ (1 - u) ^ 2 := sq_nonneg _
  have X0 := abs_nonneg X
  have Y0 := abs_nonneg Y
  have w2 : 0 ≤ 1 - (1 - u) ^ 2 := sub_nonneg.mpr (pow_le_one₀ hn.le (by linarith))
  calc |p - (X + Y)| * (1 - u) ^ 6 ≤ (((1 + u) ^ 2 - 1) * (|X * α| + |Y * β|) + (|X * α - X| + |Y * β - Y|)) * (1 - u) ^ 6 :=
        mul_le_mul_of_nonneg_right tri (by positivity)
    _ = (((1 + u) ^ 2 - 1) * (1 - u) ^ 2) * (|X * α| * (1 - u) ^ 4 + |Y * β| * (1 - u) ^ 4) + (1 - u) ^ 2 * (|X * α - X| * (1 - u) ^ 4 + |Y * β - Y| * (1 - u) ^ 4) := by ring
    _ ≤ (1 - (1 - u) ^ 2) * (|X| + |Y|) + (1 - u) ^ 2 * ((1 - (1 - u) ^ 4) * |X| + (1 - (1 - u) ^ 4) * |Y|) := by
        refine add_le_add (mul_le_mul u2 (add_le_add f2 f4) (by positivity) w2) (mul_le_mul_of_nonneg_left (add_le_add f1 f3) q2)
    _ = (1 - (1 - u) ^ 6) * (|X| + |Y|) := by ring

/-- C260: a vector rotated with cosine and sine known to within `ε`. -/
theorem C260_rotate (h : FloatLike u A) {θ c s ε : ℝ} (hc : |c - Real.cos θ| ≤ ε) (hs : |s - Real.sin θ| ≤ ε) (v : Vec) :
    |(rotateF A c s v).1 - (Real.cos θ * v.1 - Real.sin θ * v.2)| ≤ (((1 + u) ^ 2 - 1) * (1 + ε) + ε) * (|v.1| + |v.2|) ∧
    |(rotateF A c s v).2 - (Real.sin θ * v.1 + Real.cos θ * v.2)| ≤ (((1 + u) ^ 2 - 1) * (1 + ε) + ε) * (|v.1| + |v.2|) := by
  have h0 := u_nonneg h.rounds
  have q : 0 ≤ (1 + u) ^ 2 - 1 := by nlinarith
  have key : ∀ a b a' b' p : ℝ, |a - a'| ≤ ε → |b - b'| ≤ ε → |a'| ≤ 1 → |b'| ≤ 1 →
      |p - (a * v.1 + b * v.2)| ≤ ((1 + u) ^ 2 - 1) * (|a * v.1| + |b * v.2|) → |p - (a' * v.1 + b' * v.2)| ≤ (((1 + u) ^ 2 - 1) * (1 + ε) + ε) * (|v.1| + |v.2|) := by
    intro a b a' b' p ha hb ha' hb' hp
    have A1 : |a| ≤ 1 + ε := by have := abs_sub_abs_le_abs_sub a a'; linarith
    have B1 : |b| ≤ 1 + ε := by have := abs_sub_abs_le_abs_sub b b'; linarith
    have e : p - (a' * v.1 + b' * v.2) = (p - (a * v.1 + b * v.2)) + ((a - a') * v.1 + (b - b') * v.2) := by ring
    rw [e]
    refine (abs_add_le _ _).trans ?_
    have t := abs_add_le ((a - a') * v.1) ((b - b') * v.2)
    rw [abs_mul, abs_mul] at t
    rw [abs_mul, abs_mul] at hp
    have m1 := mul_le_mul_of_nonneg_right ha (abs_nonneg v.1)
    have m2 := mul_le_mul_of_nonneg_right hb (abs_nonneg v.2)
    have m3 := mul_le_mul_of_nonneg_left (add_le_add (mul_le_mul_of_nonneg_right A1 (abs_nonneg v.1)) (mul_le_mul_of_nonneg_right B1 (abs_nonneg v.2))) q
    nlinarith
  have c1 := Real.abs_cos_le_one θ
  have s1 := Real.abs_sin_le_one θ
  constructor
  · have := key c (-s) (Real.cos θ) (-Real.sin θ) _ hc (by rw [← neg_sub', abs_neg]; exact hs) c1 (by rwa [abs_neg]) (C260_dot h (c, -s) v)
    convert this using 2
    unfold rotateF; ring
  · exact key s c (Real.sin θ) (Real.cos θ) _ hs hc s1 c1 (C260_dot h (s, c) v)

end

/-- The hypotheses of C260 hold for arithmetic with 53 digits, a direction with components of both signs, and a rotation by 45 degrees with a
cosine given to 16 places. -/
example : ((3, -4) : Vec) ≠ 0 ∧ |(0.7071067811865476 : ℝ) - Real.cos (Real.pi / 4)| ≤ 1e-16 ∧ |(0.7071067811865476 : ℝ) - Real.sin (Real.pi / 4)| ≤ 1e-16 ∧
    ∃ p, projectF ⟨round53, sum53⟩ (1, 2) (3, -4) = some p := by
  have e : |(0.7071067811865476 : ℝ) - Real.sqrt 2 / 2| ≤ 1e-16 := by
    have l : (1.4142135623730950 : ℝ) ≤ Real.sqrt 2 := Real.le_sqrt_of_sq_le (by norm_num)
    have r : Real.sqrt 2 ≤ (1.4142135623730952 : ℝ) := Real.sqrt_le_iff.mpr ⟨by norm_num, by norm_num⟩
    rw [abs_le]
    constructor <;> linarith
  refine ⟨by simp, by rw [Real.cos_pi_div_four]; exact e, by rw [Real.sin_pi_div_four]; exact e, ?_⟩
  obtain ⟨p, hp, -⟩ := C260_project float53 (1, 2) (dir := (3, -4)) (by simp)
  exact ⟨p, hp⟩

end SST.Round
