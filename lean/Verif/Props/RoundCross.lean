import Verif.Props.RoundVec

/-!
# Property C262: the intersection of perpendicular lines with rounding
-/

namespace SST.Round
open SST SST.Spatial

section
variable {u : ℝ} {A : Arith}

/-- A factor made of `k` roundings. -/
def Fac (u : ℝ) (k : ℕ) (α : ℝ) : Prop := (1 - u) ^ k ≤ α ∧ α * (1 - u) ^ k ≤ 1

theorem Fac.mul (h0 : 0 ≤ u) (h1 : u < 1) {k l : ℕ} {α β : ℝ} (ha : Fac u k α) (hb : Fac u l β) : Fac u (k + l) (α * β) := by
  obtain ⟨pk, -⟩ := pow_unit h0 h1 k
  obtain ⟨pl, -⟩ := pow_unit h0 h1 l
  have ap := pk.trans_le ha.1
  have bp := pl.trans_le hb.1
  constructor
  · rw [pow_add]
    exact mul_le_mul ha.1 hb.1 pl.le ap.le
  · calc α * β * (1 - u) ^ (k + l) = (α * (1 - u) ^ k) * (β * (1 - u) ^ l) := by rw [pow_add]; ring
      _ ≤ 1 * 1 := mul_le_mul ha.2 hb.2 (by positivity) zero_le_one
      _ = 1 := one_mul 1

theorem Fac.sub_one (h0 : 0 ≤ u) (h1 : u < 1) {k l : ℕ} (hkl : k ≤ l) {α : ℝ} (ha : Fac u k α) : |α - 1| ≤ 1 / (1 - u) ^ l - 1 := by
  obtain ⟨pk, pk1⟩ := pow_unit h0 h1 k
  obtain ⟨pl, pl1⟩ := pow_unit h0 h1 l
  have hle : (1 - u) ^ l ≤ (1 - u) ^ k := pow_le_pow_of_le_one (by linarith) (by linarith) hkl
  have hα : α ≤ 1 / (1 - u) ^ l := by
    rw [le_div_iff₀ pl]
    exact (mul_le_mul_of_nonneg_left hle (pk.trans_le ha.1).le).trans ha.2
  rw [abs_le]
  refine ⟨?_, by linarith⟩
  have : 2 ≤ (1 - u) ^ l + 1 / (1 - u) ^ l := by
    have : 0 ≤ ((1 - u) ^ l - 1) ^ 2 / (1 - u) ^ l := by positivity
    have e : ((1 - u) ^ l - 1) ^ 2 / (1 - u) ^ l = (1 - u) ^ l + 1 / (1 - u) ^ l - 2 := by
      field_simp
      ring
    linarith
  linarith [hle.trans ha.1]

theorem fl_fac (h : FloatLike u A) (x : ℝ) : ∃ θ, Fac u 1 θ ∧ A.fl x = θ * x := by
  obtain ⟨θ, a, b, c⟩ := fl_factor h x
  exact ⟨θ, ⟨by rwa [pow_one], by rwa [pow_one]⟩, c⟩

/-- A rounded difference of two numbers known with relative errors. -/
theorem sub_fac (h : FloatLike u A) {k : ℕ} {α β x y : ℝ} (ha : Fac u k α) (hb : Fac u k β) {l : ℕ} (hl : k + 1 ≤ l) :
    |A.fl (α * x - β * y) - (x - y)| ≤ (1 / (1 - u) ^ l - 1) * (|x| + |y|) := by
  have h0 := u_nonneg h.rounds
  obtain ⟨θ, ht, e⟩ := fl_fac h (α * x - β * y)
  have a1 := (ha.mul h0 h.lt_one ht).sub_one h0 h.lt_one hl
  have b1 := (hb.mul h0 h.lt_one ht).sub_one h0 h.lt_one hl
  have : A.fl (α * x - β * y) - (x - y) = (α * θ - 1) * x + -((β * θ - 1) * y) := by rw [e]; ring
  rw [this]
  refine (abs_add_le _ _).trans ?_
  rw [abs_neg, abs_mul, abs_mul, mul_add]
  exact add_le_add (mul_le_mul_of_nonneg_right a1 (abs_nonneg x)) (mul_le_mul_of_nonneg_right b1 (abs_nonneg y))

theorem mag2_fac (h : FloatLike u A) (a : Vec) : ∃ θ, Fac u 2 θ ∧ A.fl (A.fl (a.1 ^ 2) + A.fl (a.2 ^ 2)) = θ * (a.1 ^ 2 + a.2 ^ 2) := by
  have h0 := u_nonneg h.rounds
  have n := ((near_fl h.rounds h.lt_one (sq_nonneg a.1)).add (near_fl h.rounds h.lt_one (sq_nonneg a.2))).rnd h.rounds h.lt_one (by positivity)
  by_cases hz : a.1 ^ 2 + a.2 ^ 2 = 0
  · rw [hz] at n ⊢
    obtain ⟨p, p1⟩ := pow_unit h0 h.lt_one 2
    exact ⟨1, ⟨p1, by linarith⟩, by rw [n.zero h0 h.lt_one]; ring⟩
  · have hp : 0 < a.1 ^ 2 + a.2 ^ 2 := lt_of_le_of_ne (by positivity) (Ne.symm hz)
    refine ⟨A.fl (A.fl (a.1 ^ 2) + A.fl (a.2 ^ 2)) / (a.1 ^ 2 + a.2 ^ 2), ⟨?_, ?_⟩, (div_mul_cancel₀ _ hz).symm⟩
    · rw [le_div_iff₀ hp]; exact n.1
    · rw [div_mul_eq_mul_div, div_le_one hp, mul_comm]; exact n.2

/-- The product of a squared length with a coordinate, rounded. -/
theorem prod_fac (h : FloatLike u A) {θ m x : ℝ} (ht : Fac u 2 θ) : ∃ α, Fac u 3 α ∧ A.fl (θ * m * x) = α * (m * x) := by
  obtain ⟨τ, h1, e⟩ := fl_fac h (θ * m * x)
  exact ⟨θ * τ, ht.mul (u_nonneg h.rounds) h.lt_one h1, by rw [e]; ring⟩

/-- One coordinate: numerator and denominator with errors relative to the lengths. -/
theorem quot_bound (h : FloatLike u A) {n N d D c L m σ e : ℝ} (he : 0 ≤ e) (hσ : e < σ) (hm : 0 < m) (hL : 0 ≤ L) (hN : N = c * D) (hc : |c| ≤ L) (hn : |n - N| ≤ 2 * e * m * L)
    (hd : |d - D| ≤ e * m) (hD : σ * m ≤ |D|) : d ≠ 0 ∧ |A.fl (n / d) - c| ≤ ((1 + u) * (3 * e / (σ - e)) + u) * L := by
  have h0 := u_nonneg h.rounds
  have dl : (σ - e) * m ≤ |d| := by
    have := abs_sub_abs_le_abs_sub D d
    rw [abs_sub_comm] at this
    linarith
  have dp : 0 < |d| := lt_of_lt_of_le (mul_pos (by linarith) hm) dl
  have d0 : d ≠ 0 := abs_pos.mp dp
  refine ⟨d0, ?_⟩
  have q : |n / d - c| ≤ 3 * e / (σ - e) * L := by
    have e1 : n / d - c = (n - c * d) / d := by field_simp
    rw [e1, abs_div, div_le_iff₀ dp]
    have e2 : n - c * d = (n - N) + c * -(d - D) := by rw [hN]; ring
    have : |n - c * d| ≤ 3 * e * m * L := by
      rw [e2]
      refine (abs_add_le _ _).trans ?_
      rw [abs_mul, abs_neg]
      have := mul_le_mul hc hd (abs_nonneg _) hL
      nlinarith
    refine this.trans ?_
    have sp : 0 < σ - e := by linarith
    calc 3 * e * m * L = 3 * e / (σ - e) * L * ((σ - e) * m) := by field_simp
      _ ≤ 3 * e / (σ - e) * L * |d| := mul_le_mul_of_nonneg_left dl (by positivity)
  have r := h.rounds (n / d)
  have t := abs_sub_abs_le_abs_sub (n / d) c
  have t2 := abs_sub_le (A.fl (n / d)) (n / d) c
  have r' : u * |n / d| ≤ u * (3 * e / (σ - e) * L + L) := mul_le_mul_of_nonneg_left (by linarith) h0
  calc |A.fl (n / d) - c| ≤ u * (3 * e / (σ - e) * L + L) + 3 * e / (σ - e) * L := by linarith
    _ = _ := by ring

/-- A vector is no longer than one of which it is the projection. -/
theorem short_of_proj {x y c d l L : ℝ} (hl : 0 < l) (hL : 0 ≤ L) (hv : l ^ 2 = x ^ 2 + y ^ 2) (hc : L ^ 2 = c ^ 2 + d ^ 2) (hC : c * x + d * y = x ^ 2 + y ^ 2) : l ≤ L := by
  have cs : (c * x + d * y) ^ 2 ≤ (c ^ 2 + d ^ 2) * (x ^ 2 + y ^ 2) := by nlinarith [sq_nonneg (c * y - d * x)]
  rw [hC, ← hv, ← hc] at cs
  have hl2 : 0 < l ^ 2 := by positivity
  have : l ^ 2 ≤ L ^ 2 := le_of_mul_le_mul_right (by rwa [sq (l ^ 2)] at cs) hl2
  exact (pow_le_pow_iff_left₀ hl.le hL two_ne_zero).mp this

theorem cross_le {x y c d l L : ℝ} (hl : 0 ≤ l) (hL : 0 ≤ L) (hv : l ^ 2 = x ^ 2 + y ^ 2) (hc : L ^ 2 = c ^ 2 + d ^ 2) : |c * y| + |x * d| ≤ l * L := by
  refine abs_le_of_sq_le_sq' ?_ (by positivity) |>.2
  rw [mul_pow, hv, hc, abs_mul, abs_mul, ← sq_abs x, ← sq_abs y, ← sq_abs c, ← sq_abs d]
  nlinarith [sq_nonneg (|c| * |x| - |y| * |d|)]

/-- C262: let `C` be the point whose projections on `a` and `b` end at their tips, and `σ` a lower bound of the sine of the angle between `a` and `b`.  With
`e = (1 - u)⁻⁴ - 1 < σ`, `compute_intersection` with rounding returns a point of which each coordinate differs from that of `C` by at most
`(1 + u) · 3 e / (σ - e) + u` times the length of `C`. -/
theorem C262_intersection (h : FloatLike u A) (a b C : Vec) (ha : C.1 * a.1 + C.2 * a.2 = a.1 ^ 2 + a.2 ^ 2) (hb : C.1 * b.1 + C.2 * b.2 = b.1 ^ 2 + b.2 ^ 2)
    (hb0 : a ≠ 0 ∧ b ≠ 0) {σ : ℝ} (hσ : 1 / (1 - u) ^ 4 - 1 < σ)
    (hs : σ * (Real.sqrt (a.1 ^ 2 + a.2 ^ 2) * Real.sqrt (b.1 ^ 2 + b.2 ^ 2)) ≤ |b.1 * a.2 - a.1 * b.2|) :
    ∃ p : Vec, intersect1F A a b = (.fin p.1, .fin p.2) ∧
      |p.1 - C.1| ≤ ((1 + u) * (3 * (1 / (1 - u) ^ 4 - 1) / (σ - (1 / (1 - u) ^ 4 - 1))) + u) * Real.sqrt (C.1 ^ 2 + C.2 ^ 2) ∧
      |p.2 - C.2| ≤ ((1 + u) * (3 * (1 / (1 - u) ^ 4 - 1) / (σ - (1 / (1 - u) ^ 4 - 1))) + u) * Real.sqrt (C.1 ^ 2 + C.2 ^ 2) := by
  have h0 := u_nonneg h.rounds
  obtain ⟨p4, p41⟩ := pow_unit h0 h.lt_one 4
  have e0 : 0 ≤ 1 / (1 - u) ^ 4 - 1 := by
    rw [sub_nonneg, le_div_iff₀ p4]; linarith
  have pos : ∀ v : Vec, v ≠ 0 → 0 < v.1 ^ 2 + v.2 ^ 2 := by
    intro v hv
    by_contra hc
    refine hv (Prod.ext ?_ ?_)
    · have := sq_nonneg v.1; have := sq_nonneg v.2
      exact pow_eq_zero_iff (two_ne_zero) |>.mp (by linarith)
    · have := sq_nonneg v.1; have := sq_nonneg v.2
      exact pow_eq_zero_iff (two_ne_zero) |>.mp (by linarith)
  have pa := pos a hb0.1
  have pb := pos b hb0.2
  -- lengths
  set la := Real.sqrt (a.1 ^ 2 + a.2 ^ 2)
  set lb := Real.sqrt (b.1 ^ 2 + b.2 ^ 2)
  set L := Real.sqrt (C.1 ^ 2 + C.2 ^ 2)
  have la0 : 0 < la := Real.sqrt_pos.mpr pa
  have lb0 : 0 < lb := Real.sqrt_pos.mpr pb
  have L0 : 0 ≤ L := Real.sqrt_nonneg _
  have la2 : la ^ 2 = a.1 ^ 2 + a.2 ^ 2 := Real.sq_sqrt pa.le
  have lb2 : lb ^ 2 = b.1 ^ 2 + b.2 ^ 2 := Real.sq_sqrt pb.le
  have L2 : L ^ 2 = C.1 ^ 2 + C.2 ^ 2 := Real.sq_sqrt (by positivity)
  have c1 : |C.1| ≤ L := by rw [← Real.sqrt_sq_eq_abs]; exact Real.sqrt_le_sqrt (by nlinarith [sq_nonneg C.2])
  have c2 : |C.2| ≤ L := by rw [← Real.sqrt_sq_eq_abs]; exact Real.sqrt_le_sqrt (by nlinarith [sq_nonneg C.1])
  have a1 : |a.1| ≤ la := by rw [← Real.sqrt_sq_eq_abs]; exact Real.sqrt_le_sqrt (by nlinarith [sq_nonneg a.2])
  have a2 : |a.2| ≤ la := by rw [← Real.sqrt_sq_eq_abs]; exact Real.sqrt_le_sqrt (by nlinarith [sq_nonneg a.1])
  have b1 : |b.1| ≤ lb := by rw [← Real.sqrt_sq_eq_abs]; exact Real.sqrt_le_sqrt (by nlinarith [sq_nonneg b.2])
  have b2 : |b.2| ≤ lb := by rw [← Real.sqrt_sq_eq_abs]; exact Real.sqrt_le_sqrt (by nlinarith [sq_nonneg b.1])
  have laL := short_of_proj la0 L0 la2 L2 ha
  have lbL := short_of_proj lb0 L0 lb2 L2 hb
  -- denominator
  obtain ⟨δ1, hδ1, ed1⟩ := fl_fac h (b.1 * a.2)
  obtain ⟨δ2, hδ2, ed2⟩ := fl_fac h (a.1 * b.2)
  have hden := sub_fac h (x := b.1 * a.2) (y := a.1 * b.2) hδ1 hδ2 (l := 4) (by norm_num)
  rw [← ed1, ← ed2] at hden
  have cross := cross_le la0.le lb0.le la2 lb2
  have hd := hden.trans (mul_le_mul_of_nonneg_left cross e0)
  -- numerators
  obtain ⟨θa, fa, ea⟩ := mag2_fac h a
  obtain ⟨θb, fb, eb⟩ := mag2_fac h b
  have num : ∀ x y X Y : ℝ, |x| ≤ X → |y| ≤ Y → ∀ m k : ℝ, 0 ≤ m → 0 ≤ k → ∀ θ τ : ℝ, Fac u 2 θ → Fac u 2 τ → m * X + k * Y ≤ 2 * (la * lb) * L →
      |A.fl (A.fl (θ * m * x) - A.fl (τ * k * y)) - (m * x - k * y)| ≤ 2 * (1 / (1 - u) ^ 4 - 1) * (la * lb) * L := by
    intro x y X Y hx hy m k hm hk θ τ ht hτ hb
    obtain ⟨α, fα, e1⟩ := prod_fac h (m := m) (x := x) ht
    obtain ⟨β, fβ, e2⟩ := prod_fac h (m := k) (x := y) hτ
    rw [e1, e2]
    refine (sub_fac h fα fβ (l := 4) (by norm_num)).trans ?_
    rw [abs_mul, abs_mul, abs_of_nonneg hm, abs_of_nonneg hk]
    calc _ ≤ (1 / (1 - u) ^ 4 - 1) * (m * X + k * Y) := mul_le_mul_of_nonneg_left (add_le_add (mul_le_mul_of_nonneg_left hx hm) (mul_le_mul_of_nonneg_left hy hk)) e0
      _ ≤ (1 / (1 - u) ^ 4 - 1) * (2 * (la * lb) * L) := mul_le_mul_of_nonneg_left hb e0
      _ = _ := by ring
  have size : b.1 ^ 2 + b.2 ^ 2 = lb ^ 2 ∧ a.1 ^ 2 + a.2 ^ 2 = la ^ 2 := ⟨lb2.symm, la2.symm⟩
  have sz : lb ^ 2 * la + la ^ 2 * lb ≤ 2 * (la * lb) * L := by
    have : lb ^ 2 * la + la ^ 2 * lb = (la * lb) * (lb + la) := by ring
    rw [this]
    have := mul_le_mul_of_nonneg_left (add_le_add lbL laL) (mul_pos la0 lb0).le
    linarith
  have n1 := num a.2 b.2 la lb a2 b2 (b.1 ^ 2 + b.2 ^ 2) (a.1 ^ 2 + a.2 ^ 2) pb.le pa.le θb θa fb fa (by rw [size.1, size.2]; exact sz)
  have n2 := num b.1 a.1 lb la b1 a1 (a.1 ^ 2 + a.2 ^ 2) (b.1 ^ 2 + b.2 ^ 2) pa.le pb.le θa θb fa fb (by rw [size.1, size.2]; linarith)
  have q1 := quot_bound h e0 hσ (mul_pos la0 lb0) L0 (N := (b.1 ^ 2 + b.2 ^ 2) * a.2 - (a.1 ^ 2 + a.2 ^ 2) * b.2) (c := C.1) (D := b.1 * a.2 - a.1 * b.2)
    (by rw [← ha, ← hb]; ring) c1 n1 hd hs
  have q2 := quot_bound h e0 hσ (mul_pos la0 lb0) L0 (N := (a.1 ^ 2 + a.2 ^ 2) * b.1 - (b.1 ^ 2 + b.2 ^ 2) * a.1) (c := C.2) (D := b.1 * a.2 - a.1 * b.2)
    (by rw [← ha, ← hb]; ring) c2 n2 hd hs
  refine ⟨(_, _), ?_, q1.2, q2.2⟩
  unfold intersect1F
  simp only [ea, eb]
  rw [mul_comm b.2 (θa * (a.1 ^ 2 + a.2 ^ 2)), mul_comm a.1 (θb * (b.1 ^ 2 + b.2 ^ 2))]
  unfold XR.div
  simp only [q1.1, if_false]

end

/-- The hypotheses of C262 hold for two errors of 30 m and 40 m at a right angle, with 53 digits. -/
example : (50 - 20 : ℝ) * 30 + 40 * 0 = 30 ^ 2 + 0 ^ 2 ∧ (50 - 20 : ℝ) * 0 + 40 * 40 = 0 ^ 2 + 40 ^ 2 ∧ 1 / (1 - (2 : ℝ) ^ (-53 : ℤ)) ^ 4 - 1 < 0.7 ∧
    (0.7 : ℝ) * (Real.sqrt (30 ^ 2 + 0 ^ 2) * Real.sqrt (0 ^ 2 + 40 ^ 2)) ≤ |0 * 0 - 30 * 40| ∧
    ∃ p : Vec, intersect1F ⟨round53, sum53⟩ (30, 0) (0, 40) = (.fin p.1, .fin p.2) := by
  have s1 : Real.sqrt (30 ^ 2 + 0 ^ 2) = 30 := by rw [show (30 : ℝ) ^ 2 + 0 ^ 2 = 30 ^ 2 by norm_num]; exact Real.sqrt_sq (by norm_num)
  have s2 : Real.sqrt (0 ^ 2 + 40 ^ 2) = 40 := by rw [show (0 : ℝ) ^ 2 + 40 ^ 2 = 40 ^ 2 by norm_num]; exact Real.sqrt_sq (by norm_num)
  have he : 1 / (1 - (2 : ℝ) ^ (-53 : ℤ)) ^ 4 - 1 < 0.7 := by norm_num
  have hs : (0.7 : ℝ) * (Real.sqrt (30 ^ 2 + 0 ^ 2) * Real.sqrt (0 ^ 2 + 40 ^ 2)) ≤ |0 * 0 - 30 * 40| := by rw [s1, s2]; norm_num
  refine ⟨by norm_num, by norm_num, he, hs, ?_⟩
  obtain ⟨p, hp, -⟩ := C262_intersection float53 (30, 0) (0, 40) (30, 40) (by norm_num) (by norm_num) (by simp) he hs
  exact ⟨p, hp⟩

end SST.Round
