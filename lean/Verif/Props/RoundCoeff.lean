import Verif.Props.RoundCorr
import Verif.Props.RoundScore

/-!
# Property C281: the correlation coefficient with rounding
-/

namespace SST.Round
open SST SST.Spec SST.Corr SST.Dft SST.Props.NoiseDelay

section
variable {u : ℝ} {A : Arith}

private theorem sum_zip (a d : List ℝ) (h : a.length = d.length) : (List.zipWith (· + ·) a d).sum = a.sum + d.sum := by
  induction a generalizing d with
  | nil => cases d <;> simp_all
  | cons x a ih =>
    cases d with
    | nil => simp at h
    | cons y d =>
      simp only [List.zipWith_cons_cons, List.sum_cons, ih d (by simpa using h)]
      ring

private theorem demean_zip (a d : List ℝ) (h : a.length = d.length) : demean (List.zipWith (· + ·) a d) = List.zipWith (· + ·) (demean a) (demean d) := by
  unfold demean
  refine List.ext_getElem (by simp) fun i h1 h2 => ?_
  simp only [List.getElem_map, List.getElem_zipWith, sum_zip a d h, List.length_zipWith, ← h, min_self]
  ring

theorem demean_sum {x : List ℝ} (hx : x ≠ []) : (demean x).sum = 0 := by
  have n0 : (x.length : ℝ) ≠ 0 := by exact_mod_cast (List.length_pos_iff.mpr hx).ne'
  have : ∀ (l : List ℝ) (c : ℝ), (l.map fun v => v - c).sum = l.sum - l.length * c := by
    intro l c
    induction l with
    | nil => simp
    | cons v l ih => simp only [List.map_cons, List.sum_cons, ih, List.length_cons]; push_cast; ring
  unfold demean
  rw [this]
  field_simp
  ring

private theorem demean_demean {x : List ℝ} (hx : x ≠ []) : demean (demean x) = demean x := by
  conv_lhs => unfold demean
  rw [show (List.map (fun v => v - x.sum / x.length) x) = demean x from rfl, demean_sum hx]
  simp

theorem demean_le (x : List ℝ) : rss (demean x) ≤ rss x := by
  have := Real.sqrt_le_sqrt (energy_conditioned "coeff" x)
  rwa [show conditioned "coeff" x = demean x from if_pos rfl] at this

theorem rss_near (a d : List ℝ) (h : a.length = d.length) : |rss (List.zipWith (· + ·) a d) - rss a| ≤ rss d := by
  have p := rss_add h
  have e : a = List.zipWith (· + ·) (List.zipWith (· + ·) a d) (d.map fun v => -v) := by
    refine List.ext_getElem (by simp [h]) fun i h1 h2 => ?_
    simp
  have q := rss_add (x := List.zipWith (· + ·) a d) (d := d.map fun v => -v) (by simp [h])
  rw [← e] at q
  have n : rss (d.map fun v => -v) = rss d := by unfold rss; simp [List.map_map, Function.comp_def]
  rw [n] at q
  rw [abs_le]
  constructor <;> linarith

/-- The size of what `np.std` sums up, for a record whose mean was removed before. -/
private theorem twice (h : FloatLike u A) {x : List ℝ} (hx : x ≠ []) {ε : ℝ} (hε : (1 + u) ^ (x.length + 1) - 1 ≤ ε) (h1 : ε ≤ 0.01) :
    |rss (condF A "coeff" (condF A "coeff" x)) - rss (demean x)| ≤ 2.1 * ε * rss x := by
  have r0 := rss_nonneg x
  have u0 := u_nonneg h.rounds
  have e0 : 0 ≤ ε := le_trans (by have := one_le_pow₀ (n := x.length + 1) (by linarith : 1 ≤ 1 + u); linarith) hε
  have cd : ∀ z : List ℝ, conditioned "coeff" z = demean z := fun z => if_pos rfl
  have dl : ∀ z : List ℝ, (demean z).length = z.length := fun z => by simp [demean]
  obtain ⟨d, l1, e1, b1⟩ := condF_disturbed h "coeff" hx
  have cl : (condF A "coeff" x).length = x.length := by simp [condF]
  have cne : condF A "coeff" x ≠ [] := by rw [← List.length_pos_iff, cl]; exact List.length_pos_iff.mpr hx
  obtain ⟨d', l2, e2, b2⟩ := condF_disturbed h "coeff" cne
  rw [cd] at e1 e2
  rw [cl] at b2 l2
  have b1' : rss d ≤ ε * rss x := b1.trans (mul_le_mul_of_nonneg_right hε r0)
  have c1 : rss (condF A "coeff" x) ≤ (1 + ε) * rss x := by
    have := rss_add (x := demean x) (d := d) (by rw [dl, l1])
    rw [← e1] at this
    linarith [demean_le x]
  have b2' : rss d' ≤ ε * ((1 + ε) * rss x) := b2.trans (mul_le_mul hε c1 (rss_nonneg _) e0)
  have n2 := rss_near (demean (condF A "coeff" x)) d' (by rw [dl, cl, l2])
  rw [← e2] at n2
  have e3 : demean (condF A "coeff" x) = List.zipWith (· + ·) (demean x) (demean d) := by
    rw [e1, demean_zip _ _ (by rw [dl, l1]), demean_demean hx]
  have n1 := rss_near (demean x) (demean d) (by rw [dl, dl, l1])
  rw [← e3] at n1
  have t := abs_sub_le (rss (condF A "coeff" (condF A "coeff" x))) (rss (demean (condF A "coeff" x))) (rss (demean x))
  have q : ε * (ε * rss x) ≤ 0.01 * (ε * rss x) := mul_le_mul_of_nonneg_right h1 (mul_nonneg e0 r0)
  linarith [demean_le d, mul_nonneg e0 r0]

theorem std_near (h : FloatLike u A) {z : List ℝ} (hz : z ≠ []) : Near u (z.length + 2) (rss (condF A "coeff" z) / Real.sqrt z.length) (stdF A z) := by
  have h0 := u_nonneg h.rounds
  have h1 := h.lt_one
  have np : 0 < z.length := List.length_pos_iff.mpr hz
  have n0 : (0 : ℝ) < z.length := by exact_mod_cast np
  have cl : (condF A "coeff" z).length = z.length := by simp [condF]
  have e : (z.map fun (v : ℝ) => A.fl (A.fl (v - meanF A z) ^ 2)) = (condF A "coeff" z).map fun w => A.fl (w ^ 2) := by simp [condF, List.map_map, Function.comp_def]
  have s := (h.sums ((condF A "coeff" z).map fun w => A.fl (w ^ 2)) (by rw [← List.length_pos_iff, List.length_map, cl]; exact np)).near_map h.rounds h1
    (f := fun w => w ^ 2) (k := 1) (fun w _ => sq_nonneg w) (fun w _ => near_fl h.rounds h1 (sq_nonneg w))
  rw [cl, show 1 + (z.length - 1) = z.length by omega] at s
  have q : (0 : ℝ) ≤ ((condF A "coeff" z).map fun w => w ^ 2).sum := List.sum_nonneg (by simp; intro a _; positivity)
  have v := (s.div h0 h1 q n0 (Near.refl (u := u) (z.length : ℝ))).rnd h.rounds h1 (by positivity)
  have r := (v.sqrt h0 h1).rnd h.rounds h1 (Real.sqrt_nonneg _)
  rw [Real.sqrt_div q] at r
  unfold stdF
  rw [e]
  exact r

/-- The scaling factor is the inverse product of the sizes. -/
private theorem scale_near (h : FloatLike u A) {x y : List ℝ} (hx : x ≠ []) (hy : y.length = x.length) (px : 0 < rss (condF A "coeff" x)) (py : 0 < rss (condF A "coeff" y)) :
    ∃ s, scaleF A "coeff" x y = .fin s ∧ Near u (2 * x.length + 7) (1 / (rss (condF A "coeff" x) * rss (condF A "coeff" y))) s := by
  have h0 := u_nonneg h.rounds
  have h1 := h.lt_one
  have n0 : (0 : ℝ) < x.length := by exact_mod_cast List.length_pos_iff.mpr hx
  have s0 := Real.sqrt_pos.mpr n0
  have hy0 : y ≠ [] := by
    rintro rfl
    exact hx (List.length_eq_zero_iff.1 hy.symm)
  have a := std_near h hx
  have b := std_near h hy0
  rw [hy] at b
  set rx := rss (condF A "coeff" x)
  set ry := rss (condF A "coeff" y)
  have c := ((Near.refl (u := u) (x.length : ℝ)).mul h0 h1 n0.le (by positivity) a).rnd h.rounds h1 (by positivity)
  have d := (c.mul h0 h1 (by positivity) (by positivity) b).rnd h.rounds h1 (by positivity)
  have e : (x.length : ℝ) * (rx / Real.sqrt x.length) * (ry / Real.sqrt x.length) = rx * ry := by
    have := Real.mul_self_sqrt n0.le
    field_simp
    nlinarith [this]
  rw [e] at d
  have p := d.pos h0 h1 (mul_pos px py)
  refine ⟨_, ?_, ((Near.refl (u := u) 1).div h0 h1 zero_le_one (mul_pos px py) d).rnd h.rounds h1 (by positivity) |>.mono h0 h1 (by omega) (by positivity)⟩
  unfold scaleF
  simp only [if_true, XR.div, if_neg p.ne']

/-- C281, as far as it is true: for records of up to 100000 samples whose standard deviation is at least 1 % of their root mean square, `peak_corr` of 'coeff' is the
largest correlation coefficient to within `3·10⁻⁶` and exceeds 1 by at most `10⁻⁶`. -/
theorem C281_error_partial (h : FloatLike (2 ^ (-53 : ℤ)) A) (dt : ℝ) {x y : List ℝ} (hy : y.length = x.length) (hn : x.length ≤ 100000)
    (px : 0 < rss (demean x)) (py : 0 < rss (demean y)) (vx : rss x ≤ 100 * rss (demean x)) (vy : rss y ≤ 100 * rss (demean y)) :
    ∃ p, (delayF A (directF A) dt "coeff" x y).2 = .fin p ∧ |p| ≤ 1 + 1e-6 ∧
      (∀ l, IsLag x.length l → xcorrAt (demean x) (demean y) l / (rss (demean x) * rss (demean y)) ≤ p + 3e-6) ∧
      ∃ lag, IsLag x.length lag ∧ |p - xcorrAt (demean x) (demean y) lag / (rss (demean x) * rss (demean y))| ≤ 1e-6 := by
  have hx : x ≠ [] := by
    rintro rfl
    simp [demean, rss] at px
  have hy0 : y ≠ [] := by
    rintro rfl
    exact hx (List.length_eq_zero_iff.1 hy.symm)
  rw [u53'] at h
  have kn : (x.length : ℝ) ≤ 100000 := by exact_mod_cast hn
  have η0 : 0 ≤ (1 + 1 / 9007199254740992 : ℝ) ^ x.length - 1 := by
    have := one_le_pow₀ (n := x.length) (by norm_num : (1 : ℝ) ≤ 1 + 1 / 9007199254740992)
    linarith
  obtain ⟨lag, v, h1, h2, hv, h3⟩ := delayF_spec h η0 dt "coeff" hx hy (C268_direct h x.length)
  have hB : (1 + ((1 + 1 / 9007199254740992 : ℝ) ^ x.length - 1)) * (1 + 1 / 9007199254740992) ^ (2 * x.length + 2) - 1 ≤ 9.1e-11 := by
    have e : (1 + ((1 + 1 / 9007199254740992 : ℝ) ^ x.length - 1)) * (1 + 1 / 9007199254740992) ^ (2 * x.length + 2) = (1 + 1 / 9007199254740992) ^ (3 * x.length + 2) := by
      rw [add_sub_cancel, ← pow_add]
      congr 1
      ring
    rw [e]
    have a := pow_small (k := 3 * x.length + 2) (by omega)
    push_cast at a
    linarith
  have hE : (1 + 1 / 9007199254740992 : ℝ) ^ (x.length + 1) - 1 ≤ 3.1e-11 := by
    have a := pow_small (k := x.length + 1) (by omega)
    push_cast at a
    linarith
  have hcx : ∀ z : List ℝ, conditioned "coeff" z = demean z := fun z => if_pos rfl
  rw [hcx, hcx] at h2 hv
  have tx := twice h hx (ε := 3.1e-11) hE (by norm_num)
  have ty := twice h hy0 (ε := 3.1e-11) (by rw [hy]; exact hE) (by norm_num)
  have cl : ∀ z : List ℝ, (condF A "coeff" z).length = z.length := fun z => by simp [condF]
  have cne : condF A "coeff" x ≠ [] := by rw [← List.length_pos_iff, cl]; exact List.length_pos_iff.mpr hx
  set X := rss (demean x) with hX
  set Y := rss (demean y) with hY
  have tx' : |rss (condF A "coeff" (condF A "coeff" x)) - X| ≤ 7e-9 * X := by linarith
  have ty' : |rss (condF A "coeff" (condF A "coeff" y)) - Y| ≤ 7e-9 * Y := by linarith
  set rx := rss (condF A "coeff" (condF A "coeff" x)) with hrx
  set ry := rss (condF A "coeff" (condF A "coeff" y)) with hry
  rw [abs_le] at tx' ty'
  have prx : 0 < rx := by linarith [tx'.1]
  have pry : 0 < ry := by linarith [ty'.1]
  have XY := mul_pos px py
  obtain ⟨s, es, ns⟩ := scale_near h cne (by rw [cl, cl, hy]) prx pry
  rw [cl] at ns
  -- the scaling factor
  have rp : 0 < rx * ry := mul_pos prx pry
  have low : (1 - 1.5e-8) * (X * Y) ≤ rx * ry := by
    have : (1 - 7e-9) * X * ((1 - 7e-9) * Y) ≤ rx * ry := mul_le_mul (by linarith [tx'.1]) (by linarith [ty'.1]) (by positivity) prx.le
    nlinarith
  have high : rx * ry ≤ (1 + 1.5e-8) * (X * Y) := by
    have : rx * ry ≤ (1 + 7e-9) * X * ((1 + 7e-9) * Y) := mul_le_mul (by linarith [tx'.2]) (by linarith [ty'.2]) pry.le (by positivity)
    nlinarith
  have sd : |s - 1 / (rx * ry)| ≤ 1e-10 * (1 / (rx * ry)) := by
    have d := near_diff (by norm_num) (by norm_num) (by positivity : 0 ≤ 1 / (rx * ry)) ns
    refine d.trans (mul_le_mul_of_nonneg_right ?_ (by positivity))
    have b : 1 - 2.5e-11 ≤ (1 - 1 / 9007199254740992 : ℝ) ^ (2 * x.length + 7) := by
      have := one_add_mul_le_pow (a := -(1 / 9007199254740992 : ℝ)) (by norm_num) (2 * x.length + 7)
      rw [← sub_eq_add_neg] at this
      refine le_trans ?_ this
      push_cast
      linarith
    have c : 1 / (1 - 1 / 9007199254740992 : ℝ) ^ (2 * x.length + 7) ≤ 1 / (1 - 2.5e-11) := one_div_le_one_div_of_le (by norm_num) b
    have c' : (1 : ℝ) / (1 - 2.5e-11) ≤ 1 + 1e-10 := by norm_num
    linarith
  have sXY : |s * (X * Y) - 1| ≤ 2e-8 := by
    have a1 : X * Y / (rx * ry) ≤ 1 + 1.6e-8 := by rw [div_le_iff₀ rp]; nlinarith
    have a2 : 1 - 1.6e-8 ≤ X * Y / (rx * ry) := by rw [le_div_iff₀ rp]; nlinarith
    have e : s * (X * Y) - X * Y / (rx * ry) = (s - 1 / (rx * ry)) * (X * Y) := by ring
    have b : |s * (X * Y) - X * Y / (rx * ry)| ≤ 1e-10 * (X * Y / (rx * ry)) := by
      rw [e, abs_mul, abs_of_pos XY]
      calc _ ≤ 1e-10 * (1 / (rx * ry)) * (X * Y) := mul_le_mul_of_nonneg_right sd XY.le
        _ = _ := by ring
    rw [abs_le] at b ⊢
    constructor <;> linarith [b.1, b.2]
  -- the correlation
  have Rxy : rss x * rss y ≤ 10000 * (X * Y) := by
    calc _ ≤ 100 * X * (100 * Y) := mul_le_mul vx vy (rss_nonneg y) (by positivity)
      _ = _ := by ring
  have R0 : 0 ≤ rss x * rss y := mul_nonneg (rss_nonneg x) (rss_nonneg y)
  have hB2 : ((1 + ((1 + 1 / 9007199254740992 : ℝ) ^ x.length - 1)) * (1 + 1 / 9007199254740992) ^ (2 * x.length + 2) - 1) * (rss x * rss y) ≤ 9.1e-7 * (X * Y) := by
    have := mul_le_mul_of_nonneg_right hB R0
    linarith
  have hv' := hv.trans hB2
  set C := xcorrAt (demean x) (demean y) lag with hC
  have Cb : |C| ≤ X * Y := abs_xcorrAt_le _ _ _
  set c := C / (X * Y) with hc
  have cC : C = c * (X * Y) := by rw [hc]; field_simp
  have cb : |c| ≤ 1 := by
    rw [hc, abs_div, abs_of_pos XY, div_le_one XY]; exact Cb
  have w : |v / (X * Y) - c| ≤ 9.1e-7 := by
    have e : v / (X * Y) - c = (v - C) / (X * Y) := by rw [hc]; ring
    rw [e, abs_div, abs_of_pos XY, div_le_iff₀ XY]
    exact hv'
  have m : |v * s - c| ≤ 9.5e-7 := by
    have e : v * s - c = (v / (X * Y) - c) + v / (X * Y) * (s * (X * Y) - 1) := by field_simp; ring
    rw [e]
    have vb : |v / (X * Y)| ≤ 1.1 := by
      have := abs_sub_abs_le_abs_sub (v / (X * Y)) c
      linarith
    have t : |v / (X * Y) * (s * (X * Y) - 1)| ≤ 1.1 * 2e-8 := by
      rw [abs_mul]; exact mul_le_mul vb sXY (abs_nonneg _) (by norm_num)
    refine (abs_add_le _ _).trans ?_
    linarith
  have fin : |A.fl (v * s) - c| ≤ 1e-6 := by
    have r := h.rounds (v * s)
    have b : |v * s| ≤ 1.1 := by
      have := abs_sub_abs_le_abs_sub (v * s) c
      linarith
    have t := abs_sub_le (A.fl (v * s)) (v * s) c
    linarith
  refine ⟨A.fl (v * s), ?_, ?_, ?_, lag, h1, fin⟩
  · rw [h3, es]
    rfl
  · have := abs_sub_abs_le_abs_sub (A.fl (v * s)) c
    linarith
  · intro l hl
    have a := h2 l hl
    have b : xcorrAt (demean x) (demean y) l / (X * Y) ≤ c + 1.9e-6 := by
      rw [div_le_iff₀ XY, add_mul, ← cC]
      linarith
    linarith [(abs_le.mp fin).1]
end

private theorem ev {x : ℝ} {k n : ℤ} (h1 : (2 : ℝ) ^ k ≤ |x|) (h2 : |x| < 2 ^ (k + 1)) (hn : x / 2 ^ (k - 52) = n) : even53 x = x := by
  have p : (0 : ℝ) < 2 ^ (k - 52) := zpow_pos two_pos _
  rw [even53_eq h1 h2 (n := n) (by rw [hn, nearestEven_int]), ← hn, div_mul_cancel₀ _ p.ne']

private theorem ev0 : even53 0 = 0 := by
  have := even53_rounds 0
  rw [abs_zero, mul_zero, sub_zero] at this
  exact abs_eq_zero.mp (le_antisymm this (abs_nonneg _))

/-- The float64 nearest to 0.1. -/
noncomputable def tenth : ℝ := 7205759403792794 / 2 ^ 56

theorem tenth_float : even53 tenth = tenth := by
  refine ev (k := -4) (n := 7205759403792794) ?_ ?_ ?_
  · unfold tenth; rw [abs_of_pos (by norm_num)]; norm_num
  · unfold tenth; rw [abs_of_pos (by norm_num)]; norm_num
  · unfold tenth; norm_num

theorem tenth_mean : meanF ⟨even53, sumEven⟩ [tenth, tenth, tenth] = 7205759403792795 / 2 ^ 56 := by
  have e2 : even53 (tenth + tenth) = 2 * tenth := by
    rw [← two_mul]
    refine ev (k := -3) (n := 7205759403792794) ?_ ?_ ?_
    · unfold tenth; rw [abs_of_pos (by norm_num)]; norm_num
    · unfold tenth; rw [abs_of_pos (by norm_num)]; norm_num
    · unfold tenth; norm_num
  have e3 : even53 (tenth + 2 * tenth) = 5404319552844596 / 2 ^ 54 := by
    have f : ⌊(tenth + 2 * tenth) / 2 ^ (-2 - 52 : ℤ)⌋ = 5404319552844595 := by
      rw [Int.floor_eq_iff]; unfold tenth; constructor <;> norm_num
    rw [even53_eq (k := -2) (n := 5404319552844596)]
    · norm_num
    · unfold tenth; rw [abs_of_pos (by norm_num)]; norm_num
    · unfold tenth; rw [abs_of_pos (by norm_num)]; norm_num
    · unfold nearestEven
      rw [f, if_pos, if_neg]
      · norm_num
      · decide
      · unfold tenth; norm_num
  unfold meanF
  simp only [sumEven, e2, e3, List.length_cons, List.length_nil]
  rw [even53_eq (k := -4) (n := 7205759403792795)]
  · norm_num
  · rw [abs_of_pos (by norm_num)]; norm_num
  · rw [abs_of_pos (by norm_num)]; norm_num
  · apply nearestEven_near
    rw [abs_lt]
    constructor <;> norm_num

private theorem tenth_rest : condF ⟨even53, sumEven⟩ "coeff" [tenth, tenth, tenth] = [-(1 / 2 ^ 56), -(1 / 2 ^ 56), -(1 / 2 ^ 56)] := by
  have e : even53 (tenth - 7205759403792795 / 2 ^ 56) = -(1 / 2 ^ 56) := by
    have s : tenth - 7205759403792795 / 2 ^ 56 = -(1 / 2 ^ 56) := by unfold tenth; norm_num
    rw [s]
    refine ev (k := -56) (n := -(2 ^ 52)) ?_ ?_ ?_
    · rw [abs_neg, abs_of_pos (by norm_num)]; norm_num
    · rw [abs_neg, abs_of_pos (by norm_num)]; norm_num
    · norm_num
  unfold condF
  simp only [if_true, tenth_mean, List.map_cons, List.map_nil, e]

private theorem rest_std : stdF ⟨even53, sumEven⟩ [-(1 / 2 ^ 56), -(1 / 2 ^ 56), -(1 / 2 ^ 56)] = 0 := by
  have e2 : even53 (-(1 / 2 ^ 56) + -(1 / 2 ^ 56)) = -(2 / 2 ^ 56) := by
    rw [show (-(1 / 2 ^ 56) + -(1 / 2 ^ 56) : ℝ) = -(2 / 2 ^ 56) by ring]
    refine ev (k := -55) (n := -(2 ^ 52)) ?_ ?_ ?_
    · rw [abs_neg, abs_of_pos (by norm_num)]; norm_num
    · rw [abs_neg, abs_of_pos (by norm_num)]; norm_num
    · norm_num
  have e3 : even53 (-(1 / 2 ^ 56) + -(2 / 2 ^ 56)) = -(3 / 2 ^ 56) := by
    rw [show (-(1 / 2 ^ 56) + -(2 / 2 ^ 56) : ℝ) = -(3 / 2 ^ 56) by ring]
    refine ev (k := -55) (n := -(3 * 2 ^ 51)) ?_ ?_ ?_
    · rw [abs_neg, abs_of_pos (by norm_num)]; norm_num
    · rw [abs_neg, abs_of_pos (by norm_num)]; norm_num
    · norm_num
  have m : meanF ⟨even53, sumEven⟩ [-(1 / 2 ^ 56), -(1 / 2 ^ 56), -(1 / 2 ^ 56)] = -(1 / 2 ^ 56) := by
    unfold meanF
    simp only [sumEven, e2, e3, List.length_cons, List.length_nil]
    rw [show (-(3 / 2 ^ 56) / ((0 + 1 + 1 + 1 : ℕ) : ℝ)) = -(1 / 2 ^ 56) by norm_num]
    refine ev (k := -56) (n := -(2 ^ 52)) ?_ ?_ ?_
    · rw [abs_neg, abs_of_pos (by norm_num)]; norm_num
    · rw [abs_neg, abs_of_pos (by norm_num)]; norm_num
    · norm_num
  unfold stdF
  rw [m]
  simp only [List.map_cons, List.map_nil, sub_self, ev0, ne_eq, OfNat.ofNat_ne_zero, not_false_eq_true, zero_pow, sumEven, add_zero, zero_div, Real.sqrt_zero]

/-- C281 fails for sensors that do not vary: three samples of 0.1 have a computed mean other than 0.1, what is left of them has the standard deviation 0 but correlates, and
`peak_corr` is infinite, however `scipy` computes the correlation. -/
theorem C281_violated (η : ℝ) (hη : η < 1) (correl : List ℝ → List ℝ → List ℝ) (hc : CorrNear 3 η correl) (dt : ℝ) :
    ∃ c : ℝ, even53 c = c ∧ |c - 0.1| ≤ 1e-17 ∧ (delayF ⟨even53, sumEven⟩ correl dt "coeff" [c, c, c] [c, c, c]).2 = .pinf := by
  refine ⟨tenth, tenth_float, by unfold tenth; rw [abs_le]; constructor <;> norm_num, ?_⟩
  set r : List ℝ := [-(1 / 2 ^ 56), -(1 / 2 ^ 56), -(1 / 2 ^ 56)] with hr
  have s : scaleF ⟨even53, sumEven⟩ "coeff" r r = .pinf := by
    unfold scaleF
    rw [rest_std]
    simp [ev0, XR.div]
  obtain ⟨len, hk⟩ := hc r r rfl rfl
  obtain ⟨w, hw, we⟩ := hk 2 (by norm_num)
  have x0 : xcorrAt r r ((2 : ℕ) - ((3 : ℕ) - 1) : ℤ) = 3 * (1 / 2 ^ 56) ^ 2 := by
    rw [show (((2 : ℕ) : ℤ) - (((3 : ℕ) : ℤ) - 1)) = 0 by norm_num, xcorrAt_zero_self]
    rw [hr]; unfold energyOf; norm_num
  have e0 : rss r * rss r = 3 * (1 / 2 ^ 56) ^ 2 := by
    rw [← pow_two, rss_sq, hr]; unfold energyOf; norm_num
  rw [x0, e0] at we
  have wp : 0 < w := by
    have := (abs_le.mp we).1
    have q : (0 : ℝ) < 3 * (1 / 2 ^ 56) ^ 2 := by positivity
    nlinarith
  obtain ⟨ha, mx, -⟩ := argmax_spec (l := correl r r) (by rw [← List.length_pos_iff, len]; norm_num)
  have vp : 0 < (correl r r)[argmax (correl r r)] := wp.trans_le (mx w (List.mem_of_getElem? hw))
  unfold delayF
  simp only [tenth_rest, ← hr, s, List.getElem?_eq_getElem ha, Option.getD_some, timesF]
  unfold XR.div
  simp [vp, vp.ne', not_lt.mpr vp.le]

/-- The hypotheses of C281 hold for a pulse that arrives one sample later. -/
example : FloatLike (2 ^ (-53 : ℤ)) ⟨even53, sumEven⟩ ∧ 0 < rss (demean [0, 3, 0]) ∧ rss [0, 3, 0] ≤ 100 * rss (demean [0, 3, 0]) ∧ 0 < rss (demean [0, 0, 3]) ∧ rss [0, 0, 3] ≤ 100 * rss (demean [0, 0, 3]) ∧
    CorrNear 3 ((1 + 2 ^ (-53 : ℤ)) ^ 3 - 1) (directF ⟨even53, sumEven⟩) ∧ ((1 + 2 ^ (-53 : ℤ)) ^ 3 - 1 : ℝ) < 1 := by
  have d1 : demean [0, 3, 0] = [-1, 2, -1] := by norm_num [demean]
  have d2 : demean [0, 0, 3] = [-1, -1, 2] := by norm_num [demean]
  have lo : ∀ {l : List ℝ}, 1 ≤ (l.map fun v => v ^ 2).sum → 1 ≤ rss l := fun h => by unfold rss; exact Real.one_le_sqrt.mpr h
  have hi : ∀ {l : List ℝ}, (l.map fun v => v ^ 2).sum ≤ 10 ^ 2 → rss l ≤ 10 := fun h => by unfold rss; exact Real.sqrt_le_iff.mpr ⟨by norm_num, h⟩
  have a : 1 ≤ rss [-1, 2, -1] := lo (by norm_num)
  have b : 1 ≤ rss [-1, -1, 2] := lo (by norm_num)
  have c : rss [0, 3, 0] ≤ 10 := hi (by norm_num)
  have d : rss [0, 0, 3] ≤ 10 := hi (by norm_num)
  rw [d1, d2]
  exact ⟨floatEven, by linarith, by linarith, by linarith, by linarith, C268_direct floatEven 3, by norm_num⟩

end SST.Round
