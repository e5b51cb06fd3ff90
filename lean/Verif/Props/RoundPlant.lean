import Verif.Model.RoundPlant
import Verif.Props.RoundIndex
import Verif.Props.Filters

/-!
# Property C271: the profile of a plant with rounding
-/

namespace SST.Round
open SST SST.Filters

/-! ## Rounding to 53 digits, halves to even, as in IEEE arithmetic -/

/-- The nearest whole number, the even one of two. -/
noncomputable def nearestEven (z : ℝ) : ℤ := if z - ⌊z⌋ = 1 / 2 then (if Even ⌊z⌋ then ⌊z⌋ else ⌊z⌋ + 1) else round z

theorem nearestEven_abs (z : ℝ) : |z - nearestEven z| ≤ 1 / 2 := by
  unfold nearestEven
  split_ifs with h h2
  · rw [h, abs_of_pos] <;> norm_num
  · push_cast
    have : z - (⌊z⌋ + 1) = -(1 / 2) := by linarith
    rw [this, abs_neg, abs_of_pos] <;> norm_num
  · exact abs_sub_round z

theorem nearestEven_int (n : ℤ) : nearestEven n = n := by
  unfold nearestEven
  rw [Int.floor_intCast, sub_self, if_neg (by norm_num), round_intCast]

theorem nearestEven_half {z : ℝ} {n : ℤ} (hn : Even n) (h : z = n + 1 / 2) : nearestEven z = n := by
  have f : ⌊z⌋ = n := by rw [Int.floor_eq_iff]; constructor <;> linarith
  unfold nearestEven
  rw [f, if_pos (by linarith), if_pos hn]

/-- Rounding to 53 binary digits, halves to even, exponents unlimited. -/
noncomputable def even53 (x : ℝ) : ℝ := nearestEven (x / 2 ^ (Int.log 2 |x| - 52)) * 2 ^ (Int.log 2 |x| - 52)

theorem even53_rounds : RoundsTo (2 ^ (-53 : ℤ)) even53 := by
  intro x
  unfold even53
  rcases eq_or_ne x 0 with rfl | hx
  · have : nearestEven 0 = 0 := by have := nearestEven_int 0; simpa using this
    simp [this]
  have p : (0 : ℝ) < 2 ^ (Int.log 2 |x| - 52) := zpow_pos two_pos _
  have e : (nearestEven (x / 2 ^ (Int.log 2 |x| - 52)) : ℝ) * 2 ^ (Int.log 2 |x| - 52) - x =
      -((x / 2 ^ (Int.log 2 |x| - 52) - nearestEven (x / 2 ^ (Int.log 2 |x| - 52))) * 2 ^ (Int.log 2 |x| - 52)) := by
    field_simp
    ring
  rw [e, abs_neg, abs_mul, abs_of_pos p]
  have h := nearestEven_abs (x / 2 ^ (Int.log 2 |x| - 52))
  have l := Int.zpow_log_le_self (b := 2) (by norm_num) (abs_pos.mpr hx)
  calc _ ≤ 1 / 2 * (2 : ℝ) ^ (Int.log 2 |x| - 52) := mul_le_mul_of_nonneg_right h p.le
    _ = 2 ^ (-53 : ℤ) * 2 ^ Int.log 2 |x| := by
        rw [show Int.log 2 |x| - 52 = Int.log 2 |x| + (-52) by ring, zpow_add₀ (by norm_num), show (-53 : ℤ) = -52 + -1 by norm_num, zpow_add₀ (by norm_num)]
        norm_num
        ring
    _ ≤ 2 ^ (-53 : ℤ) * |x| := mul_le_mul_of_nonneg_left (by exact_mod_cast l) (by positivity)

/-- One number after the other, from the right. -/
noncomputable def sumEven : List ℝ → ℝ
  | [] => 0
  | [x] => x
  | x :: y :: l => even53 (x + sumEven (y :: l))

theorem sumEven_order (l : List ℝ) (hl : l ≠ []) : AnyOrder even53 l (sumEven l) := by
  induction l with
  | nil => simp at hl
  | cons x l ih =>
    cases l with
    | nil => exact .one x
    | cons y l => exact .add (l := [x]) (.one x) (ih (by simp))

/-- IEEE arithmetic meets the assumptions. -/
theorem floatEven : FloatLike (2 ^ (-53 : ℤ)) ⟨even53, sumEven⟩ := ⟨by norm_num, even53_rounds, sumEven_order, rfl⟩

theorem even53_eq {x : ℝ} {k n : ℤ} (h1 : (2 : ℝ) ^ k ≤ |x|) (h2 : |x| < 2 ^ (k + 1)) (hn : nearestEven (x / 2 ^ (k - 52)) = n) : even53 x = n * 2 ^ (k - 52) := by
  unfold even53
  rw [log_eq h1 h2, hn]

/-! ## C271 -/

section
variable {u : ℝ} {A : Arith}

private theorem end_abs (h : FloatLike u A) (y w : ℝ) (hw : 0 ≤ w) :
    |A.fl (A.fl y - A.fl (w / 2)) - (y - w / 2)| ≤ 3 * u * (|y| + w / 2) ∧ |A.fl (A.fl y + A.fl (w / 2)) - (y + w / 2)| ≤ 3 * u * (|y| + w / 2) := by
  have h0 := u_nonneg h.rounds
  have h1 := h.lt_one
  have a := h.rounds y
  have b := h.rounds (w / 2)
  rw [abs_of_nonneg (by linarith : 0 ≤ w / 2)] at b
  have y0 := abs_nonneg y
  have key : ∀ s : ℝ, |s| ≤ |A.fl y| + |A.fl (w / 2)| → |A.fl s - s| ≤ 2 * u * (|y| + w / 2) := by
    intro s hs
    refine (h.rounds s).trans ?_
    have p : |A.fl y| ≤ (1 + u) * |y| := by
      have := abs_sub_abs_le_abs_sub (A.fl y) y
      linarith
    have q : |A.fl (w / 2)| ≤ (1 + u) * (w / 2) := by
      have := abs_sub_abs_le_abs_sub (A.fl (w / 2)) (w / 2)
      rw [abs_of_nonneg (by linarith : 0 ≤ w / 2)] at this
      linarith
    have r : |s| ≤ 2 * (|y| + w / 2) := by
      have : (1 + u) * (|y| + w / 2) ≤ 2 * (|y| + w / 2) := mul_le_mul_of_nonneg_right (by linarith) (by linarith)
      linarith
    have := mul_le_mul_of_nonneg_left r h0
    linarith
  constructor
  · have k := key (A.fl y - A.fl (w / 2)) (abs_sub _ _)
    have e : A.fl (A.fl y - A.fl (w / 2)) - (y - w / 2) = (A.fl (A.fl y - A.fl (w / 2)) - (A.fl y - A.fl (w / 2))) + ((A.fl y - y) + -(A.fl (w / 2) - w / 2)) := by ring
    rw [e]
    have t1 := abs_add_le (A.fl (A.fl y - A.fl (w / 2)) - (A.fl y - A.fl (w / 2))) ((A.fl y - y) + -(A.fl (w / 2) - w / 2))
    have t2 := abs_add_le (A.fl y - y) (-(A.fl (w / 2) - w / 2))
    rw [abs_neg] at t2
    linarith
  · have k := key (A.fl y + A.fl (w / 2)) (abs_add_le _ _)
    have e : A.fl (A.fl y + A.fl (w / 2)) - (y + w / 2) = (A.fl (A.fl y + A.fl (w / 2)) - (A.fl y + A.fl (w / 2))) + ((A.fl y - y) + (A.fl (w / 2) - w / 2)) := by ring
    rw [e]
    have t1 := abs_add_le (A.fl (A.fl y + A.fl (w / 2)) - (A.fl y + A.fl (w / 2))) ((A.fl y - y) + (A.fl (w / 2) - w / 2))
    have t2 := abs_add_le (A.fl y - y) (A.fl (w / 2) - w / 2)
    linarith

open Classical in
private theorem plantF_at (centers : List ℝ) (ref : ℝ) (width : Option ℝ) (xmax : ℝ) (i : ℕ) (x : ℝ) (hi : (xVec xmax 1)[i]? = some x) :
    (get1dPlantF A centers ref width xmax).1[i]? =
      some (if ∃ c ∈ centers, A.fl (A.fl (c - ref) - A.fl (width.getD 1 / 2)) ≤ x ∧ x < A.fl (A.fl (c - ref) + A.fl (width.getD 1 / 2)) then 1 else 0) := by
  unfold get1dPlantF
  simp only
  have := fold_get (fun c x p => if A.fl (c - A.fl (width.getD 1 / 2)) ≤ x ∧ x < A.fl (c + A.fl (width.getD 1 / 2)) then 1 else p) (xVec xmax 1)
    (centers.map fun c => A.fl (c - ref)) ((xVec xmax 1).map fun _ => 0) i x 0 hi (by rw [List.getElem?_map, hi]; rfl)
  unfold markSquareF
  rw [this]
  have e := fold_cover (fun c => A.fl (c - A.fl (width.getD 1 / 2)) ≤ x ∧ x < A.fl (c + A.fl (width.getD 1 / 2))) (centers.map fun c => A.fl (c - ref)) 0
  simp only [List.mem_map, exists_exists_and_eq_and] at e
  rw [← e]
  congr 1
  congr 1
  funext p c
  split_ifs <;> rfl

private theorem plantF_len (centers : List ℝ) (ref : ℝ) (width : Option ℝ) (xmax : ℝ) : (get1dPlantF A centers ref width xmax).1.length = (xVec xmax 1).length := by
  have : ∀ (cs pl : List ℝ), pl.length = (xVec xmax 1).length → (cs.foldl (markSquareF A (width.getD 1) (xVec xmax 1)) pl).length = (xVec xmax 1).length := by
    intro cs
    induction cs with
    | nil => intro pl h; exact h
    | cons c cs ih =>
      intro pl h
      rw [List.foldl_cons]
      apply ih
      unfold markSquareF
      rw [List.length_zipWith, h, min_self]
  exact this _ _ (by rw [List.length_map])

private theorem xVec_at {xmax x : ℝ} {i : ℕ} (hi : (xVec xmax 1)[i]? = some x) : x = ((⌊-xmax / 2⌋ + i : ℤ) : ℝ) := by
  unfold xVec arange at hi
  obtain ⟨hl, e⟩ := List.getElem?_eq_some_iff.mp hi
  simp only [List.getElem_map, List.getElem_range] at e
  rw [← e]; push_cast; ring

/-- C271 (the part that holds): with shape 'square', `dx = 1` and width `w`, samples within `w / 2 - e` of a centre are 1 and samples that are farther than `w / 2 + e` from every centre are 0, where
`e = 3 u (|c| + w / 2)` for a centre at the distance `c` from the reference.  Missing: samples in between (`C271_violated_none`, `C271_violated_two`). -/
theorem C271_samples_partial (h : FloatLike u A) (centers : List ℝ) (ref : ℝ) (width : Option ℝ) (xmax : ℝ) {w : ℝ} (hw : w = width.getD 1) (w0 : 0 ≤ w) :
    ∃ plant xs, get1dPlantF A centers ref width xmax = (plant, xs) ∧ (∀ (i : ℕ) (x : ℝ), xs[i]? = some x → x = ⌊-xmax / 2⌋ + i) ∧ plant.length = xs.length ∧
      ∀ (i : ℕ) (x : ℝ), xs[i]? = some x →
        ((∃ c ∈ centers, |x - (c - ref)| < w / 2 - 3 * u * (|c - ref| + w / 2)) → plant[i]? = some 1) ∧
        ((∀ c ∈ centers, w / 2 + 3 * u * (|c - ref| + w / 2) < |x - (c - ref)|) → plant[i]? = some 0) := by
  refine ⟨(get1dPlantF A centers ref width xmax).1, xVec xmax 1, rfl, ?_, plantF_len centers ref width xmax, ?_⟩
  · intro i x hi
    rw [xVec_at hi]; push_cast; ring
  · intro i x hi
    have e := plantF_at (A := A) centers ref width xmax i x hi
    rw [← hw] at e
    constructor
    · rintro ⟨c, hc, hx⟩
      rw [abs_lt] at hx
      obtain ⟨a, b⟩ := end_abs h (c - ref) w w0
      rw [abs_le] at a b
      rw [e, if_pos ⟨c, hc, by linarith, by linarith⟩]
    · intro hx
      rw [e, if_neg]
      rintro ⟨c, hc, g1, g2⟩
      obtain ⟨a, b⟩ := end_abs h (c - ref) w w0
      rw [abs_le] at a b
      have := hx c hc
      rw [lt_abs] at this
      rcases this with t | t <;> linarith

/-- C271 (the part that holds): if no end of a site is closer than `e` to a whole number, the profile is that of exact arithmetic (C48). -/
theorem C271_exact_partial (h : FloatLike u A) (centers : List ℝ) (ref : ℝ) (width : Option ℝ) (xmax : ℝ) {w : ℝ} (hw : w = width.getD 1) (w0 : 0 ≤ w)
    (hk : ∀ c ∈ centers, ∀ k : ℤ, 3 * u * (|c - ref| + w / 2) < |c - ref - w / 2 - k| ∧ 3 * u * (|c - ref| + w / 2) < |c - ref + w / 2 - k|) :
    get1dPlant centers ref width "square" 1 xmax = .ok (get1dPlantF A centers ref width xmax) := by
  classical
  obtain ⟨p, xs, hp, hg⟩ := Props.Filters.C48_square centers ref width "square" (by decide +kernel) 1 xmax
  have hx : xs = xVec xmax 1 := by
    unfold get1dPlant at hp
    simp only at hp
    split_ifs at hp <;> exact (Prod.mk.inj (Except.ok.inj hp)).2.symm
  rw [hp]
  have hl := (Props.Filters.C48_grid _ _ _ _ _ _ one_pos _ _ hp).1
  subst hx
  congr 1
  refine Prod.ext ?_ rfl
  apply List.ext_getElem?
  intro i
  by_cases hi : i < (xVec xmax 1).length
  · have hxi := List.getElem?_eq_getElem hi
    rw [hg i _ hxi, plantF_at centers ref width xmax i _ hxi]
    congr 1
    have hx' := xVec_at hxi
    generalize (xVec xmax 1)[i] = x at hx'
    rw [← hw]
    congr 1
    apply propext
    refine exists_congr fun c => and_congr_right fun hc => ?_
    obtain ⟨a, b⟩ := end_abs h (c - ref) w w0
    obtain ⟨m1, m2⟩ := hk c hc (⌊-xmax / 2⌋ + i)
    rw [← hx'] at m1 m2
    rw [abs_le] at a b
    rw [lt_abs] at m1 m2
    constructor
    · rintro ⟨g1, g2⟩
      constructor
      · rcases m1 with m | m <;> linarith
      · rcases m2 with m | m <;> linarith
    · rintro ⟨g1, g2⟩
      constructor
      · rcases m1 with m | m <;> linarith
      · rcases m2 with m | m <;> linarith
  · rw [List.getElem?_eq_none (by simp only; omega), List.getElem?_eq_none (by rw [plantF_len]; omega)]

end

private theorem even_half : even53 (1 / 2) = 1 / 2 := by
  rw [even53_eq (k := -1) (n := 2 ^ 52)]
  · norm_num
  · rw [abs_of_pos (by norm_num)]; norm_num
  · rw [abs_of_pos (by norm_num)]; norm_num
  · rw [show (1 / 2 : ℝ) / 2 ^ (-1 - 52 : ℤ) = ((2 ^ 52 : ℤ) : ℝ) by norm_num, nearestEven_int]

private theorem even_pow (k : ℤ) : even53 (2 ^ k) = 2 ^ k := by
  have p : (0 : ℝ) < 2 ^ k := zpow_pos two_pos k
  have e : (2 : ℝ) ^ k / 2 ^ (k - 52) = ((2 ^ 52 : ℤ) : ℝ) := by
    rw [← zpow_sub₀ (by norm_num), show k - (k - 52) = 52 by ring]; norm_num
  rw [even53_eq (k := k) (n := 2 ^ 52)]
  · rw [← e, div_mul_cancel₀ _ (zpow_pos two_pos _).ne']
  · rw [abs_of_pos p]
  · rw [abs_of_pos p]; exact zpow_lt_zpow_right₀ (by norm_num) (by omega)
  · rw [e, nearestEven_int]

/-- C271 fails: a site at 0.5000000000000001 m, which is a float64, marks no sample of the plant. -/
theorem C271_violated_none : ∃ c : ℝ, even53 c = c ∧ |c - 1 / 2| ≤ 2e-16 ∧ ∃ plant xs : List ℝ, get1dPlantF ⟨even53, sumEven⟩ [c] 0 none 10 = (plant, xs) ∧ xs.length = 10 ∧ plant.length = 10 ∧
    ∀ (i : ℕ), i < 10 → plant[i]? = some 0 := by
  classical
  have ec : even53 (1 / 2 + 2 ^ (-53 : ℤ)) = 1 / 2 + 2 ^ (-53 : ℤ) := by
    rw [even53_eq (k := -1) (n := 2 ^ 52 + 1)]
    · norm_num
    · rw [abs_of_pos (by norm_num)]; norm_num
    · rw [abs_of_pos (by norm_num)]; norm_num
    · rw [show (1 / 2 + 2 ^ (-53 : ℤ) : ℝ) / 2 ^ (-1 - 52 : ℤ) = ((2 ^ 52 + 1 : ℤ) : ℝ) by norm_num, nearestEven_int]
  have lo : even53 (1 / 2 + 2 ^ (-53 : ℤ) - 1 / 2) = 2 ^ (-53 : ℤ) := by
    rw [show (1 / 2 + 2 ^ (-53 : ℤ) - 1 / 2 : ℝ) = 2 ^ (-53 : ℤ) by ring, even_pow]
  have hi : even53 (1 / 2 + 2 ^ (-53 : ℤ) + 1 / 2) = 1 := by
    rw [even53_eq (k := 0) (n := 2 ^ 52)]
    · norm_num
    · rw [abs_of_pos (by norm_num)]; norm_num
    · rw [abs_of_pos (by norm_num)]; norm_num
    · exact nearestEven_half ⟨2 ^ 51, by norm_num⟩ (by norm_num)
  have lx : (xVec 10 1).length = 10 := by norm_num [xVec, arange]; rfl
  refine ⟨1 / 2 + 2 ^ (-53 : ℤ), ec, ?_, (get1dPlantF ⟨even53, sumEven⟩ [1 / 2 + 2 ^ (-53 : ℤ)] 0 none 10).1, _, rfl, lx, by rw [plantF_len]; exact lx, ?_⟩
  · rw [add_sub_cancel_left, abs_of_pos (by positivity)]; norm_num
  intro i h10
  have hxi := List.getElem?_eq_getElem (l := xVec 10 1) (i := i) (by omega)
  have hz := xVec_at hxi
  generalize (⌊-(10 : ℝ) / 2⌋ + i : ℤ) = z at hz
  rw [hz] at hxi
  rw [plantF_at [1 / 2 + 2 ^ (-53 : ℤ)] 0 none 10 i _ hxi, if_neg]
  simp only [List.mem_singleton, exists_eq_left, sub_zero, Option.getD_none, ec, even_half, lo, hi]
  rintro ⟨a, b⟩
  have b' : z < 1 := by exact_mod_cast b
  have a' : (0 : ℝ) < z := lt_of_lt_of_le (by positivity) a
  have a'' : 0 < z := by exact_mod_cast a'
  omega

/-- C271 fails: a site at -0.49999999999999994 m marks two samples. -/
theorem C271_violated_two : ∃ c : ℝ, even53 c = c ∧ |c + 1 / 2| ≤ 2e-16 ∧ ∃ plant xs : List ℝ, get1dPlantF ⟨even53, sumEven⟩ [c] 0 none 10 = (plant, xs) ∧ xs[4]? = some (-1 : ℝ) ∧ xs[5]? = some 0 ∧
    plant[4]? = some 1 ∧ plant[5]? = some 1 := by
  classical
  have ec : even53 (-(1 / 2) + 2 ^ (-54 : ℤ)) = -(1 / 2) + 2 ^ (-54 : ℤ) := by
    have ab : |(-(1 / 2) + 2 ^ (-54 : ℤ) : ℝ)| = 1 / 2 - 2 ^ (-54 : ℤ) := by rw [abs_of_neg (by norm_num)]; ring
    rw [even53_eq (k := -2) (n := -2 ^ 53 + 1)]
    · norm_num
    · rw [ab]; norm_num
    · rw [ab]; norm_num
    · rw [show (-(1 / 2) + 2 ^ (-54 : ℤ) : ℝ) / 2 ^ (-2 - 52 : ℤ) = ((-2 ^ 53 + 1 : ℤ) : ℝ) by norm_num, nearestEven_int]
  have lo : even53 (-(1 / 2) + 2 ^ (-54 : ℤ) - 1 / 2) = -1 := by
    have ab : |(-(1 / 2) + 2 ^ (-54 : ℤ) - 1 / 2 : ℝ)| = 1 - 2 ^ (-54 : ℤ) := by rw [abs_of_neg (by norm_num)]; ring
    rw [even53_eq (k := -1) (n := -2 ^ 53)]
    · norm_num
    · rw [ab]; norm_num
    · rw [ab]; norm_num
    · exact nearestEven_half ⟨-2 ^ 52, by norm_num⟩ (by norm_num)
  have hi : even53 (-(1 / 2) + 2 ^ (-54 : ℤ) + 1 / 2) = 2 ^ (-54 : ℤ) := by
    rw [show (-(1 / 2) + 2 ^ (-54 : ℤ) + 1 / 2 : ℝ) = 2 ^ (-54 : ℤ) by ring, even_pow]
  have lx : (xVec 10 1).length = 10 := by norm_num [xVec, arange]; rfl
  have x4 : (xVec 10 1)[4]? = some (-1 : ℝ) := by
    have h := List.getElem?_eq_getElem (l := xVec 10 1) (i := 4) (by omega)
    rw [h, xVec_at h]; norm_num
  have x5 : (xVec 10 1)[5]? = some (0 : ℝ) := by
    have h := List.getElem?_eq_getElem (l := xVec 10 1) (i := 5) (by omega)
    rw [h, xVec_at h]; norm_num
  refine ⟨-(1 / 2) + 2 ^ (-54 : ℤ), ec, ?_, (get1dPlantF ⟨even53, sumEven⟩ [-(1 / 2) + 2 ^ (-54 : ℤ)] 0 none 10).1, _, rfl, x4, x5, ?_, ?_⟩
  · rw [show (-(1 / 2) + 2 ^ (-54 : ℤ) + 1 / 2 : ℝ) = 2 ^ (-54 : ℤ) by ring, abs_of_pos (by positivity)]; norm_num
  · rw [plantF_at [-(1 / 2) + 2 ^ (-54 : ℤ)] 0 none 10 4 _ x4, if_pos]
    simp only [List.mem_singleton, exists_eq_left, sub_zero, Option.getD_none, ec, even_half, lo, hi]
    exact ⟨le_rfl, by norm_num⟩
  · rw [plantF_at [-(1 / 2) + 2 ^ (-54 : ℤ)] 0 none 10 5 _ x5, if_pos]
    simp only [List.mem_singleton, exists_eq_left, sub_zero, Option.getD_none, ec, even_half, lo, hi]
    exact ⟨by norm_num, by positivity⟩

/-- C271: sites at 10.1 m and 20.2 m from a reference at 3 m, with IEEE arithmetic. -/
example : get1dPlant [10.1, 20.2] 3 none "square" 1 100 = .ok (get1dPlantF ⟨even53, sumEven⟩ [10.1, 20.2] 3 none 100) := by
  refine C271_exact_partial floatEven [10.1, 20.2] 3 none 100 (w := 1) rfl (by norm_num) ?_
  have key : ∀ (y : ℝ) (n : ℤ), 0 ≤ y → y ≤ 100 → (n : ℝ) + 0.1 ≤ y → y ≤ n + 0.9 → ∀ k : ℤ, (3 : ℝ) * 2 ^ (-53 : ℤ) * 100 < |y - k| := by
    intro y n h0 h1 h2 h3 k
    refine lt_of_lt_of_le (by norm_num : (3 : ℝ) * 2 ^ (-53 : ℤ) * 100 < 0.1) ?_
    rcases le_or_gt k n with hk | hk
    · have : (k : ℝ) ≤ n := by exact_mod_cast hk
      rw [abs_of_nonneg (by linarith)]; linarith
    · have : (n : ℝ) + 1 ≤ k := by exact_mod_cast hk
      rw [abs_of_nonpos (by linarith)]; linarith
  intro c hc k
  simp only [List.mem_cons, List.not_mem_nil, or_false] at hc
  rcases hc with rfl | rfl
  · have e : (3 : ℝ) * 2 ^ (-53 : ℤ) * (|10.1 - 3| + 1 / 2) ≤ 3 * 2 ^ (-53 : ℤ) * 100 := by rw [abs_of_pos (by norm_num)]; norm_num
    exact ⟨e.trans_lt (key _ 6 (by norm_num) (by norm_num) (by norm_num) (by norm_num) k), e.trans_lt (key _ 7 (by norm_num) (by norm_num) (by norm_num) (by norm_num) k)⟩
  · have e : (3 : ℝ) * 2 ^ (-53 : ℤ) * (|20.2 - 3| + 1 / 2) ≤ 3 * 2 ^ (-53 : ℤ) * 100 := by rw [abs_of_pos (by norm_num)]; norm_num
    exact ⟨e.trans_lt (key _ 16 (by norm_num) (by norm_num) (by norm_num) (by norm_num) k), e.trans_lt (key _ 17 (by norm_num) (by norm_num) (by norm_num) (by norm_num) k)⟩

end SST.Round
