import Verif.Props.RoundVec
import Verif.Model.RoundIndex
import Verif.Proofs.Spatial

/-!
# Properties C263 and C264: zones and cells with rounding
-/

namespace SST.Round
open SST SST.Spatial SST.Cloud

/-! ## Rounding to 53 digits keeps the order and whole numbers -/

theorem log_eq {x : ℝ} {k : ℤ} (h1 : (2 : ℝ) ^ k ≤ |x|) (h2 : |x| < 2 ^ (k + 1)) : Int.log 2 |x| = k := by
  have p : 0 < |x| := lt_of_lt_of_le (zpow_pos two_pos k) h1
  have a : k ≤ Int.log 2 |x| := (Int.zpow_le_iff_le_log (by norm_num) p).mp (by exact_mod_cast h1)
  have b : Int.log 2 |x| < k + 1 := (Int.lt_zpow_iff_log_lt (by norm_num) p).mp (by exact_mod_cast h2)
  omega

/-- `round53` when the binade is known. -/
theorem round53_eq {x : ℝ} {k n : ℤ} (h1 : (2 : ℝ) ^ k ≤ |x|) (h2 : |x| < 2 ^ (k + 1)) (hn : |x / 2 ^ (k - 52) - n| < 1 / 2) : round53 x = n * 2 ^ (k - 52) := by
  unfold round53
  rw [log_eq h1 h2]
  have : round (x / 2 ^ (k - 52)) = n := by
    rw [round_eq, Int.floor_eq_iff]
    rw [abs_lt] at hn
    constructor <;> linarith
  rw [this]

theorem round53_bounds {x : ℝ} (hx : 0 < x) : (2 : ℝ) ^ Int.log 2 x ≤ round53 x ∧ round53 x ≤ 2 ^ (Int.log 2 x + 1) := by
  have l := Int.zpow_log_le_self (b := 2) (R := ℝ) (by norm_num) hx
  have g := Int.lt_zpow_succ_log_self (b := 2) (by norm_num) x
  push_cast at l g
  unfold round53
  rw [abs_of_pos hx]
  set e := Int.log 2 x
  have p : (0 : ℝ) < 2 ^ (e - 52) := zpow_pos two_pos _
  have s : ∀ j : ℕ, (2 : ℝ) ^ (e - 52 + j) = ((2 ^ j : ℤ) : ℝ) * 2 ^ (e - 52) := by
    intro j
    rw [zpow_add₀ (by norm_num), zpow_natCast]
    push_cast
    ring
  have e1 : (2 : ℝ) ^ e = ((2 ^ 52 : ℤ) : ℝ) * 2 ^ (e - 52) := by rw [← s 52]; congr 1; push_cast; ring
  have e2 : (2 : ℝ) ^ (e + 1) = ((2 ^ 53 : ℤ) : ℝ) * 2 ^ (e - 52) := by rw [← s 53]; congr 1; push_cast; ring
  rw [e1] at l ⊢
  rw [e2] at g ⊢
  have l' : ((2 ^ 52 : ℤ) : ℝ) ≤ x / 2 ^ (e - 52) := by rwa [le_div_iff₀ p]
  have g' : x / 2 ^ (e - 52) ≤ ((2 ^ 53 : ℤ) : ℝ) := by rw [div_le_iff₀ p]; exact g.le
  have m : Monotone (round : ℝ → ℤ) := by
    intro a b hab
    rw [round_eq, round_eq]
    exact Int.floor_mono (by linarith)
  have l2 := m l'
  have g2 := m g'
  rw [round_intCast] at l2 g2
  exact ⟨mul_le_mul_of_nonneg_right (by exact_mod_cast l2) p.le, mul_le_mul_of_nonneg_right (by exact_mod_cast g2) p.le⟩

theorem round53_bounds_neg {x : ℝ} (hx : x < 0) : -(2 : ℝ) ^ (Int.log 2 (-x) + 1) ≤ round53 x ∧ round53 x ≤ -2 ^ Int.log 2 (-x) := by
  have hx' : 0 < -x := by linarith
  have l := Int.zpow_log_le_self (b := 2) (R := ℝ) (by norm_num) hx'
  have g := Int.lt_zpow_succ_log_self (b := 2) (by norm_num) (-x)
  push_cast at l g
  unfold round53
  rw [abs_of_neg hx]
  set e := Int.log 2 (-x)
  have p : (0 : ℝ) < 2 ^ (e - 52) := zpow_pos two_pos _
  have s : ∀ j : ℕ, (2 : ℝ) ^ (e - 52 + j) = ((2 ^ j : ℤ) : ℝ) * 2 ^ (e - 52) := by
    intro j
    rw [zpow_add₀ (by norm_num), zpow_natCast]
    push_cast
    ring
  have e1 : (2 : ℝ) ^ e = ((2 ^ 52 : ℤ) : ℝ) * 2 ^ (e - 52) := by rw [← s 52]; congr 1; push_cast; ring
  have e2 : (2 : ℝ) ^ (e + 1) = ((2 ^ 53 : ℤ) : ℝ) * 2 ^ (e - 52) := by rw [← s 53]; congr 1; push_cast; ring
  rw [e1] at l ⊢
  rw [e2] at g ⊢
  have l' : x / 2 ^ (e - 52) ≤ ((-(2 ^ 52) : ℤ) : ℝ) := by rw [div_le_iff₀ p]; push_cast at l ⊢; linarith
  have g' : ((-(2 ^ 53) : ℤ) : ℝ) ≤ x / 2 ^ (e - 52) := by rw [le_div_iff₀ p]; push_cast at g ⊢; linarith
  have m : Monotone (round : ℝ → ℤ) := by
    intro a b hab
    rw [round_eq, round_eq]
    exact Int.floor_mono (by linarith)
  have l2 := m l'
  have g2 := m g'
  rw [round_intCast] at l2 g2
  constructor
  · rw [← neg_mul]
    exact mul_le_mul_of_nonneg_right (by exact_mod_cast g2) p.le
  · rw [← neg_mul]
    exact mul_le_mul_of_nonneg_right (by exact_mod_cast l2) p.le

theorem round53_zero : round53 0 = 0 := by simp [round53]

theorem round53_same {x y : ℝ} (h : x ≤ y) (he : Int.log 2 |x| = Int.log 2 |y|) : round53 x ≤ round53 y := by
  unfold round53
  rw [he]
  have p : (0 : ℝ) < 2 ^ (Int.log 2 |y| - 52) := zpow_pos two_pos _
  refine mul_le_mul_of_nonneg_right ?_ p.le
  have : round (x / 2 ^ (Int.log 2 |y| - 52)) ≤ round (y / 2 ^ (Int.log 2 |y| - 52)) := by
    rw [round_eq, round_eq]
    have := div_le_div_of_nonneg_right h p.le
    exact Int.floor_mono (by linarith)
  exact_mod_cast this

theorem round53_mono : Monotone round53 := by
  intro x y h
  have posn : ∀ z : ℝ, 0 < z → 0 ≤ round53 z := fun z hz => (zpow_pos two_pos _).le.trans (round53_bounds hz).1
  have negn : ∀ z : ℝ, z < 0 → round53 z ≤ 0 := fun z hz => (round53_bounds_neg hz).2.trans (neg_nonpos.mpr (zpow_pos two_pos _).le)
  have nn : ∀ z : ℝ, 0 ≤ z → 0 ≤ round53 z := by
    intro z hz
    rcases hz.eq_or_lt with rfl | hz
    · rw [round53_zero]
    · exact posn z hz
  have np : ∀ z : ℝ, z ≤ 0 → round53 z ≤ 0 := by
    intro z hz
    rcases hz.eq_or_lt with rfl | hz
    · rw [round53_zero]
    · exact negn z hz
  rcases lt_or_ge 0 x with hx | hx
  · have hy : 0 < y := hx.trans_le h
    have lm : Int.log 2 x ≤ Int.log 2 y := Int.log_mono_right hx h
    rcases lm.eq_or_lt with e | e
    · exact round53_same h (by rwa [abs_of_pos hx, abs_of_pos hy])
    · refine (round53_bounds hx).2.trans (le_trans ?_ (round53_bounds hy).1)
      exact zpow_le_zpow_right₀ (by norm_num) (by omega)
  · rcases le_or_gt 0 y with hy | hy
    · exact (np x hx).trans (nn y hy)
    · have hx' : x < 0 := h.trans_lt hy
      have lm : Int.log 2 (-y) ≤ Int.log 2 (-x) := Int.log_mono_right (by linarith) (by linarith)
      rcases lm.eq_or_lt with e | e
      · exact round53_same h (by rw [abs_of_neg hx', abs_of_neg hy, e])
      · refine (round53_bounds_neg hx').2.trans (le_trans ?_ (round53_bounds_neg hy).1)
        exact neg_le_neg (zpow_le_zpow_right₀ (by norm_num) (by omega))

theorem round53_int (k : ℤ) (hk : |k| ≤ 2 ^ 53) : round53 k = k := by
  rcases eq_or_ne k 0 with rfl | h0
  · simpa using round53_zero
  have hk0 : 0 < |(k : ℝ)| := abs_pos.mpr (by exact_mod_cast h0)
  have l := Int.zpow_log_le_self (b := 2) (R := ℝ) (by norm_num) hk0
  push_cast at l
  have hkr : |(k : ℝ)| ≤ 2 ^ (53 : ℤ) := by
    rw [← Int.cast_abs]
    have : ((|k| : ℤ) : ℝ) ≤ ((2 ^ 53 : ℤ) : ℝ) := by exact_mod_cast hk
    refine this.trans (le_of_eq ?_)
    norm_num
  have he : Int.log 2 |(k : ℝ)| ≤ 53 := by
    by_contra hc
    have := l.trans hkr
    rw [zpow_le_zpow_iff_right₀ (by norm_num)] at this
    omega
  unfold round53
  set e := Int.log 2 |(k : ℝ)|
  have p : (0 : ℝ) < 2 ^ (e - 52) := zpow_pos two_pos _
  have key : ∃ n : ℤ, (k : ℝ) / 2 ^ (e - 52) = n := by
    rcases he.eq_or_lt with e53 | elt
    · have : |(k : ℝ)| = 2 ^ (53 : ℤ) := le_antisymm hkr (by rw [← e53]; exact l)
      rw [e53]
      rcases abs_eq (by positivity) |>.mp this with h | h
      · exact ⟨2 ^ 52, by rw [h]; norm_num⟩
      · exact ⟨-2 ^ 52, by rw [h]; norm_num⟩
    · refine ⟨k * 2 ^ (52 - e).toNat, ?_⟩
      rw [div_eq_iff p.ne']
      push_cast
      rw [mul_assoc, ← zpow_natCast, ← zpow_add₀ (by norm_num)]
      rw [Int.toNat_of_nonneg (by omega), show 52 - e + (e - 52) = 0 by ring, zpow_zero, mul_one]
  obtain ⟨n, hn⟩ := key
  rw [hn, round_intCast, ← hn, div_mul_cancel₀ _ p.ne']

/-- Rounding to 53 digits meets the assumptions. -/
theorem keeps53 : KeepsIntegers round53 := ⟨round53_mono, round53_int⟩

/-! ## C263 -/

section
variable {u : ℝ} {A : Arith}

/-- C263 (the part that holds): for `lon` in the band of zone `z`, `latlon2utm` with rounding uses `z`, or the next zone and then `lon` is closer to the border
than `360 ((1 + u)³ - 1) + 6 u` degrees (`1.3e-13` for float64).  Missing: longitudes that close to the border (`C263_violated`). -/
theorem C263_zone_partial (h : FloatLike u A) (hi : KeepsIntegers A.fl) (P : Projector) (lat lon : ℝ) (z : ℤ) (z1 : 1 ≤ z) (z60 : z ≤ 60) (h1 : -180 + 6 * ((z : ℝ) - 1) ≤ lon)
    (h2 : lon < -180 + 6 * (z : ℝ)) :
    ∃ z' : ℤ, z' ≤ 60 ∧ latlon2utmF A P lat lon = ((P.fwd z' (lat < 0) lon lat).1, (P.fwd z' (lat < 0) lon lat).2, z') ∧
      (z' = z ∨ z' = z + 1 ∧ -180 + 6 * (z : ℝ) - lon ≤ 360 * ((1 + u) ^ 3 - 1) + 6 * u) := by
  refine ⟨calcZoneF A lon, min_le_right _ _, rfl, ?_⟩
  have h0 := u_nonneg h.rounds
  have lo : A.fl ((6 * (z - 1) : ℤ) : ℝ) ≤ A.fl (lon - (-180)) := hi.mono (by push_cast; linarith)
  have up : A.fl (lon - (-180)) ≤ A.fl ((6 * z : ℤ) : ℝ) := hi.mono (by push_cast; linarith)
  rw [hi.int _ (by rw [abs_of_nonneg (by omega)]; omega)] at lo up
  have lo2 : A.fl ((z - 1 : ℤ) : ℝ) ≤ A.fl (A.fl (lon - (-180)) / 6) := hi.mono (by push_cast at lo ⊢; linarith)
  have up2 : A.fl (A.fl (lon - (-180)) / 6) ≤ A.fl ((z : ℤ) : ℝ) := hi.mono (by push_cast at up ⊢; linarith)
  rw [hi.int _ (by rw [abs_of_nonneg (by omega)]; omega)] at lo2 up2
  have lo3 : A.fl ((z : ℤ) : ℝ) ≤ A.fl (A.fl (A.fl (lon - (-180)) / 6) + 1) := hi.mono (by push_cast at lo2 ⊢; linarith)
  have up3 : A.fl (A.fl (A.fl (lon - (-180)) / 6) + 1) ≤ A.fl ((z + 1 : ℤ) : ℝ) := hi.mono (by push_cast at up2 ⊢; linarith)
  rw [hi.int _ (by rw [abs_of_nonneg (by omega)]; omega)] at lo3 up3
  have zr : (1 : ℝ) ≤ z := by exact_mod_cast z1
  have zr60 : (z : ℝ) ≤ 60 := by exact_mod_cast z60
  have hp : pyInt (A.fl (A.fl (A.fl (lon - (-180)) / 6) + 1)) = ⌊A.fl (A.fl (A.fl (lon - (-180)) / 6) + 1)⌋ := pyInt_of_nonneg (by linarith)
  have fl1 : z ≤ ⌊A.fl (A.fl (A.fl (lon - (-180)) / 6) + 1)⌋ := Int.le_floor.2 lo3
  have fl2 : ⌊A.fl (A.fl (A.fl (lon - (-180)) / 6) + 1)⌋ ≤ z + 1 := by
    have := Int.floor_mono up3
    rwa [Int.floor_intCast] at this
  unfold calcZoneF
  rw [hp]
  by_cases hz : ⌊A.fl (A.fl (A.fl (lon - (-180)) / 6) + 1)⌋ = z
  · left; rw [hz]; exact min_eq_left z60
  have hz' : ⌊A.fl (A.fl (A.fl (lon - (-180)) / 6) + 1)⌋ = z + 1 := by omega
  rw [hz']
  rcases z60.eq_or_lt with rfl | zlt
  · left; norm_num
  right
  refine ⟨min_eq_left (by omega), ?_⟩
  have ge : ((z : ℝ) + 1) ≤ A.fl (A.fl (A.fl (lon - (-180)) / 6) + 1) := by
    have := Int.floor_le (A.fl (A.fl (A.fl (lon - (-180)) / 6) + 1))
    rw [hz'] at this
    push_cast at this
    exact this
  have step : ∀ x : ℝ, 0 ≤ x → A.fl x ≤ (1 + u) * x := by
    intro x hx
    have := (abs_le.mp (h.rounds x)).2
    rw [abs_of_nonneg hx] at this
    linarith
  have x0 : 0 ≤ lon - (-180) := by linarith
  have lo0 : (0 : ℝ) ≤ A.fl (lon - (-180)) := by push_cast at lo; linarith
  have lo20 : (0 : ℝ) ≤ A.fl (A.fl (lon - (-180)) / 6) := by push_cast at lo2; linarith
  have s1 := step _ x0
  have s2 := step (A.fl (lon - (-180)) / 6) (by linarith)
  have s3 := step (A.fl (A.fl (lon - (-180)) / 6) + 1) (by linarith)
  have up1 : (0 : ℝ) < 1 + u := by linarith
  have t2 : A.fl (A.fl (lon - (-180)) / 6) ≤ (1 + u) * ((1 + u) * (lon - (-180)) / 6) := s2.trans (mul_le_mul_of_nonneg_left (by linarith) up1.le)
  have t3 : A.fl (A.fl (A.fl (lon - (-180)) / 6) + 1) ≤ (1 + u) * ((1 + u) * ((1 + u) * (lon - (-180)) / 6) + 1) := s3.trans (mul_le_mul_of_nonneg_left (by linarith) up1.le)
  have t4 := ge.trans t3
  have c3 : 0 ≤ (1 + u) ^ 3 - 1 := by
    have : (1 : ℝ) ≤ (1 + u) ^ 3 := one_le_pow₀ (by linarith)
    linarith
  have t5 : (lon - (-180)) * ((1 + u) ^ 3 - 1) ≤ 360 * ((1 + u) ^ 3 - 1) := mul_le_mul_of_nonneg_right (by linarith) c3
  have t6 : (1 + u) * ((1 + u) * ((1 + u) * (lon - (-180)) / 6) + 1) = ((lon - (-180)) + (lon - (-180)) * ((1 + u) ^ 3 - 1)) / 6 + (1 + u) := by ring
  rw [t6] at t4
  linarith

/-- C263 fails: a tiny step west of Greenwich, at `-2⁻⁶⁰` degrees, the zone with 53 digits is 31, not 30. -/
theorem C263_violated (P : Projector) (lat : ℝ) : ∃ lon : ℝ, -180 + 6 * (29 : ℝ) ≤ lon ∧ lon < -180 + 6 * (30 : ℝ) ∧ round53 lon = lon ∧
    (latlon2utmF ⟨round53, sum53⟩ P lat lon).2.2 = 31 := by
  refine ⟨-2 ^ (-60 : ℤ), by norm_num, by norm_num, ?_, ?_⟩
  · rw [round53_eq (k := -60) (n := -2 ^ 52)]
    · norm_num
    · rw [abs_neg, abs_of_pos (by positivity)]
    · rw [abs_neg, abs_of_pos (by positivity)]
      exact zpow_lt_zpow_right₀ (by norm_num) (by norm_num)
    · norm_num
  · show calcZoneF ⟨round53, sum53⟩ (-2 ^ (-60 : ℤ)) = 31
    have a : round53 (-2 ^ (-60 : ℤ) - (-180)) = ((180 : ℤ) : ℝ) := by
      have pp : (0 : ℝ) ≤ -2 ^ (-60 : ℤ) - (-180) := by norm_num
      rw [round53_eq (k := 7) (n := 180 * 2 ^ 45)]
      · norm_num
      · rw [abs_of_nonneg pp]; norm_num
      · rw [abs_of_nonneg pp]; norm_num
      · rw [abs_lt]; norm_num
    have b : ((180 : ℤ) : ℝ) / 6 = ((30 : ℤ) : ℝ) := by norm_num
    have c : ((30 : ℤ) : ℝ) + 1 = ((31 : ℤ) : ℝ) := by norm_num
    unfold calcZoneF
    simp only
    rw [a, b, round53_int 30 (by norm_num), c, round53_int 31 (by norm_num), pyInt_of_nonneg (by norm_num), Int.floor_intCast]
    norm_num

/-! ## C264 -/

theorem positionalTsF_eq (f : ℕ → ℕ → ℝ) (m n : ℕ) (pos : ℝ × ℝ) (speed duration : ℝ) (hs : speed ≠ 0) :
    positionalTsF A f m n pos speed duration = positionalTs f m n (A.fl (pos.1 / speed), A.fl (pos.2 / speed)) 1 duration := by
  unfold positionalTsF positionalTs
  simp only [hs, if_false, one_ne_zero, div_one]

theorem positionalTs_cells (f : ℕ → ℕ → ℝ) (m n : ℕ) (x y x' y' s s' duration : ℝ) (hs : s ≠ 0) (hs' : s' ≠ 0) (hx : pyInt (x / s) = pyInt (x' / s')) (hy : pyInt (y / s) = pyInt (y' / s')) :
    positionalTs f m n (x, y) s duration = positionalTs f m n (x', y') s' duration := by
  unfold positionalTs
  simp only [hs, hs', if_false, hx, hy]

theorem quot_near (h : FloatLike u A) {x s : ℝ} (hx : 0 ≤ x) (hs : 0 < s) : Near u 3 (x / s) (A.fl (A.fl x / A.fl s)) := by
  have h0 := u_nonneg h.rounds
  exact (((near_fl h.rounds h.lt_one hx).div h0 h.lt_one hx hs (near_fl h.rounds h.lt_one hs.le))).rnd h.rounds h.lt_one (div_nonneg hx hs.le)

theorem floor_near {q v e : ℝ} (he : |v - q| ≤ e) : (e ≤ 1 → |⌊v⌋ - ⌊q⌋| ≤ 1) ∧ ((∀ k : ℤ, e < |q - k|) → ⌊v⌋ = ⌊q⌋) := by
  rw [abs_le] at he
  have a := Int.floor_le q
  have b := Int.lt_floor_add_one q
  constructor
  · intro h1
    have c : ⌊v⌋ < ⌊q⌋ + 2 := by rw [Int.floor_lt]; push_cast; linarith
    have d : ⌊q⌋ - 1 ≤ ⌊v⌋ := by rw [Int.le_floor]; push_cast; linarith
    rw [abs_le]
    omega
  · intro hk
    have k0 := hk ⌊q⌋
    have k1 := hk (⌊q⌋ + 1)
    rw [abs_of_nonneg (by linarith)] at k0
    rw [abs_of_nonpos (by push_cast; linarith)] at k1
    push_cast at k1
    rw [Int.floor_eq_iff]
    constructor <;> linarith

theorem near_diff (h0 : 0 ≤ u) (h1 : u < 1) {k : ℕ} {q v : ℝ} (hq : 0 ≤ q) (h : Near u k q v) : |v - q| ≤ (1 / (1 - u) ^ k - 1) * q := by
  obtain ⟨p, p1⟩ := pow_unit h0 h1 k
  have hv := h.nonneg h1 hq
  have up : v ≤ 1 / (1 - u) ^ k * q := by
    rw [div_mul_eq_mul_div, one_mul, le_div_iff₀ p, mul_comm]; exact h.2
  rw [abs_le]
  refine ⟨?_, by linarith⟩
  have : q - (1 - u) ^ k * q ≤ (1 / (1 - u) ^ k - 1) * q := by
    have e : (1 / (1 - u) ^ k - 1) * q - (q - (1 - u) ^ k * q) = ((1 - u) ^ k - 1) ^ 2 / (1 - u) ^ k * q := by field_simp; ring
    have : 0 ≤ ((1 - u) ^ k - 1) ^ 2 / (1 - u) ^ k * q := by positivity
    linarith
  linarith [h.1]

/-- C264 (the part that holds): for a position `(x, y)` and a cloud speed `s`, each stored with rounding, `get_positional_ts` reads the series of the cell of
`(x, y)` if neither `x / s` nor `y / s` is closer to a whole number than `(1 - u)⁻³ - 1` times itself; and as long as that is at most one cell it reads the
series of a cell at most one further in each direction.  Missing: positions at the border of a cell (`C264_violated`). -/
theorem C264_cell_partial (h : FloatLike u A) (f : ℕ → ℕ → ℝ) (m n : ℕ) {x y s : ℝ} (duration : ℝ) (hx : 0 ≤ x) (hy : 0 ≤ y) (hs : 0 < s) :
    ((∀ k : ℤ, (1 / (1 - u) ^ 3 - 1) * (x / s) < |x / s - k|) → (∀ k : ℤ, (1 / (1 - u) ^ 3 - 1) * (y / s) < |y / s - k|) →
      positionalTsF A f m n (A.fl x, A.fl y) (A.fl s) duration = positionalTs f m n (x, y) s duration) ∧
    ((1 / (1 - u) ^ 3 - 1) * (x / s) ≤ 1 → (1 / (1 - u) ^ 3 - 1) * (y / s) ≤ 1 → ∃ a b : ℤ, |a - ⌊x / s⌋| ≤ 1 ∧ |b - ⌊y / s⌋| ≤ 1 ∧
      positionalTsF A f m n (A.fl x, A.fl y) (A.fl s) duration = positionalTs f m n (a, b) 1 duration) := by
  have h0 := u_nonneg h.rounds
  have qx0 : 0 ≤ x / s := div_nonneg hx hs.le
  have qy0 : 0 ≤ y / s := div_nonneg hy hs.le
  have nx := quot_near h hx hs
  have ny := quot_near h hy hs
  have vx := nx.nonneg h.lt_one qx0
  have vy := ny.nonneg h.lt_one qy0
  have fs : A.fl s ≠ 0 := ((near_fl h.rounds h.lt_one hs.le).pos h0 h.lt_one hs).ne'
  have fx := floor_near (near_diff h0 h.lt_one qx0 nx)
  have fy := floor_near (near_diff h0 h.lt_one qy0 ny)
  rw [positionalTsF_eq f m n _ _ _ fs]
  refine ⟨fun kx ky => ?_, fun ex ey => ⟨_, _, fx.1 ex, fy.1 ey, ?_⟩⟩
  · refine positionalTs_cells f m n _ _ _ _ _ _ _ one_ne_zero hs.ne' ?_ ?_
    · rw [div_one, pyInt_of_nonneg vx, pyInt_of_nonneg qx0]; exact fx.2 kx
    · rw [div_one, pyInt_of_nonneg vy, pyInt_of_nonneg qy0]; exact fy.2 ky
  · refine positionalTs_cells f m n _ _ _ _ _ _ _ one_ne_zero one_ne_zero ?_ ?_
    · rw [div_one, div_one, pyInt_of_nonneg vx, pyInt_of_nonneg (by exact_mod_cast Int.floor_nonneg.2 vx), Int.floor_intCast]
    · rw [div_one, div_one, pyInt_of_nonneg vy, pyInt_of_nonneg (by exact_mod_cast Int.floor_nonneg.2 vy), Int.floor_intCast]

end

/-- C264 fails: at a cloud speed of 0.1 m/s a sensor at 0.3 m is three cells from the edge of the field, but with 53 digits its series starts in row 2. -/
theorem C264_violated (f : ℕ → ℕ → ℝ) : (0.3 : ℝ) / 0.1 = 3 ∧ positionalTs f 4 1 (0.3, 0) 0.1 0 = .ok [f 3 0] ∧
    positionalTsF ⟨round53, sum53⟩ f 4 1 (round53 0.3, round53 0) (round53 0.1) 0 = .ok [f 2 0] := by
  have q : (0.3 : ℝ) / 0.1 = 3 := by norm_num
  have r3 : round53 0.3 = 5404319552844595 * 2 ^ (-54 : ℤ) := by
    rw [round53_eq (k := -2) (n := 5404319552844595)]
    · norm_num
    · rw [abs_of_pos (by norm_num)]; norm_num
    · rw [abs_of_pos (by norm_num)]; norm_num
    · rw [abs_lt]; norm_num
  have r1 : round53 0.1 = 7205759403792794 * 2 ^ (-56 : ℤ) := by
    rw [round53_eq (k := -4) (n := 7205759403792794)]
    · norm_num
    · rw [abs_of_pos (by norm_num)]; norm_num
    · rw [abs_of_pos (by norm_num)]; norm_num
    · rw [abs_lt]; norm_num
  have rq : round53 (round53 0.3 / round53 0.1) = 6755399441055743 * 2 ^ (-51 : ℤ) := by
    have pp : (0 : ℝ) < round53 0.3 / round53 0.1 := by rw [r3, r1]; norm_num
    rw [round53_eq (k := 1) (n := 6755399441055743)]
    · norm_num
    · rw [abs_of_pos pp, r3, r1]; norm_num
    · rw [abs_of_pos pp, r3, r1]; norm_num
    · rw [r3, r1, abs_lt]; norm_num
  have p3 : pyInt (3 : ℝ) = 3 := by rw [pyInt_of_nonneg (by norm_num)]; norm_num
  have p2 : pyInt (6755399441055743 * 2 ^ (-51 : ℤ) : ℝ) = 2 := by
    rw [pyInt_of_nonneg (by norm_num), Int.floor_eq_iff]
    norm_num
  have p0 : pyInt (0 : ℝ) = 0 := by simp [pyInt]
  refine ⟨q, ?_, ?_⟩
  · unfold positionalTs
    simp only [q, zero_div, p3, p0]
    norm_num [sliceIdx]
    exact ⟨0, by decide, rfl⟩
  · rw [positionalTsF_eq _ _ _ _ _ _ (by rw [r1]; norm_num)]
    unfold positionalTs
    simp only [rq, round53_zero, zero_div, div_one, p2, p0]
    norm_num [sliceIdx]
    exact ⟨0, by decide, rfl⟩

/-- C263 at 7.5° east, in zone 32, with 53 digits. -/
example (P : Projector) : ∃ z' : ℤ, z' ≤ 60 ∧ latlon2utmF ⟨round53, sum53⟩ P 50 7.5 = ((P.fwd z' ((50 : ℝ) < 0) 7.5 50).1, (P.fwd z' ((50 : ℝ) < 0) 7.5 50).2, z') ∧ z' = 32 := by
  obtain ⟨z', a, b, c⟩ := C263_zone_partial float53 keeps53 P 50 7.5 32 (by norm_num) (by norm_num) (by norm_num) (by norm_num)
  refine ⟨z', a, b, c.resolve_right fun c => ?_⟩
  have := c.2
  norm_num at this

/-- C264 in the middle of a cell, with 53 digits. -/
example (f : ℕ → ℕ → ℝ) : positionalTsF ⟨round53, sum53⟩ f 4000 100 (round53 37.5, round53 2.5) (round53 5) 3600 = positionalTs f 4000 100 (37.5, 2.5) 5 3600 := by
  refine (C264_cell_partial float53 f 4000 100 3600 (by norm_num) (by norm_num) (by norm_num)).1 ?_ ?_
  · intro k
    have : (1 / (1 - (2 : ℝ) ^ (-53 : ℤ)) ^ 3 - 1) * (37.5 / 5) < 1 / 2 := by norm_num
    refine this.trans_le ?_
    rcases le_or_gt k 7 with hk | hk
    · have : (k : ℝ) ≤ 7 := by exact_mod_cast hk
      rw [abs_of_nonneg (by linarith)]; linarith
    · have : (8 : ℝ) ≤ k := by exact_mod_cast hk
      rw [abs_of_nonpos (by linarith)]; linarith
  · intro k
    have : (1 / (1 - (2 : ℝ) ^ (-53 : ℤ)) ^ 3 - 1) * (2.5 / 5) < 1 / 2 := by norm_num
    refine this.trans_le ?_
    rcases le_or_gt k 0 with hk | hk
    · have : (k : ℝ) ≤ 0 := by exact_mod_cast hk
      rw [abs_of_nonneg (by linarith)]; linarith
    · have : (1 : ℝ) ≤ k := by exact_mod_cast hk
      rw [abs_of_nonpos (by linarith)]; linarith

end SST.Round
