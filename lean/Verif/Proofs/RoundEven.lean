import Verif.Props.RoundSpacetime
import Verif.Props.RoundIndex

/-!
# IEEE rounding (halves to even) is monotone and keeps integers
-/

namespace SST.Round
open SST

theorem nearestEven_mono : Monotone nearestEven := by
  intro x y h
  rcases h.eq_or_lt with rfl | h
  · exact le_rfl
  by_contra hc
  have a := abs_le.mp (nearestEven_abs x)
  have b := abs_le.mp (nearestEven_abs y)
  have c : (nearestEven y : ℝ) + 1 ≤ nearestEven x := by exact_mod_cast Int.add_one_le_of_lt (not_le.mp hc)
  linarith [a.1, b.2]

theorem even53_zero : even53 0 = 0 := by
  unfold even53
  have : nearestEven 0 = 0 := by have := nearestEven_int 0; simpa using this
  simp [this]

private theorem even53_bounds {x : ℝ} (hx : 0 < x) : (2 : ℝ) ^ Int.log 2 x ≤ even53 x ∧ even53 x ≤ 2 ^ (Int.log 2 x + 1) := by
  have l := Int.zpow_log_le_self (b := 2) (R := ℝ) (by norm_num) hx
  have g := Int.lt_zpow_succ_log_self (b := 2) (by norm_num) x
  push_cast at l g
  unfold even53
  rw [abs_of_pos hx]
  set e := Int.log 2 x
  have p : (0 : ℝ) < 2 ^ (e - 52) := zpow_pos two_pos _
  have s : ∀ j : ℕ, (2 : ℝ) ^ (e - 52 + j) = ((2 ^ j : ℤ) : ℝ) * 2 ^ (e - 52) := by
    intro j
    rw [zpow_add₀ (by norm_num), zpow_natCast]
    push_cast
    ring
  have e1 : (2 : ℝ) ^ e = ((2 ^ 52 : ℤ) : ℝ) * 2 ^ (e - 52) := by rw [← s 52]; congr 1; push_cast; ring
  have e2 : (2 : ℝ) ^ (e + 1) = ((2 ^ 53 : ℤ) : ℝ) * 2 ^ (e - 52) := by rw [← s 53]; congr 1; push_cast; ring
  rw [e1] at l ⊢
  rw [e2] at g ⊢
  have l' : ((2 ^ 52 : ℤ) : ℝ) ≤ x / 2 ^ (e - 52) := by rw [le_div_iff₀ p]; exact l
  have g' : x / 2 ^ (e - 52) ≤ ((2 ^ 53 : ℤ) : ℝ) := by rw [div_le_iff₀ p]; exact g.le
  have l2 := nearestEven_mono l'
  have g2 := nearestEven_mono g'
  rw [nearestEven_int] at l2 g2
  exact ⟨mul_le_mul_of_nonneg_right (by exact_mod_cast l2) p.le, mul_le_mul_of_nonneg_right (by exact_mod_cast g2) p.le⟩

private theorem even53_mono_pos {x y : ℝ} (hx : 0 < x) (h : x ≤ y) : even53 x ≤ even53 y := by
  have hy : 0 < y := hx.trans_le h
  have lm : Int.log 2 x ≤ Int.log 2 y := Int.log_mono_right hx h
  rcases lm.eq_or_lt with e | e
  · unfold even53
    rw [abs_of_pos hx, abs_of_pos hy, e]
    have p : (0 : ℝ) < 2 ^ (Int.log 2 y - 52) := zpow_pos two_pos _
    exact mul_le_mul_of_nonneg_right (by exact_mod_cast nearestEven_mono (div_le_div_of_nonneg_right h p.le)) p.le
  · refine (even53_bounds hx).2.trans (le_trans ?_ (even53_bounds hy).1)
    exact zpow_le_zpow_right₀ (by norm_num) (by omega)

theorem even53_mono : Monotone even53 := by
  have nn : ∀ z : ℝ, 0 ≤ z → 0 ≤ even53 z := by
    intro z hz
    rcases hz.eq_or_lt with rfl | hz
    · rw [even53_zero]
    · exact (zpow_pos two_pos _).le.trans (even53_bounds hz).1
  intro x y h
  rcases lt_or_ge 0 x with hx | hx
  · exact even53_mono_pos hx h
  · have np : even53 x ≤ 0 := by
      have := nn (-x) (by linarith)
      rw [even53_neg] at this
      linarith
    rcases le_or_gt 0 y with hy | hy
    · exact np.trans (nn y hy)
    · have := even53_mono_pos (x := -y) (y := -x) (by linarith) (by linarith)
      rw [even53_neg, even53_neg] at this
      linarith

/-- A multiple of the spacing of the numbers of its size is left as it is. -/
theorem even53_fixed {x : ℝ} {n : ℤ} (h : x / 2 ^ (Int.log 2 |x| - 52) = n) : even53 x = x := by
  have p : (0 : ℝ) < 2 ^ (Int.log 2 |x| - 52) := zpow_pos two_pos _
  unfold even53
  rw [h, nearestEven_int, ← h, div_mul_cancel₀ _ p.ne']

theorem even53_int (k : ℤ) (hk : |k| ≤ 2 ^ 53) : even53 k = k := by
  have r := round53_int k hk
  have p : (0 : ℝ) < 2 ^ (Int.log 2 |(k : ℝ)| - 52) := zpow_pos two_pos _
  refine even53_fixed (n := round ((k : ℝ) / 2 ^ (Int.log 2 |(k : ℝ)| - 52))) ?_
  rw [div_eq_iff p.ne']
  exact r.symm

/-- IEEE rounding meets the assumptions. -/
theorem keepsEven : KeepsIntegers even53 := ⟨even53_mono, even53_int⟩

end SST.Round
