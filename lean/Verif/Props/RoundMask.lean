import Verif.Model.RoundMask
import Verif.Props.RoundQuantile
import Verif.Proofs.CloudMask

/-!
# Property C286: the clear mask with rounding
-/

namespace SST.Round
open SST SST.Stats SST.Cloud

variable {A : Arith} {ι : Type} [Fintype ι]

open Classical in
private theorem clearMaskF_eq {f : ι → ℝ} {q t : ℝ} (h0 : 0 < q) (h1 : q ≤ 1) (ht : quantileAtF A q (vals f) = some t) :
    clearMaskF A f q = if iscloseF A q (A.fl (((Finset.univ.filter fun i => f i ≤ t).card : ℕ) / (Fintype.card ι : ℝ))) then .ok (fun i => decide (f i ≤ t)) else .error .assertionError := by
  have hm : (fun i => if f i > t then false else true) = fun i => decide (f i ≤ t) := by
    funext i
    by_cases h : f i > t
    · rw [if_pos h]; simp [h]
    · rw [if_neg h]; simp [not_lt.1 h]
  have hc : (count fun i => (decide (f i ≤ t)) = true) = (Finset.univ.filter fun i => f i ≤ t).card := by
    unfold count
    congr 1
    ext i
    simp
  unfold clearMaskF
  rw [if_neg (by push Not; exact ⟨h1, h0.le⟩), if_neg h0.ne', ht]
  have key : ∀ g : ι → Bool, g = (fun i => decide (f i ≤ t)) →
      (if iscloseF A q (A.fl ((count fun i => g i = true : ℕ) / (Fintype.card ι : ℝ))) then (Except.ok g : Except PyErr (ι → Bool)) else .error .assertionError) =
      if iscloseF A q (A.fl (((Finset.univ.filter fun i => f i ≤ t).card : ℕ) / (Fintype.card ι : ℝ))) then .ok (fun i => decide (f i ≤ t)) else .error .assertionError := by
    rintro g rfl
    rw [hc]
  exact key _ hm

/-- The test of the fraction with rounding. -/
private theorem iscloseF_of (hr : RoundsTo (2 ^ (-53 : ℤ)) A.fl) {q c n : ℝ} (n0 : 0 < n) (hc : 3998 ≤ c) (hq : |c - q * n| ≤ 3) : iscloseF A q (A.fl (c / n)) := by
  have hu : (2 : ℝ) ^ (-53 : ℤ) ≤ 1e-15 := by norm_num
  have hf : ∀ x : ℝ, |A.fl x - x| ≤ 1e-15 * |x| := fun x => (hr x).trans (mul_le_mul_of_nonneg_right hu (abs_nonneg _))
  have y0 : 0 < c / n := div_pos (by linarith) n0
  have a := hf (c / n)
  rw [abs_of_pos y0] at a
  obtain ⟨a1, a2⟩ := abs_le.1 a
  have fy : 0 < A.fl (c / n) := by nlinarith
  have b : |q - c / n| ≤ 3 / 3998 * (c / n) := by
    have e : q - c / n = -(c - q * n) / n := by field_simp; ring
    rw [e, abs_div, abs_neg, abs_of_pos n0, ← mul_div_assoc]
    apply div_le_div_of_nonneg_right _ n0.le
    linarith
  obtain ⟨b1, b2⟩ := abs_le.1 b
  have d : |q - A.fl (c / n)| ≤ 8e-4 * (c / n) := by rw [abs_le]; constructor <;> nlinarith
  have l1 := hf (q - A.fl (c / n))
  have l2 : |A.fl (q - A.fl (c / n))| ≤ 9e-4 * (c / n) := by
    have := abs_sub_abs_le_abs_sub (A.fl (q - A.fl (c / n))) (q - A.fl (c / n))
    nlinarith
  unfold iscloseF
  refine l2.trans ?_
  rw [abs_of_pos fy]
  have c1 := (abs_le.1 (hf 1e-8)).1
  rw [abs_of_pos (show (0 : ℝ) < 1e-8 by norm_num)] at c1
  have c2 := (abs_le.1 (hf 1e-3)).1
  rw [abs_of_pos (show (0 : ℝ) < 1e-3 by norm_num)] at c2
  have c3 : 9.9e-4 ≤ A.fl 1e-3 := by norm_num at c2 ⊢; linarith
  have p0 : 0 < A.fl 1e-3 * A.fl (c / n) := mul_pos (by linarith) fy
  have p1 : 9.8e-4 * (c / n) ≤ A.fl 1e-3 * A.fl (c / n) := by nlinarith
  have c4 := (abs_le.1 (hf (A.fl 1e-3 * A.fl (c / n)))).1
  rw [abs_of_pos p0] at c4
  have c5 : 9.7e-4 * (c / n) ≤ A.fl (A.fl 1e-3 * A.fl (c / n)) := by nlinarith
  have c6 : 0 ≤ A.fl 1e-8 := by norm_num at c1 ⊢; linarith
  have p2 : 0 ≤ A.fl 1e-8 + A.fl (A.fl 1e-3 * A.fl (c / n)) := by nlinarith
  have c7 := (abs_le.1 (hf (A.fl 1e-8 + A.fl (A.fl 1e-3 * A.fl (c / n))))).1
  rw [abs_of_nonneg p2] at c7
  nlinarith

open Classical in
/-- C286: a field of distinct values with at least 4001 cells to be clear is always accepted: no cloudy cell is lower than a clear
one, and the number of clear cells is within 3 of the requested one. -/
theorem C286_large_accepted (h : FloatLike (2 ^ (-53 : ℤ)) A) (hk : KeepsIntegers A.fl) (f : ι → ℝ) (hf : Function.Injective f) (hv : ∀ i, A.fl (f i) = f i) (hn : Fintype.card ι ≤ 2 ^ 53)
    (q : ℝ) (h1 : q ≤ 1) (hl : 4001 ≤ q * Fintype.card ι) :
    ∃ mask, clearMaskF A f q = .ok mask ∧ (∀ i j, mask i = true → mask j = false → f i < f j) ∧
      |((Finset.univ.filter fun i => mask i = true).card : ℝ) - q * Fintype.card ι| ≤ 3 := by
  have hcp : 0 < Fintype.card ι := by
    rcases Nat.eq_zero_or_pos (Fintype.card ι) with e | e
    · rw [e] at hl; norm_num at hl
    · exact e
  have n0 : (0 : ℝ) < Fintype.card ι := by exact_mod_cast hcp
  have n1 : (1 : ℝ) ≤ Fintype.card ι := by exact_mod_cast hcp
  haveI : Nonempty ι := Fintype.card_pos_iff.1 hcp
  have h0 : 0 < q := by by_contra hq; push Not at hq; nlinarith
  have hval : ∀ w ∈ vals f, A.fl w = w := by
    intro w hw
    obtain ⟨i, -, rfl⟩ := List.mem_map.1 hw
    exact hv i
  obtain ⟨k, t, ek, hkl, hq, b1, b2⟩ := quantileAtF_between hk h.rounds (by norm_num) h0.le h1 (vals_ne_nil f) (by rw [vals_length]; exact hn) hval
  -- number of clear cells
  have hc : (Finset.univ.filter fun i => f i ≤ t).card = k + 1 ∨ (Finset.univ.filter fun i => f i ≤ t).card = k + 2 := by
    rw [card_le_eq_countP, countP_srt]
    by_cases hlt : k + 1 < (vals f).length → t < (srt (vals f)).getD (k + 1) 0
    · exact Or.inl (countP_eq hkl b1 hlt)
    · push Not at hlt
      obtain ⟨hk1, hge⟩ := hlt
      have e : min (k + 1) ((vals f).length - 1) = k + 1 := by omega
      rw [e] at b2
      refine Or.inr (countP_eq hk1 hge ?_)
      intro hk2
      exact b2.trans_lt (srt_strict (vals_nodup hf) (Nat.lt_succ_self _) hk2)
  -- position
  rw [vals_length] at ek hkl
  have P0 : 0 ≤ ((Fintype.card ι : ℝ) - 1) * q := mul_nonneg (by linarith) h0.le
  have pe := h.rounds (((Fintype.card ι : ℝ) - 1) * q)
  rw [abs_of_nonneg P0] at pe
  have pu : (2 : ℝ) ^ (-53 : ℤ) * (((Fintype.card ι : ℝ) - 1) * q) ≤ 1 := by
    have a1 : ((Fintype.card ι : ℝ) - 1) * q ≤ 2 ^ 53 := by
      have : (Fintype.card ι : ℝ) ≤ 2 ^ 53 := by exact_mod_cast hn
      nlinarith
    calc _ ≤ (2 : ℝ) ^ (-53 : ℤ) * 2 ^ 53 := mul_le_mul_of_nonneg_left a1 (by positivity)
      _ = 1 := by norm_num
  obtain ⟨pe1, pe2⟩ := abs_le.1 pe
  have fz : 0 ≤ A.fl (((Fintype.card ι : ℝ) - 1) * q) := by
    have := hk.mono P0
    have z := hk.int 0 (by norm_num)
    rw [Int.cast_zero] at z
    rwa [z] at this
  have kf : (k : ℝ) = ⌊A.fl (((Fintype.card ι : ℝ) - 1) * q)⌋ := by
    have : ((k : ℤ)) = ⌊A.fl (((Fintype.card ι : ℝ) - 1) * q)⌋ := by
      rw [ek, Int.toNat_of_nonneg (Int.floor_nonneg.2 fz)]
    exact_mod_cast this
  have g1 := Int.floor_le (A.fl (((Fintype.card ι : ℝ) - 1) * q))
  have g2 := Int.lt_floor_add_one (A.fl (((Fintype.card ι : ℝ) - 1) * q))
  rw [← kf] at g1 g2
  have hcn : |((Finset.univ.filter fun i => f i ≤ t).card : ℝ) - q * Fintype.card ι| ≤ 3 := by
    rw [abs_le]
    rcases hc with e | e <;> rw [e] <;> push_cast <;> constructor <;> nlinarith
  have he := clearMaskF_eq h0 h1 hq
  rw [if_pos (iscloseF_of h.rounds n0 (by have := (abs_le.1 hcn).1; linarith) hcn)] at he
  refine ⟨_, he, ?_, ?_⟩
  · intro i j hi hj
    simp at hi hj
    linarith
  · simpa using hcn

open Classical in
/-- C286: in every accepted mask (any field) no cloudy cell is lower than a clear one, and the fraction of clear cells is within
`1.1e-8` plus `1.01e-3` of itself of the requested one. -/
theorem C286_accepted (h : FloatLike (2 ^ (-53 : ℤ)) A) (f : ι → ℝ) (q : ℝ) (mask : ι → Bool) (hm : clearMaskF A f q = .ok mask) :
    0 ≤ q ∧ q ≤ 1 ∧ (∀ i j, mask i = true → mask j = false → f i < f j) ∧
      |q - ((Finset.univ.filter fun i => mask i = true).card : ℝ) / Fintype.card ι| ≤
        1.1e-8 + 1.01e-3 * (((Finset.univ.filter fun i => mask i = true).card : ℝ) / Fintype.card ι) := by
  have hu : (2 : ℝ) ^ (-53 : ℤ) ≤ 1e-15 := by norm_num
  have hf : ∀ x : ℝ, |A.fl x - x| ≤ 1e-15 * |x| := fun x => (h.rounds x).trans (mul_le_mul_of_nonneg_right hu (abs_nonneg _))
  have test : ∀ y : ℝ, 0 ≤ y → iscloseF A q (A.fl y) → |q - y| ≤ 1.1e-8 + 1.01e-3 * y := by
    intro y y0 hi
    unfold iscloseF at hi
    have a := hf y
    rw [abs_of_nonneg y0] at a
    obtain ⟨a1, a2⟩ := abs_le.1 a
    have fy : 0 ≤ A.fl y := by nlinarith
    rw [abs_of_nonneg fy] at hi
    have l1 := hf (q - A.fl y)
    have l2 : (1 - 1e-15) * |q - A.fl y| ≤ |A.fl (q - A.fl y)| := by
      have := abs_sub_abs_le_abs_sub (q - A.fl y) (A.fl (q - A.fl y))
      rw [abs_sub_comm (q - A.fl y)] at this
      linarith
    have c1 := (abs_le.1 (hf 1e-8)).2
    rw [abs_of_pos (show (0 : ℝ) < 1e-8 by norm_num)] at c1
    have c2 := abs_le.1 (hf 1e-3)
    rw [abs_of_pos (show (0 : ℝ) < 1e-3 by norm_num)] at c2
    have c3 : A.fl 1e-3 ≤ 1.001e-3 := by have := c2.2; norm_num at this ⊢; linarith
    have c3' : 0 ≤ A.fl 1e-3 := by have := c2.1; norm_num at this ⊢; linarith
    have p0 : 0 ≤ A.fl 1e-3 * A.fl y := mul_nonneg c3' fy
    have p1 : A.fl 1e-3 * A.fl y ≤ 1.002e-3 * y := by nlinarith
    have c4 := (abs_le.1 (hf (A.fl 1e-3 * A.fl y))).2
    rw [abs_of_nonneg p0] at c4
    have c5 : A.fl (A.fl 1e-3 * A.fl y) ≤ 1.003e-3 * y := by nlinarith
    have c6 : A.fl 1e-8 ≤ 1.01e-8 := by norm_num at c1 ⊢; linarith
    have c8 := hf (A.fl 1e-8 + A.fl (A.fl 1e-3 * A.fl y))
    have c9 : A.fl (A.fl 1e-8 + A.fl (A.fl 1e-3 * A.fl y)) ≤ 1.02e-8 + 1.004e-3 * y := by
      rcases le_total 0 (A.fl 1e-8 + A.fl (A.fl 1e-3 * A.fl y)) with s | s
      · rw [abs_of_nonneg s] at c8
        have := (abs_le.1 c8).2
        nlinarith
      · rw [abs_of_nonpos s] at c8
        have := (abs_le.1 c8).2
        nlinarith
    have d : |q - A.fl y| ≤ 1.03e-8 + 1.005e-3 * y := by nlinarith
    have tri : |q - y| ≤ |q - A.fl y| + |A.fl y - y| := abs_sub_le _ _ _
    nlinarith
  have fin : ∀ g : ι → Bool, (if iscloseF A q (A.fl ((count fun i => g i = true : ℕ) / (Fintype.card ι : ℝ))) then (Except.ok g : Except PyErr (ι → Bool)) else .error .assertionError) = .ok mask →
      g = mask ∧ |q - ((Finset.univ.filter fun i => mask i = true).card : ℝ) / Fintype.card ι| ≤
        1.1e-8 + 1.01e-3 * (((Finset.univ.filter fun i => mask i = true).card : ℝ) / Fintype.card ι) := by
    intro g hg
    by_cases hi : iscloseF A q (A.fl ((count fun i => g i = true : ℕ) / (Fintype.card ι : ℝ)))
    · rw [if_pos hi] at hg
      injection hg with hg
      subst hg
      refine ⟨rfl, test _ (by positivity) ?_⟩
      have e : (count fun i => g i = true) = (Finset.univ.filter fun i => g i = true).card := by
        unfold count
        congr 1
        ext i
        simp
      rwa [e] at hi
    · rw [if_neg hi] at hg
      cases hg
  unfold clearMaskF at hm
  by_cases hr : q > 1 ∨ q < 0
  · rw [if_pos hr] at hm; cases hm
  rw [if_neg hr] at hm
  rw [not_or, not_lt, not_lt] at hr
  by_cases hz : q = 0
  · rw [if_pos hz] at hm
    obtain ⟨e, hb⟩ := fin _ hm
    refine ⟨hr.2, hr.1, ?_, hb⟩
    intro i j hi
    rw [← e] at hi
    cases hi
  · rw [if_neg hz] at hm
    cases hq : quantileAtF A q (vals f) with
    | none => rw [hq] at hm; cases hm
    | some t =>
      rw [hq] at hm
      obtain ⟨e, hb⟩ := fin _ hm
      refine ⟨hr.2, hr.1, ?_, hb⟩
      intro i j hi hj
      rw [← e] at hi hj
      simp at hi hj
      linarith

/-- The hypotheses hold in a concrete case: float64, 10000 cells with the numbers of the cells as values, half of them clear. -/
example : FloatLike (2 ^ (-53 : ℤ)) ⟨even53, sumEven⟩ ∧ KeepsIntegers even53 ∧ Function.Injective (fun i : Fin 10000 => ((i : ℕ) : ℝ)) ∧
    (∀ i : Fin 10000, even53 ((i : ℕ) : ℝ) = ((i : ℕ) : ℝ)) ∧ (4001 : ℝ) ≤ 0.5 * Fintype.card (Fin 10000) := by
  refine ⟨floatEven, keepsEven, ?_, ?_, ?_⟩
  · intro i j hij
    have hij' : ((i : ℕ) : ℝ) = ((j : ℕ) : ℝ) := hij
    exact Fin.ext (by exact_mod_cast hij')
  · intro i
    have := even53_int (i : ℕ) (by rw [abs_of_nonneg (by omega)]; have := i.2; omega)
    simpa using this
  · rw [Fintype.card_fin]; norm_num

end SST.Round
