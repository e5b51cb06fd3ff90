import Verif.Model.RoundTsStats
import Verif.Props.RoundQuantile
import Verif.Props.RoundCoeff
import Verif.Props.CloudTs

/-!
# Property C285: statistics of a clear-sky index series with rounding
-/

namespace SST.Round
open SST SST.Stats

variable {u : ℝ} {A : Arith}

/-- C285 (partial): for a series `kt ≥ 0` the first percentile lies exactly between two of the values and within `2⁻⁵³ * 6 n` times
the maximum of the exact one, the maximum is one of them
and at least as large as all; the clear fraction lies in `[0, 1]`, within `2⁻⁵³` of the exact one, is 0 exactly if no sample is
above the threshold and 1 exactly if all are; the mean is within as many roundings of the exact one as there are values.
Missing: the mean is at most the maximum (false, `C285_violated`); here only up to those roundings. -/
theorem C285_stats_partial (h : FloatLike (2 ^ (-53 : ℤ)) A) (hk : KeepsIntegers A.fl) (kt : List (Option ℝ)) (thr : ℝ) (hne : ∃ v, some v ∈ kt)
    (hp : ∀ v, some v ∈ kt → 0 ≤ v ∧ A.fl v = v) (hb : kt.length ≤ 2 ^ 53) :
    ∃ mean p1 mx, (tsStatsF A kt thr).1 = some mean ∧ (tsStatsF A kt thr).2.1 = some p1 ∧ (tsStatsF A kt thr).2.2.1 = some mx ∧
      (some mx ∈ kt ∧ ∀ v, some v ∈ kt → v ≤ mx) ∧ ((∃ lo, some lo ∈ kt ∧ lo ≤ p1) ∧ p1 ≤ mx) ∧
      (∃ p, (Cloud.tsStats kt thr).2.1 = some p ∧ |p1 - p| ≤ 2 ^ (-53 : ℤ) * (6 * kt.length * mx)) ∧
      (∃ m, (Cloud.tsStats kt thr).1 = some m ∧ Near (2 ^ (-53 : ℤ)) kt.length m mean) ∧ (1 - 2 ^ (-53 : ℤ)) ^ kt.length * mean ≤ mx ∧
      (0 ≤ (tsStatsF A kt thr).2.2.2.1 ∧ (tsStatsF A kt thr).2.2.2.1 ≤ 1) ∧ |(tsStatsF A kt thr).2.2.2.1 - (Cloud.tsStats kt thr).2.2.2.1| ≤ 2 ^ (-53 : ℤ) ∧
      ((tsStatsF A kt thr).2.2.2.1 = 0 ↔ ∀ v, some v ∈ kt → v ≤ thr) ∧
      ((tsStatsF A kt thr).2.2.2.1 = 1 ↔ ∀ o ∈ kt, ∃ v, o = some v ∧ thr < v) := by
  classical
  obtain ⟨v0, hv0⟩ := hne
  have u0 := u_nonneg h.rounds
  have mem : ∀ v, v ∈ kt.filterMap id ↔ some v ∈ kt := by intro v; simp
  have hnil : kt.filterMap id ≠ [] := List.ne_nil_of_mem ((mem v0).2 hv0)
  have hlen : (kt.filterMap id).length ≤ kt.length := List.length_filterMap_le _ _
  have kpos : 0 < kt.length := List.length_pos_iff.2 (List.ne_nil_of_mem hv0)
  have kp : (0 : ℝ) < kt.length := by exact_mod_cast kpos
  obtain ⟨meanE, -, mxE, e1, -, e3, e4, -, -, f0, f1⟩ := Props.CloudTs.C121_stats kt thr ⟨v0, hv0⟩
  have l0 : 0 ≤ A.fl 0.01 := by
    have := hk.mono (show (0 : ℝ) ≤ 0.01 by norm_num)
    have z := hk.int 0 (by norm_num)
    rw [Int.cast_zero] at z
    rwa [z] at this
  have l1 : A.fl 0.01 ≤ 1 := by
    have := hk.mono (show (0.01 : ℝ) ≤ 1 by norm_num)
    have z := hk.int 1 (by norm_num)
    rw [Int.cast_one] at z
    rwa [z] at this
  obtain ⟨p1, q1, ⟨lo, lo1, lo2⟩, ⟨hi, hi1, hi2⟩⟩ := quantileAtF_range hk h.rounds (by norm_num) l0 l1 hnil (hlen.trans hb) (fun w hw => (hp w ((mem w).1 hw)).2)
  have hmx : omax kt = some mxE := e3
  obtain ⟨hmx1, hmx2⟩ := omax_eq_some.1 hmx
  -- percentile
  have m1 : (1 : ℝ) ≤ (kt.filterMap id).length := by exact_mod_cast List.length_pos_iff.2 hnil
  have ep : |A.fl ((((kt.filterMap id).length : ℝ) - 1) * A.fl 0.01) - 0.01 * (((kt.filterMap id).length : ℝ) - 1)| ≤ 2 ^ (-53 : ℤ) * (3.01 * (((kt.filterMap id).length : ℝ) - 1)) := by
    have a := h.rounds 0.01
    rw [abs_of_pos (show (0 : ℝ) < 0.01 by norm_num)] at a
    have m0 : (0 : ℝ) ≤ ((kt.filterMap id).length : ℝ) - 1 := by linarith
    generalize ((kt.filterMap id).length : ℝ) - 1 = m at m0 ⊢
    have b := h.rounds (m * A.fl 0.01)
    rw [abs_of_nonneg (mul_nonneg m0 l0)] at b
    have c : |m * A.fl 0.01 - 0.01 * m| ≤ m * (2 ^ (-53 : ℤ) * 0.01) := by
      rw [show m * A.fl 0.01 - 0.01 * m = m * (A.fl 0.01 - 0.01) by ring, abs_mul, abs_of_nonneg m0]
      exact mul_le_mul_of_nonneg_left a m0
    have d : 2 ^ (-53 : ℤ) * (m * A.fl 0.01) ≤ 2 ^ (-53 : ℤ) * (m * 1) := mul_le_mul_of_nonneg_left (mul_le_mul_of_nonneg_left l1 m0) u0
    have w := mul_nonneg u0 m0
    calc _ ≤ |A.fl (m * A.fl 0.01) - m * A.fl 0.01| + |m * A.fl 0.01 - 0.01 * m| := abs_sub_le _ _ _
      _ ≤ _ := by nlinarith
  have pe := quantileAtF_err h hk (q := 0.01) (by norm_num) (by norm_num) l0 l1 hnil (hlen.trans hb) ep
  have mx0 : 0 ≤ mxE := (hp _ ((mem _).1 hmx1)).1
  have pf : ∃ p, (Cloud.tsStats kt thr).2.1 = some p ∧ |p1 - p| ≤ 2 ^ (-53 : ℤ) * (6 * kt.length * mxE) := by
    change ∃ p, Stats.quantileLin 0.01 (kt.filterMap id) = some p ∧ _
    rw [q1] at pe
    cases hq : Stats.quantileLin 0.01 (kt.filterMap id) with
    | none => rw [hq] at pe; exact pe.elim
    | some p =>
      rw [hq] at pe
      refine ⟨p, rfl, (pe mxE mxE ?_ ?_).trans ?_⟩
      · intro w hw
        rw [abs_of_nonneg (hp w ((mem w).1 hw)).1]
        exact hmx2 w hw
      · intro w hw y hy
        have := (hp y ((mem y).1 hy)).1
        have := hmx2 w hw
        linarith
      · apply mul_le_mul_of_nonneg_left _ u0
        have hl : ((kt.filterMap id).length : ℝ) ≤ kt.length := by exact_mod_cast hlen
        have k1 : (1 : ℝ) ≤ kt.length := m1.trans hl
        nlinarith [mul_nonneg mx0 (sub_nonneg.2 hl), mul_nonneg mx0 (sub_nonneg.2 k1)]
  -- mean
  have nn : ∀ x ∈ kt.filterMap id, 0 ≤ x := fun x hx => (hp x ((mem x).1 hx)).1
  have s := (h.sums _ hnil).near h.rounds h.lt_one nn
  have s0 : 0 ≤ (kt.filterMap id).sum := List.sum_nonneg nn
  have lp : (0 : ℝ) < (kt.filterMap id).length := by exact_mod_cast List.length_pos_iff.2 hnil
  have d0 : 0 ≤ (kt.filterMap id).sum / (kt.filterMap id).length := div_nonneg s0 lp.le
  have r := ((s.div u0 h.lt_one s0 lp (Near.refl ((kt.filterMap id).length : ℝ))).rnd h.rounds h.lt_one d0).mono u0 h.lt_one
    (show (kt.filterMap id).length - 1 + 0 + 1 ≤ kt.length by have := List.length_pos_iff.2 hnil; omega) d0
  have em : meanE = (kt.filterMap id).sum / (kt.filterMap id).length := by
    have : (Cloud.tsStats kt thr).1 = some ((kt.filterMap id).sum / (kt.filterMap id).length) := by
      unfold Cloud.tsStats pdMean meanO
      dsimp only
      rw [if_neg hnil]
      rfl
    rw [this] at e1
    exact (Option.some.inj e1).symm
  rw [← em] at r
  -- fraction
  have fdef : (tsStatsF A kt thr).2.2.2.1 = A.fl (Cloud.tsStats kt thr).2.2.2.1 := rfl
  have cdef : (Cloud.tsStats kt thr).2.2.2.1 = ((kt.filter fun o => ∃ v, o = some v ∧ thr < v).length : ℝ) / kt.length := rfl
  have z := hk.int 0 (by norm_num)
  rw [Int.cast_zero] at z
  have o := hk.int 1 (by norm_num)
  rw [Int.cast_one] at o
  have fe := h.rounds (Cloud.tsStats kt thr).2.2.2.1
  have hc : (kt.filter fun o => ∃ v, o = some v ∧ thr < v).length ≤ kt.length := List.length_filter_le _ _
  refine ⟨_, p1, mxE, if_neg hnil, q1, hmx, ⟨(mem _).1 hmx1, fun v hv => hmx2 v ((mem v).2 hv)⟩, ⟨⟨lo, (mem _).1 lo1, lo2⟩, hi2.trans (hmx2 _ hi1)⟩, pf, ⟨meanE, e1, r⟩,
    r.2.trans e4, ?_, ?_, ?_, ?_⟩
  · rw [fdef]
    refine ⟨?_, ?_⟩
    · have := hk.mono f0; rwa [z] at this
    · have := hk.mono f1; rwa [o] at this
  · rw [fdef]
    rw [abs_of_nonneg f0] at fe
    exact fe.trans (mul_le_of_le_one_right u0 f1)
  · rw [fdef]
    constructor
    · intro e v hv
      by_contra hlt
      rw [not_le] at hlt
      have c1 : 0 < (kt.filter fun o => ∃ v, o = some v ∧ thr < v).length :=
        List.length_pos_iff.2 (List.ne_nil_of_mem (List.mem_filter.2 ⟨hv, by simpa using hlt⟩))
      have pos : 0 < (Cloud.tsStats kt thr).2.2.2.1 := by rw [cdef]; exact div_pos (by exact_mod_cast c1) kp
      have := (near_fl h.rounds h.lt_one f0).pos u0 h.lt_one pos
      rw [e] at this
      exact lt_irrefl _ this
    · intro hall
      have : (kt.filter fun o => ∃ v, o = some v ∧ thr < v) = [] := by
        rw [List.filter_eq_nil_iff]
        intro a ha
        simp only [decide_eq_true_eq, not_exists, not_and, not_lt]
        rintro v rfl
        exact hall v ha
      rw [cdef, this, List.length_nil, Nat.cast_zero, zero_div, z]
  · rw [fdef]
    constructor
    · intro e
      by_contra hno
      have c1 : (kt.filter fun o => ∃ v, o = some v ∧ thr < v).length + 1 ≤ kt.length := by
        refine Nat.lt_of_le_of_ne hc ?_
        intro he
        apply hno
        intro a ha
        simpa using (List.length_filter_eq_length_iff.1 he) a ha
      have c2 : (((kt.filter fun o => ∃ v, o = some v ∧ thr < v).length : ℕ) : ℝ) + 1 ≤ kt.length := by exact_mod_cast c1
      have le : (Cloud.tsStats kt thr).2.2.2.1 * kt.length + 1 ≤ kt.length := by
        rw [cdef, div_mul_cancel₀ _ kp.ne']
        exact c2
      rw [abs_of_nonneg f0, e] at fe
      have fe2 := (abs_le.1 fe).2
      have kb : (2 : ℝ) ^ (-53 : ℤ) * kt.length ≤ 1 := by
        have : (kt.length : ℝ) ≤ 2 ^ 53 := by exact_mod_cast hb
        calc (2 : ℝ) ^ (-53 : ℤ) * kt.length ≤ (2 : ℝ) ^ (-53 : ℤ) * 2 ^ 53 := mul_le_mul_of_nonneg_left this u0
          _ = 1 := by norm_num
      generalize (Cloud.tsStats kt thr).2.2.2.1 = f at *
      generalize (2 : ℝ) ^ (-53 : ℤ) = w at *
      -- `1 - f ≤ w f`, `f n ≤ n - 1`
      have a1 : (1 - f) * kt.length ≤ w * f * kt.length := mul_le_mul_of_nonneg_right fe2 kp.le
      have a2 : w * f * kt.length ≤ f := by nlinarith
      have a3 : (1 : ℝ) ≤ f := by nlinarith
      nlinarith
    · intro hall
      have : (kt.filter fun o => ∃ v, o = some v ∧ thr < v) = kt := by
        rw [List.filter_eq_self]
        intro a ha
        simpa using hall a ha
      rw [cdef, this, div_self kp.ne', o]

/-- C285 fails: the mean of three samples of 0.1 (float64) is larger than their maximum. -/
theorem C285_violated (thr : ℝ) : ∃ c : ℝ, even53 c = c ∧ |c - 0.1| ≤ 1e-17 ∧ ∃ mean, (tsStatsF ⟨even53, sumEven⟩ [some c, some c, some c] thr).1 = some mean ∧
    (tsStatsF ⟨even53, sumEven⟩ [some c, some c, some c] thr).2.2.1 = some c ∧ c < mean := by
  refine ⟨tenth, tenth_float, by unfold tenth; rw [abs_le]; constructor <;> norm_num, 7205759403792795 / 2 ^ 56, ?_, ?_, by unfold tenth; norm_num⟩
  · have := tenth_mean
    unfold meanF at this
    unfold tsStatsF meanOF
    simpa using this
  · simp [tsStatsF, omax]

/-- The hypotheses hold in a concrete case: float64, a series with a gap. -/
example : FloatLike (2 ^ (-53 : ℤ)) ⟨even53, sumEven⟩ ∧ KeepsIntegers even53 ∧ (∃ v, some v ∈ [some (1 : ℝ), none, some 2]) ∧
    (∀ v, some v ∈ [some (1 : ℝ), none, some 2] → 0 ≤ v ∧ even53 v = v) := by
  have a : even53 1 = 1 := by have := even53_int 1 (by norm_num); simpa using this
  have b : even53 2 = 2 := by have := even53_int 2 (by norm_num); simpa using this
  refine ⟨floatEven, keepsEven, ⟨1, by simp⟩, ?_⟩
  intro v hv
  simp only [List.mem_cons, Option.some.injEq, reduceCtorEq, List.not_mem_nil, or_false, false_or] at hv
  rcases hv with rfl | rfl
  · exact ⟨by norm_num, a⟩
  · exact ⟨by norm_num, b⟩

end SST.Round
