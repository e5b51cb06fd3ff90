import Verif.Model.RoundBasic
import Verif.Props.RoundQuantile
import Verif.Proofs.CloudScale
import Verif.Proofs.CloudMask

/-!
# Property C288: range of a cloud field scaled by the alternate method with rounding
-/

namespace SST.Round
open SST SST.Stats SST.Cloud

variable {u : ℝ} {A : Arith} {ι : Type} [Fintype ι]

private theorem flz (hk : KeepsIntegers A.fl) : A.fl 0 = 0 := by simpa using hk.int 0 (by norm_num)
private theorem flo (hk : KeepsIntegers A.fl) : A.fl 1 = 1 := by simpa using hk.int 1 (by norm_num)
private theorem fl_ge (hk : KeepsIntegers A.fl) {x : ℝ} (hx : 0 ≤ x) : 0 ≤ A.fl x := by
  have := hk.mono hx
  rwa [flz hk] at this
private theorem fl_up (hr : RoundsTo u A.fl) {x : ℝ} (hx : 0 ≤ x) : A.fl x ≤ (1 + u) * x := by
  have := hr x
  rw [abs_of_nonneg hx] at this
  have := (abs_le.1 this).2
  linarith
private theorem fl_pos (hr : RoundsTo u A.fl) (hu : u < 1) {x : ℝ} (hx : 0 < x) : 0 < A.fl x := by
  have := hr x
  rw [abs_of_pos hx] at this
  have := (abs_le.1 this).1
  nlinarith

private theorem fr_nonneg (f : ι → ℝ) (lo hi : ℝ) (i : ι) : 0 ≤ cloudsFrF A f lo hi false i := by
  unfold cloudsFrF
  simp only [Bool.false_eq_true, if_false]
  split_ifs <;> linarith

private theorem fr_inside (hk : KeepsIntegers A.fl) (hr : RoundsTo u A.fl) (hu : u < 1) {f : ι → ℝ} {lo hi : ℝ} (hl : lo < hi) {i : ι} (h1 : lo ≤ f i) (h2 : f i ≤ hi) :
    cloudsFrF A f lo hi false i ≤ 1 ∧ (f i = lo → cloudsFrF A f lo hi false i = 0) ∧ (f i = hi → cloudsFrF A f lo hi false i = 1) := by
  have hp : 0 < A.fl (hi - lo) := fl_pos hr hu (by linarith)
  have a0 : 0 ≤ A.fl (A.fl (f i - lo) / A.fl (hi - lo)) := fl_ge hk (div_nonneg (fl_ge hk (by linarith)) hp.le)
  have a1 : A.fl (A.fl (f i - lo) / A.fl (hi - lo)) ≤ 1 := by
    rw [← flo hk]
    exact hk.mono ((div_le_one hp).2 (hk.mono (by linarith)))
  have e : cloudsFrF A f lo hi false i = A.fl (A.fl (f i - lo) / A.fl (hi - lo)) := by
    unfold cloudsFrF
    simp only [Bool.false_eq_true, if_false]
    rw [if_neg (not_lt.2 a1), if_neg (not_lt.2 a0)]
  rw [e]
  refine ⟨a1, ?_, ?_⟩
  · intro h
    rw [h, sub_self, flz hk, zero_div, flz hk]
  · intro h
    rw [h, div_self hp.ne', flo hk]

/-- C288: let the two quantiles `lo < hi` of the cloudy cells differ. Then the scaling gives no error. Clear cells are exactly 1.
Values at the edges are at least 1, and those in the cloudy cells at least `kt1`, for every value of the field; a cell at `lo` has
exactly these values. For a field value in `[lo, hi]` an edge value is at most `ktmax`, which is exactly reached at `hi`, and a
cloudy value is at most 1 if the warning was printed, and otherwise `1 + kt1`, up to three roundings. -/
theorem C288_scaled (h : FloatLike u A) (hk : KeepsIntegers A.fl) (f : ι → ℝ) (clear edge : ι → Bool) (ktmean ktmax kt1 q lo hi : ℝ)
    (hhi : quantileAtF A q (valsOn f fun i => clear i = false) = some hi) (hlo : quantileAtF A (A.fl (1 - q)) (valsOn f fun i => clear i = false) = some lo) (hl : lo < hi)
    (p0 : 0 ≤ kt1) (p1 : kt1 ≤ 1) (pf : A.fl kt1 = kt1) (ht : 1 ≤ ktmax) (k1 : A.fl ktmax = ktmax) (k2 : A.fl (ktmax - 1) = ktmax - 1) :
    ∃ out warned, scaleBasicF A f clear edge ktmean ktmax kt1 q false none = .ok (out, warned) ∧
      (∀ i, clear i = true → out i = 1) ∧
      (∀ i, clear i = false → edge i = true → 1 ≤ out i ∧ (f i = lo → out i = 1) ∧ (f i = hi → out i = ktmax) ∧ (lo ≤ f i → f i ≤ hi → out i ≤ ktmax)) ∧
      ∀ i, clear i = false → edge i = false → kt1 ≤ out i ∧ (f i = lo → out i = kt1) ∧
        (lo ≤ f i → f i ≤ hi → out i ≤ (1 + u) ^ 3 * (if warned then 1 else 1 + kt1)) := by
  classical
  have u0 := u_nonneg h.rounds
  have fr0 := fr_nonneg (A := A) f lo hi
  have fri : ∀ i, lo ≤ f i → f i ≤ hi → _ := fun i h1 h2 => fr_inside hk h.rounds h.lt_one hl (i := i) h1 h2
  unfold scaleBasicF
  rw [hhi, hlo]
  simp only
  rw [if_neg hl.ne']
  generalize cloudsFrF A f lo hi false = fr at fr0 fri
  have clr : ∀ i, clear i = true → basicBaseF A fr clear edge ktmax none i = 1 := by
    intro i hi
    simp [basicBaseF, hi, clearValF]
  have edg : ∀ i, clear i = false → edge i = true → 1 ≤ basicBaseF A fr clear edge ktmax none i ∧ (f i = lo → basicBaseF A fr clear edge ktmax none i = 1) ∧
      (f i = hi → basicBaseF A fr clear edge ktmax none i = ktmax) ∧ (lo ≤ f i → f i ≤ hi → basicBaseF A fr clear edge ktmax none i ≤ ktmax) := by
    intro i h1 h2
    have e : basicBaseF A fr clear edge ktmax none i = A.fl (A.fl (fr i * (ktmax - 1)) + 1) := by simp [basicBaseF, h1, h2, k2]
    rw [e]
    refine ⟨?_, ?_, ?_, ?_⟩
    · have a := fl_ge hk (mul_nonneg (fr0 i) (sub_nonneg.2 ht))
      have := hk.mono (show (1 : ℝ) ≤ A.fl (fr i * (ktmax - 1)) + 1 by linarith)
      rwa [flo hk] at this
    · intro hf
      rw [(fri i hf.ge (by linarith)).2.1 hf, zero_mul, flz hk, zero_add, flo hk]
    · intro hf
      rw [(fri i (by linarith) hf.le).2.2 hf, one_mul, k2, sub_add_cancel, k1]
    · intro a b
      have m := hk.mono (mul_le_mul_of_nonneg_right (fri i a b).1 (sub_nonneg.2 ht))
      rw [one_mul, k2] at m
      have := hk.mono (show A.fl (fr i * (ktmax - 1)) + 1 ≤ ktmax by linarith)
      rwa [k1] at this
  have low : ∀ x : ℝ, 0 ≤ x → kt1 ≤ A.fl (x + kt1) := by
    intro x hx
    have := hk.mono (show kt1 ≤ x + kt1 by linarith)
    rwa [pf] at this
  split_ifs with hw
  · obtain ⟨t0, t1, -⟩ := hw
    refine ⟨_, _, rfl, ?_, ?_, ?_⟩
    · intro i hi
      simp [hi, clr]
    · intro i h1 h2
      simpa [h1, h2] using edg i h1 h2
    · intro i h1 h2
      simp only [h1, h2, and_self, if_true]
      generalize A.fl (A.fl (A.fl ((Fintype.card ι : ℝ) * ktmean) - A.sum (vals (basicBaseF A fr clear edge ktmax none))) - A.fl (kt1 * (count fun i => clear i = false ∧ edge i = false : ℕ))) = tgt at t0 t1
      generalize A.sum (valsOn fr fun i => clear i = false ∧ edge i = false) = cur at t1
      have c0 : 0 < cur := t0.trans t1
      have m0 : 0 ≤ fr i * tgt := mul_nonneg (fr0 i) t0.le
      have d0 : 0 ≤ A.fl (fr i * tgt) / cur := div_nonneg (fl_ge hk m0) c0.le
      refine ⟨low _ (fl_ge hk d0), ?_, ?_⟩
      · intro hf
        rw [(fri i hf.ge (by linarith)).2.1 hf, zero_mul, flz hk, zero_div, flz hk, zero_add, pf]
      · intro a b
        have s1 : A.fl (fr i * tgt) ≤ (1 + u) * cur := (fl_up h.rounds m0).trans (mul_le_mul_of_nonneg_left (by nlinarith [(fri i a b).1]) (by linarith))
        have s2 : A.fl (fr i * tgt) / cur ≤ 1 + u := (div_le_iff₀ c0).2 s1
        have s3 : A.fl (A.fl (fr i * tgt) / cur) ≤ (1 + u) * (1 + u) := (fl_up h.rounds d0).trans (mul_le_mul_of_nonneg_left s2 (by linarith))
        have s4 := fl_up h.rounds (add_nonneg (fl_ge hk d0) p0)
        simp only [Bool.false_eq_true, if_false]
        refine s4.trans ?_
        have s5 : A.fl (A.fl (fr i * tgt) / cur) + kt1 ≤ (1 + u) ^ 2 * (1 + kt1) := by nlinarith [mul_nonneg u0 p0, mul_nonneg (mul_nonneg u0 u0) p0]
        calc (1 + u) * (A.fl (A.fl (fr i * tgt) / cur) + kt1) ≤ (1 + u) * ((1 + u) ^ 2 * (1 + kt1)) := mul_le_mul_of_nonneg_left s5 (by linarith)
          _ = (1 + u) ^ 3 * (1 + kt1) := by ring
  · refine ⟨_, _, rfl, ?_, ?_, ?_⟩
    · intro i hi
      simp [hi, clr]
    · intro i h1 h2
      simpa [h1, h2] using edg i h1 h2
    · intro i h1 h2
      simp only [h1, h2, and_self, if_true]
      have g0 : 0 ≤ A.fl (1 - kt1) := fl_ge hk (by linarith)
      have m0 : 0 ≤ fr i * A.fl (1 - kt1) := mul_nonneg (fr0 i) g0
      refine ⟨low _ (fl_ge hk m0), ?_, ?_⟩
      · intro hf
        rw [(fri i hf.ge (by linarith)).2.1 hf, zero_mul, flz hk, zero_add, pf]
      · intro a b
        have s1 : fr i * A.fl (1 - kt1) ≤ (1 + u) * (1 - kt1) := by nlinarith [(fri i a b).1, fl_up h.rounds (sub_nonneg.2 p1)]
        have s2 : A.fl (fr i * A.fl (1 - kt1)) ≤ (1 + u) * ((1 + u) * (1 - kt1)) := (fl_up h.rounds m0).trans (mul_le_mul_of_nonneg_left s1 (by linarith))
        have s3 := fl_up h.rounds (add_nonneg (fl_ge hk m0) p0)
        rw [mul_one]
        refine s3.trans ?_
        have s5 : A.fl (fr i * A.fl (1 - kt1)) + kt1 ≤ (1 + u) ^ 2 := by nlinarith [mul_nonneg u0 p0, mul_nonneg (mul_nonneg u0 u0) p0]
        calc (1 + u) * (A.fl (fr i * A.fl (1 - kt1)) + kt1) ≤ (1 + u) * (1 + u) ^ 2 := mul_le_mul_of_nonneg_left s5 (by linarith)
          _ = (1 + u) ^ 3 := by ring

/-- The hypotheses hold in a concrete case: float64, three cloudy cells with the values 0, 1 and 2 and the extreme values as limits,
`ktmax = 2`, `kt1 = 0`. -/
example : FloatLike (2 ^ (-53 : ℤ)) ⟨even53, sumEven⟩ ∧ KeepsIntegers even53 ∧
    (∃ lo hi, quantileAtF ⟨even53, sumEven⟩ 1 (valsOn (fun i : Fin 3 => ((i : ℕ) : ℝ)) fun i => (fun _ : Fin 3 => false) i = false) = some hi ∧
      quantileAtF ⟨even53, sumEven⟩ (even53 (1 - 1)) (valsOn (fun i : Fin 3 => ((i : ℕ) : ℝ)) fun i => (fun _ : Fin 3 => false) i = false) = some lo ∧ lo < hi) ∧
    even53 0 = 0 ∧ even53 2 = 2 ∧ even53 (2 - 1) = 2 - 1 := by
  have e0 : even53 0 = 0 := by simpa using even53_int 0 (by norm_num)
  have e1 : even53 1 = 1 := by simpa using even53_int 1 (by norm_num)
  have e2 : even53 2 = 2 := by simpa using even53_int 2 (by norm_num)
  refine ⟨floatEven, keepsEven, ?_, e0, e2, by norm_num [e1]⟩
  have hn : (valsOn (fun i : Fin 3 => ((i : ℕ) : ℝ)) fun i => (fun _ : Fin 3 => false) i = false).length = 3 := by
    unfold valsOn
    rw [List.length_map, Finset.length_toList]
    simp
  have hd : (valsOn (fun i : Fin 3 => ((i : ℕ) : ℝ)) fun i => (fun _ : Fin 3 => false) i = false).Nodup := by
    unfold valsOn
    refine List.Nodup.map ?_ (Finset.nodup_toList _)
    intro i j hij
    have hij' : ((i : ℕ) : ℝ) = ((j : ℕ) : ℝ) := hij
    exact Fin.ext (by exact_mod_cast hij')
  have hv : ∀ w ∈ (valsOn (fun i : Fin 3 => ((i : ℕ) : ℝ)) fun i => (fun _ : Fin 3 => false) i = false), even53 w = w := by
    intro w hw
    obtain ⟨i, -, rfl⟩ := List.mem_map.1 hw
    have := even53_int (i : ℕ) (by rw [abs_of_nonneg (by omega)]; have := i.2; omega)
    simpa using this
  generalize (valsOn (fun i : Fin 3 => ((i : ℕ) : ℝ)) fun i => (fun _ : Fin 3 => false) i = false) = l at hn hd hv
  have hne : l ≠ [] := by rintro rfl; simp at hn
  obtain ⟨i, hi, ei, -, hq, b1, -⟩ := quantileAtF_between (A := ⟨even53, sumEven⟩) keepsEven floatEven.rounds (by norm_num) zero_le_one le_rfl hne (by rw [hn]; norm_num) hv
  obtain ⟨j, lo, ej, -, hq', -, b2⟩ := quantileAtF_between (A := ⟨even53, sumEven⟩) keepsEven floatEven.rounds (by norm_num) le_rfl zero_le_one hne (by rw [hn]; norm_num) hv
  have hi2 : i = 2 := by
    rw [ei, hn]
    norm_num [e2]
    rfl
  have hj : j = 0 := by
    rw [ej, hn]
    norm_num [e0]
  rw [sub_self, e0]
  refine ⟨lo, hi, hq, hq', ?_⟩
  rw [hi2] at b1
  rw [hj, hn] at b2
  have := srt_strict hd (show 1 < 2 by norm_num) (by rw [hn]; norm_num)
  exact (b2.trans_lt this).trans_le b1

end SST.Round
