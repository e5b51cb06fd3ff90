import Verif.Model.RoundLave
import Verif.Props.RoundQuantile
import Verif.Proofs.CloudMask
import Verif.Proofs.CloudScale

/-!
# Property C287: range and order of a cloud field scaled with rounding
-/

namespace SST.Round
open SST SST.Stats SST.Cloud

variable {u : ℝ} {A : Arith} {ι : Type} [Fintype ι]

private theorem fl0 (hk : KeepsIntegers A.fl) : A.fl 0 = 0 := by simpa using hk.int 0 (by norm_num)
private theorem fl1 (hk : KeepsIntegers A.fl) : A.fl 1 = 1 := by simpa using hk.int 1 (by norm_num)
private theorem fl_nonneg (hk : KeepsIntegers A.fl) {x : ℝ} (hx : 0 ≤ x) : 0 ≤ A.fl x := by
  have := hk.mono hx
  rwa [fl0 hk] at this
private theorem fl_le_one (hk : KeepsIntegers A.fl) {x : ℝ} (hx : x ≤ 1) : A.fl x ≤ 1 := by
  have := hk.mono hx
  rwa [fl1 hk] at this

private theorem c3_anti (hk : KeepsIntegers A.fl) {f : ι → ℝ} {fm kt1 : ℝ} (hm : 0 < fm) (h1 : kt1 ≤ 1) {i j : ι} (hij : f i ≤ f j) : clouds3F A f fm kt1 j ≤ clouds3F A f fm kt1 i := by
  have g : 0 ≤ A.fl (1 - kt1) := fl_nonneg hk (by linarith)
  unfold clouds3F
  refine max_le_max le_rfl (min_le_min le_rfl (hk.mono ?_))
  have a := hk.mono (mul_le_mul_of_nonneg_right hij g)
  have b := hk.mono (div_le_div_of_nonneg_right a hm.le)
  linarith

private theorem c3_mem (f : ι → ℝ) (fm kt1 : ℝ) (i : ι) : 0 ≤ clouds3F A f fm kt1 i ∧ clouds3F A f fm kt1 i ≤ 1 :=
  ⟨le_max_left _ _, max_le zero_le_one (min_le_left _ _)⟩

private theorem sub_pos_fl (hr : RoundsTo u A.fl) (hu : u < 1) {x : ℝ} (hx : 0 < x) : 0 < A.fl x := by
  have := hr x
  rw [abs_of_pos hx] at this
  have := (abs_le.1 this).1
  nlinarith

private theorem ce_mono (hk : KeepsIntegers A.fl) {c3 : ι → ℝ} {lo hi ktmax : ℝ} (hl : lo ≤ hi) (ht : 1 ≤ ktmax) {i j : ι} (hij : c3 i ≤ c3 j) {a b : ℝ} (ha : laveCeF A c3 lo hi ktmax i = some a)
    (hb : laveCeF A c3 lo hi ktmax j = some b) : a ≤ b := by
  unfold laveCeF at ha hb
  split_ifs at ha hb with he
  rw [Option.some.injEq] at ha hb
  subst ha hb
  have d0 : 0 ≤ A.fl (hi - lo) := fl_nonneg hk (by linarith)
  have k0 : 0 ≤ A.fl (ktmax - 1) := fl_nonneg hk (by linarith)
  have s1 := hk.mono (sub_le_sub_right hij lo)
  have s2 := hk.mono (div_le_div_of_nonneg_right s1 d0)
  have s3 := hk.mono (mul_le_mul_of_nonneg_right s2 k0)
  exact hk.mono (by linarith)

private theorem ce_lo (hk : KeepsIntegers A.fl) {c3 : ι → ℝ} {lo hi ktmax : ℝ} {i : ι} (hi' : c3 i = lo) {a : ℝ} (ha : laveCeF A c3 lo hi ktmax i = some a) : a = 1 := by
  unfold laveCeF at ha
  split_ifs at ha with he
  rw [Option.some.injEq, hi', sub_self, fl0 hk, zero_div, fl0 hk, zero_mul, fl0 hk, add_zero, fl1 hk] at ha
  exact ha.symm

private theorem ce_hi (hk : KeepsIntegers A.fl) (hr : RoundsTo u A.fl) (hu : u < 1) {c3 : ι → ℝ} {lo hi ktmax : ℝ} (hl : lo ≤ hi) (k1 : A.fl ktmax = ktmax) (k2 : A.fl (ktmax - 1) = ktmax - 1) {i : ι}
    (hi' : c3 i = hi) {a : ℝ} (ha : laveCeF A c3 lo hi ktmax i = some a) : a = ktmax := by
  unfold laveCeF at ha
  split_ifs at ha with he
  have hp : 0 < A.fl (hi - lo) := sub_pos_fl hr hu (sub_pos.2 (lt_of_le_of_ne hl (Ne.symm he)))
  rw [Option.some.injEq, hi', div_self hp.ne', fl1 hk, k2, one_mul, k2, add_sub_cancel, k1] at ha
  exact ha.symm

/-- C287: a field of positive values with a cloudy cell is scaled without an error. Clear cells are exactly 1. At the edges either
all values are NaN or all lie in `[1, ktmax]`, with exactly `ktmax` where the field is lowest and exactly 1 where it is highest. In
the cloudy cells either all values are NaN or all are at least 0. Where the field is higher the result is not higher. -/
theorem C287_scaled (h : FloatLike u A) (hu : u ≤ 1 / 8) (hk : KeepsIntegers A.fl) (f : ι → ℝ) (hf : ∀ i, 0 < f i) (hv : ∀ i, A.fl (f i) = f i) (hn : Fintype.card ι ≤ 2 ^ 53) (clear edge : ι → Bool)
    (hc : ∃ i, clear i = false) (ktmean ktmax kt1 q : ℝ) (q0 : 0 ≤ q) (q1 : q ≤ 1) (h1 : kt1 ≤ 1) (ht : 1 ≤ ktmax) (k1 : A.fl ktmax = ktmax) (k2 : A.fl (ktmax - 1) = ktmax - 1) :
    ∃ out, scaleLaveF A f clear edge ktmean ktmax kt1 q = .ok out ∧
      (∀ i, clear i = true → out i = some 1) ∧
      ((∀ i, clear i = false → edge i = true → out i = none) ∨ ∀ i, clear i = false → edge i = true → ∃ v, out i = some v ∧ 1 ≤ v ∧ v ≤ ktmax ∧
        ((∀ j, f i ≤ f j) → v = ktmax) ∧ ((∀ j, f j ≤ f i) → v = 1)) ∧
      ((∀ i, clear i = false → edge i = false → out i = none) ∨ ∀ i, clear i = false → edge i = false → ∃ v, out i = some v ∧ 0 ≤ v) ∧
      ∀ i j a b, clear i = false → clear j = false → edge i = edge j → f i ≤ f j → out i = some a → out j = some b → b ≤ a := by
  classical
  obtain ⟨c0, hc0⟩ := hc
  have u1 : u < 1 := by linarith
  have hne : valsOn f (fun i => clear i = false) ≠ [] := by
    have hm : f c0 ∈ valsOn f (fun i => clear i = false) := List.mem_map.2 ⟨c0, by simp [hc0], rfl⟩
    exact List.ne_nil_of_mem hm
  have hmem : ∀ w ∈ valsOn f (fun i => clear i = false), ∃ i, f i = w := by
    intro w hw
    obtain ⟨i, -, rfl⟩ := List.mem_map.1 hw
    exact ⟨i, rfl⟩
  have hlen : (valsOn f (fun i => clear i = false)).length ≤ 2 ^ 53 := by
    unfold valsOn
    rw [List.length_map, Finset.length_toList]
    exact (Finset.card_le_univ _).trans hn
  obtain ⟨fm, hq, ⟨w, hw, hwm⟩, -⟩ := quantileAtF_range hk h.rounds hu q0 q1 hne hlen (fun w hw => by obtain ⟨i, rfl⟩ := hmem w hw; exact hv i)
  obtain ⟨i0, rfl⟩ := hmem w hw
  have fmp : 0 < fm := (hf i0).trans_le hwm
  have anti : ∀ i j, f i ≤ f j → clouds3F A f fm kt1 j ≤ clouds3F A f fm kt1 i := fun i j hij => c3_anti hk fmp h1 hij
  have mem := c3_mem (A := A) f fm kt1
  unfold scaleLaveF
  rw [hq]
  simp only
  rw [if_neg fmp.ne']
  generalize clouds3F A f fm kt1 = c3 at anti mem
  have : Nonempty ι := ⟨c0⟩
  cases hmx : omax ((vals c3).map some) with
  | none =>
    rw [omax_eq_none, filterMap_map_some] at hmx
    exact absurd hmx (vals_ne_nil c3)
  | some hi =>
    cases hmn : omax ((vals fun i => -c3 i).map some) with
    | none =>
      rw [omax_eq_none, filterMap_map_some] at hmn
      exact absurd hmn (vals_ne_nil _)
    | some lo' =>
      simp only [Option.map_some]
      rw [omax_eq_some, filterMap_map_some] at hmx hmn
      have le_hi : ∀ i, c3 i ≤ hi := fun i => hmx.2 _ (vals_mem _ i)
      have lo_le : ∀ i, -lo' ≤ c3 i := fun i => by have := hmn.2 _ (vals_mem _ i); linarith
      obtain ⟨a, ha⟩ := mem_vals hmx.1
      obtain ⟨b, hb⟩ := mem_vals hmn.1
      generalize hlo : -lo' = lo at lo_le
      have hb : c3 b = lo := by linarith
      have hl : lo ≤ hi := (lo_le a).trans (le_hi a)
      refine ⟨_, rfl, ?_, ?_, ?_, ?_⟩
      · intro i hi
        simp [hi]
      · by_cases he : hi = lo
        · left
          intro i h1 h2
          simp [h1, h2, laveCeF, he]
        · right
          intro i h1 h2
          have cs : ∀ j, ∃ v, laveCeF A c3 lo hi ktmax j = some v := fun j => by unfold laveCeF; rw [if_neg he]; exact ⟨_, rfl⟩
          obtain ⟨v, hvv⟩ := cs i
          obtain ⟨va, hva⟩ := cs a
          obtain ⟨vb, hvb⟩ := cs b
          refine ⟨v, by simp [h1, h2, hvv], ?_, ?_, ?_, ?_⟩
          · rw [← ce_lo hk hb hvb]; exact ce_mono hk hl ht (hb ▸ lo_le i) hvb hvv
          · rw [← ce_hi hk h.rounds u1 hl k1 k2 ha hva]; exact ce_mono hk hl ht (ha ▸ le_hi i) hvv hva
          · intro hmin
            exact ce_hi hk h.rounds u1 hl k1 k2 (le_antisymm (le_hi i) (ha ▸ anti i a (hmin a))) hvv
          · intro hmax
            exact ce_lo hk (le_antisymm (hb ▸ anti b i (hmax b)) (lo_le i)) hvv
      all_goals
        have cur0 : 0 ≤ A.fl (A.sum (valsOn c3 fun i => clear i = false ∧ edge i = false) / (count fun i => clear i = false ∧ edge i = false : ℕ)) := by
          refine fl_nonneg hk (div_nonneg ?_ (by positivity))
          by_cases e : valsOn c3 (fun i => clear i = false ∧ edge i = false) = []
          · rw [e, h.empty]
          · have pos : ∀ x ∈ valsOn c3 (fun i => clear i = false ∧ edge i = false), 0 ≤ x := by
              intro x hx
              obtain ⟨i, -, rfl⟩ := List.mem_map.1 hx
              exact (mem i).1
            exact ((h.sums _ e).near h.rounds h.lt_one pos).nonneg h.lt_one (List.sum_nonneg pos)
        have fac : ∀ d : ℝ, 0 < d → 0 ≤ A.fl (A.fl (d / (count fun i => clear i = false ∧ edge i = false : ℕ)) /
            A.fl (A.sum (valsOn c3 fun i => clear i = false ∧ edge i = false) / (count fun i => clear i = false ∧ edge i = false : ℕ))) :=
          fun d hd => fl_nonneg hk (div_nonneg (fl_nonneg hk (div_nonneg hd.le (by positivity))) cur0)
        generalize A.fl (A.sum (valsOn c3 fun i => clear i = false ∧ edge i = false) / (count fun i => clear i = false ∧ edge i = false : ℕ)) = cur at cur0 fac
        generalize diffSumF A (laveCeF A c3 lo hi ktmax) clear edge ktmean = ds
      · rcases ds with _ | d
        · right
          intro i h1 h2
          exact ⟨c3 i, by simp [h1, h2], (mem i).1⟩
        · by_cases hd : 0 < d
          · by_cases hcur : cur = 0
            · left
              intro i h1 h2
              simp [h1, h2, hd, hcur]
            · right
              intro i h1 h2
              exact ⟨_, by simp only [h1, h2, hd, hcur, if_true, if_false, Bool.false_eq_true], fl_nonneg hk (mul_nonneg (fac d hd) (mem i).1)⟩
          · right
            intro i h1 h2
            exact ⟨c3 i, by simp [h1, h2, hd], (mem i).1⟩
      · intro i j a b h1 h2 he hij hia hjb
        have hc3 := anti i j hij
        cases hej : edge j with
        | true =>
          rw [hej] at he
          simp only [h1, he, if_true, if_false, Bool.false_eq_true] at hia
          simp only [h2, hej, if_true, if_false, Bool.false_eq_true] at hjb
          exact ce_mono hk hl ht hc3 hjb hia
        | false =>
          rw [hej] at he
          simp only [h1, he, if_false, Bool.false_eq_true] at hia
          simp only [h2, hej, if_false, Bool.false_eq_true] at hjb
          rcases ds with _ | d
          · simp only [Option.some.injEq] at hia hjb
            linarith
          · by_cases hd : 0 < d
            · by_cases hcur : cur = 0
              · simp [hd, hcur] at hia
              · simp only [hd, hcur, if_true, if_false, Option.some.injEq] at hia hjb
                rw [← hia, ← hjb]
                exact hk.mono (mul_le_mul_of_nonneg_left hc3 (fac d hd))
            · simp only [hd, if_false, Option.some.injEq] at hia hjb
              linarith

/-- The hypotheses hold in a concrete case: float64, four cells with the values 1 to 4, the first of them clear, `ktmax = 2`. -/
example : FloatLike (2 ^ (-53 : ℤ)) ⟨even53, sumEven⟩ ∧ (2 : ℝ) ^ (-53 : ℤ) ≤ 1 / 8 ∧ KeepsIntegers even53 ∧ (∀ i : Fin 4, (0 : ℝ) < (i : ℕ) + 1) ∧
    (∀ i : Fin 4, even53 ((i : ℕ) + 1) = (i : ℕ) + 1) ∧ (∃ i : Fin 4, (decide (i = 0)) = false) ∧ even53 2 = 2 ∧ even53 (2 - 1) = 2 - 1 := by
  refine ⟨floatEven, by norm_num, keepsEven, fun i => by positivity, ?_, ⟨1, by decide⟩, ?_, ?_⟩
  · intro i
    have := even53_int ((i : ℕ) + 1) (by rw [abs_of_nonneg (by omega)]; have := i.2; omega)
    simpa using this
  · simpa using even53_int 2 (by norm_num)
  · have := even53_int 1 (by norm_num)
    norm_num at this ⊢
    exact this

end SST.Round
