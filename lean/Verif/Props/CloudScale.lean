import Verif.Proofs.CloudScale

/-!
# Properties C68, C69, C117: scaling the cloud field
-/

namespace SST.Props.CloudScale
open SST SST.Stats SST.Cloud

variable {ι : Type} [Fintype ι]

/-! ## C68 -/

/-- C68: clear cells are exactly 1 and edge cells that are not clear lie in `[1, ktmax]` (or are NaN). -/
theorem C68_clear_edge {f : ι → ℝ} {clear edge : ι → Bool} {ktmean ktmax kt1 mq : ℝ} {g : ι → Option ℝ} (h : scaleLave f clear edge ktmean ktmax kt1 mq = .ok g)
    (hk : 1 ≤ ktmax) (i : ι) :
    (clear i = true → g i = some 1) ∧ (clear i = false → edge i = true → ∀ v, g i = some v → 1 ≤ v ∧ v ≤ ktmax) := by
  obtain ⟨fm, lo, hi, _, _, hb, _, _, rfl⟩ := lave_inv h
  constructor
  · intro hc; simp [hc]
  · intro hc he v hv
    simp only [hc, he, if_true, Bool.false_eq_true, if_false] at hv
    exact laveCe_mem (hb i).1 (hb i).2 hk hv

open Classical in
/-- C68: if the result has no NaN and some cell is neither clear nor edge, the mean is `ktmean` whenever the clear and edge cells
alone total less than that; otherwise the cloud cells lie in `[0, 1]` and the mean is at least `ktmean`. -/
theorem C68_mean {f : ι → ℝ} {clear edge : ι → Bool} {ktmean ktmax kt1 mq : ℝ} {g : ι → Option ℝ} (h : scaleLave f clear edge ktmean ktmax kt1 mq = .ok g)
    (v : ι → ℝ) (hv : ∀ i, g i = some (v i)) (hcloud : ∃ i, clear i = false ∧ edge i = false) :
    ((∑ i ∈ Finset.univ.filter fun i => clear i = true ∨ edge i = true, v i) < Fintype.card ι * ktmean → ∑ i, v i = Fintype.card ι * ktmean) ∧
    (Fintype.card ι * ktmean ≤ (∑ i ∈ Finset.univ.filter fun i => clear i = true ∨ edge i = true, v i) →
      Fintype.card ι * ktmean ≤ ∑ i, v i ∧ ∀ i, clear i = false → edge i = false → 0 ≤ v i ∧ v i ≤ 1) := by
  obtain ⟨fm, lo, hi, _, _, hb, _, _, hg⟩ := lave_inv h
  have hclear : ∀ i, clear i = true → v i = 1 := by
    intro i hc
    have := hv i
    rw [hg] at this
    simp only [hc, if_true, Option.some.injEq] at this
    exact this.symm
  have hedge : ∀ i, edge i = true ∧ clear i = false → laveCe (clouds3 f fm kt1) lo hi ktmax i = some (v i) := by
    rintro i ⟨he, hc⟩
    have := hv i
    rw [hg] at this
    simpa only [hc, he, if_true, Bool.false_eq_true, if_false] using this
  have hos : osum (Finset.univ.filter fun i => edge i = true ∧ clear i = false) (laveCe (clouds3 f fm kt1) lo hi ktmax) =
      some (∑ i ∈ Finset.univ.filter fun i => edge i = true ∧ clear i = false, v i) := by
    unfold osum
    rw [if_pos]
    · congr 1
      apply Finset.sum_congr rfl
      intro i hi'
      rw [hedge i (Finset.mem_filter.1 hi').2]
      rfl
    · intro i hi'
      rw [hedge i (Finset.mem_filter.1 hi').2]
      rfl
  have hsp2 := sum_split2 clear edge v hclear
  have hsp := sum_split clear edge v
  set D : ℝ := (Fintype.card ι : ℝ) * ktmean - (count fun i => clear i = true : ℕ) - ∑ i ∈ Finset.univ.filter fun i => edge i = true ∧ clear i = false, v i with hD
  have hD2 : (∑ i ∈ Finset.univ.filter fun i => clear i = true ∨ edge i = true, v i) = Fintype.card ι * ktmean - D := by rw [hsp2]; linarith
  have hcl : ∀ i, clear i = false → edge i = false → some (v i) = (if 0 < D then (if sumOn (clouds3 f fm kt1) (fun i => clear i = false ∧ edge i = false) / (count fun i => clear i = false ∧ edge i = false : ℕ) = 0 then none
            else some (D / (count fun i => clear i = false ∧ edge i = false : ℕ) / (sumOn (clouds3 f fm kt1) (fun i => clear i = false ∧ edge i = false) / (count fun i => clear i = false ∧ edge i = false : ℕ)) * clouds3 f fm kt1 i))
          else some (clouds3 f fm kt1 i)) := by
    intro i hc he
    rw [← hv i, hg]
    simp only [hc, he, Bool.false_eq_true, if_false]
    rw [hos]
    rfl
  have hcp : (0 : ℝ) < (count fun i => clear i = false ∧ edge i = false : ℕ) := by exact_mod_cast count_pos hcloud
  generalize hC : (((count fun i => clear i = false ∧ edge i = false : ℕ)) : ℝ) = C at *
  generalize hS : sumOn (clouds3 f fm kt1) (fun i => clear i = false ∧ edge i = false) = S at *
  constructor
  · intro hlt
    have hDp : 0 < D := by rw [hD2] at hlt; linarith
    obtain ⟨k, hk1, hk2⟩ := hcloud
    have hS0 : S / C ≠ 0 := by
      intro h0
      have := hcl k hk1 hk2
      rw [if_pos hDp, if_pos h0] at this
      simp at this
    have hcl' : ∀ i, clear i = false → edge i = false → v i = D / C / (S / C) * clouds3 f fm kt1 i := by
      intro i h1 h2
      have := hcl i h1 h2
      rwa [if_pos hDp, if_neg hS0, Option.some.injEq] at this
    have hcs : (∑ i ∈ Finset.univ.filter fun i => clear i = false ∧ edge i = false, v i) = D := by
      rw [Finset.sum_congr rfl (g := fun i => D / C / (S / C) * clouds3 f fm kt1 i)]
      · rw [← Finset.mul_sum]
        have : (∑ i ∈ Finset.univ.filter fun i => clear i = false ∧ edge i = false, clouds3 f fm kt1 i) = S := by
          rw [← hS]; unfold sumOn; congr
        rw [this]
        have hS1 : S ≠ 0 := by intro h0; apply hS0; rw [h0]; simp
        field_simp
      · intro i hi'
        have := (Finset.mem_filter.1 hi').2
        exact hcl' i this.1 this.2
    rw [hsp, hcs, hD2]
    ring
  · intro hge
    have hDn : ¬ 0 < D := by rw [hD2] at hge; linarith
    have hcl' : ∀ i, clear i = false → edge i = false → v i = clouds3 f fm kt1 i := by
      intro i h1 h2
      have := hcl i h1 h2
      rwa [if_neg hDn, Option.some.injEq] at this
    have hmem : ∀ i, clear i = false → edge i = false → 0 ≤ v i ∧ v i ≤ 1 := fun i h1 h2 => by
      rw [hcl' i h1 h2]; exact clouds3_mem f fm kt1 i
    refine ⟨?_, hmem⟩
    have hnn : 0 ≤ ∑ i ∈ Finset.univ.filter fun i => clear i = false ∧ edge i = false, v i :=
      Finset.sum_nonneg fun i hi' => (hmem i (Finset.mem_filter.1 hi').2.1 (Finset.mem_filter.1 hi').2.2).1
    linarith

/-! ## C117 -/

open Classical in
/-- C117, the part that holds: no value is negative, and clear and edge cells are at most `ktmax`. -/
theorem C117_nonneg_partial {f : ι → ℝ} {clear edge : ι → Bool} {ktmean ktmax kt1 mq : ℝ} {g : ι → Option ℝ} (h : scaleLave f clear edge ktmean ktmax kt1 mq = .ok g)
    (hk : 1 ≤ ktmax) (i : ι) (v : ℝ) (hv : g i = some v) : 0 ≤ v ∧ (clear i = true ∨ edge i = true → v ≤ ktmax) := by
  obtain ⟨hc1, hc2⟩ := C68_clear_edge h hk i
  cases hc : clear i with
  | true =>
    rw [hc1 hc, Option.some.injEq] at hv
    subst hv
    exact ⟨zero_le_one, fun _ => hk⟩
  | false =>
    cases he : edge i with
    | true =>
      have := hc2 hc he v hv
      exact ⟨by linarith, fun _ => this.2⟩
    | false =>
      refine ⟨?_, by simp⟩
      obtain ⟨fm, lo, hi, _, _, hb, _, _, hg⟩ := lave_inv h
      rw [hg] at hv
      simp only [hc, he, Bool.false_eq_true, if_false] at hv
      have hm := clouds3_mem f fm kt1 i
      split at hv
      · rw [Option.some.injEq] at hv
        exact hv ▸ hm.1
      · split_ifs at hv with hd h0
        · rw [Option.some.injEq] at hv
          rw [← hv]
          apply mul_nonneg _ hm.1
          apply div_nonneg (div_nonneg hd.le (Nat.cast_nonneg _))
          apply div_nonneg _ (Nat.cast_nonneg _)
          unfold sumOn
          exact Finset.sum_nonneg fun j _ => (clouds3_mem f fm kt1 j).1
        · rw [Option.some.injEq] at hv
          exact hv ▸ hm.1

/-- Two cells of value 0 and 1, both cloudy. -/
noncomputable def two (i : Fin 2) : ℝ := i

theorem two_quantile (q : ℝ) (h0 : 0 < q) (h1 : q < 1) : quantileLin q (valsOn two fun _ => false = false) = some q := by
  rw [quantile_listed two (fun _ => false = false) (s := [0, 1]) (by decide) (by intro i; fin_cases i <;> simp) (by simp) (by simp [two])]
  have hf : ⌊q * (((2 : ℕ) : ℝ) - 1)⌋ = 0 := by rw [Int.floor_eq_iff]; push_cast; constructor <;> linarith
  have hc : ⌈q * (((2 : ℕ) : ℝ) - 1)⌉ = 1 := by rw [Int.ceil_eq_iff]; push_cast; constructor <;> linarith
  simp only [List.length_cons, List.length_nil, Nat.zero_add, Nat.reduceAdd]
  rw [hf, hc]
  norm_num [two]

theorem omax_fin2 (a b : ℝ) (h : b ≤ a) (c : Fin 2 → ℝ) (h0 : c 0 = a) (h1 : c 1 = b) : omax ((vals c).map some) = some a := by
  rw [omax_eq_some, filterMap_map_some]
  refine ⟨h0 ▸ vals_mem c 0, ?_⟩
  intro u hu
  obtain ⟨i, rfl⟩ := mem_vals hu
  fin_cases i
  · exact h0.le
  · exact h1.le.trans h

/-- The result of the original scaling on the two cloudy cells with the default parameters. -/
theorem two_lave (ktmean : ℝ) (hk : 0 < ktmean) : scaleLave two (fun _ => false) (fun _ => false) ktmean 1.4 0.2 0.99 = .ok fun i => some (ktmean * 2 * clouds3 two 0.99 0.2 i / (1 + 19 / 99)) := by
  classical
  have c0 : clouds3 two 0.99 0.2 0 = 1 := by unfold clouds3 two; norm_num
  have c1 : clouds3 two 0.99 0.2 1 = 19 / 99 := by unfold clouds3 two; norm_num
  have hs : sumOn (clouds3 two 0.99 0.2) (fun _ : Fin 2 => True ∧ True) = 1 + 19 / 99 := by
    unfold sumOn; simp [Fin.sum_univ_two, c0, c1]
  have hcnt : (count fun _ : Fin 2 => True ∧ True) = 2 := by unfold count; simp
  have hcnt0 : (count fun _ : Fin 2 => False) = 0 := by unfold count; simp
  unfold scaleLave
  rw [two_quantile 0.99 (by norm_num) (by norm_num)]
  simp only
  rw [if_neg (by norm_num), omax_fin2 1 (19 / 99) (by norm_num) _ c0 c1]
  have hmn : omax ((vals fun i => -clouds3 two 0.99 0.2 i).map some) = some (-(19 / 99)) := by
    rw [omax_eq_some, filterMap_map_some]
    refine ⟨by have := vals_mem (fun i => -clouds3 two 0.99 0.2 i) 1; simp only [c1] at this; exact this, ?_⟩
    intro u hu
    obtain ⟨i, rfl⟩ := mem_vals hu
    fin_cases i
    · change -clouds3 two 0.99 0.2 0 ≤ _; rw [c0]; norm_num
    · change -clouds3 two 0.99 0.2 1 ≤ _; rw [c1]
  rw [hmn]
  simp only [Option.map_some, Bool.false_eq_true, hs, hcnt, hcnt0]
  congr 1
  funext i
  have ho : osum (Finset.univ.filter fun _ : Fin 2 => false = true ∧ false = false) (laveCe (clouds3 two 0.99 0.2) (- -(19 / 99)) 1 1.4) = some 0 := by
    unfold osum; simp
  simp only [if_false]
  simp only [Bool.false_eq_true] at ho
  rw [ho]
  simp only [Option.map_some, Fintype.card_fin]
  rw [if_pos (by push_cast; linarith), if_neg (by norm_num)]
  congr 1
  push_cast
  field_simp
  ring

/-- C117 violated: two cloudy cells of value 0 and 1 with a requested mean of 0.9 and maximum of 1.4: the first cell gets more than
1.5. -/
theorem C117_violated : ∃ g v, scaleLave two (fun _ => false) (fun _ => false) 0.9 1.4 0.2 0.99 = .ok g ∧ g 0 = some v ∧ 1.5 < v := by
  refine ⟨_, _, two_lave 0.9 (by norm_num), rfl, ?_⟩
  have c0 : clouds3 two 0.99 0.2 0 = 1 := by unfold clouds3 two; norm_num
  rw [c0]
  norm_num

/-- The hypotheses of `C68_mean` are met, in the scaling branch. -/
example : ∃ (g : Fin 2 → Option ℝ) (v : Fin 2 → ℝ), scaleLave two (fun _ => false) (fun _ => false) 0.5 1.4 0.2 0.99 = .ok g ∧ (∀ i, g i = some (v i)) ∧ ∃ i : Fin 2, (fun _ => false) i = false ∧ (fun _ => false) i = false :=
  ⟨_, _, two_lave 0.5 (by norm_num), fun _ => rfl, 0, rfl, rfl⟩

/-! ## C69 -/

open Classical in
/-- C69: unless the warning is printed, the mean is exactly `ktmean`. -/
theorem C69_mean {f : ι → ℝ} {clear edge : ι → Bool} {ktmean ktmax kt1 q : ℝ} {flip : Bool} {cs : Option ℝ} {g : ι → ℝ}
    (h : scaleBasic f clear edge ktmean ktmax kt1 q flip cs = .ok (g, false)) : ∑ i, g i = Fintype.card ι * ktmean := by
  obtain ⟨lo, hi, _, _, _, _, _, _, hm⟩ := basic_inv h
  obtain ⟨tgt, h0, h1, ht, hcl⟩ := hm rfl
  have hS : 0 < sumOn (cloudsFr f lo hi flip) (fun i => clear i = false ∧ edge i = false) := h0.trans h1
  rw [sum_split clear edge g]
  have hcs : (∑ i ∈ Finset.univ.filter fun i => clear i = false ∧ edge i = false, g i) = tgt + kt1 * (count fun i => clear i = false ∧ edge i = false : ℕ) := by
    rw [Finset.sum_congr rfl (g := fun i => tgt / sumOn (cloudsFr f lo hi flip) (fun i => clear i = false ∧ edge i = false) * cloudsFr f lo hi flip i + kt1)]
    · rw [Finset.sum_add_distrib, ← Finset.mul_sum, Finset.sum_const, nsmul_eq_mul]
      have : (∑ i ∈ Finset.univ.filter fun i => clear i = false ∧ edge i = false, cloudsFr f lo hi flip i) = sumOn (cloudsFr f lo hi flip) (fun i => clear i = false ∧ edge i = false) := by
        unfold sumOn; congr
      rw [this, div_mul_cancel₀ _ hS.ne']
      have h2 : (Finset.univ.filter fun i => clear i = false ∧ edge i = false).card = count fun i => clear i = false ∧ edge i = false := by
        unfold count; congr
      rw [h2]; ring
    · intro i hi'
      have := (Finset.mem_filter.1 hi').2
      rw [hcl i this.1 this.2]
      ring
  rw [hcs, ht]
  have h3 : ∀ a b c d : ℝ, a = b → a + (c - b - d + d) = c := by intro a b c d h; subst h; ring
  apply h3
  apply Finset.sum_congr _ (fun _ _ => rfl)
  congr

/-- C69: clear cells are exactly 1 without `cs_smoothing`. -/
theorem C69_clear {f : ι → ℝ} {clear edge : ι → Bool} {ktmean ktmax kt1 q : ℝ} {flip : Bool} {g : ι → ℝ} {w : Bool}
    (h : scaleBasic f clear edge ktmean ktmax kt1 q flip none = .ok (g, w)) (i : ι) (hc : clear i = true) : g i = 1 := by
  obtain ⟨lo, hi, _, _, _, h1, _⟩ := basic_inv h
  rw [h1 i hc]
  rfl

/-- C69: as long as no value of the field lies more than one (below) or two (above) inter-quantile ranges outside the quantiles, edges
are in `[1, ktmax]`, clear cells in `[c, 1]` for `cs_smoothing = c`, cloud cells at least `kt1pct`, and at most 1 when the warning is printed or
`1 + kt1pct` otherwise. -/
theorem C69_range_partial {f : ι → ℝ} {clear edge : ι → Bool} {ktmean ktmax kt1 q : ℝ} {flip : Bool} {cs : Option ℝ} {g : ι → ℝ} {w : Bool}
    (h : scaleBasic f clear edge ktmean ktmax kt1 q flip cs = .ok (g, w)) (hk : 1 ≤ ktmax) (hk1 : kt1 ≤ 1) (hq : 1 / 2 ≤ q) (hq1 : q ≤ 1)
    (hin : ∀ i lo hi, quantileLin q (valsOn f fun i => clear i = false) = some hi → quantileLin (1 - q) (valsOn f fun i => clear i = false) = some lo →
      2 * lo - hi ≤ f i ∧ f i ≤ 3 * hi - 2 * lo) (i : ι) :
    (clear i = false → edge i = true → 1 ≤ g i ∧ g i ≤ ktmax) ∧ (clear i = true → ∀ c, cs = some c → c ≤ 1 → c ≤ g i ∧ g i ≤ 1) ∧
    (clear i = false → edge i = false → kt1 ≤ g i ∧ (w = true → g i ≤ 1) ∧ (w = false → g i ≤ 1 + kt1)) := by
  obtain ⟨lo, hi, hne, hqh, hql, h1, h2, h3, h4⟩ := basic_inv h
  have hlt : lo < hi := by
    apply lt_of_le_of_ne _ (Ne.symm hne)
    rw [quantileLin_eq] at hqh hql
    split_ifs at hqh hql with hl
    rw [Option.some.injEq] at hqh hql
    rw [← hqh, ← hql]
    have hlen : (1 : ℝ) ≤ (valsOn f fun i => clear i = false).length := by exact_mod_cast List.length_pos_iff.2 hl
    apply interp_mono hl
    · exact mul_nonneg (by linarith) (by linarith)
    · apply mul_le_mul_of_nonneg_right <;> linarith
    · nlinarith
  have hfr := fun j => cloudsFr_mem (flip := flip) hlt (hin j lo hi hqh hql).1 (hin j lo hi hqh hql).2
  have hf := hfr i
  generalize hx : cloudsFr f lo hi flip i = x at *
  refine ⟨?_, ?_, ?_⟩
  · intro hc he
    rw [h2 i hc he, hx]
    constructor <;> nlinarith
  · intro hc c hcs hc1
    rw [h1 i hc, hcs, hx]
    unfold clearVal
    simp only
    constructor <;> nlinarith
  · intro hc he
    cases w with
    | true =>
      rw [h3 rfl i hc he, hx]
      refine ⟨by nlinarith, fun _ => by nlinarith, by simp⟩
    | false =>
      obtain ⟨tgt, t0, t1, _, t2⟩ := h4 rfl
      rw [t2 i hc he, hx]
      have hS : 0 < sumOn (cloudsFr f lo hi flip) (fun i => clear i = false ∧ edge i = false) := t0.trans t1
      generalize sumOn (cloudsFr f lo hi flip) (fun i => clear i = false ∧ edge i = false) = S at *
      have a0 : 0 ≤ x * tgt / S := div_nonneg (mul_nonneg hf.1 t0.le) hS.le
      have a1 : x * tgt / S ≤ 1 := by rw [div_le_one hS]; nlinarith
      refine ⟨by linarith, by simp, fun _ => by linarith⟩

/-- C69 violated: a non-clear edge cell whose value lies more than two inter-quantile ranges above the upper quantile exceeds `ktmax`. -/
theorem C69_violated_outlier {f : ι → ℝ} {clear edge : ι → Bool} {ktmean ktmax kt1 q lo hi : ℝ} {g : ι → ℝ} {w : Bool}
    (h : scaleBasic f clear edge ktmean ktmax kt1 q false none = .ok (g, w)) (hk : 1 < ktmax)
    (hqh : quantileLin q (valsOn f fun i => clear i = false) = some hi) (hql : quantileLin (1 - q) (valsOn f fun i => clear i = false) = some lo) (hlt : lo < hi)
    (i : ι) (hc : clear i = false) (he : edge i = true) (ho : 3 * hi - 2 * lo < f i) : ktmax < g i := by
  obtain ⟨lo', hi', hne, hqh', hql', _, h2, _⟩ := basic_inv h
  rw [hqh, Option.some.injEq] at hqh'
  rw [hql, Option.some.injEq] at hql'
  subst hqh'; subst hql'
  have hd : 0 < hi - lo := by linarith
  have ha : 3 < (f i - lo) / (hi - lo) := by rw [lt_div_iff₀ hd]; linarith
  have hfr : 1 < cloudsFr f lo hi false i := by
    unfold cloudsFr
    simp only
    rw [if_pos (by linarith : (f i - lo) / (hi - lo) > 1), if_pos (by linarith : 2 - (f i - lo) / (hi - lo) < 0), if_neg (by simp)]
    linarith
  rw [h2 i hc he]
  nlinarith

theorem two_fr : cloudsFr two (1 - 0.999) 0.999 false 0 = 1 / 998 ∧ cloudsFr two (1 - 0.999) 0.999 false 1 = 997 / 998 := by
  unfold cloudsFr two
  norm_num

/-- C69 violated: the comparison meant to keep clouds below 1 does not: two cloudy cells of value 0 and 1, requested mean 0.65, no warning,
second cell above 1.09. -/
theorem C69_violated_above_one : ∃ g, scaleBasic two (fun _ => false) (fun _ => false) 0.65 1.4 0.2 0.999 false none = .ok (g, false) ∧ 1.09 < g 1 := by
  classical
  obtain ⟨f0, f1⟩ := two_fr
  have hs : sumOn (cloudsFr two (1 - 0.999) 0.999 false) (fun _ : Fin 2 => True ∧ True) = 1 := by
    unfold sumOn; simp only [and_self, Finset.filter_true, Fin.sum_univ_two, f0, f1]; norm_num
  have hcnt : (count fun _ : Fin 2 => True ∧ True) = 2 := by unfold count; simp
  have hb : ∑ i, basicBase (cloudsFr two (1 - 0.999) 0.999 false) (fun _ => false) (fun _ => false) 1.4 none i = 0 := by
    simp [basicBase]
  refine ⟨fun i => cloudsFr two (1 - 0.999) 0.999 false i * 0.9 + 0.2, ?_, ?_⟩
  · unfold scaleBasic
    rw [two_quantile 0.999 (by norm_num) (by norm_num), two_quantile (1 - 0.999) (by norm_num) (by norm_num)]
    simp only [hs, hcnt, hb, Fintype.card_fin]
    rw [if_neg (by norm_num), if_pos (by norm_num)]
    congr 2
    funext i
    rw [if_pos (by simp)]
    push_cast
    ring
  · simp only [f1]; norm_num

/-- A field whose largest value is an outlier: 1001 equally spaced values and one far above. -/
noncomputable def spike (i : Fin 1002) : ℝ := if i.val = 1001 then 10000 else i.val

theorem spike_mono : ((List.finRange 1002).map spike).Pairwise (· ≤ ·) := by
  rw [List.pairwise_map]
  apply (List.pairwise_lt_finRange 1002).imp
  intro a b hab
  have hb := b.2
  have hab' : a.val < b.val := hab
  unfold spike
  rw [if_neg (by omega)]
  have : (a.val : ℝ) ≤ b.val := by exact_mod_cast hab'.le
  split_ifs
  · have : (b.val : ℝ) ≤ 1002 := by exact_mod_cast hb.le
    linarith
  · exact this

/-- The hypotheses of `C69_violated_outlier` are met. -/
example : ∃ lo hi, quantileLin 0.999 (valsOn spike fun _ => false = false) = some hi ∧ quantileLin (1 - 0.999) (valsOn spike fun _ => false = false) = some lo ∧ lo < hi ∧
    3 * hi - 2 * lo < spike 1001 := by
  have hq := quantile_listed spike (fun _ => false = false) (s := List.finRange 1002) (List.nodup_finRange _) (by simp) (by simp) spike_mono
  have hget : ∀ k : ℕ, k < 1001 → ((List.finRange 1002).map spike).getD k 0 = k := by
    intro k hk
    rw [List.getD_eq_getElem _ _ (by simp; omega)]
    simp only [List.getElem_map, List.getElem_finRange]
    unfold spike
    simp
    omega
  have f1 : ⌊(0.999 : ℝ) * ((1002 : ℕ) - 1)⌋ = 999 := by rw [Int.floor_eq_iff]; norm_num
  have c1 : ⌈(0.999 : ℝ) * ((1002 : ℕ) - 1)⌉ = 1000 := by rw [Int.ceil_eq_iff]; norm_num
  have f2 : ⌊(1 - 0.999 : ℝ) * ((1002 : ℕ) - 1)⌋ = 1 := by rw [Int.floor_eq_iff]; norm_num
  have c2 : ⌈(1 - 0.999 : ℝ) * ((1002 : ℕ) - 1)⌉ = 2 := by rw [Int.ceil_eq_iff]; norm_num
  have h1 := hq 0.999
  have h2 := hq (1 - 0.999)
  rw [List.length_finRange, f1, c1] at h1
  rw [List.length_finRange, f2, c2] at h2
  rw [show (999 : ℤ).toNat = 999 from rfl, show (1000 : ℤ).toNat = 1000 from rfl, hget 999 (by norm_num), hget 1000 (by norm_num)] at h1
  rw [show (1 : ℤ).toNat = 1 from rfl, show (2 : ℤ).toNat = 2 from rfl, hget 1 (by norm_num), hget 2 (by norm_num)] at h2
  refine ⟨_, _, h1, h2, by norm_num, ?_⟩
  have : spike 1001 = 10000 := by unfold spike; rw [if_pos (by decide)]
  rw [this]
  norm_num

end SST.Props.CloudScale
