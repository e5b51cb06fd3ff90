import Verif.Model.Filters
import Verif.Proofs.TfMore
import Verif.Proofs.TfAvg
import Verif.Proofs.TfInterp

/-! # Helper lemmas: plants and CAM filters -/

namespace SST.Filters
open SST SST.Dft SST.Tf SST.Corr SST.Spatial

/-! ## Folds over the sites -/

theorem fold_length (F : ℝ → ℝ → ℝ → ℝ) (xs cs pl : List ℝ) (h : pl.length = xs.length) :
    (cs.foldl (fun pl c => List.zipWith (F c) xs pl) pl).length = xs.length := by
  induction cs generalizing pl with
  | nil => exact h
  | cons c cs ih => rw [List.foldl_cons]; apply ih; simp [h]

theorem fold_get (F : ℝ → ℝ → ℝ → ℝ) (xs cs pl : List ℝ) (i : ℕ) (x p : ℝ) (hx : xs[i]? = some x) (hp : pl[i]? = some p) :
    (cs.foldl (fun pl c => List.zipWith (F c) xs pl) pl)[i]? = some (cs.foldl (fun p c => F c x p) p) := by
  induction cs generalizing pl p with
  | nil => exact hp
  | cons c cs ih =>
    rw [List.foldl_cons, List.foldl_cons]
    apply ih
    rw [List.getElem?_zipWith, hx, hp]

open Classical in
theorem fold_cover (Q : ℝ → Prop) (cs : List ℝ) (p : ℝ) :
    cs.foldl (fun p c => if Q c then 1 else p) p = if ∃ c ∈ cs, Q c then 1 else p := by
  induction cs generalizing p with
  | nil => simp
  | cons c cs ih =>
    rw [List.foldl_cons, ih]
    by_cases h1 : ∃ c ∈ cs, Q c
    · rw [if_pos h1, if_pos]
      obtain ⟨d, hd, hq⟩ := h1
      exact ⟨d, by simp [hd], hq⟩
    · rw [if_neg h1]
      by_cases h2 : Q c
      · rw [if_pos h2, if_pos ⟨c, by simp, h2⟩]
      · rw [if_neg h2, if_neg]
        rintro ⟨d, hd, hq⟩
        rcases List.mem_cons.1 hd with rfl | hd
        · exact h2 hq
        · exact h1 ⟨d, hd, hq⟩

theorem fold_add (g : ℝ → ℝ) (cs : List ℝ) (p : ℝ) : cs.foldl (fun p c => p + g c) p = p + (cs.map g).sum := by
  induction cs generalizing p with
  | nil => simp
  | cons c cs ih => rw [List.foldl_cons, ih]; simp; ring

open Classical in
theorem fold_last (Q : ℝ → Prop) (g : ℝ → ℝ) (cs : List ℝ) (p : ℝ) :
    (∀ pre c post, cs = pre ++ c :: post → Q c → (∀ d ∈ post, ¬ Q d) → cs.foldl (fun p c => if Q c then g c else p) p = g c) ∧
    ((∀ c ∈ cs, ¬ Q c) → cs.foldl (fun p c => if Q c then g c else p) p = p) := by
  have h2 : ∀ (cs : List ℝ) (p : ℝ), (∀ c ∈ cs, ¬ Q c) → cs.foldl (fun p c => if Q c then g c else p) p = p := by
    intro cs
    induction cs with
    | nil => intro p _; rfl
    | cons c cs ih =>
      intro p h
      rw [List.foldl_cons, if_neg (h c (by simp))]
      exact ih p (fun d hd => h d (by simp [hd]))
  refine ⟨?_, h2 cs p⟩
  rintro pre c post rfl hc hpost
  rw [List.foldl_append, List.foldl_cons, if_pos hc]
  exact h2 post _ hpost

/-! ## The grid -/

theorem xVec_get (xmax dx : ℝ) (i : ℕ) (x : ℝ) : (xVec xmax dx)[i]? = some x ↔
    i < (xVec xmax dx).length ∧ x = (⌊-xmax / 2⌋ : ℝ) + i * dx := by
  unfold xVec arange
  rw [List.getElem?_map]
  simp only [List.length_map, List.length_range]
  constructor
  · intro h
    obtain ⟨j, hj, rfl⟩ := Option.map_eq_some_iff.1 h
    have := List.getElem?_eq_some_iff.1 hj
    obtain ⟨h1, h2⟩ := this
    simp at h1 h2
    subst h2
    exact ⟨by omega, rfl⟩
  · rintro ⟨h1, rfl⟩
    rw [List.getElem?_range h1]; rfl

theorem xVec_centred (M : ℤ) (N : ℕ) (dx : ℝ) (hdx : 0 < dx) (h : 2 * (M : ℝ) = N * dx) :
    xVec (2 * M) dx = (List.range N).map fun (j : ℕ) => -((N : ℝ) * dx / 2) + j * dx := by
  unfold xVec arange
  have h1 : ⌊-(2 * (M : ℝ)) / 2⌋ = -M := by
    rw [show -(2 * (M : ℝ)) / 2 = ((-M : ℤ) : ℝ) by push_cast; ring, Int.floor_intCast]
  have h2 : ⌊2 * (M : ℝ) / 2⌋ = M := by
    rw [show 2 * (M : ℝ) / 2 = ((M : ℤ) : ℝ) by ring, Int.floor_intCast]
  rw [h1, h2]
  have h3 : (((M : ℤ) : ℝ) - ((-M : ℤ) : ℝ)) / dx = (N : ℝ) := by
    rw [div_eq_iff hdx.ne']; push_cast; linarith
  rw [h3, Int.ceil_natCast, Int.toNat_natCast]
  apply List.map_congr_left
  intro j _
  push_cast
  linarith

/-! ## The CAM filter -/

theorem foldl_min_le (l : List ℝ) (a : ℝ) : l.foldl min a ≤ a ∧ ∀ v ∈ l, l.foldl min a ≤ v := by
  induction l generalizing a with
  | nil => simp
  | cons b l ih =>
    rw [List.foldl_cons]
    obtain ⟨h1, h2⟩ := ih (min a b)
    refine ⟨h1.trans (min_le_left _ _), ?_⟩
    intro v hv
    rcases List.mem_cons.1 hv with rfl | hv
    · exact h1.trans (min_le_right _ _)
    · exact h2 v hv

theorem foldl_min_eq (l : List ℝ) (a : ℝ) (h : ∀ v ∈ l, a ≤ v) : l.foldl min a = a := by
  induction l with
  | nil => rfl
  | cons b l ih =>
    rw [List.foldl_cons, min_eq_left (h b (by simp))]
    exact ih (fun v hv => h v (by simp [hv]))

/-- Normalised transform of a plant. -/
noncomputable def plantSpec (plant : List ℝ) (k : ℤ) : ℂ :=
  ∑ j ∈ Finset.range plant.length, ((at0 plant j / plant.sum : ℝ) : ℂ) * twiddle plant.length (j * k)

theorem plantSpec_fft (plant : List ℝ) {k : ℕ} (hk : k < plant.length) :
    (fft (plant.map fun (v : ℝ) => ((v / plant.sum : ℝ) : ℂ)))[k]? = some (plantSpec plant k) := by
  unfold fft plantSpec
  rw [List.getElem?_map]
  simp only [List.length_map, List.getElem?_range hk, Option.map_some, Option.some.injEq]
  apply Finset.sum_congr rfl
  intro j hj
  rw [Finset.mem_range] at hj
  rw [at0_of_lt (by simpa using hj), at0_of_lt hj]
  simp

theorem plantSpec_neg (plant : List ℝ) (k : ℤ) : plantSpec plant (-k) = (starRingEnd ℂ) (plantSpec plant k) := by
  unfold plantSpec
  rw [map_sum]
  apply Finset.sum_congr rfl
  intro j _
  rw [map_mul, Complex.conj_ofReal, ← twiddle_neg]
  congr 2; ring

theorem plantSpec_period (plant : List ℝ) (k l : ℤ) (h : (plant.length : ℤ) ∣ k - l) : plantSpec plant k = plantSpec plant l := by
  unfold plantSpec
  apply Finset.sum_congr rfl
  intro j hj
  have : 0 < plant.length := by rw [Finset.mem_range] at hj; omega
  rw [twiddle_period plant.length this (j * k) (j * l)]
  rw [← mul_sub]; exact Dvd.dvd.mul_left h _

theorem binNumber_dvd (n k : ℕ) : (n : ℤ) ∣ (k : ℤ) - binNumber n k := by
  unfold binNumber; split_ifs <;> simp

theorem plantSpec_zero (plant : List ℝ) (h : plant.sum ≠ 0) : plantSpec plant 0 = 1 := by
  unfold plantSpec
  simp only [mul_zero, twiddle_zero, mul_one]
  rw [← Complex.ofReal_sum]
  have : ∑ j ∈ Finset.range plant.length, at0 plant j / plant.sum = 1 := by
    rw [← Finset.sum_div]
    have : ∑ j ∈ Finset.range plant.length, at0 plant j = plant.sum := by
      rw [← sum_ext]; exact Finset.sum_congr rfl fun j _ => by rw [at0_ext]
    rw [this, div_self h]
  rw [this]; simp

theorem at0_nonneg {plant : List ℝ} (h : ∀ v ∈ plant, 0 ≤ v) (j : ℕ) : 0 ≤ at0 plant j := by
  by_cases hj : j < plant.length
  · rw [at0_of_lt hj]; exact h _ (List.getElem_mem hj)
  · rw [at0_of_ge (by omega)]

theorem plantSpec_norm (plant : List ℝ) (h : ∀ v ∈ plant, 0 ≤ v) (hs : plant.sum ≠ 0) (k : ℤ) : ‖plantSpec plant k‖ ≤ 1 := by
  have hpos : 0 ≤ plant.sum := List.sum_nonneg h
  have h1 : ‖plantSpec plant k‖ ≤ ∑ j ∈ Finset.range plant.length, at0 plant j / plant.sum := by
    unfold plantSpec
    refine (norm_sum_le _ _).trans (Finset.sum_le_sum ?_)
    intro j _
    rw [norm_mul, norm_twiddle, mul_one, Complex.norm_real, Real.norm_of_nonneg (div_nonneg (at0_nonneg h j) hpos)]
  have : ∑ j ∈ Finset.range plant.length, at0 plant j = plant.sum := by
    rw [← sum_ext]; exact Finset.sum_congr rfl fun j _ => by rw [at0_ext]
  rw [← Finset.sum_div, this, div_self hs] at h1
  exact h1

/-- The smallest coordinate of a nonempty grid. -/
noncomputable def minOf (xs : List ℝ) : ℝ := xs.tail.foldl min (xs.headD 0)

/-- The filter in closed form: bin `k` of the CAM filter. -/
theorem camfilter_eq {plant xs : List ℝ} {V : ℝ} (h : 2 ≤ xs.length) :
    camfilter plant xs V = .ok ((List.range plant.length).map fun (k : ℕ) =>
      ((binNumber plant.length k : ℝ) / (plant.length * ((at0 xs 1 - at0 xs 0) / |V|)),
        if plant.sum = 0 then none else
          some (shiftPhase V (minOf xs / V) ((binNumber plant.length k : ℝ) / (plant.length * ((at0 xs 1 - at0 xs 0) / |V|)))
            (plantSpec plant k)))) := by
  match xs, h with
  | x0 :: x1 :: rest, _ =>
    unfold camfilter
    simp only [at0, minOf, List.getElem?_cons_zero, List.getElem?_cons_succ, Option.getD_some, List.tail_cons, List.headD_cons]
    congr 1
    apply List.ext_getElem?
    intro k
    rw [List.getElem?_zipWith, List.getElem?_map]
    by_cases hk : k < plant.length
    · rw [plantSpec_fft plant hk]
      simp [fftfreq, hk]
    · have h1 : (fftfreq plant.length ((x1 - x0) / |V|))[k]? = none := by
        rw [List.getElem?_eq_none_iff]; simp [fftfreq]; omega
      have h2 : (List.range plant.length)[k]? = none := by
        rw [List.getElem?_eq_none_iff]; simp; omega
      rw [h1, h2]; rfl

end SST.Filters
