import Verif.Spec.Robust
import Verif.Props.Reassign

/-!
# Properties C200-C202: inexact delays and inexact cloud vectors

Specifications: `Spec/Robust.lean`, `Spec/Reassign.lean`.
-/

namespace SST.Props.Robust
open SST SST.Field SST.Spec SST.Spatial SST.Props.Reassign

section
variable {ι : Type}

private theorem measured_eq [DecidableEq ι] {pts : List (ι × Vec)} (hn : (pts.map Prod.fst).Nodup) {V : Vec} {τ : ι → ℝ}
    {c : CloudCase} (h : MeasuredCase (pts.map Prod.fst) V τ c) :
    ∃ γ : ι → Option ℝ, c = ⟨V, pts.map fun p => some (τ p.1), pts.map fun p => γ p.1⟩ := by
  obtain ⟨v, d, co⟩ := c
  obtain ⟨rfl, h2, h3⟩ := h
  simp only at h2 h3
  obtain ⟨γ, rfl⟩ := exists_fn _ hn co h3
  refine ⟨γ, ?_⟩
  subst h2
  simp [Function.comp_def]

theorem meanOver_add (S : List ι) (g h : ι → ℝ) : meanOver S (fun l => g l + h l) = meanOver S g + meanOver S h := by
  have : (S.map fun l => g l + h l).sum = (S.map g).sum + (S.map h).sum := by
    induction S with
    | nil => simp
    | cons a S ih => simp only [List.map_cons, List.sum_cons, ih]; ring
  unfold meanOver
  rw [this, add_div]

theorem meanOver_smul (S : List ι) (g : ι → ℝ) (k : ℝ) : meanOver S (fun l => k * g l) = k * meanOver S g := by
  have : (S.map fun l => k * g l).sum = k * (S.map g).sum := by
    induction S with
    | nil => simp
    | cons a S ih => simp only [List.map_cons, List.sum_cons, ih]; ring
  unfold meanOver
  rw [this, mul_div_assoc]

theorem meanOver_const (S : List ι) (hS : S ≠ []) (k : ℝ) : meanOver S (fun _ => k) = k := by
  unfold meanOver
  have : (S.length : ℝ) ≠ 0 := by simpa using hS
  simp only [List.map_const', List.sum_replicate, nsmul_eq_mul]
  field_simp

theorem meanOver_congr {S : List ι} {g h : ι → ℝ} (e : ∀ l ∈ S, g l = h l) : meanOver S g = meanOver S h := by
  unfold meanOver
  rw [List.map_congr_left e]

theorem meanOver_abs_le (S : List ι) (g : ι → ℝ) (ε : ℝ) (hε : 0 ≤ ε) (h : ∀ l ∈ S, |g l| ≤ ε) : |meanOver S g| ≤ ε := by
  unfold meanOver
  by_cases hS : S = []
  · subst hS; simpa using hε
  have hl : (0 : ℝ) < S.length := by
    have := List.length_pos_iff.2 hS
    exact_mod_cast this
  have hsum : ∀ S : List ι, (∀ l ∈ S, |g l| ≤ ε) → |(S.map g).sum| ≤ S.length * ε := by
    intro S h
    induction S with
    | nil => simp
    | cons a S ih =>
      rw [List.map_cons, List.sum_cons]
      have h1 := ih fun l hl => h l (List.mem_cons_of_mem _ hl)
      have h2 := h a List.mem_cons_self
      have := abs_add_le (g a) (S.map g).sum
      push_cast [List.length_cons]
      linarith
  rw [abs_div, abs_of_pos hl, div_le_iff₀ hl]
  linarith [hsum S h]

private theorem err_mean (R : ι → Vec) (r V : Vec) (hV : V ≠ 0) (τ : ι → ℝ) (γ : ι → Option ℝ) (ix : List ι) (hne : ix ≠ []) :
    meanO (ix.filterMap fun l => (siteRow r V (some (τ l)) (γ l) (R l)).errorDist) =
      some (meanOver ix (fun l => -τ l * normSq V - along (r - R l) V) / magnitude V) := by
  have hm := magnitude_pos hV
  have hs : magnitude V ^ 2 = normSq V := magnitude_sq V
  have e : (fun l => (siteRow r V (some (τ l)) (γ l) (R l)).errorDist) =
      some ∘ fun l => (1 / magnitude V) * (-τ l * normSq V - along (r - R l) V) := by
    funext l
    simp only [siteRow, Option.map_some, Function.comp, along, Prod.fst_sub, Prod.snd_sub, Option.some.injEq, ← hs]
    field_simp
  rw [e, List.filterMap_eq_map]
  have h2 : ix.map (fun l => (1 / magnitude V) * (-τ l * normSq V - along (r - R l) V)) ≠ [] := by simpa using hne
  unfold meanO mean
  rw [if_neg h2]
  have := meanOver_smul ix (fun l => -τ l * normSq V - along (r - R l) V) (1 / magnitude V)
  rw [List.length_map]
  unfold meanOver at this ⊢
  rw [this]
  congr 1
  ring

/-- The prediction from any finite delays. -/
private theorem predict_measured [DecidableEq ι] {sort : SortValues ι} (hs : IsSortValues sort) (pts : List (ι × Vec))
    (hn : (pts.map Prod.fst).Nodup) (ref : ι) (href : ref ∈ pts.map Prod.fst) (mode : String)
    (hm : mode ∈ ["coherence", "preavg", "global_coherence", "distance", "all"]) (n : ℤ) (V1 V2 : Vec)
    (hX : V1.1 * V2.2 - V1.2 * V2.1 ≠ 0) (τ1 τ2 : ι → ℝ) (c1 c2 : CloudCase) (h1 : MeasuredCase (pts.map Prod.fst) V1 τ1 c1)
    (h2 : MeasuredCase (pts.map Prod.fst) V2 τ2 c2) :
    ∃ pos s1 s2, predictedPosition sort pts false ref mode n c1 c2 = .ok (pos, s1, s2) ∧
      (mode ∉ ["coherence", "preavg"] → s1.map Prod.fst = s2.map Prod.fst) ∧ (mode = "all" → s1.map Prod.fst = pts.map Prod.fst) ∧
      (∀ l ∈ s1.map Prod.fst, l ∈ pts.map Prod.fst) ∧ (∀ l ∈ s2.map Prod.fst, l ∈ pts.map Prod.fst) ∧
      ∀ seen1 seen2 : ℝ,
      seen1 = meanOver (s1.map Prod.fst) (fun l => -τ1 l * normSq V1 - along (posOf pts ref - posOf pts l) V1) →
      seen2 = meanOver (s2.map Prod.fst) (fun l => -τ2 l * normSq V2 - along (posOf pts ref - posOf pts l) V2) →
      (s1 ≠ [] → s2 ≠ [] → seen1 ≠ 0 → seen2 ≠ 0 → ∃ x : Vec, pos = (.fin x.1, .fin x.2) ∧
        along (x - posOf pts ref) V1 = seen1 ∧ along (x - posOf pts ref) V2 = seen2) ∧
      (s1 = [] ∨ s2 = [] ∨ seen1 = 0 ∨ seen2 = 0 → pos = (.nan, .nan)) := by
  obtain ⟨hV1, hV2⟩ := Predict.ne_of_cross hX
  have g1 := magnitude_pos hV1
  have g2 := magnitude_pos hV2
  obtain ⟨γ1, rfl⟩ := measured_eq hn h1
  obtain ⟨γ2, rfl⟩ := measured_eq hn h2
  obtain ⟨q, hq, rfl⟩ := List.mem_map.1 href
  have hpr : posOf pts q.1 = q.2 := posOf_mem hn hq
  obtain ⟨ix1, ix2, e1, e2, e3, e4, e5⟩ := downselect_ok hs mode hm n pts q.2
    (fun l => siteRow q.2 V1 (some (τ1 l)) (γ1 l) (posOf pts l))
    (fun l => siteRow q.2 V2 (some (τ2 l)) (γ2 l) (posOf pts l))
  have hev := predict_eval sort pts hn false q.1 q.2 hq mode n V1 V2 hV1 hV2
    (fun l => some (τ1 l)) γ1 (fun l => some (τ2 l)) γ2 ix1 ix2 e1 e2 e3
  have hf : ∀ (ix : List ι) (F : ι → PosRow), (ix.map fun l => (l, F l)).map Prod.fst = ix := by
    intro ix F; simp [Function.comp_def]
  refine ⟨_, _, _, hev, ?_, ?_, ?_, ?_, ?_⟩
  · intro h; simp [Function.comp_def, e4 h]
  · intro h; simp [Function.comp_def, e5 h]
  · intro l h; exact e2 l (by simpa [Function.comp_def] using h)
  · intro l h; exact e3 l (by simpa [Function.comp_def] using h)
  intro seen1 seen2 hseen1 hseen2
  rw [hf, hpr] at hseen1 hseen2
  constructor
  · intro hs1 hs2 hn1 hn2
    have hi1 : ix1 ≠ [] := by rintro rfl; exact hs1 rfl
    have hi2 : ix2 ≠ [] := by rintro rfl; exact hs2 rfl
    rw [err_mean _ q.2 V1 hV1 τ1 γ1 ix1 hi1, err_mean _ q.2 V2 hV2 τ2 γ2 ix2 hi2, ← hseen1, ← hseen2]
    set D := V1.1 * V2.2 - V1.2 * V2.1 with hD
    set w : Vec := ((seen1 * V2.2 - seen2 * V1.2) / D, (seen2 * V1.1 - seen1 * V2.1) / D) with hw
    have w1 : w.1 * V1.1 + w.2 * V1.2 = seen1 := by
      simp only [hw]; field_simp; rw [hD]; ring
    have w2 : w.1 * V2.1 + w.2 * V2.2 = seen2 := by
      simp only [hw]; field_simp; rw [hD]; ring
    have hp := position_solves V1 V2 w (if false = true then (q.2.2, q.2.1) else q.2) hX (seen1 / magnitude V1) (seen2 / magnitude V2)
      (by rw [div_mul_cancel₀ _ g1.ne', w1]) (by rw [div_mul_cancel₀ _ g2.ne', w2]) (div_ne_zero hn1 g1.ne') (div_ne_zero hn2 g2.ne')
    refine ⟨w + q.2, by simpa using hp, ?_, ?_⟩
    · rw [hpr, add_sub_cancel_right]; exact w1
    · rw [hpr, add_sub_cancel_right]; exact w2
  · intro h
    by_cases hi1 : ix1 = []
    · subst hi1
      simp [meanO, positionFrom]
    by_cases hi2 : ix2 = []
    · subst hi2
      rw [err_mean _ q.2 V1 hV1 τ1 γ1 ix1 hi1]
      simp [meanO, positionFrom]
    rw [err_mean _ q.2 V1 hV1 τ1 γ1 ix1 hi1, err_mean _ q.2 V2 hV2 τ2 γ2 ix2 hi2, ← hseen1, ← hseen2]
    apply position_zero
    rcases h with h | h | h | h
    · exact absurd (by simpa using h) hi1
    · exact absurd (by simpa using h) hi2
    · left; rw [h, zero_div]
    · right; rw [h, zero_div]

private theorem meanDisp_eq (P R : ι → Vec) (S : List ι) :
    meanDisp P R S = (meanOver S fun l => (P l).1 - (R l).1, meanOver S fun l => (P l).2 - (R l).2) := rfl

private theorem normSq_ne {V : Vec} (hV : V ≠ 0) : normSq V ≠ 0 := by
  have h := magnitude_pos hV
  have hs : magnitude V ^ 2 = normSq V := magnitude_sq V
  rw [← hs]; positivity

/-- The apparent displacement along the motion, split into its causes. -/
private theorem seen_split (P R : ι → Vec) (p r V W : Vec) (hV : V ≠ 0) (τ : ι → ℝ) (S : List ι) (hS : S ≠ []) :
    meanOver S (fun l => -τ l * normSq W - along (r - R l) W) =
      along (p - r - meanDisp P R S) W + along (p - centre P S) ((normSq W / normSq V) • V - W) -
        normSq W * meanOver S (fun l => τ l - planeDelay (P l) p V) := by
  have hq := normSq_ne hV
  have e : ∀ l, -τ l * normSq W - along (r - R l) W =
      (along (p - r) W + along p ((normSq W / normSq V) • V - W)) +
      ((-W.1) * ((P l).1 - (R l).1) + ((-W.2) * ((P l).2 - (R l).2) +
      ((-(normSq W / normSq V * V.1 - W.1)) * (P l).1 + ((-(normSq W / normSq V * V.2 - W.2)) * (P l).2 +
        (- normSq W) * (τ l - planeDelay (P l) p V))))) := by
    intro l
    have hp : planeDelay (P l) p V = (((P l).1 - p.1) * V.1 + ((P l).2 - p.2) * V.2) / normSq V := rfl
    simp only [along, Prod.fst_sub, Prod.snd_sub, Prod.smul_fst, Prod.smul_snd, smul_eq_mul, hp]
    field_simp
    ring
  rw [meanOver_congr fun l _ => e l]
  simp only [meanOver_add, meanOver_smul, meanOver_const S hS]
  rw [meanDisp_eq]
  simp only [along, centre, Prod.fst_sub, Prod.snd_sub, Prod.smul_fst, Prod.smul_snd, smul_eq_mul]
  ring

variable [DecidableEq ι]

/-! ## C200 -/

/-- C200: errors of the measured delays push the prediction off the true place of the reference by exactly their mean over the sites
used, times the square of the speed, along each of the two cloud motions (in addition to the mean displacement of these sites). -/
theorem C200_shift {sort : SortValues ι} (hs : IsSortValues sort) (pts : List (ι × Vec)) (hn : (pts.map Prod.fst).Nodup)
    (P : ι → Vec) (ref : ι) (href : ref ∈ pts.map Prod.fst) (mode : String)
    (hm : mode ∈ ["coherence", "preavg", "global_coherence", "distance", "all"]) (n : ℤ) (V1 V2 : Vec)
    (hX : V1.1 * V2.2 - V1.2 * V2.1 ≠ 0) (τ1 τ2 : ι → ℝ) (c1 c2 : CloudCase) (h1 : MeasuredCase (pts.map Prod.fst) V1 τ1 c1)
    (h2 : MeasuredCase (pts.map Prod.fst) V2 τ2 c2) :
    ∃ pos s1 s2, predictedPosition sort pts false ref mode n c1 c2 = .ok (pos, s1, s2) ∧
      (mode ∉ ["coherence", "preavg"] → s1.map Prod.fst = s2.map Prod.fst) ∧ (mode = "all" → s1.map Prod.fst = pts.map Prod.fst) ∧
      (∀ l ∈ s1.map Prod.fst, l ∈ pts.map Prod.fst) ∧ (∀ l ∈ s2.map Prod.fst, l ∈ pts.map Prod.fst) ∧
      let m1 := meanDisp P (posOf pts) (s1.map Prod.fst)
      let m2 := meanDisp P (posOf pts) (s2.map Prod.fst)
      let δ1 := meanOver (s1.map Prod.fst) fun l => τ1 l - planeDelay (P l) (P ref) V1
      let δ2 := meanOver (s2.map Prod.fst) fun l => τ2 l - planeDelay (P l) (P ref) V2
      let seen1 := along (P ref - posOf pts ref - m1) V1 - normSq V1 * δ1
      let seen2 := along (P ref - posOf pts ref - m2) V2 - normSq V2 * δ2
      (s1 ≠ [] → s2 ≠ [] → seen1 ≠ 0 → seen2 ≠ 0 → ∃ x : Vec, pos = (.fin x.1, .fin x.2) ∧
        along (x - P ref) V1 = - along m1 V1 - normSq V1 * δ1 ∧ along (x - P ref) V2 = - along m2 V2 - normSq V2 * δ2) ∧
      (s1 = [] ∨ s2 = [] ∨ seen1 = 0 ∨ seen2 = 0 → pos = (.nan, .nan)) := by
  obtain ⟨hV1, hV2⟩ := Predict.ne_of_cross hX
  obtain ⟨pos, s1, s2, e1, e2, e3, e4, e5, e6⟩ := predict_measured hs pts hn ref href mode hm n V1 V2 hX τ1 τ2 c1 c2 h1 h2
  refine ⟨pos, s1, s2, e1, e2, e3, e4, e5, ?_⟩
  intro m1 m2 δ1 δ2 seen1 seen2
  have q1 := normSq_ne hV1
  have q2 := normSq_ne hV2
  have k1 : s1 ≠ [] → seen1 = meanOver (s1.map Prod.fst) (fun l => -τ1 l * normSq V1 - along (posOf pts ref - posOf pts l) V1) := by
    intro h
    rw [seen_split P (posOf pts) (P ref) (posOf pts ref) V1 V1 hV1 τ1 _ (by simpa using h), div_self q1, one_smul, sub_self]
    simp [seen1, along, m1, δ1]
  have k2 : s2 ≠ [] → seen2 = meanOver (s2.map Prod.fst) (fun l => -τ2 l * normSq V2 - along (posOf pts ref - posOf pts l) V2) := by
    intro h
    rw [seen_split P (posOf pts) (P ref) (posOf pts ref) V2 V2 hV2 τ2 _ (by simpa using h), div_self q2, one_smul, sub_self]
    simp [seen2, along, m2, δ2]
  constructor
  · intro a1 a2 b1 b2
    obtain ⟨x, x1, x2, x3⟩ := (e6 seen1 seen2 (k1 a1) (k2 a2)).1 a1 a2 b1 b2
    refine ⟨x, x1, ?_, ?_⟩
    · simp only [along, seen1, Prod.fst_sub, Prod.snd_sub] at x2 ⊢; linear_combination x2
    · simp only [along, seen2, Prod.fst_sub, Prod.snd_sub] at x3 ⊢; linear_combination x3
  · intro h
    by_cases a1 : s1 = []
    · exact (e6 _ _ rfl rfl).2 (Or.inl a1)
    by_cases a2 : s2 = []
    · exact (e6 _ _ rfl rfl).2 (Or.inr (Or.inl a2))
    exact (e6 seen1 seen2 (k1 a1) (k2 a2)).2 h

/-- A vector is bounded by its components along two motions that are not parallel. -/
theorem two_components (x p V1 V2 : Vec) :
    |V1.1 * V2.2 - V1.2 * V2.1| * pdist x p ≤ |along (x - p) V1| * magnitude V2 + |along (x - p) V2| * magnitude V1 := by
  have s1 := magnitude_sq V1
  have s2 := magnitude_sq V2
  have n1 : 0 ≤ magnitude V1 := Real.sqrt_nonneg _
  have n2 : 0 ≤ magnitude V2 := Real.sqrt_nonneg _
  set a := along (x - p) V1 with ha
  set b := along (x - p) V2 with hb
  simp only [along, Prod.fst_sub, Prod.snd_sub] at ha hb
  have hd : pdist x p ^ 2 = (x.1 - p.1) ^ 2 + (x.2 - p.2) ^ 2 := Real.sq_sqrt (by positivity)
  have hd0 : 0 ≤ pdist x p := Real.sqrt_nonneg _
  have hcs : (V1.1 * V2.1 + V1.2 * V2.2) ^ 2 ≤ (magnitude V1 * magnitude V2) ^ 2 := by
    rw [mul_pow, s1, s2]
    nlinarith [sq_nonneg (V1.1 * V2.2 - V1.2 * V2.1)]
  have hcs' : |V1.1 * V2.1 + V1.2 * V2.2| ≤ magnitude V1 * magnitude V2 := by
    have := Real.sqrt_le_sqrt hcs
    rwa [Real.sqrt_sq_eq_abs, Real.sqrt_sq (by positivity)] at this
  apply abs_le_of_sq_le_sq' _ (by positivity) |>.2
  rw [mul_pow, sq_abs, hd]
  have e1 : (V1.1 * V2.2 - V1.2 * V2.1) ^ 2 * ((x.1 - p.1) ^ 2 + (x.2 - p.2) ^ 2) =
      a ^ 2 * magnitude V2 ^ 2 + b ^ 2 * magnitude V1 ^ 2 - 2 * (a * b) * (V1.1 * V2.1 + V1.2 * V2.2) := by
    rw [s1, s2, ha, hb]; ring
  have e2 : (|a| * magnitude V2 + |b| * magnitude V1) ^ 2 =
      a ^ 2 * magnitude V2 ^ 2 + b ^ 2 * magnitude V1 ^ 2 + 2 * (|a * b| * (magnitude V1 * magnitude V2)) := by
    rw [abs_mul]
    linear_combination magnitude V2 ^ 2 * sq_abs a + magnitude V1 ^ 2 * sq_abs b
  rw [e1, e2]
  have : -(a * b * (V1.1 * V2.1 + V1.2 * V2.2)) ≤ |a * b| * (magnitude V1 * magnitude V2) := by
    calc -(a * b * (V1.1 * V2.1 + V1.2 * V2.2)) ≤ |a * b * (V1.1 * V2.1 + V1.2 * V2.2)| := neg_le_abs _
      _ = |a * b| * |V1.1 * V2.1 + V1.2 * V2.2| := abs_mul _ _
      _ ≤ _ := mul_le_mul_of_nonneg_left hcs' (abs_nonneg _)
  linarith

/-- C200: if no delay used is off by more than `ε1` (`ε2`) and the sites used are where the table says, every finite prediction is
within `(ε1 |V1| + ε2 |V2|) / sin` of the true place, `sin` being the sine of the angle between the motions
(`|V1 × V2| / (|V1| |V2|)`). -/
theorem C200_bound {sort : SortValues ι} (hs : IsSortValues sort) (pts : List (ι × Vec)) (hn : (pts.map Prod.fst).Nodup)
    (P : ι → Vec) (ref : ι) (href : ref ∈ pts.map Prod.fst) (mode : String)
    (hm : mode ∈ ["coherence", "preavg", "global_coherence", "distance", "all"]) (n : ℤ) (V1 V2 : Vec)
    (hX : V1.1 * V2.2 - V1.2 * V2.1 ≠ 0) (τ1 τ2 : ι → ℝ) (c1 c2 : CloudCase) (h1 : MeasuredCase (pts.map Prod.fst) V1 τ1 c1)
    (h2 : MeasuredCase (pts.map Prod.fst) V2 τ2 c2) (ε1 ε2 : ℝ) (hε1 : 0 ≤ ε1) (hε2 : 0 ≤ ε2) :
    ∃ pos s1 s2, predictedPosition sort pts false ref mode n c1 c2 = .ok (pos, s1, s2) ∧
      ((∀ l ∈ s1.map Prod.fst, P l = posOf pts l ∧ |τ1 l - planeDelay (P l) (P ref) V1| ≤ ε1) →
       (∀ l ∈ s2.map Prod.fst, P l = posOf pts l ∧ |τ2 l - planeDelay (P l) (P ref) V2| ≤ ε2) →
        pos = (.nan, .nan) ∨ ∃ x : Vec, pos = (.fin x.1, .fin x.2) ∧
          |V1.1 * V2.2 - V1.2 * V2.1| * pdist x (P ref) ≤
            (ε1 * magnitude V1 + ε2 * magnitude V2) * (magnitude V1 * magnitude V2)) := by
  obtain ⟨pos, s1, s2, e1, -, -, -, -, e6, e7⟩ := C200_shift hs pts hn P ref href mode hm n V1 V2 hX τ1 τ2 c1 c2 h1 h2
  refine ⟨pos, s1, s2, e1, ?_⟩
  intro b1 b2
  by_cases a1 : s1 = []
  · exact Or.inl (e7 (Or.inl a1))
  by_cases a2 : s2 = []
  · exact Or.inl (e7 (Or.inr (Or.inl a2)))
  by_cases hz : along (P ref - posOf pts ref - meanDisp P (posOf pts) (s1.map Prod.fst)) V1 -
      normSq V1 * (meanOver (s1.map Prod.fst) fun l => τ1 l - planeDelay (P l) (P ref) V1) = 0 ∨
      along (P ref - posOf pts ref - meanDisp P (posOf pts) (s2.map Prod.fst)) V2 -
      normSq V2 * (meanOver (s2.map Prod.fst) fun l => τ2 l - planeDelay (P l) (P ref) V2) = 0
  · exact Or.inl (e7 (Or.inr (Or.inr hz)))
  push Not at hz
  obtain ⟨x, x1, x2, x3⟩ := e6 a1 a2 hz.1 hz.2
  refine Or.inr ⟨x, x1, ?_⟩
  have z : ∀ S : List ι, (∀ l ∈ S, P l = posOf pts l) → meanDisp P (posOf pts) S = 0 := by
    intro S hS
    have z1 : meanOver S (fun l => (P l).1 - (posOf pts l).1) = meanOver S (fun _ => 0) :=
      meanOver_congr fun l hl => by rw [hS l hl, sub_self]
    have z2 : meanOver S (fun l => (P l).2 - (posOf pts l).2) = meanOver S (fun _ => 0) :=
      meanOver_congr fun l hl => by rw [hS l hl, sub_self]
    rw [meanDisp_eq, z1, z2]
    simp [meanOver]
  rw [z _ fun l hl => (b1 l hl).1] at x2
  rw [z _ fun l hl => (b2 l hl).1] at x3
  have q1 : normSq V1 = magnitude V1 ^ 2 := (magnitude_sq V1).symm
  have q2 : normSq V2 = magnitude V2 ^ 2 := (magnitude_sq V2).symm
  have n1 : 0 ≤ magnitude V1 := Real.sqrt_nonneg _
  have n2 : 0 ≤ magnitude V2 := Real.sqrt_nonneg _
  have y1 : |along (x - P ref) V1| ≤ magnitude V1 ^ 2 * ε1 := by
    rw [x2]
    simp only [along, Prod.fst_zero, Prod.snd_zero, zero_mul, add_zero, neg_zero, zero_sub, abs_neg, abs_mul, q1, abs_of_nonneg (sq_nonneg (magnitude V1))]
    exact mul_le_mul_of_nonneg_left (meanOver_abs_le _ _ _ hε1 fun l hl => (b1 l hl).2) (sq_nonneg _)
  have y2 : |along (x - P ref) V2| ≤ magnitude V2 ^ 2 * ε2 := by
    rw [x3]
    simp only [along, Prod.fst_zero, Prod.snd_zero, zero_mul, add_zero, neg_zero, zero_sub, abs_neg, abs_mul, q2, abs_of_nonneg (sq_nonneg (magnitude V2))]
    exact mul_le_mul_of_nonneg_left (meanOver_abs_le _ _ _ hε2 fun l hl => (b2 l hl).2) (sq_nonneg _)
  have := two_components x (P ref) V1 V2
  have w1 := mul_le_mul_of_nonneg_right y1 n2
  have w2 := mul_le_mul_of_nonneg_right y2 n1
  nlinarith

/-- Three sites, winds of 5 m/s to the east and 10 m/s to the north, site 3 is really at (100, 40) instead of (60, 60), delays rounded to
whole seconds: errors of at most 0.6 s. -/
example : let P : ℕ → Vec := fun l => if l = 1 then (0, 0) else if l = 2 then (48, 97) else (100, 40)
    let labels := [1, 2, 3]
    let τ1 : ℕ → ℝ := fun l => if l = 1 then -20 else if l = 2 then -11 else 0
    let τ2 : ℕ → ℝ := fun l => if l = 1 then -4 else if l = 2 then 6 else 0
    MeasuredCase labels (5, 0) τ1 ⟨(5, 0), [some (-20), some (-11), some 0], [none, some 0.9, some 1]⟩ ∧
    MeasuredCase labels (0, 10) τ2 ⟨(0, 10), [some (-4), some 6, some 0], [some 0.7, some 0.9, some 1]⟩ ∧
    (∀ l ∈ labels, |τ1 l - planeDelay (P l) (P 3) (5, 0)| ≤ 0.6) ∧ (∀ l ∈ labels, |τ2 l - planeDelay (P l) (P 3) (0, 10)| ≤ 0.6) := by
  intro P labels τ1 τ2
  refine ⟨⟨rfl, by simp [labels, τ1], rfl⟩, ⟨rfl, by simp [labels, τ2], rfl⟩, ?_, ?_⟩
  · intro l hl
    simp only [labels, List.mem_cons, List.not_mem_nil, or_false] at hl
    rcases hl with rfl | rfl | rfl <;> norm_num [τ1, P, planeDelay, abs_le]
  · intro l hl
    simp only [labels, List.mem_cons, List.not_mem_nil, or_false] at hl
    rcases hl with rfl | rfl | rfl <;> norm_num [τ2, P, planeDelay, abs_le]

/-! ## C201 -/

/-- C201: the clouds move with `V1` and `V2`, the prediction is made with the cloud vectors `W1` and `W2`, all delays are exact.  Along
each vector used, the prediction misses the true place by the component of the vector from the centre of the sites used to the true
place, along the difference between the motion (scaled to have the effect of the speed used) and the vector used; in addition to the
mean displacement of the sites used. -/
theorem C201_wrong_wind {sort : SortValues ι} (hs : IsSortValues sort) (pts : List (ι × Vec)) (hn : (pts.map Prod.fst).Nodup)
    (P : ι → Vec) (ref : ι) (href : ref ∈ pts.map Prod.fst) (mode : String)
    (hm : mode ∈ ["coherence", "preavg", "global_coherence", "distance", "all"]) (n : ℤ) (V1 V2 W1 W2 : Vec) (hV1 : V1 ≠ 0) (hV2 : V2 ≠ 0)
    (hX : W1.1 * W2.2 - W1.2 * W2.1 ≠ 0) (c1 c2 : CloudCase)
    (h1 : MeasuredCase (pts.map Prod.fst) W1 (fun l => planeDelay (P l) (P ref) V1) c1)
    (h2 : MeasuredCase (pts.map Prod.fst) W2 (fun l => planeDelay (P l) (P ref) V2) c2) :
    ∃ pos s1 s2, predictedPosition sort pts false ref mode n c1 c2 = .ok (pos, s1, s2) ∧
      let miss1 := along (P ref - centre P (s1.map Prod.fst)) ((normSq W1 / normSq V1) • V1 - W1) -
        along (meanDisp P (posOf pts) (s1.map Prod.fst)) W1
      let miss2 := along (P ref - centre P (s2.map Prod.fst)) ((normSq W2 / normSq V2) • V2 - W2) -
        along (meanDisp P (posOf pts) (s2.map Prod.fst)) W2
      let seen1 := along (P ref - posOf pts ref) W1 + miss1
      let seen2 := along (P ref - posOf pts ref) W2 + miss2
      (s1 ≠ [] → s2 ≠ [] → seen1 ≠ 0 → seen2 ≠ 0 → ∃ x : Vec, pos = (.fin x.1, .fin x.2) ∧
        along (x - P ref) W1 = miss1 ∧ along (x - P ref) W2 = miss2) ∧
      (s1 = [] ∨ s2 = [] ∨ seen1 = 0 ∨ seen2 = 0 → pos = (.nan, .nan)) := by
  obtain ⟨pos, s1, s2, e1, e2, e3, e4, e5, e6⟩ := predict_measured hs pts hn ref href mode hm n W1 W2 hX _ _ c1 c2 h1 h2
  refine ⟨pos, s1, s2, e1, ?_⟩
  intro miss1 miss2 seen1 seen2
  have k1 : s1 ≠ [] → seen1 = meanOver (s1.map Prod.fst) (fun l => -planeDelay (P l) (P ref) V1 * normSq W1 -
      along (posOf pts ref - posOf pts l) W1) := by
    intro h
    rw [seen_split P (posOf pts) (P ref) (posOf pts ref) V1 W1 hV1 _ _ (by simpa using h)]
    simp only [sub_self, meanOver_const _ (by simpa using h : s1.map Prod.fst ≠ []), seen1, miss1]
    simp only [along, Prod.fst_sub, Prod.snd_sub]
    ring
  have k2 : s2 ≠ [] → seen2 = meanOver (s2.map Prod.fst) (fun l => -planeDelay (P l) (P ref) V2 * normSq W2 -
      along (posOf pts ref - posOf pts l) W2) := by
    intro h
    rw [seen_split P (posOf pts) (P ref) (posOf pts ref) V2 W2 hV2 _ _ (by simpa using h)]
    simp only [sub_self, meanOver_const _ (by simpa using h : s2.map Prod.fst ≠ []), seen2, miss2]
    simp only [along, Prod.fst_sub, Prod.snd_sub]
    ring
  constructor
  · intro a1 a2 b1 b2
    obtain ⟨x, x1, x2, x3⟩ := (e6 seen1 seen2 (k1 a1) (k2 a2)).1 a1 a2 b1 b2
    refine ⟨x, x1, ?_, ?_⟩
    · simp only [along, seen1, Prod.fst_sub, Prod.snd_sub] at x2 ⊢; linear_combination x2
    · simp only [along, seen2, Prod.fst_sub, Prod.snd_sub] at x3 ⊢; linear_combination x3
  · intro h
    by_cases a1 : s1 = []
    · exact (e6 _ _ rfl rfl).2 (Or.inl a1)
    by_cases a2 : s2 = []
    · exact (e6 _ _ rfl rfl).2 (Or.inr (Or.inl a2))
    exact (e6 seen1 seen2 (k1 a1) (k2 a2)).2 h

/-- C201: the cloud vectors need not be right for a sensor whose neighbours surround it: if the sites used are where the table says and
their centre is the true place, any two cloud vectors that are not parallel give the true place (or NaN). -/
theorem C201_surrounded {sort : SortValues ι} (hs : IsSortValues sort) (pts : List (ι × Vec)) (hn : (pts.map Prod.fst).Nodup)
    (P : ι → Vec) (ref : ι) (href : ref ∈ pts.map Prod.fst) (mode : String)
    (hm : mode ∈ ["coherence", "preavg", "global_coherence", "distance", "all"]) (n : ℤ) (V1 V2 W1 W2 : Vec) (hV1 : V1 ≠ 0) (hV2 : V2 ≠ 0)
    (hX : W1.1 * W2.2 - W1.2 * W2.1 ≠ 0) (c1 c2 : CloudCase)
    (h1 : MeasuredCase (pts.map Prod.fst) W1 (fun l => planeDelay (P l) (P ref) V1) c1)
    (h2 : MeasuredCase (pts.map Prod.fst) W2 (fun l => planeDelay (P l) (P ref) V2) c2) :
    ∃ pos s1 s2, predictedPosition sort pts false ref mode n c1 c2 = .ok (pos, s1, s2) ∧
      (s1 ≠ [] → s2 ≠ [] → centre P (s1.map Prod.fst) = P ref → centre P (s2.map Prod.fst) = P ref →
        (∀ l ∈ s1.map Prod.fst, P l = posOf pts l) → (∀ l ∈ s2.map Prod.fst, P l = posOf pts l) →
        (along (P ref - posOf pts ref) W1 ≠ 0 ∧ along (P ref - posOf pts ref) W2 ≠ 0 → pos = (.fin (P ref).1, .fin (P ref).2)) ∧
        (along (P ref - posOf pts ref) W1 = 0 ∨ along (P ref - posOf pts ref) W2 = 0 → pos = (.nan, .nan))) := by
  obtain ⟨pos, s1, s2, e1, e6⟩ := C201_wrong_wind hs pts hn P ref href mode hm n V1 V2 W1 W2 hV1 hV2 hX c1 c2 h1 h2
  refine ⟨pos, s1, s2, e1, ?_⟩
  intro n1 n2 z1 z2 b1 b2
  have z : ∀ S : List ι, (∀ l ∈ S, P l = posOf pts l) → meanDisp P (posOf pts) S = 0 := by
    intro S hS
    have z1 : meanOver S (fun l => (P l).1 - (posOf pts l).1) = meanOver S (fun _ => 0) :=
      meanOver_congr fun l hl => by rw [hS l hl, sub_self]
    have z2 : meanOver S (fun l => (P l).2 - (posOf pts l).2) = meanOver S (fun _ => 0) :=
      meanOver_congr fun l hl => by rw [hS l hl, sub_self]
    rw [meanDisp_eq, z1, z2]
    simp [meanOver]
  rw [z1, z2, z _ b1, z _ b2] at e6
  have a0 : ∀ W : Vec, along 0 W = 0 := by intro W; simp [along]
  simp only [sub_self, a0, add_zero] at e6
  refine ⟨?_, fun h => e6.2 (Or.inr (Or.inr h))⟩
  rintro ⟨u1, u2⟩
  obtain ⟨x, x1, x2, x3⟩ := e6.1 n1 n2 u1 u2
  have hb := two_components x (P ref) W1 W2
  rw [x2, x3, abs_zero, zero_mul, zero_mul, add_zero] at hb
  have hd : pdist x (P ref) = 0 := by
    have h0 : 0 ≤ pdist x (P ref) := Real.sqrt_nonneg _
    have := abs_pos.2 hX
    nlinarith
  rw [x1, pdist_eq_zero hd]

/-- Two sites on either side of the true place (100, 0) of site 3, which the table has at (90, 20); both winds wrong. -/
example : let P : ℕ → Vec := fun l => if l = 1 then (0, 0) else if l = 2 then (200, 0) else (100, 0)
    let pts : List (ℕ × Vec) := [(1, (0, 0)), (2, (200, 0)), (3, (90, 20))]
    centre P [1, 2] = P 3 ∧ (∀ l ∈ [1, 2], P l = posOf pts l) ∧ along (P 3 - posOf pts 3) (4, 1) ≠ 0 ∧
    along (P 3 - posOf pts 3) (1, 4) ≠ 0 ∧ MeasuredCase (pts.map Prod.fst) (4, 1) (fun l => planeDelay (P l) (P 3) (5, 0))
      ⟨(4, 1), [some (-20), some 20, some 0], [some 0.9, some 0.9, some 1]⟩ := by
  intro P pts
  refine ⟨?_, ?_, ?_, ?_, rfl, ?_, rfl⟩
  · simp only [centre, meanOver, P]; norm_num
  · intro l hl
    simp only [List.mem_cons, List.not_mem_nil, or_false] at hl
    rcases hl with rfl | rfl <;> simp [P, pts, posOf]
  · norm_num [P, pts, posOf, along]
  · norm_num [P, pts, posOf, along]
  · norm_num [P, pts, planeDelay]

end

/-! ## C202 -/

section
variable {ι : Type} [LinearOrder ι]

/-- How far off a prediction can be. -/
theorem all_near {sort : SortValues ι} (hs : IsSortValues sort) (n : ℤ) (pts : List (ι × Vec))
    (hn : (pts.map Prod.fst).Nodup) (refs : List ι) (hrn : refs.Nodup) (truth : List (ι × ι)) (P : ι → Vec)
    (hmix : MixedUp pts refs truth P) (V1 V2 : Vec) (hX : V1.1 * V2.2 - V1.2 * V2.1 ≠ 0) (l : ι) (hl : l ∈ refs)
    (τ1 τ2 : ι → ℝ) (c1 c2 : CloudCase) (h1 : MeasuredCase (pts.map Prod.fst) V1 τ1 c1) (h2 : MeasuredCase (pts.map Prod.fst) V2 τ2 c2)
    (ε1 ε2 : ℝ) (hε1 : 0 ≤ ε1) (hε2 : 0 ≤ ε2)
    (b1 : ∀ k ∈ pts.map Prod.fst, |τ1 k - planeDelay (P k) (P l) V1| ≤ ε1)
    (b2 : ∀ k ∈ pts.map Prod.fst, |τ2 k - planeDelay (P k) (P l) V2| ≤ ε2) :
    ∃ pos full, predictedPosition sort pts false l "all" n c1 c2 = .ok (pos, full) ∧
      ((pos = (.nan, .nan) ∧ ¬ (normSq V1 * ε1 < |along (P l - posOf pts l) V1| ∧ normSq V2 * ε2 < |along (P l - posOf pts l) V2|)) ∨
        ∃ x : Vec, pos = (.fin x.1, .fin x.2) ∧
          |V1.1 * V2.2 - V1.2 * V2.1| * pdist x (P l) ≤ (ε1 * magnitude V1 + ε2 * magnitude V2) * (magnitude V1 * magnitude V2)) := by
  have hli := hmix.known l hl
  obtain ⟨pos, s1, s2, e1, e2, e3, -, -, e6, e7⟩ := C200_shift hs pts hn P l hli "all" (by simp) n V1 V2 hX τ1 τ2 c1 c2 h1 h2
  have e3 := e3 rfl
  have e2 := e2 (by simp)
  rw [e3] at e2
  have hz := meanDisp_zero pts hn refs hrn truth P hmix
  rw [e3, ← e2, hz] at e6 e7
  have hne : pts.map Prod.fst ≠ [] := List.ne_nil_of_mem hli
  have n1 : s1 ≠ [] := by rintro rfl; exact hne e3.symm
  have n2 : s2 ≠ [] := by rintro rfl; exact hne e2
  refine ⟨pos, _, e1, ?_⟩
  set δ1 := meanOver (pts.map Prod.fst) fun k => τ1 k - planeDelay (P k) (P l) V1 with hδ1
  set δ2 := meanOver (pts.map Prod.fst) fun k => τ2 k - planeDelay (P k) (P l) V2 with hδ2
  have d1 : |δ1| ≤ ε1 := meanOver_abs_le _ _ _ hε1 b1
  have d2 : |δ2| ≤ ε2 := meanOver_abs_le _ _ _ hε2 b2
  have q1 : normSq V1 = magnitude V1 ^ 2 := (magnitude_sq V1).symm
  have q2 : normSq V2 = magnitude V2 ^ 2 := (magnitude_sq V2).symm
  have m1 : 0 ≤ magnitude V1 := Real.sqrt_nonneg _
  have m2 : 0 ≤ magnitude V2 := Real.sqrt_nonneg _
  have p1 : |normSq V1 * δ1| ≤ normSq V1 * ε1 := by
    rw [abs_mul, q1, abs_of_nonneg (sq_nonneg (magnitude V1))]
    exact mul_le_mul_of_nonneg_left d1 (sq_nonneg _)
  have p2 : |normSq V2 * δ2| ≤ normSq V2 * ε2 := by
    rw [abs_mul, q2, abs_of_nonneg (sq_nonneg (magnitude V2))]
    exact mul_le_mul_of_nonneg_left d2 (sq_nonneg _)
  simp only [sub_zero] at e6 e7
  have a0 : ∀ W : Vec, along 0 W = 0 := by intro W; simp [along]
  by_cases k1 : along (P l - posOf pts l) V1 - normSq V1 * δ1 = 0
  · left
    refine ⟨e7 (Or.inr (Or.inr (Or.inl k1))), ?_⟩
    rintro ⟨u, -⟩
    rw [sub_eq_zero] at k1
    rw [k1] at u
    linarith
  by_cases k2 : along (P l - posOf pts l) V2 - normSq V2 * δ2 = 0
  · left
    refine ⟨e7 (Or.inr (Or.inr (Or.inr k2))), ?_⟩
    rintro ⟨-, u⟩
    rw [sub_eq_zero] at k2
    rw [k2] at u
    linarith
  right
  obtain ⟨x, x1, x2, x3⟩ := e6 n1 n2 k1 k2
  refine ⟨x, x1, ?_⟩
  have hb := two_components x (P l) V1 V2
  rw [x2, x3, a0, a0, neg_zero, zero_sub, zero_sub, abs_neg, abs_neg] at hb
  have w1 := mul_le_mul_of_nonneg_right p1 m2
  have w2 := mul_le_mul_of_nonneg_right p2 m1
  rw [q1] at w1 hb
  rw [q2] at w2 hb
  nlinarith

/-- C202: the reassignment procedure tolerates errors of the delays.  Some sensors of a plant are mixed up among themselves, mode 'all',
the delays of the first (second) data set are off by at most `ε1` (`ε2`).  If
* the places of the sensors are further apart than twice `(ε1 |V1| + ε2 |V2|) / sin`, `sin` the sine of the angle between the motions,
* the displacement of every misplaced sensor along either motion takes the clouds longer than `ε1` (`ε2`),
the first round finds the mix-up completely, every further round confirms it, and the remapped table has all sensors at their true
places. -/
theorem C202_noise (lsa : LSA) (hl : IsLSA lsa) (nan : ℝ) {sort : SortValues ι} (hs : IsSortValues sort) (n : ℤ)
    (data : ι → CloudCase × CloudCase) (refs : List ι) (f : Frame ι String ℝ) (hn : f.index.Nodup) (hcols : f.cols = ["E", "N"])
    (hrn : refs.Nodup) (truth : List (ι × ι)) (P : ι → Vec) (hmix : MixedUp (coords "E" "N" f) refs truth P) (V1 V2 : Vec)
    (hX : V1.1 * V2.2 - V1.2 * V2.1 ≠ 0) (τ1 τ2 : ι → ι → ℝ) (ε1 ε2 : ℝ) (hε1 : 0 ≤ ε1) (hε2 : 0 ≤ ε2)
    (hd : ∀ l ∈ refs, MeasuredCase f.index V1 (τ1 l) (data l).1 ∧ MeasuredCase f.index V2 (τ2 l) (data l).2)
    (hb : ∀ l ∈ refs, ∀ k ∈ f.index, |τ1 l k - planeDelay (P k) (P l) V1| ≤ ε1 ∧ |τ2 l k - planeDelay (P k) (P l) V2| ≤ ε2)
    (hfar : ∀ k ∈ refs, ∀ l ∈ refs, k ≠ l → 2 * ((ε1 * magnitude V1 + ε2 * magnitude V2) * (magnitude V1 * magnitude V2)) <
      |V1.1 * V2.2 - V1.2 * V2.1| * pdist (posOf (coords "E" "N" f) k) (posOf (coords "E" "N" f) l))
    (hobl : ∀ p ∈ truth, p.1 ≠ p.2 → normSq V1 * ε1 < |along (P p.1 - posOf (coords "E" "N" f) p.1) V1| ∧
      normSq V2 * ε2 < |along (P p.1 - posOf (coords "E" "N" f) p.1) V2|) (k : ℕ) :
    ∃ r f', reassign lsa nan sort "all" n data refs f k = .ok r ∧ r.Perm truth ∧
      remapPositions nan f r none = .ok f' ∧ f'.index = f.index ∧ ∀ l ∈ f.index, posOf (coords "E" "N" f') l = P l := by
  change MixedUp (tablePts f) refs truth P at hmix
  change ∀ k ∈ refs, ∀ l ∈ refs, k ≠ l → _ < _ * pdist (posOf (tablePts f) k) (posOf (tablePts f) l) at hfar
  have hpl := abs_pos.2 hX
  -- one round on a table whose places are those of `f`, in any order
  have round : ∀ (g : Frame ι String ℝ) (tr : List (ι × ι)), g.index = f.index → g.cols = f.cols → MixedUp (tablePts g) refs tr P →
      (∀ k ∈ refs, ∀ l ∈ refs, k ≠ l → 2 * ((ε1 * magnitude V1 + ε2 * magnitude V2) * (magnitude V1 * magnitude V2)) <
        |V1.1 * V2.2 - V1.2 * V2.1| * pdist (posOf (tablePts g) k) (posOf (tablePts g) l)) →
      (∀ p ∈ tr, p.1 ≠ p.2 → normSq V1 * ε1 < |along (P p.1 - posOf (tablePts g) p.1) V1| ∧
        normSq V2 * ε2 < |along (P p.1 - posOf (tablePts g) p.1) V2|) →
      ∃ r, reassignRound lsa nan sort "all" n data refs g = .ok r ∧ r.Perm tr := by
    intro g tr hi hc hmg hfg hog
    have hfst : (tablePts g).map Prod.fst = f.index := by rw [tablePts_fst, hi]
    have hex : ∀ l : ι, ∃ pos : XR × XR, l ∈ refs → ∃ full,
        predictedPosition sort (tablePts g) false l "all" n (data l).1 (data l).2 = .ok (pos, full) ∧
        ((pos = (.nan, .nan) ∧ ¬ (normSq V1 * ε1 < |along (P l - posOf (tablePts g) l) V1| ∧
            normSq V2 * ε2 < |along (P l - posOf (tablePts g) l) V2|)) ∨
          ∃ x : Vec, pos = (.fin x.1, .fin x.2) ∧
            |V1.1 * V2.2 - V1.2 * V2.1| * pdist x (P l) ≤ (ε1 * magnitude V1 + ε2 * magnitude V2) * (magnitude V1 * magnitude V2)) := by
      intro l
      by_cases hl' : l ∈ refs
      · obtain ⟨pos, full, h, h'⟩ := all_near hs n (tablePts g) (by rw [hfst]; exact hn) refs hrn tr P hmg V1 V2 hX l hl'
          (τ1 l) (τ2 l) (data l).1 (data l).2 (by rw [hfst]; exact (hd l hl').1) (by rw [hfst]; exact (hd l hl').2) ε1 ε2 hε1 hε2
          (by rw [hfst]; exact fun k hk => (hb l hl' k hk).1) (by rw [hfst]; exact fun k hk => (hb l hl' k hk).2)
        exact ⟨pos, fun _ => ⟨full, h, h'⟩⟩
      · exact ⟨(.nan, .nan), fun h => absurd h hl'⟩
    choose pos hpos using hex
    suffices h : ∃ r, reassignRound lsa nan sort "all" n data refs g = .ok r ∧ r.Perm tr ∧
        ((∃ l ∈ refs, pos l = (.nan, .nan)) → r.map Prod.fst = refs) by
      obtain ⟨r, h1, h2, -⟩ := h
      exact ⟨r, h1, h2⟩
    refine round_ok lsa hl nan sort "all" n data refs g (by rw [hi]; exact hn) (by rw [hc]; exact hcols)
      (by intro l hl'; rw [← tablePts_fst]; exact hmg.known l hl') hrn pos ?_ tr hmg.bij ?_
    · intro l hl'
      obtain ⟨full, h, -⟩ := hpos l hl'
      exact ⟨full, h⟩
    · intro p hp
      have hp1 : p.1 ∈ refs := hmg.bij.1.mem_iff.1 (List.mem_map_of_mem hp)
      have hp2 : p.2 ∈ refs := hmg.bij.2.mem_iff.1 (List.mem_map_of_mem hp)
      obtain ⟨full, -, ⟨h1, h2⟩ | ⟨x, x1, x2⟩⟩ := hpos p.1 hp1
      · left
        refine ⟨h1, ?_⟩
        by_contra hne
        exact h2 (hog p hp fun h => hne h.symm)
      · right
        refine ⟨x, x1, ?_⟩
        intro k hk hne
        rw [hmg.moved p hp] at x2
        have hf := hfg p.2 hp2 k hk fun h => hne h.symm
        have tri : pdist (posOf (tablePts g) p.2) (posOf (tablePts g) k) ≤
            pdist x (posOf (tablePts g) p.2) + pdist x (posOf (tablePts g) k) := by
          have := pdist_triangle (posOf (tablePts g) p.2) x (posOf (tablePts g) k)
          rwa [Field.pdist_comm (posOf (tablePts g) p.2) x] at this
        have := mul_le_mul_of_nonneg_left tri hpl.le
        nlinarith
  have h0 := round f truth rfl rfl hmix hfar hobl
  have hall : ∀ k, ∃ r, reassign lsa nan sort "all" n data refs f k = .ok r ∧ r.Perm truth := by
    intro k
    induction k with
    | zero => exact h0
    | succ k ih =>
      obtain ⟨r, hr1, hr2⟩ := ih
      obtain ⟨f', e1, e2, e3, e4⟩ := remapped nan f hn hcols refs truth P hmix hrn r hr2
      have hki : ∀ l ∈ refs, l ∈ f.index := by
        intro l hl'; rw [← tablePts_fst]; exact hmix.known l hl'
      have hmix' : MixedUp (tablePts f') refs (refs.map fun l => (l, l)) P := by
        refine ⟨by rw [tablePts_fst, e2]; exact hki, bij_self refs, ?_, ?_⟩
        · intro p hp
          obtain ⟨l, hl', rfl⟩ := List.mem_map.1 hp
          exact e4 l (hki l hl')
        · intro l hl' _
          rw [tablePts_fst, e2] at hl'
          exact e4 l hl'
      have hto : ∀ l ∈ refs, ∃ t ∈ refs, (l, t) ∈ truth := by
        intro l hl'
        obtain ⟨p, hp, rfl⟩ := List.mem_map.1 (hmix.bij.1.mem_iff.2 hl')
        exact ⟨p.2, hmix.bij.2.mem_iff.1 (List.mem_map_of_mem hp), hp⟩
      have hsnd : (truth.map Prod.snd).Nodup := hmix.bij.2.nodup_iff.2 hrn
      obtain ⟨s, s1, s2⟩ := round f' _ e2 e3 hmix' (by
          intro k hk l hl' hne
          obtain ⟨t, ht, hpt⟩ := hto k hk
          obtain ⟨u, hu, hpu⟩ := hto l hl'
          rw [← e4 k (hki k hk), ← e4 l (hki l hl'), hmix.moved _ hpt, hmix.moved _ hpu]
          apply hfar t ht u hu
          rintro rfl
          have := List.inj_on_of_nodup_map hsnd hpt hpu rfl
          exact hne (congrArg Prod.fst this)) (by
          intro p hp hne
          obtain ⟨l, -, rfl⟩ := List.mem_map.1 hp
          exact absurd rfl hne)
      have hbij : IsBijection r refs := ⟨(hr2.map _).trans hmix.bij.1, (hr2.map _).trans hmix.bij.2⟩
      obtain ⟨o, o1, o2⟩ := cascade_self hrn hbij s2
      refine ⟨o, ?_, o2.trans hr2⟩
      unfold reassign
      rw [hr1]
      show (remapPositions nan f r none >>= _) = _
      rw [e1]
      show (reassignRound lsa nan sort "all" n data refs f' >>= _) = _
      rw [s1]
      exact o1
  obtain ⟨r, r1, r2⟩ := hall k
  obtain ⟨f', e1, e2, -, e4⟩ := remapped nan f hn hcols refs truth P hmix hrn r r2
  exact ⟨r, f', r1, r2, e1, e2, fun l hl' => (e4 l hl').symm⟩

/-- The plant of the examples for C165 with sensors 1 and 2 exchanged; the delays of sensors with odd numbers are 0.1 s too long, those
of the others 0.2 s too short. -/
example (lsa : LSA) (hl : IsLSA lsa) (sort : SortValues ℕ) (hs : IsSortValues sort) (k : ℕ) :
    let τ : Vec → ℕ → ℕ → ℝ := fun V ref l => planeDelay (exPlaces l) (exPlaces ref) V + if l % 2 = 1 then 0.1 else -0.2
    let data : ℕ → CloudCase × CloudCase := fun ref =>
      (⟨(10, 0), [0, 1, 2, 3].map fun l => some (τ (10, 0) ref l), [none, none, none, none]⟩,
      ⟨(1, 7), [0, 1, 2, 3].map fun l => some (τ (1, 7) ref l), [none, none, none, none]⟩)
    ∃ r, reassign lsa 0 sort "all" 8 data [1, 2] exTable k = .ok r ∧ r.Perm [(1, 2), (2, 1)] := by
  intro τ data
  have herr : ∀ (V : Vec) (ref l : ℕ), |τ V ref l - planeDelay (exPlaces l) (exPlaces ref) V| ≤ 0.2 := by
    intro V ref l
    simp only [τ, add_sub_cancel_left]
    split <;> norm_num [abs_le]
  have hm1 : magnitude ((10, 0) : Vec) = 10 := by
    unfold magnitude
    rw [show ((10 : ℝ), (0 : ℝ)).1 ^ 2 + ((10 : ℝ), (0 : ℝ)).2 ^ 2 = 10 ^ 2 by norm_num, Real.sqrt_sq (by norm_num)]
  have hm2 : magnitude ((1, 7) : Vec) ≤ 7.1 := by
    unfold magnitude
    rw [Real.sqrt_le_left (by norm_num)]; norm_num
  have hm0 : 0 ≤ magnitude ((1, 7) : Vec) := Real.sqrt_nonneg _
  have hdist : 11 ≤ pdist ((10, 5) : Vec) (20, 0) ∧ 11 ≤ pdist ((20, 0) : Vec) (10, 5) := by
    constructor <;> (unfold pdist; apply Real.le_sqrt_of_sq_le; norm_num)
  obtain ⟨r, -, h1, h2, -⟩ := C202_noise lsa hl 0 hs 8 data [1, 2] exTable (by rw [ex_index]; decide) rfl (by decide)
    [(1, 2), (2, 1)] exPlaces ex_mixed (10, 0) (1, 7) (by norm_num) (τ (10, 0)) (τ (1, 7)) 0.2 0.2 (by norm_num) (by norm_num)
    (by intro l _; rw [ex_index]; exact ⟨⟨rfl, rfl, rfl⟩, ⟨rfl, rfl, rfl⟩⟩)
    (fun l _ k _ => ⟨herr _ _ _, herr _ _ _⟩)
    (by
      rw [ex_coords, hm1]
      intro k hk l hl' hne
      simp only [List.mem_cons, List.not_mem_nil, or_false] at hk hl'
      rcases hk with rfl | rfl <;> rcases hl' with rfl | rfl
      · exact absurd rfl hne
      · have := hdist.1
        simp only [posOf, dictGet?] at this ⊢
        norm_num at this ⊢
        nlinarith
      · have := hdist.2
        simp only [posOf, dictGet?] at this ⊢
        norm_num at this ⊢
        nlinarith
      · exact absurd rfl hne)
    (by
      rw [ex_coords]
      intro p hp _
      simp only [List.mem_cons, List.not_mem_nil, or_false] at hp
      rcases hp with rfl | rfl <;> simp [exPlaces, posOf, along, normSq] <;> norm_num) k
  exact ⟨r, h1, h2⟩

end

end SST.Props.Robust
