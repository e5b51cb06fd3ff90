import Verif.Props.CloudTs

/-!
# Property C119: `edgesmoothing` with the scaling 'basic'
-/

namespace SST.Props.CloudSmoothing
open SST SST.Cloud SST.Stats SST.Props.CloudTs

/-- The window of `s × s` cells around the cell `p` (beginning `s // 2` before it, mirrored at the borders of the field) holds an edge of the clear mask. -/
def EdgeWithin {m n : ℕ} (clear : Fin m × Fin n → Bool) (s : ℕ) (p : Fin m × Fin n) : Prop :=
  ∃ a b : ℕ, a < s ∧ b < s ∧ 0 < edges (fun i j => if h : i < m ∧ j < n then clear (⟨i, h.1⟩, ⟨j, h.2⟩) else false) m n
    (reflect m ((p.1 : ℤ) - (s / 2 : ℕ) + a)) (reflect n ((p.2 : ℤ) - (s / 2 : ℕ) + b))

theorem edgeWithin_mono {m n : ℕ} {clear : Fin m × Fin n → Bool} {s s' : ℕ} (h : s ≤ s') {p : Fin m × Fin n} (hp : EdgeWithin clear s p) : EdgeWithin clear s' p := by
  obtain ⟨a, b, ha, hb, he⟩ := hp
  refine ⟨a + (s' / 2 - s / 2), b + (s' / 2 - s / 2), by omega, by omega, ?_⟩
  have e : ∀ (i : ℤ) (a : ℕ), i - (s' / 2 : ℕ) + ((a + (s' / 2 - s / 2) : ℕ) : ℤ) = i - (s / 2 : ℕ) + a := by
    intro i a
    have : s / 2 ≤ s' / 2 := by omega
    push_cast [Nat.cast_sub this]
    omega
  rw [e, e]
  exact he

theorem basic_inv {ι : Type} [Fintype ι] {f : ι → ℝ} {clear edge : ι → Bool} {ktmean ktmax kt1 q : ℝ} {v : ι → ℝ} {w : Bool}
    (h : scaleBasic f clear edge ktmean ktmax kt1 q false none = .ok (v, w)) :
    ∃ lo hi, quantileLin q (valsOn f fun i => clear i = false) = some hi ∧ quantileLin (1 - q) (valsOn f fun i => clear i = false) = some lo ∧ hi ≠ lo := by
  unfold scaleBasic at h
  cases h1 : quantileLin q (valsOn f fun i => clear i = false) with
  | none => rw [h1] at h; simp at h
  | some hi =>
    cases h2 : quantileLin (1 - q) (valsOn f fun i => clear i = false) with
    | none => rw [h1, h2] at h; simp at h
    | some lo =>
      refine ⟨lo, hi, rfl, rfl, ?_⟩
      intro he
      rw [h1, h2] at h
      simp only [if_pos he] at h
      cases h

/-- The values of `_scale_field_basic` given the quantiles. -/
theorem basic_form {ι : Type} [Fintype ι] (f : ι → ℝ) (clear edge : ι → Bool) (ktmean ktmax kt1 q lo hi : ℝ)
    (h1 : quantileLin q (valsOn f fun i => clear i = false) = some hi) (h2 : quantileLin (1 - q) (valsOn f fun i => clear i = false) = some lo) (hne : hi ≠ lo) :
    ∃ (v : ι → ℝ) (w : Bool) (c : ℝ), scaleBasic f clear edge ktmean ktmax kt1 q false none = .ok (v, w) ∧ ∀ i, (clear i = true → v i = 1) ∧
      (clear i = false → edge i = true → v i = 1 + cloudsFr f lo hi false i * (ktmax - 1)) ∧ (clear i = false → edge i = false → v i = kt1 + c * cloudsFr f lo hi false i) := by
  unfold scaleBasic
  simp only [h1, h2, if_neg hne]
  split_ifs with hc
  · refine ⟨_, _, ((Fintype.card ι : ℝ) * ktmean - (∑ i, basicBase (cloudsFr f lo hi false) clear edge ktmax none i) - kt1 * (count fun i => clear i = false ∧ edge i = false : ℕ)) /
        sumOn (cloudsFr f lo hi false) (fun i => clear i = false ∧ edge i = false), rfl, fun i => ⟨fun h => ?_, fun h h' => ?_, fun h h' => ?_⟩⟩
    · simp [h, basicBase, clearVal]
    · simp [h, h', basicBase]; ring
    · simp [h, h']; ring
  · refine ⟨_, _, 1 - kt1, rfl, fun i => ⟨fun h => ?_, fun h h' => ?_, fun h h' => ?_⟩⟩
    · simp [h, basicBase, clearVal]
    · simp [h, h', basicBase]; ring
    · simp [h, h']; ring

/-- C119 (the part that holds): with the scaling 'basic' the cells with an edge in their window of `edgesmoothing` cells are scaled between 1 and `ktmax`, the other
cloudy cells upwards from `kt1pct`.  A larger `edgesmoothing` keeps all cells of the first kind, with their values, and adds further ones; clear cells stay 1. -/
theorem C119_basic_partial {R1 R2 : ℕ → ℕ → ℕ → ℝ} {weights : List ℝ} {scales : List ℤ} {m n : ℕ} {fracClear ktmean ktmax kt1 : ℝ} {cm : ℕ → ℕ → ℝ} {clear : Fin m × Fin n → Bool}
    (hcm : stackField R2 weights scales m n false = .ok cm) (hclear : clearMask (fun p : Fin m × Fin n => cm p.1 p.2) fracClear = .ok clear)
    {s s' : ℕ} (h1 : 1 ≤ s) (hss : s ≤ s') (h316 : s' ≤ 316) {g : Fin m × Fin n → Option ℝ}
    (h : cloudfield R1 R2 weights scales m n fracClear ktmean ktmax kt1 "basic" s = .ok g) :
    ∃ (g' : Fin m × Fin n → Option ℝ) (fr : Fin m × Fin n → ℝ) (c c' : ℝ), cloudfield R1 R2 weights scales m n fracClear ktmean ktmax kt1 "basic" s' = .ok g' ∧ ∀ p,
      (clear p = true → g p = some 1 ∧ g' p = some 1) ∧
      (clear p = false → (EdgeWithin clear s p → EdgeWithin clear s' p ∧ g p = some (1 + fr p * (ktmax - 1)) ∧ g' p = g p) ∧
        (EdgeWithin clear s' p → g' p = some (1 + fr p * (ktmax - 1))) ∧
        (¬ EdgeWithin clear s p → g p = some (kt1 + c * fr p)) ∧ (¬ EdgeWithin clear s' p → g' p = some (kt1 + c' * fr p))) := by
  classical
  unfold cloudfield at h ⊢
  cases hcf : stackField R1 weights scales m n false with
  | error e => rw [hcf] at h; simp [bind, Except.bind] at h
  | ok cf =>
    rw [hcf, hcm] at h
    simp only [bind, Except.bind, hclear, show ("basic" = "original") = False from by simp, if_false, if_true] at h
    rw [hcm]
    simp only [bind, Except.bind, hclear, show ("basic" = "original") = False from by simp, if_false, if_true]
    cases hb : scaleBasic (fun p : Fin m × Fin n => cf p.1 p.2) clear (fun p => open Classical in decide (smoothedBinary (fun i j => if h : i < m ∧ j < n then clear (⟨i, h.1⟩, ⟨j, h.2⟩) else false) m n s 0 p.1 p.2))
        ktmean ktmax kt1 0.999 false none with
    | error e => rw [hb] at h; cases h
    | ok r =>
      obtain ⟨v, w⟩ := r
      obtain ⟨lo, hi, hq1, hq2, hne⟩ := basic_inv hb
      obtain ⟨v1, w1, c, hv1, hf1⟩ := basic_form (fun p : Fin m × Fin n => cf p.1 p.2) clear
        (fun p => open Classical in decide (smoothedBinary (fun i j => if h : i < m ∧ j < n then clear (⟨i, h.1⟩, ⟨j, h.2⟩) else false) m n s 0 p.1 p.2)) ktmean ktmax kt1 0.999 lo hi hq1 hq2 hne
      obtain ⟨v2, w2, c', hv2, hf2⟩ := basic_form (fun p : Fin m × Fin n => cf p.1 p.2) clear
        (fun p => open Classical in decide (smoothedBinary (fun i j => if h : i < m ∧ j < n then clear (⟨i, h.1⟩, ⟨j, h.2⟩) else false) m n s' 0 p.1 p.2)) ktmean ktmax kt1 0.999 lo hi hq1 hq2 hne
      rw [hb] at hv1
      cases hv1
      rw [hb] at h
      have hg : (fun p => some (v p)) = g := by simpa [Except.map] using h
      subst hg
      have iff1 : ∀ p : Fin m × Fin n, smoothedBinary (fun i j => if h : i < m ∧ j < n then clear (⟨i, h.1⟩, ⟨j, h.2⟩) else false) m n s 0 p.1 p.2 ↔ EdgeWithin clear s p :=
        fun p => CloudMask.C67_broadened _ m n s p.1 p.2 h1 (by omega) p.1.2 p.2.2
      have iff2 : ∀ p : Fin m × Fin n, smoothedBinary (fun i j => if h : i < m ∧ j < n then clear (⟨i, h.1⟩, ⟨j, h.2⟩) else false) m n s' 0 p.1 p.2 ↔ EdgeWithin clear s' p :=
        fun p => CloudMask.C67_broadened _ m n s' p.1 p.2 (by omega) h316 p.1.2 p.2.2
      refine ⟨fun p => some (v2 p), cloudsFr (fun p : Fin m × Fin n => cf p.1 p.2) lo hi false, c, c', by rw [hv2]; rfl, fun p => ?_⟩
      obtain ⟨a1, a2, a3⟩ := hf1 p
      obtain ⟨b1, b2, b3⟩ := hf2 p
      simp only
      refine ⟨fun hc => ⟨by rw [a1 hc], by rw [b1 hc]⟩, fun hc => ⟨fun he => ?_, fun he => ?_, fun he => ?_, fun he => ?_⟩⟩
      · have he' := edgeWithin_mono hss he
        have e1 := a2 hc (by simpa using (iff1 p).2 he)
        have e2 := b2 hc (by simpa using (iff2 p).2 he')
        exact ⟨he', by rw [e1], by rw [e1, e2]⟩
      · rw [b2 hc (by simpa using (iff2 p).2 he)]
      · rw [a3 hc (by simpa using fun hh => he ((iff1 p).1 hh))]
      · rw [b3 hc (by simpa using fun hh => he ((iff2 p).1 hh))]

/-- Three cells in a row, with the values 0, 1 and 2 for both fields. -/
def rowOfThree : ℕ → ℕ → ℕ → ℝ := fun _ _ b => b

theorem three_stack (j : Fin 3) : stackSum rowOfThree [1] [1] 1 3 0 j = j := by
  have h1 : scaledSize 1 1 = 1 := by unfold scaledSize pyInt; norm_num
  have h3 : scaledSize 3 1 = 3 := by unfold scaledSize pyInt; norm_num
  have g1 : gridSize 1 = 2 := rfl
  have g3 : gridSize 3 = 3 := rfl
  unfold stackSum randomAtScale
  simp only [List.length_singleton, List.range_one, List.map_cons, List.map_nil, List.sum_cons, List.sum_nil, List.getD_cons_zero, h1, h3, g1, g3]
  fin_cases j <;> norm_num [bilinear, gridAt, linspace01, cell, inCell, rowOfThree]

/-- The first of the three cells is clear. -/
def firstClear : Fin 1 × Fin 3 → Bool := fun p => decide (p.2 = 0)

theorem three_mask : clearMask (fun p : Fin 1 × Fin 3 => stackSum rowOfThree [1] [1] 1 3 p.1 p.2) (1 / 3) = .ok firstClear := by
  have hf : (fun p : Fin 1 × Fin 3 => stackSum rowOfThree [1] [1] 1 3 p.1 p.2) = fun p => ((p.2 : ℕ) : ℝ) := by
    funext ⟨a, b⟩
    fin_cases a
    exact three_stack b
  have hq : quantileLin (1 / 3) (vals fun p : Fin 1 × Fin 3 => ((p.2 : ℕ) : ℝ)) = some (2 / 3) := by
    have hv : vals (fun p : Fin 1 × Fin 3 => ((p.2 : ℕ) : ℝ)) = valsOn (fun p : Fin 1 × Fin 3 => ((p.2 : ℕ) : ℝ)) fun _ => True := by
      unfold vals valsOn
      simp
    rw [hv, SST.Cloud.quantile_listed (fun p : Fin 1 × Fin 3 => ((p.2 : ℕ) : ℝ)) (fun _ => True) (s := [(0, 0), (0, 1), (0, 2)]) (by decide)
      (by intro i; fin_cases i <;> simp) (by simp) (by simp)]
    have hfl : ⌊(1 / 3 : ℝ) * (((3 : ℕ) : ℝ) - 1)⌋ = 0 := by rw [Int.floor_eq_iff]; norm_num
    have hce : ⌈(1 / 3 : ℝ) * (((3 : ℕ) : ℝ) - 1)⌉ = 1 := by rw [Int.ceil_eq_iff]; norm_num
    simp only [List.length_cons, List.length_nil, Nat.zero_add, Nat.reduceAdd]
    rw [hfl, hce]
    norm_num
  rw [hf]
  unfold clearMask
  rw [if_neg (by norm_num), if_neg (by norm_num), hq]
  have hm : (fun i : Fin 1 × Fin 3 => if ((i.2 : ℕ) : ℝ) > 2 / 3 then false else true) = firstClear := by
    funext ⟨a, b⟩
    fin_cases b <;> norm_num [firstClear]
  have hc : count (fun i : Fin 1 × Fin 3 => firstClear i = true) = 1 := by
    unfold count
    have : (Finset.univ.filter fun i : Fin 1 × Fin 3 => firstClear i = true) = {(0, 0)} := by
      ext ⟨a, b⟩
      fin_cases a
      fin_cases b <;> simp [firstClear]
    convert congrArg Finset.card this
    rfl
  simp only [Option.map_some, hm]
  rw [if_pos]
  unfold isclose
  rw [hc]
  norm_num

theorem three_runs : ∃ g, cloudfield rowOfThree rowOfThree [1] [1] 1 3 (1 / 3) 0.6 1.4 0.2 "basic" 1 = .ok g := by
  have hst : stackField rowOfThree [1] [1] 1 3 false = .ok (stackSum rowOfThree [1] [1] 1 3) := by unfold stackField; simp
  have hf : (fun p : Fin 1 × Fin 3 => stackSum rowOfThree [1] [1] 1 3 p.1 p.2) = fun p => ((p.2 : ℕ) : ℝ) := by
    funext ⟨a, b⟩
    fin_cases a
    exact three_stack b
  have hq : ∀ q : ℝ, 0 < q → q < 1 → quantileLin q (valsOn (fun p : Fin 1 × Fin 3 => ((p.2 : ℕ) : ℝ)) fun i => firstClear i = false) = some (1 + q) := by
    intro q h0 h1
    rw [SST.Cloud.quantile_listed (fun p : Fin 1 × Fin 3 => ((p.2 : ℕ) : ℝ)) (fun i => firstClear i = false) (s := [(0, 1), (0, 2)]) (by decide)
      (by intro i; fin_cases i <;> simp [firstClear]) (by simp) (by simp)]
    have hfl : ⌊q * (((2 : ℕ) : ℝ) - 1)⌋ = 0 := by rw [Int.floor_eq_iff]; push_cast; constructor <;> linarith
    have hce : ⌈q * (((2 : ℕ) : ℝ) - 1)⌉ = 1 := by rw [Int.ceil_eq_iff]; push_cast; constructor <;> linarith
    simp only [List.length_cons, List.length_nil, Nat.zero_add, Nat.reduceAdd]
    rw [hfl, hce]
    norm_num
  have hm := three_mask
  unfold cloudfield
  rw [hst]
  simp only [bind, Except.bind, hm, show ("basic" = "original") = False from by simp, if_false, if_true]
  rw [hf]
  obtain ⟨v, w, c, hv, -⟩ := basic_form (fun p : Fin 1 × Fin 3 => ((p.2 : ℕ) : ℝ)) firstClear
    (fun p => open Classical in decide (smoothedBinary (fun i j => if h : i < 1 ∧ j < 3 then firstClear (⟨i, h.1⟩, ⟨j, h.2⟩) else false) 1 3 1 0 p.1 p.2)) 0.6 1.4 0.2 0.999 (1 + (1 - 0.999)) (1 + 0.999)
    (hq _ (by norm_num) (by norm_num)) (hq _ (by norm_num) (by norm_num)) (by norm_num)
  rw [hv]
  exact ⟨_, rfl⟩

/-- The third cell is not at an edge with the size 1 but with the size 3: its left neighbour borders on the clear cell. -/
theorem three_widened : ¬ EdgeWithin firstClear 1 (0, 2) ∧ EdgeWithin firstClear 3 (0, 2) := by
  constructor
  · rintro ⟨a, b, ha, hb, he⟩
    obtain rfl : a = 0 := by omega
    obtain rfl : b = 0 := by omega
    have h3 : 5 - Int.toNat 3 = 2 := by decide
    revert he
    norm_num [edges, sobel0, sobel1, ext, reflect, maskVal, firstClear, h3]
  · refine ⟨1, 0, by norm_num, by norm_num, ?_⟩
    norm_num [edges, sobel0, sobel1, ext, reflect, maskVal, firstClear]

example : ∃ g g', cloudfield rowOfThree rowOfThree [1] [1] 1 3 (1 / 3) 0.6 1.4 0.2 "basic" 1 = .ok g ∧ cloudfield rowOfThree rowOfThree [1] [1] 1 3 (1 / 3) 0.6 1.4 0.2 "basic" 3 = .ok g' ∧
    (∃ fr c : ℝ, g (0, 2) = some (0.2 + c * fr) ∧ g' (0, 2) = some (1 + fr * (1.4 - 1))) := by
  obtain ⟨g, hg⟩ := three_runs
  have hst : stackField rowOfThree [1] [1] 1 3 false = .ok (stackSum rowOfThree [1] [1] 1 3) := by unfold stackField; simp
  obtain ⟨g', fr, c, c', hg', hp⟩ := C119_basic_partial hst three_mask (le_refl 1) (by norm_num : 1 ≤ 3) (by norm_num) hg
  have h2 := (hp (0, 2)).2 (by simp [firstClear])
  exact ⟨g, g', hg, hg', fr (0, 2), c, h2.2.2.1 three_widened.1, h2.2.1 three_widened.2⟩

end SST.Props.CloudSmoothing
