import Verif.Props.CloudSymm
import Verif.Props.CloudLaw
import Verif.Model.CloudInternal
import Mathlib.MeasureTheory.Measure.Haar.Unique

/-!
# Symmetry between low and high values of the random fields

C239: a stacked random field has the law of its complement, and so does flipping the distribution in the scaling 'basic'.
C240: the histograms of cloudy area, clear sky and edge enhancement.
-/

namespace SST.Props.CloudComplement
open SST SST.Spec SST.Stats SST.Cloud SST.Props.CloudMore SST.Props.CloudSymm SST.Props.CloudLaw MeasureTheory

/-! ## C239 -/

theorem uniform_flip : uniform01.map (MeasurableEquiv.subLeft (1 : ℝ)) = uniform01 := by
  unfold uniform01
  have h := MeasurableEquiv.restrict_map (MeasurableEquiv.subLeft (1 : ℝ)) (volume : Measure ℝ) (Set.Ico 0 1)
  have hv : Measure.map (MeasurableEquiv.subLeft (1 : ℝ)) (volume : Measure ℝ) = volume := Measure.map_sub_left_eq_self volume 1
  have hs : (MeasurableEquiv.subLeft (1 : ℝ)) ⁻¹' Set.Ico 0 1 = Set.Ioc 0 1 := by
    ext x
    have hx : MeasurableEquiv.subLeft (1 : ℝ) x = 1 - x := rfl
    simp only [Set.mem_preimage, Set.mem_Ico, Set.mem_Ioc, hx]
    constructor <;> rintro ⟨a, b⟩ <;> constructor <;> linarith
  rw [hv, hs] at h
  conv_rhs => rw [h]
  rw [Measure.restrict_congr_set (Ico_ae_eq_Ioc (μ := volume) (a := (0 : ℝ)) (b := 1))]

open Classical in
theorem draws_flip (sel : Bool → Bool) (S : Set (Bool × ℕ × ℕ × ℕ → ℝ)) :
    allDraws {u | (fun p => if sel p.1 then 1 - u p else u p) ∈ S} = allDraws S := by
  let e : ∀ _ : Bool × ℕ × ℕ × ℕ, ℝ ≃ᵐ ℝ := fun p => if sel p.1 then MeasurableEquiv.subLeft 1 else MeasurableEquiv.refl ℝ
  have hm : allDraws.map (MeasurableEquiv.piCongrRight e) = allDraws := by
    have h := Measure.infinitePi_map_pi (X := fun _ : Bool × ℕ × ℕ × ℕ => ℝ) (μ := fun _ => uniform01) (f := fun p => e p) fun p => (e p).measurable
    have hu : (fun p : Bool × ℕ × ℕ × ℕ => uniform01.map (e p)) = fun _ => uniform01 := by
      funext p
      simp only [e]
      split_ifs
      · exact uniform_flip
      · exact Measure.map_id
    have h2 : (Measure.infinitePi fun p : Bool × ℕ × ℕ × ℕ => uniform01.map (e p)) = allDraws := by
      unfold allDraws
      congr 1
    rw [h2] at h
    exact h
  have h2 : allDraws.map (MeasurableEquiv.piCongrRight e) S = allDraws S := by rw [hm]
  rw [MeasurableEquiv.map_apply] at h2
  rw [← h2]
  congr 1
  ext u
  simp only [Set.mem_ofPred_eq, Set.mem_preimage]
  have : MeasurableEquiv.piCongrRight e u = fun p => if sel p.1 then 1 - u p else u p := by
    funext p
    change e p (u p) = _
    simp only [e]
    split_ifs <;> rfl
  rw [this]

theorem stackSum_flip (R : ℕ → ℕ → ℕ → ℝ) {weights : List ℝ} {scales : List ℤ} (hl : weights.length = scales.length) (m n i j : ℕ) :
    stackSum (fun k a b => 1 - R k a b) weights scales m n i j = weights.sum - stackSum R weights scales m n i j := by
  unfold stackSum
  have h1 : ∀ k : ℕ, randomAtScale (fun a b => 1 - R k a b) (scaledSize m (scales.getD k 0)) (scaledSize n (scales.getD k 0)) m n i j =
      1 - randomAtScale (R k) (scaledSize m (scales.getD k 0)) (scaledSize n (scales.getD k 0)) m n i j := by
    intro k
    unfold randomAtScale bilinear gridAt
    simp only
    ring
  simp only [h1, sub_mul, one_mul]
  have hw : weights.sum = ((List.range scales.length).map fun (k : ℕ) => weights.getD k 0).sum := by
    rw [← hl]
    have := sum_getD weights id
    rw [List.map_id] at this
    simp only [id] at this
    rw [← this, ← List.sum_toFinset _ List.nodup_range, List.toFinset_range]
  rw [hw, eq_sub_iff_add_eq, ← List.sum_map_add]
  simp

/-- C239: a stacked random field and the field mirrored at half the total weight have the same law. -/
theorem C239_stack (weights : List ℝ) (scales : List ℤ) (hl : weights.length = scales.length) (m n : ℕ) (E : Except PyErr (ℕ → ℕ → ℝ) → Prop) :
    allDraws {u | E (stackField (fun k a b => u (false, k, a, b)) weights scales m n false)} =
      allDraws {u | E ((stackField (fun k a b => u (false, k, a, b)) weights scales m n false).map fun f i j => weights.sum - f i j)} := by
  rw [← draws_flip (fun b => !b) {u | E (stackField (fun k a b => u (false, k, a, b)) weights scales m n false)}]
  congr 1
  ext u
  simp only [Set.mem_ofPred_eq, Bool.not_false, if_true]
  rw [stack_ok _ hl, stack_ok _ hl]
  have : stackSum (fun k a b => 1 - u (false, k, a, b)) weights scales m n = fun i j => weights.sum - stackSum (fun k a b => u (false, k, a, b)) weights scales m n i j := by
    funext i j
    exact stackSum_flip (fun k a b => u (false, k, a, b)) hl m n i j
  rw [this]
  rfl

/-- C239: a normalised field, which runs from 0 to 1, has the law of its complement. -/
theorem C239_normalised (weights : List ℝ) (scales : List ℤ) (m n : ℕ) (E : Except PyErr (Fin m × Fin n → ℝ) → Prop) :
    allDraws {u | E ((stackField (fun k a b => u (false, k, a, b)) weights scales m n true).map fun g p => g p.1 p.2)} =
      allDraws {u | E ((stackField (fun k a b => u (false, k, a, b)) weights scales m n true).map fun g p => 1 - g p.1 p.2)} := by
  rw [← draws_flip (fun b => !b) {u | E ((stackField (fun k a b => u (false, k, a, b)) weights scales m n true).map fun g p => g p.1 p.2)}]
  congr 1
  ext u
  simp only [Set.mem_ofPred_eq, Bool.not_false, if_true]
  suffices h : (stackField (fun k a b => 1 - u (false, k, a, b)) weights scales m n true).map (fun g (p : Fin m × Fin n) => g p.1 p.2) =
      (stackField (fun k a b => u (false, k, a, b)) weights scales m n true).map fun g p => 1 - g p.1 p.2 by rw [h]
  unfold stackField
  by_cases hl : weights.length = scales.length
  swap
  · rw [if_pos hl, if_pos hl]; rfl
  have hf : stackSum (fun k a b => 1 - u (false, k, a, b)) weights scales m n = fun i j => weights.sum - stackSum (fun k a b => u (false, k, a, b)) weights scales m n i j := by
    funext i j
    exact stackSum_flip (fun k a b => u (false, k, a, b)) hl m n i j
  simp only [hf, hl, ne_eq, not_true_eq_false, if_false, Bool.true_eq_false]
  generalize stackSum (fun k a b => u (false, k, a, b)) weights scales m n = f
  by_cases h0 : 0 < m ∧ 0 < n
  · obtain ⟨lo, hlo⟩ := fmin_exists f h0.1 h0.2
    obtain ⟨hi, hhi⟩ := fmax_exists f h0.1 h0.2
    have a : fmin (fun i j => weights.sum - f i j) m n = some (weights.sum - hi) := by
      rw [fmin_some]
      rw [fmax_some] at hhi
      obtain ⟨⟨i, j, hi', hj', he⟩, hb⟩ := hhi
      refine ⟨⟨i, j, hi', hj', by rw [he]⟩, fun i j hi' hj' => ?_⟩
      have := hb i j hi' hj'
      linarith
    have b : fmax (fun i j => weights.sum - f i j) m n = some (weights.sum - lo) := by
      rw [fmax_some]
      rw [fmin_some] at hlo
      obtain ⟨⟨i, j, hi', hj', he⟩, hb⟩ := hlo
      refine ⟨⟨i, j, hi', hj', by rw [he]⟩, fun i j hi' hj' => ?_⟩
      have := hb i j hi' hj'
      linarith
    rw [a, b, hlo, hhi]
    simp only
    by_cases he : hi = lo
    · rw [if_pos he, if_pos (by rw [he])]; rfl
    · rw [if_neg he, if_neg (by intro h; apply he; linarith)]
      simp only [Except.map]
      congr 1
      funext p
      have : hi - lo ≠ 0 := sub_ne_zero.2 he
      rw [show weights.sum - lo - (weights.sum - hi) = hi - lo by ring]
      field_simp
      ring
  · have hc : cells m n = [] := by
      unfold cells
      rcases not_and_or.1 h0 with h | h
      · simp [Nat.eq_zero_of_not_pos h]
      · simp [Nat.eq_zero_of_not_pos h]
    have hm : ∀ g : ℕ → ℕ → ℝ, fmax g m n = none := by
      intro g
      unfold fmax
      rw [hc]
      rfl
    have hm2 : ∀ g : ℕ → ℕ → ℝ, fmin g m n = none := by
      intro g
      unfold fmin
      rw [hm]
      rfl
    rw [hm, hm2, hm2]
    rfl

/-- C239: so a cell lies as often below half the total weight by some amount as above it. -/
theorem C239_cells (weights : List ℝ) (scales : List ℤ) (hl : weights.length = scales.length) (m n i j : ℕ) (t : ℝ) :
    allDraws {u | ∃ f, stackField (fun k a b => u (false, k, a, b)) weights scales m n false = .ok f ∧ f i j ≤ weights.sum / 2 - t} =
      allDraws {u | ∃ f, stackField (fun k a b => u (false, k, a, b)) weights scales m n false = .ok f ∧ weights.sum / 2 + t ≤ f i j} := by
  rw [C239_stack weights scales hl m n fun r => ∃ f, r = .ok f ∧ f i j ≤ weights.sum / 2 - t]
  congr 1
  ext u
  simp only [Set.mem_ofPred_eq]
  rw [stack_ok _ hl]
  constructor
  · rintro ⟨f, hf, h⟩
    refine ⟨_, rfl, ?_⟩
    rw [← Except.ok.inj hf] at h
    linarith
  · rintro ⟨f, hf, h⟩
    refine ⟨_, rfl, ?_⟩
    rw [← Except.ok.inj hf] at h
    linarith

/-- No cell lies more than one distance of the two quantiles of the cloudy cells outside of them. -/
def NearQuantiles {ι : Type} [Fintype ι] (f : ι → ℝ) (clear : ι → Bool) (q : ℝ) : Prop :=
  ∀ lo hi, quantileLin q (valsOn f fun i => clear i = false) = some hi → quantileLin (1 - q) (valsOn f fun i => clear i = false) = some lo →
    ∀ i, lo - (hi - lo) ≤ f i ∧ f i ≤ hi + (hi - lo)

variable {ι : Type} [Fintype ι]

theorem near_complement (f : ι → ℝ) (clear : ι → Bool) {q : ℝ} (h0 : 0 ≤ q) (h1 : q ≤ 1) (W : ℝ) (h : NearQuantiles f clear q) :
    NearQuantiles (fun i => W - f i) clear q := by
  intro lo hi hhi hlo i
  have e : (fun i => W - f i) = fun i => 1 * (fun i => -f i) i + W := by funext i; ring
  rw [e, valsOn_comp (fun i => -f i) (fun x => 1 * x + W), quantile_affine one_pos W h0 h1, valsOn_comp f (fun x => -x), quantile_neg h0 h1] at hhi
  rw [e, valsOn_comp (fun i => -f i) (fun x => 1 * x + W), quantile_affine one_pos W (by linarith) (by linarith), valsOn_comp f (fun x => -x),
    quantile_neg (by linarith) (by linarith), sub_sub_cancel] at hlo
  cases ha : quantileLin (1 - q) (valsOn f fun i => clear i = false) with
  | none => rw [ha] at hhi; simp at hhi
  | some a =>
    cases hb : quantileLin q (valsOn f fun i => clear i = false) with
    | none => rw [hb] at hlo; simp at hlo
    | some b =>
      rw [ha] at hhi
      rw [hb] at hlo
      simp only [Option.map_some, Option.some.injEq] at hhi hlo
      obtain ⟨x, y⟩ := h a b hb ha i
      constructor <;> linarith

theorem near_complement_iff (f : ι → ℝ) (clear : ι → Bool) {q : ℝ} (h0 : 0 ≤ q) (h1 : q ≤ 1) (W : ℝ) :
    NearQuantiles (fun i => W - f i) clear q ↔ NearQuantiles f clear q := by
  refine ⟨fun h => ?_, near_complement f clear h0 h1 W⟩
  have := near_complement (fun i => W - f i) clear h0 h1 W h
  simpa using this

theorem quantile_le {q q' : ℝ} (h0 : 0 ≤ q) (h : q ≤ q') (h1 : q' ≤ 1) (l : List ℝ) {a b : ℝ} (ha : quantileLin q l = some a) (hb : quantileLin q' l = some b) : a ≤ b := by
  rw [quantileLin_eq] at ha hb
  split_ifs at ha hb with he
  rw [Option.some.injEq] at ha hb
  have hlen : (1 : ℝ) ≤ l.length := by exact_mod_cast List.length_pos_iff.2 he
  rw [← ha, ← hb]
  exact interp_mono he (mul_nonneg h0 (by linarith)) (mul_le_mul_of_nonneg_right h (by linarith)) (by nlinarith)

theorem basic_complement (f : ι → ℝ) (clear edge : ι → Bool) (ktmean ktmax kt1 q : ℝ) (h0 : 1 / 2 ≤ q) (h1 : q ≤ 1) (flip : Bool) (cs : Option ℝ) (W : ℝ)
    (h : NearQuantiles f clear q) :
    scaleBasic (fun i => W - f i) clear edge ktmean ktmax kt1 q (!flip) cs = scaleBasic f clear edge ktmean ktmax kt1 q flip cs := by
  have e : (fun i => W - f i) = fun i => 1 * (fun i => -f i) i + W := by funext i; ring
  rw [e, C193_basic (fun i => -f i) clear edge ktmean ktmax kt1 q (by linarith) h1 (!flip) cs 1 W one_pos]
  cases hhi : quantileLin q (valsOn f fun i => clear i = false) with
  | none =>
    unfold scaleBasic
    rw [valsOn_comp f (fun x => -x), quantile_neg (by linarith) h1, quantile_neg (by linarith) (by linarith), sub_sub_cancel, hhi]
    cases quantileLin (1 - q) (valsOn f fun i => clear i = false) <;> rfl
  | some hi =>
    cases hlo : quantileLin (1 - q) (valsOn f fun i => clear i = false) with
    | none =>
      unfold scaleBasic
      rw [valsOn_comp f (fun x => -x), quantile_neg (by linarith) h1, quantile_neg (by linarith) (by linarith), sub_sub_cancel, hhi, hlo]
      rfl
    | some lo =>
      rcases (quantile_le (by linarith) (by linarith) h1 _ hlo hhi).eq_or_lt with he | hlt
      · unfold scaleBasic
        rw [valsOn_comp f (fun x => -x), quantile_neg (by linarith) h1, quantile_neg (by linarith) (by linarith), sub_sub_cancel, hhi, hlo]
        simp only [Option.map_some]
        rw [if_pos (by rw [he]), if_pos he.symm]
      · exact C193_flip f clear edge ktmean ktmax kt1 q (by linarith) h1 flip cs lo hi hlt hhi hlo (h lo hi hhi hlo)

/-- C239: on the draws for which no cell is far outside the quantiles, the scaling 'basic' gives fields of the same law with and without `flipdistr`. -/
theorem C239_flip (w1 w2 : List ℝ) (scales : List ℤ) (hl : w1.length = scales.length) (m n : ℕ) (frac : ℝ) (s : ℕ) (ktmean ktmax kt1 : ℝ) (cs : Option ℝ)
    (E : Except PyErr ((Fin m × Fin n → ℝ) × Bool) → Prop) :
    allDraws {u | (∀ f mask edge, internalFields (fun k a b => u (false, k, a, b)) (fun k a b => u (true, k, a, b)) w1 w2 scales m n frac s = .ok (f, mask, edge) →
          NearQuantiles f mask 0.999) ∧
        E (internalBasic (fun k a b => u (false, k, a, b)) (fun k a b => u (true, k, a, b)) w1 w2 scales m n frac s ktmean ktmax kt1 false cs)} =
      allDraws {u | (∀ f mask edge, internalFields (fun k a b => u (false, k, a, b)) (fun k a b => u (true, k, a, b)) w1 w2 scales m n frac s = .ok (f, mask, edge) →
          NearQuantiles f mask 0.999) ∧
        E (internalBasic (fun k a b => u (false, k, a, b)) (fun k a b => u (true, k, a, b)) w1 w2 scales m n frac s ktmean ktmax kt1 true cs)} := by
  rw [← draws_flip (fun b => !b) {u | (∀ f mask edge, internalFields (fun k a b => u (false, k, a, b)) (fun k a b => u (true, k, a, b)) w1 w2 scales m n frac s =
      .ok (f, mask, edge) → NearQuantiles f mask 0.999) ∧
        E (internalBasic (fun k a b => u (false, k, a, b)) (fun k a b => u (true, k, a, b)) w1 w2 scales m n frac s ktmean ktmax kt1 true cs)}]
  congr 1
  ext u
  simp only [Set.mem_ofPred_eq, Bool.not_false, if_true, Bool.not_true, Bool.false_eq_true, if_false]
  have hF : internalFields (fun k a b => 1 - u (false, k, a, b)) (fun k a b => u (true, k, a, b)) w1 w2 scales m n frac s =
      (internalFields (fun k a b => u (false, k, a, b)) (fun k a b => u (true, k, a, b)) w1 w2 scales m n frac s).map fun t => (fun p => w1.sum - t.1 p, t.2) := by
    have hf : stackSum (fun k a b => 1 - u (false, k, a, b)) w1 scales m n = fun i j => w1.sum - stackSum (fun k a b => u (false, k, a, b)) w1 scales m n i j := by
      funext i j
      exact stackSum_flip (fun k a b => u (false, k, a, b)) hl m n i j
    unfold internalFields
    rw [stack_ok _ hl, stack_ok _ hl, hf]
    simp only [bind, Except.bind]
    cases stackField (fun k a b => u (true, k, a, b)) w2 scales m n false with
    | error e => rfl
    | ok cm =>
      simp only
      cases clearMask (fun p : Fin m × Fin n => cm p.1 p.2) frac with
      | error e => rfl
      | ok mask => rfl
  unfold internalBasic
  rw [hF]
  cases internalFields (fun k a b => u (false, k, a, b)) (fun k a b => u (true, k, a, b)) w1 w2 scales m n frac s with
  | error e => simp [Except.map, Except.bind]
  | ok t =>
    obtain ⟨f, mask, edge⟩ := t
    simp only [Except.map, Except.bind, Except.ok.injEq, Prod.mk.injEq]
    have key : (∀ f_1 mask_1 edge_1, f = f_1 ∧ mask = mask_1 ∧ edge = edge_1 → NearQuantiles f_1 mask_1 0.999) ↔ NearQuantiles f mask 0.999 :=
      ⟨fun h => h f mask edge ⟨rfl, rfl, rfl⟩, fun h a b c ⟨x, y, _⟩ => x ▸ y ▸ h⟩
    have key2 : (∀ f_1 mask_1 edge_1, (fun p => w1.sum - f p) = f_1 ∧ mask = mask_1 ∧ edge = edge_1 → NearQuantiles f_1 mask_1 0.999) ↔ NearQuantiles f mask 0.999 :=
      ⟨fun h => (near_complement_iff f mask (by norm_num) (by norm_num) w1.sum).1 (h _ mask edge ⟨rfl, rfl, rfl⟩),
        fun h a b c ⟨x, y, _⟩ => x ▸ y ▸ (near_complement_iff f mask (by norm_num) (by norm_num) w1.sum).2 h⟩
    rw [key, key2]
    refine and_congr_right fun hn => ?_
    have hb := basic_complement f mask edge ktmean ktmax kt1 0.999 (by norm_num) (by norm_num) false cs w1.sum hn
    rw [Bool.not_false] at hb
    rw [hb]

theorem near_two : NearQuantiles CloudScale.two (fun _ => false) 0.999 := by
  intro lo hi hhi hlo i
  rw [CloudScale.two_quantile 0.999 (by norm_num) (by norm_num)] at hhi
  rw [CloudScale.two_quantile (1 - 0.999) (by norm_num) (by norm_num)] at hlo
  rw [← Option.some.inj hhi, ← Option.some.inj hlo]
  fin_cases i <;> norm_num [CloudScale.two]

/-- The cells 0 and 1 are near their quantiles, and flipping the complement of the field is not flipping the field. -/
example : NearQuantiles CloudScale.two (fun _ => false) 0.999 ∧
    scaleBasic (fun i => 1 - CloudScale.two i) (fun _ => false) (fun _ => false) 0.5 1.4 0.2 0.999 true none =
      scaleBasic CloudScale.two (fun _ => false) (fun _ => false) 0.5 1.4 0.2 0.999 false none :=
  ⟨near_two, basic_complement CloudScale.two (fun _ => false) (fun _ => false) 0.5 1.4 0.2 0.999 (by norm_num) (by norm_num) false none 1 near_two⟩

/-- The fields of the demonstration. -/
example : ([1, 1, 1, 1, 1, 0.1, 0.1, 0.1, 0.1, 0.1] : List ℝ).length = ([1, 2, 3, 4, 5, 6, 7, 8, 9, 10] : List ℤ).length := rfl

/-! ## C240 -/

open Classical in
theorem hists_total (g : ι → Option ℝ) :
    (threeHists g).1 + (threeHists g).2.1 + (threeHists g).2.2 + count (fun i => g i = none) = Fintype.card ι := by
  unfold threeHists count
  simp only
  rw [← Finset.card_union_of_disjoint, ← Finset.card_union_of_disjoint, ← Finset.card_union_of_disjoint]
  · rw [← Finset.card_univ]
    congr 1
    ext i
    simp only [Finset.mem_union, Finset.mem_filter, Finset.mem_univ, true_and, iff_true]
    cases hg : g i with
    | none => exact Or.inr rfl
    | some v =>
      left
      rcases lt_trichotomy v 1 with h | h | h
      · exact Or.inl (Or.inl ⟨v, rfl, h⟩)
      · exact Or.inl (Or.inr (by rw [h]))
      · exact Or.inr ⟨v, rfl, h⟩
  all_goals
    rw [Finset.disjoint_left]
    intro i h1 h2
    simp only [Finset.mem_union, Finset.mem_filter, Finset.mem_univ, true_and] at h1 h2
    cases hg : g i with
    | none => first | simp [hg] at h1 | simp [hg] at h2
    | some v =>
      simp only [hg, Option.some.injEq, exists_eq_left', reduceCtorEq] at h1 h2
      try first
        | exact h2
        | (rcases h1 with h1 | h1 <;> linarith)
        | linarith

/-- C240 (the part that holds for the original scaling): a value below 1 is that of a cell neither clear nor at an edge, every clear cell is in the histogram
of clear sky, and every cell is in exactly one of the three histograms unless it is NaN. -/
theorem C240_original_partial {f : ι → ℝ} {clear edge : ι → Bool} {ktmean ktmax kt1 mq : ℝ} {g : ι → Option ℝ}
    (h : scaleLave f clear edge ktmean ktmax kt1 mq = .ok g) (hk : 1 ≤ ktmax) :
    (∀ i v, g i = some v → v < 1 → clear i = false ∧ edge i = false) ∧ (∀ i v, g i = some v → 1 < v → clear i = false) ∧
    count (fun i => clear i = true) ≤ (threeHists g).2.1 ∧
    (threeHists g).1 + (threeHists g).2.1 + (threeHists g).2.2 + count (fun i => g i = none) = Fintype.card ι := by
  classical
  have hce := CloudScale.C68_clear_edge h hk
  refine ⟨fun i v hv hlt => ?_, fun i v hv hgt => ?_, ?_, ?_⟩
  · have hc : clear i = false := by
      by_contra hc
      have := (hce i).1 (by simpa using hc)
      rw [hv, Option.some.injEq] at this
      linarith
    refine ⟨hc, ?_⟩
    by_contra he
    have := (hce i).2 hc (by simpa using he) v hv
    linarith [this.1]
  · by_contra hc
    have := (hce i).1 (by simpa using hc)
    rw [hv, Option.some.injEq] at this
    linarith
  · unfold threeHists count
    simp only
    refine Finset.card_le_card fun i hi => ?_
    simp only [Finset.mem_filter, Finset.mem_univ, true_and] at hi ⊢
    exact (hce i).1 hi
  · exact hists_total g

/-- C240 (the part that holds for the scaling 'basic' without smoothing of the clear sky, if the folded values lie between 0 and 1): clear cells are 1 and edge cells are not
below; if the warning has been printed, values above 1 are those of edge cells. -/
theorem C240_basic_partial {f : ι → ℝ} {clear edge : ι → Bool} {ktmean ktmax kt1 q : ℝ} {flip : Bool} {g : ι → ℝ} {w : Bool}
    (h : scaleBasic f clear edge ktmean ktmax kt1 q flip none = .ok (g, w)) (h0 : 1 / 2 ≤ q) (h1 : q ≤ 1) (hk : 1 ≤ ktmax) (hk1 : kt1 ≤ 1) (hn : NearQuantiles f clear q) :
    (∀ i, g i < 1 → clear i = false ∧ edge i = false) ∧ (∀ i, clear i = true → g i = 1) ∧ (w = true → ∀ i, 1 < g i → clear i = false ∧ edge i = true) ∧
    (threeHists fun i => some (g i)).1 + (threeHists fun i => some (g i)).2.1 + (threeHists fun i => some (g i)).2.2 = Fintype.card ι := by
  obtain ⟨lo, hi, hne, hqh, hql, hcl, hed, hw, -⟩ := basic_inv h
  have hlt : lo < hi := lt_of_le_of_ne (quantile_le (by linarith) (by linarith) h1 _ hql hqh) hne.symm
  have hfr : ∀ i, 0 ≤ cloudsFr f lo hi flip i ∧ cloudsFr f lo hi flip i ≤ 1 := by
    intro i
    obtain ⟨a, b⟩ := hn lo hi hqh hql i
    exact cloudsFr_mem hlt (by linarith) (by linarith)
  have hc1 : ∀ i, clear i = true → g i = 1 := fun i hc => hcl i hc
  refine ⟨fun i hlt => ?_, hc1, fun hw' i hgt => ?_, ?_⟩
  · have hc : clear i = false := by
      by_contra hc
      linarith [hc1 i (by simpa using hc)]
    refine ⟨hc, ?_⟩
    by_contra he
    have := hed i hc (by simpa using he)
    nlinarith [(hfr i).1]
  · have hc : clear i = false := by
      by_contra hc
      linarith [hc1 i (by simpa using hc)]
    refine ⟨hc, ?_⟩
    by_contra he
    have := hw hw' i hc (by simpa using he)
    nlinarith [(hfr i).2]
  · have := hists_total fun i => some (g i)
    have hz : count (fun i : ι => (some (g i) : Option ℝ) = none) = 0 := by unfold count; simp
    omega

/-- C240 violated: the edge cell with the densest cloud is counted as clear sky. -/
theorem C240_violated_edge {f : ι → ℝ} {clear edge : ι → Bool} {ktmean ktmax kt1 mq fm : ℝ} {g : ι → Option ℝ}
    (h : scaleLave f clear edge ktmean ktmax kt1 mq = .ok g) (hq : quantileLin mq (valsOn f fun i => clear i = false) = some fm) (hf : 0 < fm) (hk : kt1 ≤ 1)
    (i : ι) (hc : clear i = false) (he : edge i = true) (hi : ∀ j, f j ≤ f i) (hn : g i ≠ none) : g i = some 1 := by
  obtain ⟨fm', lo, hi', _, hq', hb, ⟨k, hk'⟩, _, rfl⟩ := lave_inv h
  rw [hq, Option.some.injEq] at hq'
  subst hq'
  have hlo : clouds3 f fm kt1 i = lo := by
    refine le_antisymm ?_ (hb i).1
    rw [← hk']
    unfold clouds3
    refine max_le_max le_rfl (min_le_min le_rfl ?_)
    have : f k * (1 - kt1) / fm ≤ f i * (1 - kt1) / fm := by
      rw [div_le_div_iff_of_pos_right hf]
      exact mul_le_mul_of_nonneg_right (hi k) (by linarith)
    linarith
  simp only [hc, he, if_true, Bool.false_eq_true, if_false] at hn ⊢
  unfold laveCe at hn ⊢
  split_ifs at hn ⊢ with h2
  · exact absurd rfl hn
  · rw [hlo]; simp

/-- C240 violated: two cloudy cells without any edge, and one of them is counted as edge enhancement. -/
theorem C240_violated_cloudy : ∃ g, scaleLave CloudScale.two (fun _ => false) (fun _ => false) 0.9 1.4 0.2 0.99 = .ok g ∧ 0 < (threeHists g).2.2 := by
  obtain ⟨g, v, h, hg, hv⟩ := CloudScale.C117_violated
  refine ⟨g, h, ?_⟩
  have : ∃ i, ∃ v, g i = some v ∧ 1 < v := ⟨0, v, hg, by linarith⟩
  exact count_pos this

/-- C240 violated: with smoothing of the clear sky and the flipped distribution, as in the demonstration, a clear cell above the lower quantile is not 1; if it is below the upper
quantile it is counted as cloudy area. -/
theorem C240_violated_smoothed {f : ι → ℝ} {clear edge : ι → Bool} {ktmean ktmax kt1 q c lo hi : ℝ} {g : ι → ℝ} {w : Bool}
    (h : scaleBasic f clear edge ktmean ktmax kt1 q true (some c) = .ok (g, w)) (hc : c < 1)
    (hqh : quantileLin q (valsOn f fun i => clear i = false) = some hi) (hql : quantileLin (1 - q) (valsOn f fun i => clear i = false) = some lo) (i : ι)
    (hi' : clear i = true) (h0 : lo < f i) (h1 : f i < hi) : g i < 1 := by
  obtain ⟨lo', hi2, _, a, b, hcl, -⟩ := basic_inv h
  rw [hqh, Option.some.injEq] at a
  rw [hql, Option.some.injEq] at b
  subst a b
  rw [hcl i hi']
  have hd : 0 < hi - lo := by linarith
  have p0 : 0 < (f i - lo) / (hi - lo) := div_pos (by linarith) hd
  have p1 : (f i - lo) / (hi - lo) < 1 := by rw [div_lt_one hd]; linarith
  have : cloudsFr f lo hi true i = 1 - (f i - lo) / (hi - lo) := by
    unfold cloudsFr
    simp only
    rw [if_pos trivial, if_neg (not_lt.2 p1.le), if_neg (not_lt.2 p0.le)]
  unfold clearVal
  rw [this]
  simp only
  nlinarith

/-- Two clouds of values 0 and 1, the second at an edge: the hypotheses of `C240_violated_edge` are met. -/
example : ∃ g, scaleLave CloudScale.two (fun _ => false) (fun i => i == 1) 0.9 1.4 0.2 0.99 = .ok g ∧ g 1 = some 1 := by
  have c0 : clouds3 CloudScale.two 0.99 0.2 0 = 1 := by unfold clouds3 CloudScale.two; norm_num
  have c1 : clouds3 CloudScale.two 0.99 0.2 1 = 19 / 99 := by unfold clouds3 CloudScale.two; norm_num
  have hmn : omax ((vals fun i => -clouds3 CloudScale.two 0.99 0.2 i).map some) = some (-(19 / 99)) := by
    rw [omax_eq_some, filterMap_map_some]
    refine ⟨by have := vals_mem (fun i => -clouds3 CloudScale.two 0.99 0.2 i) 1; simp only [c1] at this; exact this, ?_⟩
    intro u hu
    obtain ⟨i, rfl⟩ := mem_vals hu
    fin_cases i
    · change -clouds3 CloudScale.two 0.99 0.2 0 ≤ _; rw [c0]; norm_num
    · change -clouds3 CloudScale.two 0.99 0.2 1 ≤ _; rw [c1]
  have hok : ∃ g, scaleLave CloudScale.two (fun _ => false) (fun i => i == 1) 0.9 1.4 0.2 0.99 = .ok g ∧ g 1 ≠ none := by
    unfold scaleLave
    rw [CloudScale.two_quantile 0.99 (by norm_num) (by norm_num)]
    simp only
    rw [if_neg (by norm_num), CloudScale.omax_fin2 1 (19 / 99) (by norm_num) _ c0 c1, hmn]
    refine ⟨_, rfl, ?_⟩
    simp [laveCe]
    norm_num
  obtain ⟨g, hg, hn⟩ := hok
  refine ⟨g, hg, C240_violated_edge hg (CloudScale.two_quantile 0.99 (by norm_num) (by norm_num)) (by norm_num) (by norm_num) 1 rfl rfl (fun j => ?_) hn⟩
  fin_cases j <;> norm_num [CloudScale.two]

/-- Two clouds of values 0 and 1 with a clear cell of value 1/2 between them. -/
noncomputable def gap (i : Fin 3) : ℝ := (i : ℕ) / 2

theorem gap_quantile (q : ℝ) (h0 : 0 < q) (h1 : q < 1) : quantileLin q (valsOn gap fun i => (i == 1) = false) = some q := by
  rw [quantile_listed gap (fun i => (i == 1) = false) (s := [0, 2]) (by decide) (by decide) (by simp) (by simp [gap])]
  have hf : ⌊q * (((2 : ℕ) : ℝ) - 1)⌋ = 0 := by rw [Int.floor_eq_iff]; push_cast; constructor <;> linarith
  have hc : ⌈q * (((2 : ℕ) : ℝ) - 1)⌉ = 1 := by rw [Int.ceil_eq_iff]; push_cast; constructor <;> linarith
  simp only [List.length_cons, List.length_nil, Nat.zero_add, Nat.reduceAdd]
  rw [hf, hc]
  simp [gap]
  ring

theorem gap_ok (flip : Bool) (cs : Option ℝ) : ∃ g w, scaleBasic gap (fun i => i == 1) (fun _ => false) 0.6 1.2 0.2 0.999 flip cs = .ok (g, w) := by
  unfold scaleBasic
  rw [gap_quantile 0.999 (by norm_num) (by norm_num), gap_quantile (1 - 0.999) (by norm_num) (by norm_num)]
  simp only
  rw [if_neg (by norm_num)]
  split_ifs
  · exact ⟨_, _, rfl⟩
  · exact ⟨_, _, rfl⟩

/-- The clear cell is counted as cloudy area with the smoothing of the demonstration, and as clear sky without smoothing. -/
example : (∃ g w, scaleBasic gap (fun i => i == 1) (fun _ => false) 0.6 1.2 0.2 0.999 true (some 0.8) = .ok (g, w) ∧ g 1 < 1) ∧
    ∃ g w, scaleBasic gap (fun i => i == 1) (fun _ => false) 0.6 1.2 0.2 0.999 true none = .ok (g, w) ∧ g 1 = 1 := by
  have hn : NearQuantiles gap (fun i => i == 1) 0.999 := by
    intro lo hi hhi hlo i
    rw [gap_quantile 0.999 (by norm_num) (by norm_num)] at hhi
    rw [gap_quantile (1 - 0.999) (by norm_num) (by norm_num)] at hlo
    rw [← Option.some.inj hhi, ← Option.some.inj hlo]
    fin_cases i <;> norm_num [gap]
  obtain ⟨g, w, h⟩ := gap_ok true (some 0.8)
  obtain ⟨g', w', h'⟩ := gap_ok true none
  exact ⟨⟨g, w, h, C240_violated_smoothed h (by norm_num) (gap_quantile 0.999 (by norm_num) (by norm_num)) (gap_quantile (1 - 0.999) (by norm_num) (by norm_num)) 1 rfl
    (by norm_num [gap]) (by norm_num [gap])⟩, g', w', h', (C240_basic_partial h' (by norm_num) (by norm_num) (by norm_num) (by norm_num) hn).2.1 1 rfl⟩

end SST.Props.CloudComplement
