import Verif.Proofs.Stats

/-!
# Properties C55, C56, C113: error metrics
-/

namespace SST.Props.Stats
open SST SST.Stats

/-! ## C55 -/

theorem len_pos {α : Type} {l : List α} (h : l ≠ []) : (0 : ℝ) < l.length := by
  have := List.length_pos_iff.2 h
  exact_mod_cast this

/-- C55: `|mbe| ≤ mae ≤ rmse`, `rmse² = mse = mbe² + mean squared deviation of the error from its mean`. -/
theorem C55_inequalities (isSeries : Bool) (b e : List ℝ) (hb : b ≠ []) (h : b.length = e.length) :
    ∃ r a m s, rmse isSeries (b.map some) (e.map some) = some r ∧ mae isSeries (b.map some) (e.map some) = some a ∧
      mbe isSeries (b.map some) (e.map some) = some m ∧ mse isSeries (b.map some) (e.map some) = some s ∧
      |m| ≤ a ∧ a ≤ r ∧ r ^ 2 = s ∧ s = m ^ 2 + (List.zipWith (fun (u v : ℝ) => (v - u - m) ^ 2) b e).sum / b.length := by
  obtain ⟨l, rfl, rfl, hl⟩ := zip_pair h
  have hl' : l ≠ [] := by intro h0; subst h0; simp at hb
  have hn := len_pos hl'
  refine ⟨_, _, _, _, rmse_map hl' _ _ _, mae_map hl' _ _ _, mbe_map hl' _ _ _, mse_map hl' _ _ _, ?_, ?_, ?_, ?_⟩
  · rw [abs_div, abs_of_pos hn]
    exact div_le_div_of_nonneg_right (sum_abs_le l _) hn.le
  · apply Real.le_sqrt_of_sq_le
    rw [div_pow, div_le_div_iff₀ (by positivity) hn]
    have hc := sum_cauchy l (fun p => |p.2 - p.1|) (fun _ => 1)
    have h1 : (l.map fun _ => (1 : ℝ) ^ 2).sum = l.length := by simp
    have h2 : (l.map fun p => |p.2 - p.1| ^ 2).sum = (l.map fun p => (p.2 - p.1) ^ 2).sum := by
      congr 1; apply List.map_congr_left; intro p _; exact sq_abs _
    simp only [mul_one] at hc
    rw [h1, h2] at hc
    nlinarith
  · exact Real.sq_sqrt (div_nonneg (sum_nonneg' fun _ _ => sq_nonneg _) hn.le)
  · rw [List.zipWith_map, List.zipWith_self, List.length_map]
    set m := (l.map fun p => p.2 - p.1).sum / (l.length : ℝ) with hm
    have hs : (l.map fun p => (p.2 - p.1 - m) ^ 2).sum = (l.map fun p => (p.2 - p.1) ^ 2).sum - 2 * m * (l.map fun p => p.2 - p.1).sum + l.length * m ^ 2 := by
      clear_value m
      clear hm hn hl' hl h hb
      induction l with
      | nil => simp
      | cons p l ih => simp only [List.map_cons, List.sum_cons, ih, List.length_cons]; push_cast; ring
    rw [hs]
    have hD : (l.map fun p => p.2 - p.1).sum = m * l.length := by rw [hm]; field_simp
    rw [hD]
    field_simp
    ring

/-- C55: mse, rmse and mae vanish exactly for equal series. -/
theorem C55_zero_iff (isSeries : Bool) (b e : List ℝ) (hb : b ≠ []) (h : b.length = e.length) :
    (mse isSeries (b.map some) (e.map some) = some 0 ↔ b = e) ∧ (rmse isSeries (b.map some) (e.map some) = some 0 ↔ b = e) ∧
    (mae isSeries (b.map some) (e.map some) = some 0 ↔ b = e) ∧ (b = e → mbe isSeries (b.map some) (e.map some) = some 0) := by
  obtain ⟨l, rfl, rfl, hl⟩ := zip_pair h
  have hl' : l ≠ [] := by intro h0; subst h0; simp at hb
  have hn := len_pos hl'
  rw [mse_map hl', rmse_map hl', mae_map hl', mbe_map hl']
  have key : l.map Prod.fst = l.map Prod.snd ↔ ∀ p ∈ l, p.2 - p.1 = 0 := by
    rw [List.map_inj_left]
    constructor <;> intro h p hp <;> have := h p hp <;> linarith
  have hsq : (l.map fun p => (p.2 - p.1) ^ 2).sum = 0 ↔ ∀ p ∈ l, p.2 - p.1 = 0 := by
    constructor
    · intro h p hp; exact pow_eq_zero_iff (two_ne_zero) |>.1 (sum_eq_zero' (fun _ _ => sq_nonneg _) h p hp)
    · intro h
      have : (l.map fun p => (p.2 - p.1) ^ 2) = l.map fun _ => (0 : ℝ) := List.map_congr_left fun p hp => by rw [h p hp]; ring
      rw [this]; simp
  have hab : (l.map fun p => |p.2 - p.1|).sum = 0 ↔ ∀ p ∈ l, p.2 - p.1 = 0 := by
    constructor
    · intro h p hp; exact abs_eq_zero.1 (sum_eq_zero' (fun _ _ => abs_nonneg _) h p hp)
    · intro h
      have : (l.map fun p => |p.2 - p.1|) = l.map fun _ => (0 : ℝ) := List.map_congr_left fun p hp => by rw [h p hp]; simp
      rw [this]; simp
  simp only [Option.some.injEq]
  refine ⟨?_, ?_, ?_, ?_⟩
  · rw [key, ← hsq, div_eq_zero_iff]; simp [hn.ne']
  · rw [key, ← hsq, Real.sqrt_eq_zero (div_nonneg (sum_nonneg' fun _ _ => sq_nonneg _) hn.le), div_eq_zero_iff]; simp [hn.ne']
  · rw [key, ← hab, div_eq_zero_iff]; simp [hn.ne']
  · intro h
    have : (l.map fun p => p.2 - p.1) = l.map fun _ => (0 : ℝ) := List.map_congr_left fun p hp => key.1 h p hp
    rw [this]; simp

/-- C55: exchanging the series keeps rmse, mse, mae and negates mbe. -/
theorem C55_symmetry (isSeries : Bool) (b e : List ℝ) (hb : b ≠ []) (h : b.length = e.length) :
    rmse isSeries (b.map some) (e.map some) = rmse isSeries (e.map some) (b.map some) ∧
    mse isSeries (b.map some) (e.map some) = mse isSeries (e.map some) (b.map some) ∧
    mae isSeries (b.map some) (e.map some) = mae isSeries (e.map some) (b.map some) ∧
    mbe isSeries (b.map some) (e.map some) = (mbe isSeries (e.map some) (b.map some)).map fun (v : ℝ) => -v := by
  obtain ⟨l, rfl, rfl, hl⟩ := zip_pair h
  have hl' : l ≠ [] := by intro h0; subst h0; simp at hb
  have h1 : (l.map fun p => (p.2 - p.1) ^ 2) = l.map fun p => (p.1 - p.2) ^ 2 := List.map_congr_left fun p _ => by ring
  have h2 : (l.map fun p => |p.2 - p.1|) = l.map fun p => |p.1 - p.2| := List.map_congr_left fun p _ => abs_sub_comm _ _
  rw [rmse_map hl', mse_map hl', mae_map hl', mbe_map hl', rmse_map hl', mse_map hl', mae_map hl', mbe_map hl', h1, h2]
  refine ⟨rfl, rfl, rfl, ?_⟩
  simp only [Option.map_some, Option.some.injEq]
  rw [← neg_div]
  congr 1
  clear h1 h2 hl' hl h hb
  induction l with
  | nil => simp
  | cons p l ih => simp only [List.map_cons, List.sum_cons, ih]; ring

/-- C55: rmse and mae satisfy the triangle inequality, mbe adds up. -/
theorem C55_triangle (isSeries : Bool) (x y z : List ℝ) (hx : x ≠ []) (h : x.length = y.length) (h' : y.length = z.length) :
    (∃ r1 r2 r3, rmse isSeries (x.map some) (z.map some) = some r3 ∧ rmse isSeries (x.map some) (y.map some) = some r1 ∧
      rmse isSeries (y.map some) (z.map some) = some r2 ∧ r3 ≤ r1 + r2) ∧
    (∃ r1 r2 r3, mae isSeries (x.map some) (z.map some) = some r3 ∧ mae isSeries (x.map some) (y.map some) = some r1 ∧
      mae isSeries (y.map some) (z.map some) = some r2 ∧ r3 ≤ r1 + r2) ∧
    (∃ r1 r2, mbe isSeries (x.map some) (z.map some) = some (r1 + r2) ∧ mbe isSeries (x.map some) (y.map some) = some r1 ∧
      mbe isSeries (y.map some) (z.map some) = some r2) := by
  obtain ⟨l, rfl, rfl, rfl, hl⟩ := zip_triple h h'
  have hl' : l ≠ [] := by intro h0; subst h0; simp at hx
  have hn := len_pos hl'
  refine ⟨⟨_, _, _, rmse_map hl' _ _ _, rmse_map hl' _ _ _, rmse_map hl' _ _ _, ?_⟩,
    ⟨_, _, _, mae_map hl' _ _ _, mae_map hl' _ _ _, mae_map hl' _ _ _, ?_⟩,
    ⟨_, _, ?_, mbe_map hl' _ _ _, mbe_map hl' _ _ _⟩⟩
  · have hd : ∀ f : (ℝ × ℝ × ℝ) → ℝ, Real.sqrt ((l.map fun a => f a ^ 2).sum / l.length) = Real.sqrt (l.map fun a => f a ^ 2).sum / Real.sqrt l.length :=
      fun f => Real.sqrt_div (sum_nonneg' fun _ _ => sq_nonneg _) _
    rw [hd, hd, hd, ← add_div]
    apply div_le_div_of_nonneg_right _ (Real.sqrt_nonneg _)
    have := sum_minkowski l (fun a => a.2.1 - a.1) (fun a => a.2.2 - a.2.1)
    have e : (l.map fun a => (a.2.1 - a.1 + (a.2.2 - a.2.1)) ^ 2) = l.map fun a => (a.2.2 - a.1) ^ 2 := List.map_congr_left fun p _ => by ring
    rw [e] at this
    exact this
  · rw [← add_div]
    apply div_le_div_of_nonneg_right _ hn.le
    rw [← List.sum_map_add]
    apply sum_le_sum'
    intro a _
    calc |a.2.2 - a.1| = |(a.2.1 - a.1) + (a.2.2 - a.2.1)| := by congr 1; ring
      _ ≤ _ := abs_add_le _ _
  · rw [mbe_map hl', ← add_div, ← List.sum_map_add]
    congr 3
    apply List.map_congr_left
    intro a _
    ring

example : ([1, 2] : List ℝ) ≠ [] ∧ ([1, 2] : List ℝ).length = ([3, 4] : List ℝ).length ∧
    ([3, 4] : List ℝ).length = ([0, 1] : List ℝ).length := ⟨by simp, rfl, rfl⟩

/-! ## C56 -/

/-- C56: a common offset changes nothing. -/
theorem C56_offset (isSeries : Bool) (b e : List ℝ) (c : ℝ) (hb : b ≠ []) (h : b.length = e.length) :
    let b' := (b.map fun (v : ℝ) => v + c).map some
    let e' := (e.map fun (v : ℝ) => v + c).map some
    rmse isSeries b' e' = rmse isSeries (b.map some) (e.map some) ∧ mse isSeries b' e' = mse isSeries (b.map some) (e.map some) ∧
    mae isSeries b' e' = mae isSeries (b.map some) (e.map some) ∧ mbe isSeries b' e' = mbe isSeries (b.map some) (e.map some) := by
  obtain ⟨l, rfl, rfl, hl⟩ := zip_pair h
  have hl' : l ≠ [] := by intro h0; subst h0; simp at hb
  intro b' e'
  have hb' : b' = (l.map fun p => p.1 + c).map some := by simp only [b', List.map_map]; rfl
  have he' : e' = (l.map fun p => p.2 + c).map some := by simp only [e', List.map_map]; rfl
  rw [hb', he', rmse_map hl', mse_map hl', mae_map hl', mbe_map hl', rmse_map hl', mse_map hl', mae_map hl', mbe_map hl']
  simp

/-- C56: a common factor scales rmse and mae with its absolute value, mse with its square, mbe with itself. -/
theorem C56_scale (isSeries : Bool) (b e : List ℝ) (c : ℝ) (hb : b ≠ []) (h : b.length = e.length) :
    let b' := (b.map fun (v : ℝ) => c * v).map some
    let e' := (e.map fun (v : ℝ) => c * v).map some
    rmse isSeries b' e' = (rmse isSeries (b.map some) (e.map some)).map (fun (v : ℝ) => |c| * v) ∧
    mse isSeries b' e' = (mse isSeries (b.map some) (e.map some)).map (fun (v : ℝ) => c ^ 2 * v) ∧
    mae isSeries b' e' = (mae isSeries (b.map some) (e.map some)).map (fun (v : ℝ) => |c| * v) ∧
    mbe isSeries b' e' = (mbe isSeries (b.map some) (e.map some)).map (fun (v : ℝ) => c * v) := by
  obtain ⟨l, rfl, rfl, hl⟩ := zip_pair h
  have hl' : l ≠ [] := by intro h0; subst h0; simp at hb
  intro b' e'
  have hb' : b' = (l.map fun p => c * p.1).map some := by simp only [b', List.map_map]; rfl
  have he' : e' = (l.map fun p => c * p.2).map some := by simp only [e', List.map_map]; rfl
  rw [hb', he', rmse_map hl', mse_map hl', mae_map hl', mbe_map hl', rmse_map hl', mse_map hl', mae_map hl', mbe_map hl']
  have h1 : (l.map fun p => (c * p.2 - c * p.1) ^ 2).sum = c ^ 2 * (l.map fun p => (p.2 - p.1) ^ 2).sum := by
    rw [← List.sum_map_mul_left]; congr 1; apply List.map_congr_left; intro p _; ring
  have h2 : (l.map fun p => |c * p.2 - c * p.1|).sum = |c| * (l.map fun p => |p.2 - p.1|).sum := by
    rw [← List.sum_map_mul_left]; congr 1; apply List.map_congr_left; intro p _; rw [← abs_mul]; congr 1; ring
  have h3 : (l.map fun p => c * p.2 - c * p.1).sum = c * (l.map fun p => p.2 - p.1).sum := by
    rw [← List.sum_map_mul_left]; congr 1; apply List.map_congr_left; intro p _; ring
  rw [h1, h2, h3]
  simp only [Option.map_some, Option.some.injEq, mul_div_assoc]
  refine ⟨?_, trivial, trivial, trivial⟩
  rw [Real.sqrt_mul (sq_nonneg c), Real.sqrt_sq_eq_abs]

/-- C56: reordering both series in the same way (pairs of values, NaN included) changes nothing. -/
theorem C56_order (isSeries : Bool) (l l' : List (Option ℝ × Option ℝ)) (hp : l.Perm l') :
    rmse isSeries (l.map Prod.fst) (l.map Prod.snd) = rmse isSeries (l'.map Prod.fst) (l'.map Prod.snd) ∧
    mse isSeries (l.map Prod.fst) (l.map Prod.snd) = mse isSeries (l'.map Prod.fst) (l'.map Prod.snd) ∧
    mae isSeries (l.map Prod.fst) (l.map Prod.snd) = mae isSeries (l'.map Prod.fst) (l'.map Prod.snd) ∧
    mbe isSeries (l.map Prod.fst) (l.map Prod.snd) = mbe isSeries (l'.map Prod.fst) (l'.map Prod.snd) := by
  have hb : ∀ l : List (Option ℝ × Option ℝ), biasError (l.map Prod.fst) (l.map Prod.snd) = l.map fun p => osub p.2 p.1 := by
    intro l; unfold biasError; rw [List.zipWith_map, List.zipWith_self]
  have hm : ∀ a b : List (Option ℝ), a.Perm b → meanOf isSeries a = meanOf isSeries b := by
    intro a b hab
    have h1 : meanO (a.filterMap id) = meanO (b.filterMap id) := by
      have hf := hab.filterMap id
      unfold meanO mean
      rw [hf.sum_eq, hf.length_eq]
      by_cases h0 : b.filterMap id = []
      · rw [if_pos h0, if_pos (by rw [h0] at hf; exact hf.eq_nil)]
      · rw [if_neg h0, if_neg (by intro h1; rw [h1] at hf; exact h0 hf.symm.eq_nil)]
    unfold meanOf npMean pdMean
    rw [h1]
    by_cases hn : none ∈ a
    · rw [if_pos hn, if_pos (hab.mem_iff.1 hn)]
    · rw [if_neg hn, if_neg (fun h => hn (hab.mem_iff.2 h))]
  have e1 : mse isSeries (l.map Prod.fst) (l.map Prod.snd) = mse isSeries (l'.map Prod.fst) (l'.map Prod.snd) := by
    unfold mse squaredError
    rw [hb, hb]
    exact hm _ _ ((hp.map _).map _)
  refine ⟨by unfold rmse; rw [e1], e1, ?_, ?_⟩
  · unfold mae absoluteError
    rw [hb, hb]
    exact hm _ _ ((hp.map _).map _)
  · unfold mbe
    rw [hb, hb]
    exact hm _ _ (hp.map _)

example : ([(some 1, none), (some 2, some 3)] : List (Option ℝ × Option ℝ)).Perm [(some 2, some 3), (some 1, none)] := by
  exact List.Perm.swap _ _ _

/-! ## C113 -/

/-- C113: with Series, samples missing on either side are left out of every metric. -/
theorem C113_series (l : List (Option ℝ × Option ℝ)) :
    let both := l.filterMap fun p => p.1.bind fun (b : ℝ) => p.2.map fun (e : ℝ) => (b, e)
    mse true (l.map Prod.fst) (l.map Prod.snd) = mse true ((both.map Prod.fst).map some) ((both.map Prod.snd).map some) ∧
    rmse true (l.map Prod.fst) (l.map Prod.snd) = rmse true ((both.map Prod.fst).map some) ((both.map Prod.snd).map some) ∧
    mae true (l.map Prod.fst) (l.map Prod.snd) = mae true ((both.map Prod.fst).map some) ((both.map Prod.snd).map some) ∧
    mbe true (l.map Prod.fst) (l.map Prod.snd) = mbe true ((both.map Prod.fst).map some) ((both.map Prod.snd).map some) := by
  intro both
  have hb : biasError (l.map Prod.fst) (l.map Prod.snd) = l.map fun p => osub p.2 p.1 := by
    unfold biasError; rw [List.zipWith_map, List.zipWith_self]
  have hf : (l.map fun p => osub p.2 p.1).filterMap id = both.map fun p => p.2 - p.1 := by
    simp only [both]
    rw [List.filterMap_map, List.map_filterMap]
    apply List.filterMap_congr
    intro p _
    rcases p with ⟨_ | b, _ | e⟩ <;> rfl
  have key : ∀ F : ℝ → ℝ, (((l.map fun p => osub p.2 p.1).map (Option.map F)).filterMap id) =
      ((((both.map fun p => p.2 - p.1).map some).map (Option.map F)).filterMap id) := by
    intro F
    have : ∀ m : List (Option ℝ), (m.map (Option.map F)).filterMap id = (m.filterMap id).map F := by
      intro m
      rw [List.filterMap_map, List.map_filterMap]; rfl
    rw [this, this, hf, filterMap_some]
  have e1 : mse true (l.map Prod.fst) (l.map Prod.snd) = mse true ((both.map Prod.fst).map some) ((both.map Prod.snd).map some) := by
    unfold mse squaredError meanOf pdMean
    rw [hb, biasError_some]
    simp only [if_true]
    rw [key]
  refine ⟨e1, by unfold rmse; rw [e1], ?_, ?_⟩
  · unfold mae absoluteError meanOf pdMean
    rw [hb, biasError_some]
    simp only [if_true]
    rw [key]
  · unfold mbe meanOf pdMean
    rw [hb, biasError_some]
    simp only [if_true]
    rw [hf, filterMap_some]

/-- C113: with arrays, one NaN on either side makes every metric NaN. -/
theorem C113_array (l : List (Option ℝ × Option ℝ)) (h : ∃ p ∈ l, p.1 = none ∨ p.2 = none) :
    mse false (l.map Prod.fst) (l.map Prod.snd) = none ∧ rmse false (l.map Prod.fst) (l.map Prod.snd) = none ∧
    mae false (l.map Prod.fst) (l.map Prod.snd) = none ∧ mbe false (l.map Prod.fst) (l.map Prod.snd) = none := by
  have hb : biasError (l.map Prod.fst) (l.map Prod.snd) = l.map fun p => osub p.2 p.1 := by
    unfold biasError; rw [List.zipWith_map, List.zipWith_self]
  obtain ⟨p, hp, hn⟩ := h
  have hmem : none ∈ l.map fun p => osub p.2 p.1 := by
    refine List.mem_map.2 ⟨p, hp, ?_⟩
    rcases p with ⟨_ | b, _ | e⟩ <;> simp_all [osub]
  have hmem' : ∀ F : ℝ → ℝ, none ∈ (l.map fun p => osub p.2 p.1).map (Option.map F) :=
    fun F => List.mem_map.2 ⟨none, hmem, rfl⟩
  have e1 : mse false (l.map Prod.fst) (l.map Prod.snd) = none := by
    unfold mse squaredError meanOf npMean
    rw [hb]; simp only [Bool.false_eq_true, if_false]; rw [if_pos (hmem' _)]
  refine ⟨e1, by unfold rmse; rw [e1]; rfl, ?_, ?_⟩
  · unfold mae absoluteError meanOf npMean
    rw [hb]; simp only [Bool.false_eq_true, if_false]; rw [if_pos (hmem' _)]
  · unfold mbe meanOf npMean
    rw [hb]; simp only [Bool.false_eq_true, if_false]; rw [if_pos hmem]

/-- The pairs (baseline, estimation) of the labels that carry a value on both sides, in the order of `e`. -/
def common {L : Type} [DecidableEq L] (b e : List (L × Option ℝ)) : List (ℝ × ℝ) :=
  e.filterMap fun p => p.2.bind fun (x : ℝ) => (b.find? fun q => q.1 = p.1).bind fun q => q.2.map fun (y : ℝ) => (y, x)

theorem align_common {L : Type} [DecidableEq L] (b e : List (L × Option ℝ)) :
    ((alignSub b e).filterMap id) = (common b e).map fun p => p.2 - p.1 := by
  unfold alignSub common
  rw [List.filterMap_append, List.filterMap_map, List.filterMap_map, List.map_filterMap]
  have h2 : ((b.filter fun p => p.1 ∉ e.map Prod.fst).filterMap (id ∘ fun _ => (none : Option ℝ))) = [] := by
    rw [List.filterMap_eq_nil_iff]; intro a _; rfl
  rw [h2, List.append_nil]
  apply List.filterMap_congr
  intro p _
  have hl : b.lookup p.1 = (b.find? fun q => q.1 = p.1).map Prod.snd := by
    clear h2
    induction b with
    | nil => rfl
    | cons q b ih =>
      rw [List.lookup_cons, List.find?_cons]
      by_cases hq : q.1 = p.1
      · simp [hq]
      · have : (p.1 == q.1) = false := by simpa using fun h => hq h.symm
        simp only [this, hq, decide_false]
        exact ih
  simp only [Function.comp_apply, id]
  rw [hl]
  generalize List.find? _ b = o
  rcases p.2 with _ | x
  · rfl
  · rcases o with _ | ⟨k, _ | y⟩ <;> rfl

/-- C113: two Series with different labels are compared on the labels carrying a value on both sides. -/
theorem C113_labels {L : Type} [DecidableEq L] (b e : List (L × Option ℝ)) :
    let c := common b e
    mseL b e = mse true ((c.map Prod.fst).map some) ((c.map Prod.snd).map some) ∧
    rmseL b e = rmse true ((c.map Prod.fst).map some) ((c.map Prod.snd).map some) ∧
    maeL b e = mae true ((c.map Prod.fst).map some) ((c.map Prod.snd).map some) ∧
    mbeL b e = mbe true ((c.map Prod.fst).map some) ((c.map Prod.snd).map some) := by
  intro c
  have hf : (alignSub b e).filterMap id = c.map fun p => p.2 - p.1 := align_common b e
  have key : ∀ F : ℝ → ℝ, (((alignSub b e).map (Option.map F)).filterMap id) =
      ((((c.map fun p => p.2 - p.1).map some).map (Option.map F)).filterMap id) := by
    intro F
    have : ∀ m : List (Option ℝ), (m.map (Option.map F)).filterMap id = (m.filterMap id).map F := by
      intro m
      rw [List.filterMap_map, List.map_filterMap]; rfl
    rw [this, this, hf, filterMap_some]
  have e1 : mseL b e = mse true ((c.map Prod.fst).map some) ((c.map Prod.snd).map some) := by
    unfold mseL mse squaredError meanOf pdMean
    rw [biasError_some]
    simp only [if_true]
    rw [key]
  refine ⟨e1, by unfold rmse rmseL; rw [e1], ?_, ?_⟩
  · unfold maeL mae absoluteError meanOf pdMean
    rw [biasError_some]
    simp only [if_true]
    rw [key]
  · unfold mbeL mbe meanOf pdMean
    rw [biasError_some]
    simp only [if_true]
    rw [hf, filterMap_some]

/-- C113: two Series without a common label have NaN metrics, without any error. -/
theorem C113_disjoint {L : Type} [DecidableEq L] (b e : List (L × Option ℝ)) (h : ∀ p ∈ e, ∀ q ∈ b, q.1 ≠ p.1) :
    mseL b e = none ∧ rmseL b e = none ∧ maeL b e = none ∧ mbeL b e = none := by
  have hc : common b e = [] := by
    unfold common
    rw [List.filterMap_eq_nil_iff]
    intro p hp
    have : (b.find? fun q => q.1 = p.1) = none := by
      rw [List.find?_eq_none]; intro q hq; simpa using h p hp q hq
    rw [this]
    cases p.2 <;> rfl
  obtain ⟨h1, h2, h3, h4⟩ := C113_labels b e
  rw [hc] at h1 h2 h3 h4
  rw [h1, h2, h3, h4]
  have e1 : ∀ F : Option ℝ → Option ℝ, meanOf true (([] : List (Option ℝ)).map F) = none := fun F => by
    unfold meanOf pdMean meanO; simp
  refine ⟨?_, ?_, ?_, ?_⟩ <;>
    simp [mse, rmse, mae, mbe, squaredError, absoluteError, biasError, meanOf, pdMean, meanO]

example : ∀ p ∈ ([("a", some 1)] : List (String × Option ℝ)), ∀ q ∈ ([("b", some 1)] : List (String × Option ℝ)), q.1 ≠ p.1 := by simp

end SST.Props.Stats
