import Verif.Proofs.Round
import Mathlib.Data.Int.Log
import Mathlib.Algebra.Order.Round

/-!
# Properties C258, C259: error metrics and path lengths with rounding
-/

namespace SST.Round
open SST SST.Stats

/-- What is assumed of `numpy` and `pandas`: operations are rounded with relative error at most `u < 1`, sums are taken in any order. -/
structure FloatLike (u : ℝ) (A : Arith) : Prop where
  lt_one : u < 1
  rounds : RoundsTo u A.fl
  sums : ∀ l, l ≠ [] → AnyOrder A.fl l (A.sum l)
  empty : A.sum [] = 0

section
variable {u : ℝ} {A : Arith}

/-- Both values of a row, if present. -/
def rowsOf (b e : List (Option ℝ)) : List (Option (ℝ × ℝ)) := List.zipWith (fun x y => x.bind fun (x : ℝ) => y.map fun (y : ℝ) => (x, y)) e b

theorem bias_rows (b e : List (Option ℝ)) : biasError b e = (rowsOf b e).map (Option.map fun p => p.1 - p.2) := by
  unfold biasError rowsOf
  rw [List.map_zipWith]
  congr 1
  funext x y
  cases x <;> cases y <;> rfl

theorem biasF_rows (A : Arith) (b e : List (Option ℝ)) : biasErrorF A b e = (rowsOf b e).map (Option.map fun p => A.fl (p.1 - p.2)) := by
  unfold biasErrorF rowsOf
  rw [List.map_zipWith]
  congr 1
  funext x y
  cases x <;> cases y <;> rfl

theorem filterMap_optmap {α β : Type} (l : List (Option α)) (f : α → β) : (l.map (Option.map f)).filterMap id = (l.filterMap id).map f := by
  induction l with
  | nil => rfl
  | cons a l ih => cases a <;> simp_all

theorem none_optmap {α β : Type} (l : List (Option α)) (f : α → β) : none ∈ l.map (Option.map f) ↔ none ∈ l := by
  rw [List.mem_map]
  constructor
  · rintro ⟨a, ha, h⟩
    cases a with
    | none => exact ha
    | some a => simp at h
  · intro h
    exact ⟨none, h, rfl⟩

open Classical in
theorem meanOf_rows {α : Type} (s : Bool) (l : List (Option α)) (f : α → ℝ) :
    meanOf s (l.map (Option.map f)) = if s = false ∧ none ∈ l then none else meanO ((l.filterMap id).map f) := by
  unfold meanOf pdMean npMean
  cases s <;> simp only [filterMap_optmap, none_optmap] <;> simp

open Classical in
theorem meanOfF_rows {α : Type} (A : Arith) (s : Bool) (l : List (Option α)) (f : α → ℝ) :
    meanOfF A s (l.map (Option.map f)) = if s = false ∧ none ∈ l then none else meanOF A ((l.filterMap id).map f) := by
  unfold meanOfF
  simp only [filterMap_optmap, none_optmap]

theorem rows_length (b e : List (Option ℝ)) : ((rowsOf b e).filterMap id).length ≤ b.length := by
  refine (List.length_filterMap_le _ _).trans ?_
  unfold rowsOf
  rw [List.length_zipWith]
  exact min_le_right _ _

/-- Means of terms `≥ 0` computed with relative errors. -/
theorem mean_near (h : FloatLike u A) (s : Bool) {α : Type} (l : List (Option α)) (f g : α → ℝ) (k N : ℕ) (hf : ∀ x, 0 ≤ f x) (hk : ∀ x, Near u k (f x) (g x))
    (hN : (l.filterMap id).length ≤ N) : BothOr (fun x v => 0 ≤ x ∧ Near u (N + k) x v) (meanOf s (l.map (Option.map f))) (meanOfF A s (l.map (Option.map g))) := by
  classical
  rw [meanOf_rows, meanOfF_rows]
  split_ifs with hn
  · trivial
  unfold meanO meanOF
  by_cases hl : l.filterMap id = []
  · simp only [hl, List.map_nil, if_true]; trivial
  have h1 : ∀ f : α → ℝ, (l.filterMap id).map f ≠ [] := fun f => by simpa using hl
  simp only [h1, if_false, BothOr]
  have hr := h.rounds
  have h0 := u_nonneg hr
  have hlen := List.length_pos_iff.mpr hl
  have hs := (h.sums _ (h1 g)).near_map hr h.lt_one (fun x _ => hf x) (fun x _ => hk x)
  have sn : 0 ≤ ((l.filterMap id).map f).sum := List.sum_nonneg (by simpa using fun x _ => hf x)
  unfold mean
  rw [List.length_map, List.length_map]
  have hp : (0 : ℝ) < (l.filterMap id).length := by exact_mod_cast hlen
  have hd := (hs.div h0 h.lt_one sn hp (Near.refl _)).rnd hr h.lt_one (div_nonneg sn hp.le)
  exact ⟨div_nonneg sn hp.le, hd.mono h0 h.lt_one (by omega) (div_nonneg sn hp.le)⟩

/-- C258: the mean absolute error computed with rounding. -/
theorem C258_mae (h : FloatLike u A) (s : Bool) (b e : List (Option ℝ)) : BothOr (Near u (b.length + 1)) (mae s b e) (maeF A s b e) := by
  have := mean_near h s (rowsOf b e) (fun p => |p.1 - p.2|) (fun p => |A.fl (p.1 - p.2)|) 1 b.length (fun _ => abs_nonneg _)
    (fun p => near_abs h.rounds h.lt_one _) (rows_length b e)
  unfold mae maeF absoluteError absoluteErrorF
  rw [bias_rows, biasF_rows, List.map_map, List.map_map]
  have e1 : ∀ f : ℝ × ℝ → ℝ, ((Option.map fun (d : ℝ) => |d|) ∘ Option.map f) = Option.map fun p => |f p| := by
    intro f; funext p; cases p <;> rfl
  rw [e1, e1]
  revert this
  generalize meanOf s _ = x
  generalize meanOfF A s _ = y
  cases x <;> cases y <;> simp [BothOr]

theorem mse_near (h : FloatLike u A) (s : Bool) (b e : List (Option ℝ)) : BothOr (fun x v => 0 ≤ x ∧ Near u (b.length + 3) x v) (mse s b e) (mseF A s b e) := by
  have := mean_near h s (rowsOf b e) (fun p => (p.1 - p.2) ^ 2) (fun p => A.fl (A.fl (p.1 - p.2) ^ 2)) 3 b.length (fun _ => sq_nonneg _)
    (fun p => ((near_abs h.rounds h.lt_one _).sq (u_nonneg h.rounds) h.lt_one).rnd h.rounds h.lt_one (sq_nonneg _)) (rows_length b e)
  unfold mse mseF squaredError squaredErrorF
  rw [bias_rows, biasF_rows, List.map_map, List.map_map]
  have e1 : ∀ f g : ℝ → ℝ, ∀ q : ℝ × ℝ → ℝ, (Option.map f ∘ Option.map q) = Option.map fun p => f (q p) := by
    intro f g q; funext p; cases p <;> rfl
  rw [e1 _ id, e1 _ id]
  exact this

/-- C258: the mean squared error computed with rounding. -/
theorem C258_mse (h : FloatLike u A) (s : Bool) (b e : List (Option ℝ)) : BothOr (Near u (b.length + 3)) (mse s b e) (mseF A s b e) := by
  have := mse_near h s b e
  revert this
  generalize mse s b e = x
  generalize mseF A s b e = y
  cases x <;> cases y <;> simp [BothOr]

/-- C258: the root mean squared error computed with rounding. -/
theorem C258_rmse (h : FloatLike u A) (s : Bool) (b e : List (Option ℝ)) : BothOr (Near u (b.length + 4)) (rmse s b e) (rmseF A s b e) := by
  have := mse_near h s b e
  unfold rmse rmseF
  revert this
  generalize mse s b e = x
  generalize mseF A s b e = y
  cases x <;> cases y <;> simp only [BothOr, Option.map_some, Option.map_none, imp_self]
  rintro ⟨h0, hn⟩
  exact (hn.sqrt (u_nonneg h.rounds) h.lt_one).rnd h.rounds h.lt_one (Real.sqrt_nonneg _)

/-- C258: the mean bias computed with rounding; its error is bounded by the mean absolute error, not by the bias. -/
theorem C258_mbe (h : FloatLike u A) (s : Bool) (b e : List (Option ℝ)) :
    BothOr (fun x v => ∃ m, mae s b e = some m ∧ |v - x| ≤ ((1 + u) ^ (b.length + 1) - 1) * m) (mbe s b e) (mbeF A s b e) := by
  classical
  unfold mae mbe mbeF absoluteError
  rw [bias_rows, biasF_rows, List.map_map]
  have e1 : ∀ f : ℝ × ℝ → ℝ, ((Option.map fun (d : ℝ) => |d|) ∘ Option.map f) = Option.map fun p => |f p| := by
    intro f; funext p; cases p <;> rfl
  rw [e1, meanOf_rows, meanOf_rows, meanOfF_rows]
  have hN := rows_length b e
  generalize rowsOf b e = l at *
  split_ifs with hn
  · trivial
  unfold meanO meanOF
  by_cases hl : l.filterMap id = []
  · simp only [hl, List.map_nil, if_true]; trivial
  have h1 : ∀ f : ℝ × ℝ → ℝ, (l.filterMap id).map f ≠ [] := fun f => by simpa using hl
  simp only [h1, if_false, BothOr]
  refine ⟨_, rfl, ?_⟩
  have hr := h.rounds
  have h0 := u_nonneg hr
  have hlen := List.length_pos_iff.mpr hl
  have hs := (h.sums _ (h1 fun p => A.fl (p.1 - p.2))).abs_sub hr
  unfold mean
  simp only [List.length_map, List.map_map] at hs ⊢
  have hp : (0 : ℝ) < (l.filterMap id).length := by exact_mod_cast hlen
  generalize A.sum ((l.filterMap id).map fun p => A.fl (p.1 - p.2)) = S at hs ⊢
  generalize l.filterMap id = r at *
  have d1 : |(r.map fun p => A.fl (p.1 - p.2)).sum - (r.map fun p => p.1 - p.2).sum| ≤ u * (r.map fun p => |p.1 - p.2|).sum := by
    clear hs hl hlen hp h1 hN
    induction r with
    | nil => simp
    | cons p r ih =>
      simp only [List.map_cons, List.sum_cons]
      have := hr (p.1 - p.2)
      have t : A.fl (p.1 - p.2) + (r.map fun p => A.fl (p.1 - p.2)).sum - (p.1 - p.2 + (r.map fun p => p.1 - p.2).sum) =
        (A.fl (p.1 - p.2) - (p.1 - p.2)) + ((r.map fun p => A.fl (p.1 - p.2)).sum - (r.map fun p => p.1 - p.2).sum) := by ring
      rw [t, mul_add]
      exact (abs_add_le _ _).trans (add_le_add this ih)
  have d2 : (r.map fun p => |A.fl (p.1 - p.2)|).sum ≤ (1 + u) * (r.map fun p => |p.1 - p.2|).sum := by
    rw [← List.sum_map_mul_left]
    refine sum_le_sum' fun p _ => ?_
    have := hr (p.1 - p.2)
    have t := abs_sub_abs_le_abs_sub (A.fl (p.1 - p.2)) (p.1 - p.2)
    linarith
  have M0 : 0 ≤ (r.map fun p => |p.1 - p.2|).sum := sum_nonneg' fun _ _ => abs_nonneg _
  have d0 := sum_abs_le r fun p => p.1 - p.2
  have ef : (r.map ((fun x : ℝ => |x|) ∘ fun p : ℝ × ℝ => A.fl (p.1 - p.2))).sum = (r.map fun p => |A.fl (p.1 - p.2)|).sum := rfl
  rw [ef] at hs
  set D := (r.map fun p => p.1 - p.2).sum
  set M := (r.map fun p => |p.1 - p.2|).sum
  set n := r.length
  have q1 : 1 ≤ (1 + u) ^ (n - 1) := one_le_pow₀ (by linarith)
  have d3 : |S - D| ≤ ((1 + u) ^ n - 1) * M := by
    have : |S - D| ≤ ((1 + u) ^ (n - 1) - 1) * ((1 + u) * M) + u * M := by
      refine (abs_sub_le _ _ _).trans (add_le_add (hs.trans (mul_le_mul_of_nonneg_left d2 (by linarith))) d1)
    refine this.trans (le_of_eq ?_)
    have : (1 + u) ^ n = (1 + u) ^ (n - 1) * (1 + u) := by rw [← pow_succ]; congr 1; omega
    rw [this]; ring
  have d4 : |S| ≤ (1 + u) ^ n * M := by
    have := abs_sub_abs_le_abs_sub S D
    linarith
  have r1 := hr (S / n)
  have a1 : |S / n| = |S| / n := by rw [abs_div, abs_of_pos hp]
  have a2 : |S / n - D / n| = |S - D| / n := by rw [← sub_div, abs_div, abs_of_pos hp]
  calc |A.fl (S / n) - D / n| ≤ |A.fl (S / n) - S / n| + |S / n - D / n| := abs_sub_le _ _ _
    _ ≤ u * ((1 + u) ^ n * M / n) + ((1 + u) ^ n - 1) * M / n := by
        rw [a2]
        refine add_le_add (r1.trans ?_) (div_le_div_of_nonneg_right d3 hp.le)
        rw [a1]
        exact mul_le_mul_of_nonneg_left (div_le_div_of_nonneg_right d4 hp.le) h0
    _ = ((1 + u) ^ (n + 1) - 1) * (M / n) := by rw [pow_succ]; ring
    _ ≤ ((1 + u) ^ (b.length + 1) - 1) * (M / n) := by
        refine mul_le_mul_of_nonneg_right (sub_le_sub_right (pow_le_pow_right₀ (by linarith) (by omega)) _) (div_nonneg M0 hp.le)

/-- Relative error of at most `2 k u` as long as `k u` is below one half. -/
theorem Near.relative (h0 : 0 ≤ u) (h1 : u < 1) {k : ℕ} (hk : 2 * (k * u) ≤ 1) {x v : ℝ} (hx : 0 ≤ x) (h : Near u k x v) : |v - x| ≤ 2 * (k * u) * x := by
  have hb : 1 - k * u ≤ (1 - u) ^ k := by
    have := one_add_mul_le_pow (show (-2 : ℝ) ≤ -u by linarith) k
    have e : (1 + -u : ℝ) = 1 - u := by ring
    rw [e] at this
    linarith
  have ku : 0 ≤ k * u := by positivity
  have hv := h.nonneg h1 hx
  have a := (mul_le_mul_of_nonneg_right hb hx).trans h.1
  have b := (mul_le_mul_of_nonneg_right hb hv).trans h.2
  generalize (k : ℝ) * u = q at *
  rw [abs_le]
  constructor <;> nlinarith [mul_nonneg ku hx, mul_nonneg ku hv]

/-- C258 in terms of digits: for series of `n` rows with `2 (n + 4) u ≤ 1` the relative error of each metric without cancellation is at most `2 (n + 4) u`. -/
theorem C258_digits (h : FloatLike u A) (s : Bool) (b e : List (Option ℝ)) (hn : 2 * (((b.length + 4 : ℕ) : ℝ) * u) ≤ 1) :
    BothOr (fun x v => |v - x| ≤ 2 * (((b.length + 4 : ℕ) : ℝ) * u) * x) (mae s b e) (maeF A s b e) ∧
    BothOr (fun x v => |v - x| ≤ 2 * (((b.length + 4 : ℕ) : ℝ) * u) * x) (mse s b e) (mseF A s b e) ∧
    BothOr (fun x v => |v - x| ≤ 2 * (((b.length + 4 : ℕ) : ℝ) * u) * x) (rmse s b e) (rmseF A s b e) := by
  have h0 := u_nonneg h.rounds
  have key : ∀ {k : ℕ} {x y : Option ℝ}, k ≤ b.length + 4 → (∀ v, x = some v → 0 ≤ v) → BothOr (Near u k) x y →
      BothOr (fun x v => |v - x| ≤ 2 * (((b.length + 4 : ℕ) : ℝ) * u) * x) x y := by
    intro k x y hk hx
    cases x <;> cases y <;> simp only [BothOr, imp_self]
    intro hxy
    exact (hxy.mono h0 h.lt_one hk (hx _ rfl)).relative h0 h.lt_one hn (hx _ rfl)
  have mnn : ∀ (l : List (Option ℝ)), (∀ x ∈ l, ∀ v, x = some v → 0 ≤ v) → ∀ v, meanOf s l = some v → 0 ≤ v := by
    intro l hl v
    have hm : ∀ v, meanO (l.filterMap id) = some v → 0 ≤ v := by
      intro v
      unfold meanO mean
      split_ifs
      · simp
      · simp only [Option.some.injEq]
        rintro rfl
        refine div_nonneg (List.sum_nonneg ?_) (Nat.cast_nonneg _)
        intro x hx
        obtain ⟨y, hy, rfl⟩ := List.mem_filterMap.mp hx
        exact hl _ hy _ rfl
    unfold meanOf pdMean npMean
    cases s
    · simp only [Bool.false_eq_true, if_false]
      split_ifs
      · simp
      · exact hm v
    · simpa using hm v
  have sq : ∀ v, mse s b e = some v → 0 ≤ v := by
    refine mnn _ fun x hx v hv => ?_
    obtain ⟨y, -, rfl⟩ := List.mem_map.mp hx
    cases y with
    | none => simp at hv
    | some y => simp only [Option.map_some, Option.some.injEq] at hv; rw [← hv]; positivity
  refine ⟨key (by omega) ?_ (C258_mae h s b e), key (by omega) sq (C258_mse h s b e), key le_rfl ?_ (C258_rmse h s b e)⟩
  · refine mnn _ fun x hx v hv => ?_
    obtain ⟨y, -, rfl⟩ := List.mem_map.mp hx
    cases y with
    | none => simp at hv
    | some y => simp only [Option.map_some, Option.some.injEq] at hv; rw [← hv]; positivity
  · unfold rmse
    intro v hv
    cases hm : mse s b e with
    | none => rw [hm] at hv; simp at hv
    | some m => rw [hm] at hv; simp only [Option.map_some, Option.some.injEq] at hv; rw [← hv]; positivity

/-! ## Path lengths -/

theorem diffs_rows (s : List (Option ℝ)) (tau : ℕ) : (diffs s tau).filterMap id = ((rowsOf s (s.drop tau)).filterMap id).map fun p => p.1 - p.2 := by
  rw [← filterMap_optmap, ← bias_rows]
  unfold diffs biasError
  rw [List.filterMap_append]
  simp

theorem diffsF_rows (A : Arith) (s : List (Option ℝ)) (tau : ℕ) :
    (diffsF A s tau).filterMap id = ((rowsOf s (s.drop tau)).filterMap id).map fun p => A.fl (p.1 - p.2) := by
  rw [← filterMap_optmap, ← biasF_rows]
  unfold diffsF biasErrorF
  rw [List.filterMap_append]
  simp

theorem sum_near (h : FloatLike u A) {α : Type} (l : List α) (f g : α → ℝ) (k N : ℕ) (hf : ∀ x, 0 ≤ f x) (hk : ∀ x, Near u k (f x) (g x)) (hN : l.length ≤ N) :
    Near u (N + k) (l.map f).sum (A.sum (l.map g)) := by
  have h0 := u_nonneg h.rounds
  by_cases hl : l = []
  · subst hl
    simp [h.empty, Near]
  · have := (h.sums _ (by simpa using hl : l.map g ≠ [])).near_map h.rounds h.lt_one (fun x _ => hf x) (fun x _ => hk x)
    exact this.mono h0 h.lt_one (by omega) (List.sum_nonneg (by simpa using fun x _ => hf x))

/-- C259: the aggregate ramp rate computed with rounding. -/
theorem C259_darr (h : FloatLike u A) (s : List (Option ℝ)) (tau : ℕ) : Near u (s.length + 1) (darrRaw s tau) (darrRawF A s tau) := by
  unfold darrRaw darrRawF
  rw [diffs_rows, diffsF_rows, List.map_map, List.map_map]
  exact sum_near h _ _ _ 1 _ (fun _ => abs_nonneg _) (fun p => near_abs h.rounds h.lt_one _) (rows_length _ _)

theorem path_near (h : FloatLike u A) (s : List (Option ℝ)) {dt dt' : ℝ} (hdt : Near u 1 |dt| |dt'|) : Near u (s.length + 5) (pathLength s dt) (pathLengthF A s dt') := by
  have h0 := u_nonneg h.rounds
  unfold pathLength pathLengthF
  rw [diffs_rows, diffsF_rows, List.map_map, List.map_map]
  refine sum_near h _ _ _ 5 _ (fun _ => Real.sqrt_nonneg _) (fun p => ?_) (rows_length _ _)
  have a : Near u 3 ((p.1 - p.2) ^ 2) (A.fl (A.fl (p.1 - p.2) ^ 2)) :=
    ((near_abs h.rounds h.lt_one _).sq h0 h.lt_one).rnd h.rounds h.lt_one (sq_nonneg _)
  have b : Near u 3 (dt ^ 2) (A.fl (dt' ^ 2)) := (hdt.sq h0 h.lt_one).rnd h.rounds h.lt_one (sq_nonneg _)
  exact (((a.add b).rnd h.rounds h.lt_one (by positivity)).sqrt h0 h.lt_one).rnd h.rounds h.lt_one (Real.sqrt_nonneg _)

/-- C259: the variability index computed with rounding. -/
theorem C259_vi (h : FloatLike u A) (t : List ℝ) (g c : List (Option ℝ)) (norm : Bool) {v : ℝ} (hv : viRaw t g c norm = .fin v) :
    ∃ v', viRawF A t g c norm = .fin v' ∧ 0 ≤ v ∧ Near u (g.length + c.length + 14) v v' := by
  have h0 := u_nonneg h.rounds
  have h1 := h.lt_one
  unfold viRaw at hv
  unfold viRawF
  cases hm : medianStep t with
  | none => rw [hm] at hv; simp at hv
  | some step =>
    rw [hm] at hv
    simp only at hv ⊢
    have hdt := near_abs h.rounds h1 (step / 60)
    have ng := path_near h g hdt
    have nc := path_near h c hdt
    have pg : 0 ≤ pathLength g (step / 60) := sum_nonneg' fun _ _ => Real.sqrt_nonneg _
    have pc : 0 ≤ pathLength c (step / 60) := sum_nonneg' fun _ _ => Real.sqrt_nonneg _
    generalize pathLength g (step / 60) = G at *
    generalize pathLength c (step / 60) = C at *
    generalize pathLengthF A g (A.fl (step / 60)) = G' at *
    generalize pathLengthF A c (A.fl (step / 60)) = C' at *
    unfold XR.div at hv ⊢
    by_cases hC : C = 0
    · subst hC
      simp only [if_true] at hv
      split_ifs at hv <;> simp at hv
    · have hC0 : 0 < C := lt_of_le_of_ne pc (Ne.symm hC)
      have hC' := nc.pos h0 h1 hC0
      simp only [hC, hC'.ne', if_false] at hv ⊢
      have q := ng.div h0 h1 pg hC0 nc
      have q0 := div_nonneg pg pc
      have q' := q.rnd h.rounds h1 q0
      cases norm with
      | false =>
        simp only [XR.fin.injEq] at hv ⊢
        subst hv
        exact ⟨_, rfl, q0, q'.mono h0 h1 (by omega) q0⟩
      | true =>
        simp only [XR.fin.injEq] at hv ⊢
        subst hv
        refine ⟨_, rfl, mul_nonneg q0 (Real.sqrt_nonneg _), ?_⟩
        have r : Near u 1 (Real.sqrt (step / 60)) (Real.sqrt (A.fl (step / 60))) := by
          by_cases hs : 0 ≤ step / 60
          · exact (near_fl h.rounds h1 hs).sqrt h0 h1
          · have : A.fl (step / 60) ≤ 0 := by
              have e := h.rounds (step / 60)
              rw [abs_le, abs_of_neg (not_le.mp hs)] at e
              nlinarith [e.2, not_le.mp hs]
            rw [Real.sqrt_eq_zero_of_nonpos this, Real.sqrt_eq_zero_of_nonpos (not_le.mp hs).le]
            simp [Near]
        have r' := r.rnd h.rounds h1 (Real.sqrt_nonneg _)
        have p0 := mul_nonneg q0 (Real.sqrt_nonneg (step / 60))
        exact ((q'.mul h0 h1 q0 (Real.sqrt_nonneg _) r').rnd h.rounds h1 p0).mono h0 h1 (by omega) p0

end

/-! ## Rounding to 53 binary digits -/

/-- Rounding to 53 binary digits, without limits on the exponent. -/
noncomputable def round53 (x : ℝ) : ℝ := round (x / 2 ^ (Int.log 2 |x| - 52)) * 2 ^ (Int.log 2 |x| - 52)

theorem round53_rounds : RoundsTo (2 ^ (-53 : ℤ)) round53 := by
  intro x
  unfold round53
  rcases eq_or_ne x 0 with rfl | hx
  · simp
  have p : (0 : ℝ) < 2 ^ (Int.log 2 |x| - 52) := zpow_pos two_pos _
  have e : (round (x / 2 ^ (Int.log 2 |x| - 52)) : ℝ) * 2 ^ (Int.log 2 |x| - 52) - x =
      -((x / 2 ^ (Int.log 2 |x| - 52) - round (x / 2 ^ (Int.log 2 |x| - 52))) * 2 ^ (Int.log 2 |x| - 52)) := by
    field_simp
    ring
  rw [e, abs_neg, abs_mul, abs_of_pos p]
  have h := abs_sub_round (x / 2 ^ (Int.log 2 |x| - 52))
  have l := Int.zpow_log_le_self (b := 2) (by norm_num) (abs_pos.mpr hx)
  calc _ ≤ 1 / 2 * (2 : ℝ) ^ (Int.log 2 |x| - 52) := mul_le_mul_of_nonneg_right h p.le
    _ = 2 ^ (-53 : ℤ) * 2 ^ Int.log 2 |x| := by
        rw [show Int.log 2 |x| - 52 = Int.log 2 |x| + (-52) by ring, zpow_add₀ (by norm_num), show (-53 : ℤ) = -52 + -1 by norm_num, zpow_add₀ (by norm_num)]
        norm_num
        ring
    _ ≤ 2 ^ (-53 : ℤ) * |x| := mul_le_mul_of_nonneg_left (by exact_mod_cast l) (by positivity)

/-- One number after the other, from the right. -/
noncomputable def sum53 : List ℝ → ℝ
  | [] => 0
  | [x] => x
  | x :: y :: l => round53 (x + sum53 (y :: l))

theorem sum53_order (l : List ℝ) (hl : l ≠ []) : AnyOrder round53 l (sum53 l) := by
  induction l with
  | nil => simp at hl
  | cons x l ih =>
    cases l with
    | nil => exact .one x
    | cons y l => exact .add (l := [x]) (.one x) (ih (by simp))

/-- Arithmetic with 53 binary digits meets the assumptions. -/
theorem float53 : FloatLike (2 ^ (-53 : ℤ)) ⟨round53, sum53⟩ :=
  ⟨by norm_num, round53_rounds, sum53_order, rfl⟩

/-- C258 applies to a year of minutes with 53 digits, and bounds the relative error by `1.2e-10`. -/
example (b e : List (Option ℝ)) (hb : b.length = 525600) :
    BothOr (fun x v => |v - x| ≤ 1.2e-10 * x) (mse true b e) (mseF ⟨round53, sum53⟩ true b e) := by
  have h := (C258_digits float53 true b e (by rw [hb]; norm_num)).2.1
  have hn : ∀ v, mse true b e = some v → 0 ≤ v := by
    intro v hv
    unfold mse meanOf pdMean meanO mean at hv
    simp only [if_true] at hv
    split_ifs at hv
    simp only [Option.some.injEq] at hv
    subst hv
    refine div_nonneg (List.sum_nonneg fun x hx => ?_) (Nat.cast_nonneg _)
    obtain ⟨y, hy, rfl⟩ := List.mem_filterMap.mp hx
    obtain ⟨z, -, hz⟩ := List.mem_map.mp hy
    cases z with
    | none => simp at hz
    | some z => simp only [Option.map_some] at hz; cases hz; positivity
  revert h hn
  rw [hb]
  generalize mse true b e = x
  generalize mseF _ true b e = y
  rcases x with _ | x <;> rcases y with _ | y <;> intro h hn
  · trivial
  · exact h
  · exact h
  simp only [BothOr] at h ⊢
  refine h.trans (mul_le_mul_of_nonneg_right ?_ (hn _ rfl))
  norm_num

/-- The other theorems of C258 and C259 with 53 digits, for series with a gap. -/
example : BothOr (Near (2 ^ (-53 : ℤ)) 4) (mae true [some 1, none, some 3] [some 0.1, some 2, some 5]) (maeF ⟨round53, sum53⟩ true [some 1, none, some 3] [some 0.1, some 2, some 5]) ∧
    (∃ x v, mbe true [some 1, none, some 3] [some 0.1, some 2, some 5] = some x ∧ mbeF ⟨round53, sum53⟩ true [some 1, none, some 3] [some 0.1, some 2, some 5] = some v) ∧
    Near (2 ^ (-53 : ℤ)) 4 (darrRaw [some 1, some 0.1, some 3] 1) (darrRawF ⟨round53, sum53⟩ [some 1, some 0.1, some 3] 1) := by
  refine ⟨C258_mae float53 true [some 1, none, some 3] [some 0.1, some 2, some 5], ?_, C259_darr float53 [some 1, some 0.1, some 3] 1⟩
  have h := C258_mbe float53 true [some 1, none, some 3] [some 0.1, some 2, some 5]
  have e : mbe true [some 1, none, some 3] [some 0.1, some 2, some 5] = some ((0.1 - 1 + (5 - 3)) / 2) := by
    simp [mbe, meanOf, pdMean, biasError, osub, meanO, mean]
  rw [e] at h ⊢
  cases hv : mbeF ⟨round53, sum53⟩ true [some 1, none, some 3] [some 0.1, some 2, some 5] with
  | none => rw [hv] at h; exact h.elim
  | some v => exact ⟨_, v, rfl, rfl⟩

/-- The hypothesis of `C259_vi` holds for three minutes of GHI. -/
example : ∃ v, viRaw [0, 60, 120] [some 500, some 800, some 700] [some 700, some 701, some 702] false = .fin v := by
  have hm : medianStep [0, 60, 120] = some 60 := by
    norm_num [medianStep, List.insertionSort, List.orderedInsert]
    intro h
    simp at h
  unfold viRaw
  rw [hm]
  have hc : pathLength [some 700, some 701, some 702] (60 / 60) ≠ 0 := by
    have : pathLength [some 700, some 701, some 702] (60 / 60) = Real.sqrt (1 ^ 2 + 1 ^ 2) + Real.sqrt (1 ^ 2 + 1 ^ 2) := by
      simp [pathLength, diffs, osub]
      norm_num
    rw [this]
    positivity
  simp only [XR.div, hc, if_false]
  exact ⟨_, rfl⟩

end SST.Round
