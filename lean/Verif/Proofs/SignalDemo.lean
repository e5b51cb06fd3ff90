import Verif.Model.SignalDemo
import Verif.Proofs.Resample

/-! # Helper lemmas: means of several series -/

namespace SST.SignalDemo
open SST SST.Stats

/-- The series with value `f i` at the places where `occ i`, NaN elsewhere. -/
noncomputable def masked (n : ℕ) (occ : ℕ → Bool) (f : ℕ → ℝ) : List (Option ℝ) := (List.range n).map fun i => if occ i then some (f i) else none

theorem masked_getD {n : ℕ} {occ : ℕ → Bool} {f : ℕ → ℝ} {i : ℕ} (hi : i < n) : (masked n occ f).getD i none = if occ i then some (f i) else none := by
  unfold masked
  rw [List.getD_eq_getElem _ _ (by simpa using hi)]
  simp

theorem ramps_masked (n : ℕ) (occ : ℕ → Bool) (f : ℕ → ℝ) (tau : ℕ) :
    ramps (masked n occ f) tau = ((List.range (n - tau)).filter fun i => occ (i + tau) && occ i).map fun i => f (i + tau) - f i := by
  unfold ramps
  have hl : (masked n occ f).length = n := by simp [masked]
  rw [hl, ← List.filterMap_eq_map, List.filterMap_filter]
  apply List.filterMap_congr
  intro i hi
  rw [List.mem_range] at hi
  rw [masked_getD (by omega), masked_getD (by omega)]
  cases occ (i + tau) <;> cases occ i <;> simp [osub]

theorem swap_sum {α β : Type} (l : List α) (m : List β) (g : β → α → ℝ) :
    (l.map fun a => (m.map fun b => g b a).sum).sum = (m.map fun b => (l.map fun a => g b a).sum).sum := by
  induction l with
  | nil => simp
  | cons a l ih =>
    simp only [List.map_cons, List.sum_cons, ih]
    rw [← List.sum_map_add]

theorem sum_div_map {α : Type} (l : List α) (g : α → ℝ) (k : ℝ) : (l.map fun a => g a / k).sum = (l.map g).sum / k := by
  induction l with
  | nil => simp
  | cons a l ih => simp only [List.map_cons, List.sum_cons, ih]; ring

/-- Jensen's inequality in the form used here. -/
def Jensen (φ : ℝ → ℝ) : Prop := ∀ {α : Type} (l : List α) (g : α → ℝ), l ≠ [] → φ ((l.map g).sum / l.length) ≤ (l.map fun a => φ (g a)).sum / l.length

theorem sum_sub_map {α : Type} (l : List α) (f g : α → ℝ) : (l.map fun a => f a - g a).sum = (l.map f).sum - (l.map g).sum := by
  induction l with
  | nil => simp
  | cons a l ih => simp only [List.map_cons, List.sum_cons, ih]; ring

/-- A sum over the ramps of a mean is at most the mean of the sums, for convex summands. -/
theorem ramps_mean_le {α : Type} {φ : ℝ → ℝ} (hφ : Jensen φ) (n : ℕ) (occ : ℕ → Bool) (fs : List α) (hne : fs ≠ []) (f : α → ℕ → ℝ) (tau : ℕ) :
    ((ramps (masked n occ fun i => (fs.map fun k => f k i).sum / fs.length) tau).map φ).sum ≤
      (fs.map fun k => ((ramps (masked n occ (f k)) tau).map φ).sum).sum / fs.length := by
  rw [ramps_masked, List.map_map]
  simp only [ramps_masked, List.map_map]
  rw [← swap_sum, ← sum_div_map]
  apply sum_le_sum'
  intro i _
  have := hφ fs (fun k => f k (i + tau) - f k i) hne
  rw [sum_sub_map, sub_div] at this
  exact this

theorem jensen_abs : Jensen fun v => |v| := by
  intro α l g _
  beta_reduce
  rw [abs_div, abs_of_nonneg (Nat.cast_nonneg l.length : (0 : ℝ) ≤ _)]
  exact div_le_div_of_nonneg_right (sum_abs_le l g) (Nat.cast_nonneg _)

theorem sqrt_tri (a b c d : ℝ) : Real.sqrt ((a + c) ^ 2 + (b + d) ^ 2) ≤ Real.sqrt (a ^ 2 + b ^ 2) + Real.sqrt (c ^ 2 + d ^ 2) := by
  have := sum_minkowski [(a, c), (b, d)] Prod.fst Prod.snd
  simpa using this

theorem jensen_path (dt : ℝ) : Jensen fun v => Real.sqrt (v ^ 2 + dt ^ 2) := by
  intro α l g hne
  have hn : (0 : ℝ) < l.length := by exact_mod_cast List.length_pos_iff.2 hne
  have key : Real.sqrt ((l.map g).sum ^ 2 + (l.length * dt) ^ 2) ≤ (l.map fun a => Real.sqrt (g a ^ 2 + dt ^ 2)).sum := by
    clear hne hn
    induction l with
    | nil => simp
    | cons a l ih =>
      simp only [List.map_cons, List.sum_cons, List.length_cons]
      push_cast
      have := sqrt_tri (g a) dt (l.map g).sum (l.length * dt)
      rw [show ((l.length : ℝ) + 1) * dt = dt + l.length * dt by ring]
      linarith
  rw [le_div_iff₀ hn]
  refine le_trans (le_of_eq ?_) key
  nth_rw 2 [← Real.sqrt_sq hn.le]
  rw [← Real.sqrt_mul (by positivity)]
  congr 1
  field_simp

/-! ## Complete series as masked ones, and their resampling -/

theorem complete_masked {n : ℕ} {c : List ℝ} (h : c.length = n) : c.map some = masked n (fun _ => true) fun i => c.getD i 0 := by
  unfold masked
  apply List.ext_getElem
  · simp [h]
  · intro i h1 h2
    simp only [List.length_map] at h1
    simp [List.getElem?_eq_getElem h1]

theorem plantAgg_masked {n : ℕ} {sensors : List (List ℝ)} (h : ∀ c ∈ sensors, c.length = n) :
    plantAgg n (sensors.map fun c => c.map some) = masked n (fun _ => true) fun i => (sensors.map fun c => c.getD i 0).sum / sensors.length := by
  unfold plantAgg masked
  apply List.map_congr_left
  intro i hi
  rw [List.mem_range] at hi
  rw [List.map_map, List.length_map, if_pos rfl]
  congr 2
  congr 1
  apply List.map_congr_left
  intro c hc
  have := h c hc
  simp only [Function.comp_apply]
  rw [List.getElem?_eq_getElem (by simp; omega), List.getD_eq_getElem _ _ (by omega)]
  simp

/-- The rows whose stamps fall in bin `b`. -/
noncomputable def rowsIn (bin : ℝ) (t : List ℝ) (b : ℤ) : List ℕ := (List.range t.length).filter fun i => ⌊t.getD i 0 / bin⌋ = b

theorem bin_values (bin : ℝ) (t : List ℝ) (f : ℕ → ℝ) (b : ℤ) :
    pdMean (((t.zip (masked t.length (fun _ => true) f)).filter fun p => ⌊p.1 / bin⌋ = b).map Prod.snd) =
      if rowsIn bin t b ≠ [] then some (((rowsIn bin t b).map f).sum / (rowsIn bin t b).length) else none := by
  have hz : t.zip (masked t.length (fun _ => true) f) = (List.range t.length).map fun i => (t.getD i 0, some (f i)) := by
    apply List.ext_getElem
    · simp [masked]
    · intro i h1 h2
      simp only [List.length_map, List.length_range] at h2
      simp [masked, List.getElem?_eq_getElem h2]
  rw [hz, List.filter_map, List.map_map]
  have hr : (List.range t.length).filter ((fun p : ℝ × Option ℝ => decide (⌊p.1 / bin⌋ = b)) ∘ fun i => (t.getD i 0, some (f i))) = rowsIn bin t b := rfl
  rw [hr]
  unfold pdMean meanO mean
  have : ((rowsIn bin t b).map (Prod.snd ∘ fun i => (t.getD i 0, some (f i)))).filterMap id = (rowsIn bin t b).map f := by
    rw [List.filterMap_map, ← List.filterMap_eq_map]
    rfl
  rw [this]
  by_cases h0 : rowsIn bin t b = []
  · simp [h0]
  · simp [h0]

/-- Resampling complete series on one index: which bins hold values does not depend on the series, and the values of the
bins are linear in it. -/
theorem resample_masked (bin : ℝ) (t : List ℝ) : ∃ (m : ℕ) (rows : ℕ → List ℕ), ∀ f : ℕ → ℝ,
    resampleMean bin t (masked t.length (fun _ => true) f) =
      masked m (fun j => decide (rows j ≠ [])) fun j => ((rows j).map f).sum / (rows j).length := by
  cases h1 : t.head? with
  | none => exact ⟨0, fun _ => [], fun f => by unfold resampleMean; rw [h1]; rfl⟩
  | some a =>
    cases h2 : t.getLast? with
    | none => exact ⟨0, fun _ => [], fun f => by unfold resampleMean; rw [h1, h2]; rfl⟩
    | some b =>
      refine ⟨(⌊b / bin⌋ - ⌊a / bin⌋ + 1).toNat, fun j => rowsIn bin t (⌊a / bin⌋ + j), fun f => ?_⟩
      unfold resampleMean
      rw [h1, h2]
      unfold masked
      apply List.map_congr_left
      intro j _
      have := bin_values bin t f (⌊a / bin⌋ + j)
      unfold masked at this
      rw [this]
      simp only [decide_eq_true_eq]

/-- Resampling the mean of complete series gives the mean of the resampled series. -/
theorem resample_mean {α : Type} (bin : ℝ) (t : List ℝ) (fs : List α) (f : α → ℕ → ℝ) : ∃ (m : ℕ) (occ : ℕ → Bool) (g : α → ℕ → ℝ),
    (∀ k, resampleMean bin t (masked t.length (fun _ => true) (f k)) = masked m occ (g k)) ∧
    resampleMean bin t (masked t.length (fun _ => true) fun i => (fs.map fun k => f k i).sum / fs.length) =
      masked m occ fun j => (fs.map fun k => g k j).sum / fs.length := by
  obtain ⟨m, rows, h⟩ := resample_masked bin t
  refine ⟨m, _, fun k j => ((rows j).map (f k)).sum / (rows j).length, fun k => h (f k), ?_⟩
  rw [h]
  congr 1
  funext j
  rw [sum_div_map, sum_div_map, swap_sum]
  ring

end SST.SignalDemo
