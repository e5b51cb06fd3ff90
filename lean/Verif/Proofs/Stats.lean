import Verif.Model.Stats
import Mathlib.Algebra.Order.BigOperators.Group.List
import Mathlib.Algebra.BigOperators.Ring.List

/-! # Helper lemmas: error metrics and ramps -/

namespace SST.Stats
open SST

section sums
variable {α : Type}

theorem sum_nonneg' {l : List α} {f : α → ℝ} (h : ∀ a ∈ l, 0 ≤ f a) : 0 ≤ (l.map f).sum := by
  apply List.sum_nonneg
  intro v hv
  obtain ⟨a, ha, rfl⟩ := List.mem_map.1 hv
  exact h a ha

theorem sum_le_sum' {l : List α} {f g : α → ℝ} (h : ∀ a ∈ l, f a ≤ g a) : (l.map f).sum ≤ (l.map g).sum := by
  induction l with
  | nil => simp
  | cons a l ih =>
    simp only [List.map_cons, List.sum_cons]
    have := ih (fun b hb => h b (by simp [hb]))
    have := h a (by simp)
    linarith

theorem sum_eq_zero' {l : List α} {f : α → ℝ} (h0 : ∀ a ∈ l, 0 ≤ f a) (h : (l.map f).sum = 0) : ∀ a ∈ l, f a = 0 := by
  induction l with
  | nil => simp
  | cons a l ih =>
    simp only [List.map_cons, List.sum_cons] at h
    have h1 := h0 a (by simp)
    have h2 := sum_nonneg' (l := l) (f := f) (fun b hb => h0 b (by simp [hb]))
    intro b hb
    rcases List.mem_cons.1 hb with rfl | hb
    · linarith
    · exact ih (fun b hb => h0 b (by simp [hb])) (by linarith) b hb

theorem sum_cauchy (l : List α) (f g : α → ℝ) :
    ((l.map fun a => f a * g a).sum) ^ 2 ≤ (l.map fun a => f a ^ 2).sum * (l.map fun a => g a ^ 2).sum := by
  induction l with
  | nil => simp
  | cons a l ih =>
    simp only [List.map_cons, List.sum_cons]
    set S := (l.map fun a => f a * g a).sum
    set A := (l.map fun a => f a ^ 2).sum
    set B := (l.map fun a => g a ^ 2).sum
    have hA : 0 ≤ A := sum_nonneg' fun b _ => sq_nonneg (f b)
    have hB : 0 ≤ B := sum_nonneg' fun b _ => sq_nonneg (g b)
    have key : 2 * (S * (f a * g a)) ≤ A * g a ^ 2 + B * f a ^ 2 := by
      apply le_of_sq_le_sq
      · nlinarith [sq_nonneg (A * g a ^ 2 - B * f a ^ 2), mul_nonneg (sq_nonneg (f a)) (sq_nonneg (g a))]
      · positivity
    nlinarith
where
  le_of_sq_le_sq {x y : ℝ} (h : x ^ 2 ≤ y ^ 2) (hy : 0 ≤ y) : x ≤ y := (abs_le.1 (abs_le_of_sq_le_sq h hy)).2

theorem sum_minkowski (l : List α) (f g : α → ℝ) :
    Real.sqrt (l.map fun a => (f a + g a) ^ 2).sum ≤ Real.sqrt (l.map fun a => f a ^ 2).sum + Real.sqrt (l.map fun a => g a ^ 2).sum := by
  set A := (l.map fun a => f a ^ 2).sum with hA'
  set B := (l.map fun a => g a ^ 2).sum with hB'
  have hA : 0 ≤ A := sum_nonneg' fun b _ => sq_nonneg (f b)
  have hB : 0 ≤ B := sum_nonneg' fun b _ => sq_nonneg (g b)
  have hc := sum_cauchy l f g
  rw [← hA', ← hB'] at hc
  set S := (l.map fun a => f a * g a).sum with hS
  have hS' : S ≤ Real.sqrt A * Real.sqrt B := by
    rw [← Real.sqrt_mul hA]
    exact Real.le_sqrt_of_sq_le hc
  have he : (l.map fun a => (f a + g a) ^ 2).sum = A + 2 * S + B := by
    rw [hA', hB', hS]
    clear hc hS' hS hA hB hA' hB'
    induction l with
    | nil => simp
    | cons a l ih => simp only [List.map_cons, List.sum_cons, ih]; ring
  rw [he]
  apply Real.sqrt_le_iff.2
  refine ⟨by positivity, ?_⟩
  nlinarith [Real.sq_sqrt hA, Real.sq_sqrt hB]

theorem sum_abs_le (l : List α) (f : α → ℝ) : |(l.map f).sum| ≤ (l.map fun a => |f a|).sum := by
  induction l with
  | nil => simp
  | cons a l ih =>
    simp only [List.map_cons, List.sum_cons]
    exact (abs_add_le _ _).trans (by linarith)

end sums

theorem mean_map_eq {α : Type} (l : List α) (f : α → ℝ) : mean (l.map f) = (l.map f).sum / l.length := by
  unfold mean; rw [List.length_map]

theorem filterMap_some (l : List ℝ) : (l.map some).filterMap id = l := by
  rw [List.filterMap_map]; simp

theorem meanOf_some (s : Bool) (l : List ℝ) : meanOf s (l.map some) = meanO l := by
  unfold meanOf npMean pdMean
  rw [filterMap_some]
  cases s <;> simp

theorem biasError_some {α : Type} (l : List α) (f g : α → ℝ) :
    biasError ((l.map f).map some) ((l.map g).map some) = (l.map fun a => g a - f a).map some := by
  unfold biasError
  simp [List.zipWith_map, osub, List.zipWith_self]

theorem meanO_map {α : Type} {l : List α} (hl : l ≠ []) (f : α → ℝ) : meanO (l.map f) = some ((l.map f).sum / l.length) := by
  unfold meanO
  rw [if_neg (by simpa using hl), mean_map_eq]

section metrics
variable {α : Type} {l : List α} (hl : l ≠ []) (s : Bool) (f g : α → ℝ)
include hl

theorem mbe_map : mbe s ((l.map f).map some) ((l.map g).map some) = some ((l.map fun a => g a - f a).sum / l.length) := by
  unfold mbe; rw [biasError_some, meanOf_some, meanO_map hl]

theorem mse_map : mse s ((l.map f).map some) ((l.map g).map some) = some ((l.map fun a => (g a - f a) ^ 2).sum / l.length) := by
  unfold mse squaredError
  rw [biasError_some]
  have : ((l.map fun a => g a - f a).map some).map (Option.map fun (d : ℝ) => d ^ 2) = (l.map fun a => (g a - f a) ^ 2).map some := by simp
  rw [this, meanOf_some, meanO_map hl]

theorem mae_map : mae s ((l.map f).map some) ((l.map g).map some) = some ((l.map fun a => |g a - f a|).sum / l.length) := by
  unfold mae absoluteError
  rw [biasError_some]
  have : ((l.map fun a => g a - f a).map some).map (Option.map fun (d : ℝ) => |d|) = (l.map fun a => |g a - f a|).map some := by simp
  rw [this, meanOf_some, meanO_map hl]

theorem rmse_map : rmse s ((l.map f).map some) ((l.map g).map some) = some (Real.sqrt ((l.map fun a => (g a - f a) ^ 2).sum / l.length)) := by
  unfold rmse; rw [mse_map hl]; rfl

end metrics

theorem zip_pair {x y : List ℝ} (h : x.length = y.length) : ∃ l : List (ℝ × ℝ), x = l.map Prod.fst ∧ y = l.map Prod.snd ∧ l.length = x.length :=
  ⟨x.zip y, (List.map_fst_zip h.le).symm, (List.map_snd_zip h.ge).symm, by simp [h]⟩

theorem zip_triple {x y z : List ℝ} (h : x.length = y.length) (h' : y.length = z.length) :
    ∃ l : List (ℝ × ℝ × ℝ), x = l.map (fun a => a.1) ∧ y = l.map (fun a => a.2.1) ∧ z = l.map (fun a => a.2.2) ∧ l.length = x.length := by
  refine ⟨x.zip (y.zip z), ?_, ?_, ?_, by simp [h, h']⟩
  · exact (List.map_fst_zip (by simp [h, h'])).symm
  · have : (x.zip (y.zip z)).map (fun a => a.2.1) = ((x.zip (y.zip z)).map Prod.snd).map Prod.fst := by simp
    rw [this, List.map_snd_zip (by simp [h]), List.map_fst_zip h'.le]
  · have : (x.zip (y.zip z)).map (fun a => a.2.2) = ((x.zip (y.zip z)).map Prod.snd).map Prod.snd := by simp
    rw [this, List.map_snd_zip (by simp [h]), List.map_snd_zip h'.ge]

end SST.Stats
