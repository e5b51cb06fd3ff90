import Verif.Model.Cloud
import Verif.Proofs.Quantile
import Verif.Proofs.Ramps

/-! # Helper lemmas: synthetic cloud field -/

namespace SST.Cloud
open SST SST.Stats

/-! ## Interpolation -/

theorem gridSize_ge (r : ℤ) : 2 ≤ gridSize r := by
  unfold gridSize; split_ifs <;> omega

theorem linspace_mem {F i : ℕ} (hi : i < F) : 0 ≤ linspace01 F i ∧ linspace01 F i ≤ 1 := by
  unfold linspace01
  split_ifs with h
  · exact ⟨le_rfl, zero_le_one⟩
  · have h2 : (1 : ℝ) < F := by exact_mod_cast (by omega : 1 < F)
    have hi' : (i : ℝ) + 1 ≤ F := by exact_mod_cast hi
    exact ⟨div_nonneg (Nat.cast_nonneg _) (by linarith), (div_le_one (by linarith)).2 (by linarith)⟩

theorem inCell_mem {k : ℕ} (hk : 2 ≤ k) {x : ℝ} (h0 : 0 ≤ x) (h1 : x ≤ 1) :
    0 ≤ inCell k x ∧ inCell k x ≤ 1 ∧ cell k x + 1 < k := by
  have hk' : (2 : ℝ) ≤ k := by exact_mod_cast hk
  have hp : 0 ≤ x * ((k : ℝ) - 1) := mul_nonneg h0 (by linarith)
  have hp1 : x * ((k : ℝ) - 1) ≤ (k : ℝ) - 1 := by nlinarith
  have hf := Nat.floor_le hp
  have hf1 := Nat.lt_floor_add_one (x * ((k : ℝ) - 1))
  unfold inCell
  refine ⟨?_, ?_, ?_⟩
  · have : (cell k x : ℝ) ≤ ⌊x * ((k : ℝ) - 1)⌋₊ := by unfold cell; exact_mod_cast min_le_left _ _
    linarith
  · unfold cell
    rcases le_total ⌊x * ((k : ℝ) - 1)⌋₊ (k - 2) with h | h
    · rw [min_eq_left h]; linarith
    · rw [min_eq_right h, Nat.cast_sub hk]; push_cast; linarith
  · unfold cell; omega

theorem lin_node {k : ℕ} (hk : 2 ≤ k) {x : ℝ} {a : ℕ} (ha : a + 1 ≤ k) (hx : x * ((k : ℝ) - 1) = a) (h : ℕ → ℝ) :
    (1 - inCell k x) * h (cell k x) + inCell k x * h (cell k x + 1) = h a := by
  have hc : cell k x = min a (k - 2) := by unfold cell; rw [hx, Nat.floor_natCast]
  unfold inCell
  rw [hx, hc]
  rcases Nat.lt_or_ge a (k - 1) with hlt | hge
  · rw [min_eq_left (by omega)]; ring
  · have : a = k - 2 + 1 := by omega
    rw [min_eq_right (by omega), this]; push_cast; ring

theorem convex_bounds {lo hi s u v : ℝ} (h0 : 0 ≤ s) (h1 : s ≤ 1) (hu : lo ≤ u ∧ u ≤ hi) (hv : lo ≤ v ∧ v ≤ hi) :
    lo ≤ (1 - s) * u + s * v ∧ (1 - s) * u + s * v ≤ hi := by
  constructor <;> nlinarith

theorem bilinear_bounds {G : ℕ → ℕ → ℝ} {k0 k1 : ℕ} (hk0 : 2 ≤ k0) (hk1 : 2 ≤ k1) {lo hi : ℝ}
    (hG : ∀ a b, a < k0 → b < k1 → lo ≤ G a b ∧ G a b ≤ hi) {x y : ℝ} (hx : 0 ≤ x ∧ x ≤ 1) (hy : 0 ≤ y ∧ y ≤ 1) :
    lo ≤ bilinear G k0 k1 x y ∧ bilinear G k0 k1 x y ≤ hi := by
  obtain ⟨hs0, hs1, hc0⟩ := inCell_mem hk0 hx.1 hx.2
  obtain ⟨ht0, ht1, hc1⟩ := inCell_mem hk1 hy.1 hy.2
  exact convex_bounds hs0 hs1
    (convex_bounds ht0 ht1 (hG _ _ (by omega) (by omega)) (hG _ _ (by omega) (by omega)))
    (convex_bounds ht0 ht1 (hG _ _ (by omega) (by omega)) (hG _ _ (by omega) (by omega)))

theorem bilinear_node {G : ℕ → ℕ → ℝ} {k0 k1 : ℕ} (hk0 : 2 ≤ k0) (hk1 : 2 ≤ k1) {x y : ℝ} {a b : ℕ} (ha : a + 1 ≤ k0) (hb : b + 1 ≤ k1)
    (hx : x * ((k0 : ℝ) - 1) = a) (hy : y * ((k1 : ℝ) - 1) = b) : bilinear G k0 k1 x y = G a b := by
  unfold bilinear
  simp only
  rw [lin_node hk1 hb hy (fun j => G (cell k0 x) j), lin_node hk1 hb hy (fun j => G (cell k0 x + 1) j)]
  exact lin_node hk0 ha hx (fun i => G i b)

/-! ## Extremes -/

theorem mem_cells {m n i j : ℕ} : (i, j) ∈ cells m n ↔ i < m ∧ j < n := by
  unfold cells
  simp [List.mem_flatMap]

theorem filterMap_some' {α : Type} (l : List α) (f : α → ℝ) : ((l.map fun c => some (f c)).filterMap id) = l.map f := by
  rw [List.filterMap_map]
  have : (id ∘ fun c => some (f c)) = fun c => some (f c) := rfl
  rw [this]
  induction l with
  | nil => rfl
  | cons a l ih => simp

theorem fmax_some {f : ℕ → ℕ → ℝ} {m n : ℕ} {v : ℝ} : fmax f m n = some v ↔
    (∃ i j, i < m ∧ j < n ∧ f i j = v) ∧ ∀ i j, i < m → j < n → f i j ≤ v := by
  unfold fmax
  rw [omax_eq_some, filterMap_some']
  constructor
  · rintro ⟨h1, h2⟩
    obtain ⟨⟨i, j⟩, hc, rfl⟩ := List.mem_map.1 h1
    rw [mem_cells] at hc
    exact ⟨⟨i, j, hc.1, hc.2, rfl⟩, fun i j hi hj => h2 _ (List.mem_map.2 ⟨(i, j), mem_cells.2 ⟨hi, hj⟩, rfl⟩)⟩
  · rintro ⟨⟨i, j, hi, hj, rfl⟩, h2⟩
    refine ⟨List.mem_map.2 ⟨(i, j), mem_cells.2 ⟨hi, hj⟩, rfl⟩, ?_⟩
    intro u hu
    obtain ⟨⟨i, j⟩, hc, rfl⟩ := List.mem_map.1 hu
    rw [mem_cells] at hc
    exact h2 i j hc.1 hc.2

theorem fmax_exists (f : ℕ → ℕ → ℝ) {m n : ℕ} (hm : 0 < m) (hn : 0 < n) : ∃ v, fmax f m n = some v := by
  cases h : fmax f m n with
  | some v => exact ⟨v, rfl⟩
  | none =>
    unfold fmax at h
    rw [omax_eq_none, filterMap_some'] at h
    have : (0, 0) ∈ cells m n := mem_cells.2 ⟨hm, hn⟩
    rw [List.map_eq_nil_iff] at h
    rw [h] at this
    simp at this

theorem fmin_some {f : ℕ → ℕ → ℝ} {m n : ℕ} {v : ℝ} : fmin f m n = some v ↔
    (∃ i j, i < m ∧ j < n ∧ f i j = v) ∧ ∀ i j, i < m → j < n → v ≤ f i j := by
  unfold fmin
  rw [Option.map_eq_some_iff]
  constructor
  · rintro ⟨w, hw, rfl⟩
    rw [fmax_some] at hw
    obtain ⟨⟨i, j, hi, hj, he⟩, h2⟩ := hw
    exact ⟨⟨i, j, hi, hj, by linarith⟩, fun i j hi hj => by have := h2 i j hi hj; linarith⟩
  · rintro ⟨⟨i, j, hi, hj, rfl⟩, h2⟩
    refine ⟨-f i j, fmax_some.2 ⟨⟨i, j, hi, hj, rfl⟩, fun a b ha hb => ?_⟩, by ring⟩
    have := h2 a b ha hb
    linarith

theorem fmin_exists (f : ℕ → ℕ → ℝ) {m n : ℕ} (hm : 0 < m) (hn : 0 < n) : ∃ v, fmin f m n = some v := by
  obtain ⟨v, hv⟩ := fmax_exists (fun i j => -f i j) hm hn
  exact ⟨-v, by unfold fmin; rw [hv]; rfl⟩

end SST.Cloud
