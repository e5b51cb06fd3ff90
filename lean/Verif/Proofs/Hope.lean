import Verif.Model.DataIO
import Mathlib.Tactic.FieldSimp
import Mathlib.Tactic.Linarith
import Mathlib.Tactic.Ring
import Mathlib.Tactic.Positivity
import Mathlib.Tactic.NormNum

/-! # Lemmas on `interp_nan` -/

namespace SST.DataIO
open SST

theorem prevValid_some {s : List (Option ℝ)} {k i : ℕ} : prevValid s k = some i ↔ i < k ∧ validAt s i = true ∧ ∀ m, i < m → m < k → validAt s m = false := by
  induction k with
  | zero => simp [prevValid]
  | succ k ih =>
    simp only [prevValid]
    by_cases hv : validAt s k = true
    · rw [if_pos hv]
      constructor
      · intro h
        cases h
        exact ⟨by omega, hv, fun m h1 h2 => by omega⟩
      · rintro ⟨h1, h2, h3⟩
        by_contra hc
        have hik : i ≠ k := fun h => hc (by rw [h])
        rw [h3 k (by omega) (by omega)] at hv
        cases hv
    · rw [if_neg hv, ih]
      constructor
      · rintro ⟨h1, h2, h3⟩
        refine ⟨by omega, h2, fun m h4 h5 => ?_⟩
        by_cases hm : m = k
        · rw [hm]; simpa using hv
        · exact h3 m h4 (by omega)
      · rintro ⟨h1, h2, h3⟩
        have hik : i ≠ k := by rintro rfl; exact hv h2
        exact ⟨by omega, h2, fun m h4 h5 => h3 m h4 (by omega)⟩

theorem prevValid_none {s : List (Option ℝ)} {k : ℕ} : prevValid s k = none ↔ ∀ m < k, validAt s m = false := by
  induction k with
  | zero => simp [prevValid]
  | succ k ih =>
    simp only [prevValid]
    by_cases hv : validAt s k = true
    · rw [if_pos hv]
      constructor
      · intro h; cases h
      · intro h; rw [h k (by omega)] at hv; cases hv
    · rw [if_neg hv, ih]
      constructor
      · intro h m hm
        by_cases hk : m = k
        · rw [hk]; simpa using hv
        · exact h m (by omega)
      · intro h m hm; exact h m (by omega)

theorem validAt_lt {s : List (Option ℝ)} {k : ℕ} (h : validAt s k = true) : k < s.length := by
  by_contra hc
  unfold validAt at h
  rw [List.getD_eq_default _ _ (by omega)] at h
  cases h

theorem find_range' {p : ℕ → Bool} {a n j : ℕ} : ((List.range n).map fun i => a + i).find? p = some j ↔
    a ≤ j ∧ j < a + n ∧ p j = true ∧ ∀ m, a ≤ m → m < j → p m = false := by
  induction n generalizing a with
  | zero => simp; omega
  | succ n ih =>
    rw [List.range_succ_eq_map, List.map_cons, List.map_map]
    have : (List.range n).map ((fun i => a + i) ∘ Nat.succ) = (List.range n).map fun i => a + 1 + i := by
      apply List.map_congr_left
      intro i _
      simp only [Function.comp]
      omega
    rw [this, List.find?_cons]
    simp only [Nat.add_zero]
    cases hp : p a with
    | true =>
      simp only [Option.some.injEq]
      constructor
      · rintro rfl; exact ⟨le_rfl, by omega, hp, fun m h1 h2 => by omega⟩
      · rintro ⟨h1, h2, h3, h4⟩
        by_contra hc
        rw [h4 a le_rfl (by omega)] at hp
        cases hp
    | false =>
      simp only
      rw [ih]
      constructor
      · rintro ⟨h1, h2, h3, h4⟩
        refine ⟨by omega, by omega, h3, fun m h5 h6 => ?_⟩
        by_cases hm : m = a
        · rw [hm]; exact hp
        · exact h4 m (by omega) h6
      · rintro ⟨h1, h2, h3, h4⟩
        have : j ≠ a := by rintro rfl; rw [hp] at h3; cases h3
        exact ⟨by omega, by omega, h3, fun m h5 h6 => h4 m (by omega) h6⟩

theorem nextValid_some {s : List (Option ℝ)} {k j : ℕ} : nextValid s k = some j ↔ k < j ∧ validAt s j = true ∧ ∀ m, k < m → m < j → validAt s m = false := by
  unfold nextValid
  rw [find_range']
  constructor
  · rintro ⟨h1, h2, h3, h4⟩
    exact ⟨by omega, h3, fun m h5 h6 => h4 m (by omega) h6⟩
  · rintro ⟨h1, h2, h3⟩
    have := validAt_lt h2
    exact ⟨by omega, by omega, h2, fun m h5 h6 => h3 m (by omega) h6⟩

theorem interpolate_length (L : ℕ) (s : List (Option ℝ)) : (interpolate L s).length = s.length := by simp [interpolate]

theorem interpolate_getD (L : ℕ) (s : List (Option ℝ)) {k : ℕ} (hk : k < s.length) : (interpolate L s).getD k none = interpAt L s k := by
  unfold interpolate
  rw [List.getD_eq_getElem _ _ (by simpa using hk)]
  simp

theorem interpAt_valid {L : ℕ} {s : List (Option ℝ)} {k : ℕ} (h : validAt s k = true) : interpAt L s k = s.getD k none := by
  unfold interpAt
  unfold validAt at h
  cases hs : s.getD k none with
  | none => rw [hs] at h; cases h
  | some v => rfl

theorem interpAt_gap {L : ℕ} {s : List (Option ℝ)} {k i j : ℕ} (hi : i < k) (hj : k < j) (hvi : validAt s i = true) (hvj : validAt s j = true)
    (hg : ∀ m, i < m → m < j → validAt s m = false) :
    interpAt L s k = if k - i ≤ L then some (numAt s i + (numAt s j - numAt s i) * ((k - i : ℕ) : ℝ) / ((j - i : ℕ) : ℝ)) else none := by
  have hk : s.getD k none = none := by
    have := hg k hi hj
    unfold validAt at this
    cases h : s.getD k none with
    | none => rfl
    | some v => rw [h] at this; cases this
  unfold interpAt
  rw [hk, prevValid_some.2 ⟨hi, hvi, fun m h1 h2 => hg m h1 (by omega)⟩, nextValid_some.2 ⟨hj, hvj, fun m h1 h2 => hg m (by omega) h2⟩]

/-- Positions stay without a value if there is none on one side. -/
theorem interpAt_left {L : ℕ} {s : List (Option ℝ)} {k : ℕ} (h : ∀ m ≤ k, validAt s m = false) : interpAt L s k = none := by
  have hk : s.getD k none = none := by
    have := h k le_rfl
    unfold validAt at this
    cases h : s.getD k none with
    | none => rfl
    | some v => rw [h] at this; cases this
  unfold interpAt
  rw [hk, prevValid_none.2 fun m hm => h m (by omega)]

/-! ### The window -/

/-- Samples one second apart. -/
def everySecond (t0 : ℝ) (n : ℕ) : List ℝ := (List.range n).map fun i : ℕ => t0 + (i : ℝ)

theorem everySecond_getD (t0 : ℝ) {n k : ℕ} (hk : k < n) : (everySecond t0 n).getD k 0 = t0 + k := by
  unfold everySecond
  rw [List.getD_eq_getElem _ _ (by simpa using hk)]
  simp

theorem everySecond_mono (t0 : ℝ) (n : ℕ) : (everySecond t0 n).Pairwise (· ≤ ·) := by
  unfold everySecond
  rw [List.pairwise_map]
  apply List.pairwise_lt_range.imp
  intro a b h
  have : (a : ℝ) ≤ b := by exact_mod_cast h.le
  linarith

theorem mem_window (L : ℕ) (t0 : ℝ) {n k j : ℕ} (hk : k < n) : j ∈ window L (everySecond t0 n) k ↔ j ≤ k ∧ k < j + L := by
  unfold window
  rw [List.mem_filter, List.mem_range]
  simp only [decide_eq_true_eq]
  constructor
  · rintro ⟨h1, h2⟩
    rw [everySecond_getD t0 hk, everySecond_getD t0 (by omega : j < n)] at h2
    refine ⟨by omega, ?_⟩
    have : (k : ℝ) < (j + L : ℕ) := by
      rw [abs_lt] at h2
      push_cast
      linarith [h2.2]
    exact_mod_cast this
  · rintro ⟨h1, h2⟩
    refine ⟨by omega, ?_⟩
    rw [everySecond_getD t0 hk, everySecond_getD t0 (by omega : j < n)]
    have : (k : ℝ) < (j + L : ℕ) := by exact_mod_cast h2
    push_cast at this
    have h3 : (j : ℝ) ≤ k := by exact_mod_cast h1
    rw [abs_of_nonneg (by linarith)]
    linarith

theorem window_nodup (L : ℕ) (ts : List ℝ) (k : ℕ) : (window L ts k).Nodup := List.nodup_range.filter _

theorem window_length_le (L : ℕ) (t0 : ℝ) {n k : ℕ} (hk : k < n) : (window L (everySecond t0 n) k).length ≤ L := by
  have h1 : (window L (everySecond t0 n) k) ⊆ (List.range L).map fun i => k - i := by
    intro j hj
    rw [mem_window L t0 hk] at hj
    exact List.mem_map.2 ⟨k - j, List.mem_range.2 (by omega), by omega⟩
  have := (List.subperm_of_subset (window_nodup L _ k) h1).length_le
  simpa using this

/-- For samples one second apart a position is marked exactly if its whole window is without values. -/
theorem blankAt_iff {L : ℕ} (hL : 0 < L) (t0 : ℝ) {n k : ℕ} (hk : k < n) (s : List (Option ℝ)) :
    blankAt L (everySecond t0 n) s k = true ↔ ∀ j, j ≤ k → k < j + L → validAt s j = false := by
  set W := window L (everySecond t0 n) k with hW
  have hkW : k ∈ W := (mem_window L t0 hk).2 ⟨le_rfl, by omega⟩
  have hWpos : 0 < W.length := List.length_pos_of_mem hkW
  have hWL : W.length ≤ L := window_length_le L t0 hk
  have hfl : (W.filter fun j => !validAt s j).length ≤ W.length := List.length_filter_le _ _
  have hiff : (W.filter fun j => !validAt s j).length = W.length ↔ ∀ j ∈ W, validAt s j = false := by
    rw [List.length_filter_eq_length_iff]
    simp
  have key : blankAt L (everySecond t0 n) s k = true ↔ (W.filter fun j => !validAt s j).length = W.length := by
    unfold blankAt
    rw [← hW, decide_eq_true_eq]
    have hLr : (0 : ℝ) < L := by exact_mod_cast hL
    have hWr : (0 : ℝ) < W.length := by exact_mod_cast hWpos
    rw [div_lt_div_iff₀ hLr hWr]
    constructor
    · intro h
      by_contra hc
      have h1 : (W.filter fun j => !validAt s j).length + 1 ≤ W.length := by omega
      have h1r : (((W.filter fun j => !validAt s j).length : ℕ) : ℝ) + 1 ≤ (W.length : ℝ) := by exact_mod_cast h1
      have h2r : (W.length : ℝ) ≤ L := by exact_mod_cast hWL
      nlinarith
    · intro h
      rw [h]
      nlinarith
  rw [key, hiff]
  constructor
  · intro h j h1 h2
    exact h j ((mem_window L t0 hk).2 ⟨h1, h2⟩)
  · intro h j hj
    obtain ⟨h1, h2⟩ := (mem_window L t0 hk).1 hj
    exact h j h1 h2

/-- The result for one column, sample by sample. -/
theorem interpCol_ok {L : ℕ} (hL : 0 < L) (times : List ℝ) (ht : Monotonic times) (s : List (Option ℝ)) (hn : 2 * L ≤ s.length) :
    ∃ out, interpCol L times s = .ok out ∧ out.length = s.length ∧ ∀ k < s.length, out.getD k none =
      if L ≤ k ∧ k + L < s.length ∧ (blankAt L times (interpolate L s) (k - L) = true ∨ blankAt L times (interpolate L s) (k + L) = true)
      then none else interpAt L s k := by
  set n := s.length with hnn
  set blanks := (List.range n).map (blankAt L times (interpolate L s)) with hb
  have hbl : blanks.length = n := by simp [hb]
  set zs := List.zipWith or (blanks.take (n - 2 * L)) (blanks.drop (2 * L)) with hz
  have hzl : zs.length = n - 2 * L := by rw [hz, List.length_zipWith, List.length_take, List.length_drop, hbl]; omega
  set padded := List.replicate L false ++ zs ++ List.replicate L false with hp
  have hpl : padded.length = n := by rw [hp, List.length_append, List.length_append, hzl]; simp; omega
  refine ⟨List.zipWith (fun (v : Option ℝ) (b : Bool) => if b then none else v) (interpolate L s) padded, ?_, ?_, ?_⟩
  · unfold interpCol
    rw [if_neg (by omega), if_neg (by simpa using ht)]
    simp only
    rw [if_neg (by rw [← hnn, ← hb, ← hz, ← hp]; simpa using hpl)]
  · rw [List.length_zipWith, interpolate_length, hpl]; omega
  · intro k hk
    have hk1 : k < (interpolate L s).length := by rw [interpolate_length]; exact hk
    have hk2 : k < padded.length := by omega
    rw [List.getD_eq_getElem _ _ (by rw [List.length_zipWith]; omega), List.getElem_zipWith]
    have hval : (interpolate L s)[k] = interpAt L s k := by simp [interpolate]
    rw [hval]
    have hpad : padded[k] = true ↔ L ≤ k ∧ k + L < n ∧ (blankAt L times (interpolate L s) (k - L) = true ∨ blankAt L times (interpolate L s) (k + L) = true) := by
      have e : padded[k] = padded.getD k false := (List.getD_eq_getElem _ _ hk2).symm
      rw [e, hp]
      by_cases h1 : k < L
      · rw [List.append_assoc, List.getD_append _ _ _ _ (by simpa using h1)]
        rw [List.getD_eq_getElem _ _ (by simpa using h1)]
        simp
        omega
      · by_cases h2 : k + L < n
        · rw [List.getD_append _ _ _ _ (by rw [List.length_append, hzl]; simp; omega), List.getD_append_right _ _ _ _ (by simp; omega)]
          simp only [List.length_replicate]
          rw [List.getD_eq_getElem _ _ (by omega)]
          simp only [hz, List.getElem_zipWith, hb, List.getElem_take, List.getElem_drop, List.getElem_map, List.getElem_range, Bool.or_eq_true]
          rw [show 2 * L + (k - L) = k + L by omega]
          constructor
          · intro h; exact ⟨by omega, by omega, h⟩
          · rintro ⟨_, _, h⟩; exact h
        · rw [List.getD_append_right _ _ _ _ (by rw [List.length_append, hzl]; simp; omega)]
          rw [List.length_append, hzl, List.length_replicate, List.getD_eq_getElem _ _ (by simp; omega)]
          simp
          omega
    by_cases h : padded[k] = true
    · rw [if_pos h, if_pos (hpad.1 h)]
    · rw [if_neg h, if_neg (fun hc => h (hpad.2 hc))]

theorem interpAt_isSome_valid {L : ℕ} {s : List (Option ℝ)} {k : ℕ} (hk : k < s.length) : validAt (interpolate L s) k = (interpAt L s k).isSome := by
  unfold validAt
  rw [interpolate_getD L s hk]

end SST.DataIO
