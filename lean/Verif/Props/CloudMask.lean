import Verif.Proofs.CloudMask

/-!
# Properties C66, C67: clear mask and cloud edges
-/

namespace SST.Props.CloudMask
open SST SST.Stats SST.Cloud

/-! ## C66 -/

section clear
variable {ι : Type} [Fintype ι]

theorem quantile_exists [Nonempty ι] (f : ι → ℝ) (q : ℝ) : ∃ t, quantileLin q (vals f) = some t := by
  rw [quantileLin_eq, if_neg (vals_ne_nil f)]; exact ⟨_, rfl⟩

open Classical in
theorem clearMask_eq {f : ι → ℝ} {q t : ℝ} (h0 : 0 < q) (h1 : q ≤ 1) (ht : quantileLin q (vals f) = some t) :
    clearMask f q = if isclose q (((Finset.univ.filter fun i => f i ≤ t).card : ℕ) / (Fintype.card ι : ℝ)) then .ok (fun i => decide (f i ≤ t)) else .error .assertionError := by
  have hm : (fun i => if f i > t then false else true) = fun i => decide (f i ≤ t) := by
    funext i
    by_cases h : f i > t
    · rw [if_pos h]; simp [h]
    · rw [if_neg h]; simp [not_lt.1 h]
  have hc : (count fun i => (decide (f i ≤ t)) = true) = (Finset.univ.filter fun i => f i ≤ t).card := by
    unfold count
    congr 1
    ext i
    simp
  unfold clearMask
  rw [if_neg (by push Not; exact ⟨h1, h0.le⟩), if_neg h0.ne', ht]
  have key : ∀ g : ι → Bool, g = (fun i => decide (f i ≤ t)) → (if isclose q ((count fun i => g i = true : ℕ) / (Fintype.card ι : ℝ)) then (Except.ok g : Except PyErr (ι → Bool)) else .error .assertionError) =
      if isclose q (((Finset.univ.filter fun i => f i ≤ t).card : ℕ) / (Fintype.card ι : ℝ)) then .ok (fun i => decide (f i ≤ t)) else .error .assertionError := by
    rintro g rfl
    rw [hc]
  exact key _ hm

open Classical in
/-- C66: for a field of distinct values the outcome is determined by the counts: with `c = ⌊q(n−1)⌋ + 1`, either `c/n` is
close to `q`, and the `c` cells of lowest value are clear, or the call fails with an `AssertionError`. -/
theorem C66_distinct [Nonempty ι] (f : ι → ℝ) (hf : Function.Injective f) (q : ℝ) (h0 : 0 < q) (h1 : q ≤ 1) :
    let n : ℝ := Fintype.card ι
    let c : ℕ := ⌊q * (n - 1)⌋₊ + 1
    (|q - c / n| ≤ 1e-8 + 1e-3 * (c / n) → ∃ mask, clearMask f q = .ok mask ∧ (Finset.univ.filter fun i => mask i = true).card = c ∧
      ∀ i j, mask i = true → mask j = false → f i < f j) ∧
    (¬ |q - c / n| ≤ 1e-8 + 1e-3 * (c / n) → Raises (clearMask f q) .assertionError) := by
  intro n c
  obtain ⟨t, ht⟩ := quantile_exists f q
  have hcard := count_eq_quantile hf h0.le h1 ht
  have he := clearMask_eq h0 h1 ht
  rw [hcard] at he
  have habs : |((c : ℕ) : ℝ) / n| = c / n := abs_of_nonneg (by positivity)
  have hiff : isclose q (((⌊q * ((Fintype.card ι : ℝ) - 1)⌋₊ + 1 : ℕ) : ℝ) / (Fintype.card ι : ℝ)) ↔ |q - c / n| ≤ 1e-8 + 1e-3 * (c / n) := by
    change |q - c / n| ≤ 1e-8 + 1e-3 * |(c : ℝ) / n| ↔ _
    rw [habs]
  constructor
  · intro h
    rw [if_pos (hiff.2 h)] at he
    refine ⟨_, he, ?_, ?_⟩
    · refine Eq.trans ?_ hcard; congr 1; ext i; simp
    · intro i j hi hj
      simp at hi hj
      linarith
  · intro h
    rw [if_neg (fun h' => h (hiff.1 h'))] at he
    exact he

/-- C66: `c/n` differs from the requested fraction by less than one cell, `-q < c - qn ≤ 1 - q`. -/
theorem C66_within_one_cell (n : ℕ) (hn : 0 < n) (q : ℝ) (h0 : 0 ≤ q) :
    -q < ((⌊q * ((n : ℝ) - 1)⌋₊ + 1 : ℕ) : ℝ) - q * n ∧ ((⌊q * ((n : ℝ) - 1)⌋₊ + 1 : ℕ) : ℝ) - q * n ≤ 1 - q := by
  have hn' : (1 : ℝ) ≤ n := by exact_mod_cast hn
  have hf := Nat.floor_le (mul_nonneg h0 (by linarith : (0 : ℝ) ≤ (n : ℝ) - 1))
  have hf1 := Nat.lt_floor_add_one (q * ((n : ℝ) - 1))
  push_cast
  constructor <;> linarith

open Classical in
/-- C66: a field of distinct values with `q (n − 1) ≥ 1000` is always accepted. -/
theorem C66_large_accepted [Nonempty ι] (f : ι → ℝ) (hf : Function.Injective f) (q : ℝ) (h1 : q ≤ 1) (hl : 1000 ≤ q * ((Fintype.card ι : ℝ) - 1)) :
    ∃ mask, clearMask f q = .ok mask ∧ (Finset.univ.filter fun i => mask i = true).card = ⌊q * ((Fintype.card ι : ℝ) - 1)⌋₊ + 1 := by
  have hn : 0 < Fintype.card ι := Fintype.card_pos
  have hn' : (1 : ℝ) ≤ Fintype.card ι := by exact_mod_cast hn
  have h0 : 0 < q := by by_contra h; push Not at h; nlinarith
  obtain ⟨ha, hb⟩ := C66_within_one_cell (Fintype.card ι) hn q h0.le
  obtain ⟨mask, hm, hc, _⟩ := (C66_distinct f hf q h0 h1).1 (by
    generalize hC : ((⌊q * ((Fintype.card ι : ℝ) - 1)⌋₊ + 1 : ℕ) : ℝ) = C at *
    generalize hN : (Fintype.card ι : ℝ) = N at *
    have hNp : 0 < N := by linarith
    have e : q - C / N = (q * N - C) / N := by field_simp
    have e2 : (1e-3 : ℝ) * (C / N) = (1e-3 * C) / N := by ring
    have : |q * N - C| / N ≤ (1e-3 * C) / N := by
      apply div_le_div_of_nonneg_right _ hNp.le
      rw [abs_le]
      constructor <;> nlinarith
    rw [e, abs_div, abs_of_pos hNp, e2]
    linarith)
  exact ⟨mask, hm, hc⟩

open Classical in
/-- C66: whatever the values (ties included), an accepted mask has a clear fraction within 0.1 % (and 1e-8) of the request, at
least `⌊q(n−1)⌋ + 1` clear cells when `q > 0` and none when `q = 0`, and no cloudy cell has a value as low as a clear one. -/
theorem C66_accepted [Nonempty ι] (f : ι → ℝ) (q : ℝ) (mask : ι → Bool) (h : clearMask f q = .ok mask) :
    0 ≤ q ∧ q ≤ 1 ∧
    |q - (Finset.univ.filter fun i => mask i = true).card / (Fintype.card ι : ℝ)| ≤ 1e-8 + 1e-3 * ((Finset.univ.filter fun i => mask i = true).card / (Fintype.card ι : ℝ)) ∧
    (q = 0 → ∀ i, mask i = false) ∧ (0 < q → ⌊q * ((Fintype.card ι : ℝ) - 1)⌋₊ + 1 ≤ (Finset.univ.filter fun i => mask i = true).card) ∧
    ∀ i j, mask i = true → mask j = false → f i < f j := by
  have hr : 0 ≤ q ∧ q ≤ 1 := by
    by_contra hc
    unfold clearMask at h
    rw [if_pos (by by_contra h'; push Not at h'; exact hc ⟨h'.2, h'.1⟩)] at h
    simp at h
  refine ⟨hr.1, hr.2, ?_⟩
  rcases hr.1.lt_or_eq with h0 | rfl
  · obtain ⟨t, ht⟩ := quantile_exists f q
    have he := clearMask_eq h0 hr.2 ht
    rw [he] at h
    by_cases hi : isclose q (((Finset.univ.filter fun i => f i ≤ t).card : ℕ) / (Fintype.card ι : ℝ))
    · rw [if_pos hi, Except.ok.injEq] at h
      subst h
      have hset : (Finset.univ.filter fun i => (decide (f i ≤ t)) = true) = Finset.univ.filter fun i => f i ≤ t := by ext i; simp
      rw [hset]
      refine ⟨?_, fun h => absurd h h0.ne', fun _ => count_ge_quantile f h0.le hr.2 ht, ?_⟩
      · unfold isclose at hi
        rwa [abs_of_nonneg (by positivity : (0 : ℝ) ≤ ((Finset.univ.filter fun i => f i ≤ t).card : ℕ) / (Fintype.card ι : ℝ))] at hi
      · intro i j hi hj
        simp at hi hj
        linarith
    · rw [if_neg hi] at h
      simp at h
  · unfold clearMask at h
    rw [if_neg (by norm_num), if_pos rfl] at h
    have hz : isclose 0 ((count fun i : ι => false = true : ℕ) / (Fintype.card ι : ℝ)) := by norm_num [isclose, count]
    have h' : (Except.ok (fun _ : ι => false) : Except PyErr (ι → Bool)) = .ok mask := by
      rw [← h]; exact (if_pos hz).symm
    rw [Except.ok.injEq] at h'
    subst h'
    norm_num

/-- C66: fractions outside `[0, 1]` are a `ValueError`; the fraction 0 always gives a fully cloudy mask. -/
theorem C66_range (f : ι → ℝ) (q : ℝ) (h : q < 0 ∨ 1 < q) : Raises (clearMask f q) .valueError ∧ clearMask f 0 = .ok fun _ => false := by
  constructor
  · unfold clearMask Raises
    rw [if_pos (by tauto)]
  · unfold clearMask
    rw [if_neg (by norm_num), if_pos rfl]
    norm_num [isclose, count]

/-- C66 violated: a clear fraction of one half is rejected on every field of five distinct values. -/
theorem C66_violated_small (f : Fin 5 → ℝ) (hf : Function.Injective f) : Raises (clearMask f (1 / 2)) .assertionError := by
  apply (C66_distinct f hf (1 / 2) (by norm_num) (by norm_num)).2
  have : ⌊(1 / 2 : ℝ) * ((Fintype.card (Fin 5) : ℝ) - 1)⌋₊ = 2 := by
    rw [Fintype.card_fin]
    norm_num
  rw [this, Fintype.card_fin]
  norm_num [abs_of_neg]

example : Function.Injective (fun i : Fin 5 => (i : ℝ)) ∧ Function.Injective (fun i : Fin 3000 => (i : ℝ)) ∧ (1000 : ℝ) ≤ 1 / 2 * ((Fintype.card (Fin 3000) : ℝ) - 1) := by
  refine ⟨fun a b h => Fin.ext (by simpa using h), fun a b h => Fin.ext (by simpa using h), ?_⟩
  rw [Fintype.card_fin]; norm_num

end clear

/-! ## C67 -/

/-- `(a, b)` is the cell `(i, j)` or one of its eight neighbours within the `m × n` grid. -/
def Near (m n i j a b : ℕ) : Prop := a < m ∧ b < n ∧ a ≤ i + 1 ∧ i ≤ a + 1 ∧ b ≤ j + 1 ∧ j ≤ b + 1

theorem reflect_near {n i : ℕ} (hi : i < n) (d : ℤ) (h0 : -1 ≤ d) (h1 : d ≤ 1) :
    reflect n ((i : ℤ) + d) < n ∧ reflect n ((i : ℤ) + d) ≤ i + 1 ∧ i ≤ reflect n ((i : ℤ) + d) + 1 := by
  unfold reflect
  have hcase : ((i : ℤ) + d) % (2 * n) = if (i : ℤ) + d < 0 then 2 * (n : ℤ) - 1 else (i : ℤ) + d := by
    split_ifs with h
    · have : (i : ℤ) + d = -1 := by omega
      rw [this]
      have h2 : (-1 : ℤ) % (2 * n) = (-1 + 2 * n) % (2 * n) := by simp
      rw [h2, Int.emod_eq_of_lt (by omega) (by omega)]
      ring
    · exact Int.emod_eq_of_lt (by omega) (by omega)
  simp only
  rw [hcase]
  split_ifs <;> omega

theorem reflect_in {n : ℕ} {i : ℤ} (h0 : 0 ≤ i) (h1 : i < n) : reflect n i = i.toNat := by
  unfold reflect
  simp only
  rw [Int.emod_eq_of_lt h0 (by omega), if_pos (by omega)]

theorem edges_nonneg (mask : ℕ → ℕ → Bool) (m n i j : ℕ) : 0 ≤ edges mask m n i j := abs_nonneg _

theorem edges_pos_iff (mask : ℕ → ℕ → Bool) (m n i j : ℕ) :
    0 < edges mask m n i j ↔ sobel0 (maskVal mask) m n i j ≠ 0 ∨ sobel1 (maskVal mask) m n i j ≠ 0 := by
  unfold edges
  rw [abs_pos, ← not_iff_not]
  push Not
  constructor
  · intro h
    have h0 := sq_nonneg (sobel0 (maskVal mask) m n i j)
    have h1 := sq_nonneg (sobel1 (maskVal mask) m n i j)
    exact ⟨pow_eq_zero_iff (two_ne_zero) |>.1 (by linarith), pow_eq_zero_iff (two_ne_zero) |>.1 (by linarith)⟩
  · rintro ⟨h0, h1⟩
    rw [h0, h1]; norm_num

/-- C67: every edge cell has a clear and a cloudy cell among itself and its eight neighbours. -/
theorem C67_edge_borders (mask : ℕ → ℕ → Bool) (m n i j : ℕ) (hi : i < m) (hj : j < n) (he : 0 < edges mask m n i j) :
    (∃ a b, Near m n i j a b ∧ mask a b = true) ∧ ∃ a b, Near m n i j a b ∧ mask a b = false := by
  have hnear : ∀ d e : ℤ, -1 ≤ d → d ≤ 1 → -1 ≤ e → e ≤ 1 → Near m n i j (reflect m ((i : ℤ) + d)) (reflect n ((j : ℤ) + e)) := by
    intro d e h1 h2 h3 h4
    obtain ⟨a1, a2, a3⟩ := reflect_near hi d h1 h2
    obtain ⟨b1, b2, b3⟩ := reflect_near hj e h3 h4
    exact ⟨a1, b1, a2, a3, b2, b3⟩
  have hconst : ∀ c : ℝ, (∀ a b, Near m n i j a b → maskVal mask a b = c) → edges mask m n i j = 0 := by
    intro c hc
    have he : ∀ d e : ℤ, -1 ≤ d → d ≤ 1 → -1 ≤ e → e ≤ 1 → ext (maskVal mask) m n ((i : ℤ) + d) ((j : ℤ) + e) = c :=
      fun d e h1 h2 h3 h4 => hc _ _ (hnear d e h1 h2 h3 h4)
    have e00 := he (-1) (-1) (by norm_num) (by norm_num) (by norm_num) (by norm_num)
    have e01 := he (-1) 0 (by norm_num) (by norm_num) (by norm_num) (by norm_num)
    have e02 := he (-1) 1 (by norm_num) (by norm_num) (by norm_num) (by norm_num)
    have e10 := he 0 (-1) (by norm_num) (by norm_num) (by norm_num) (by norm_num)
    have e12 := he 0 1 (by norm_num) (by norm_num) (by norm_num) (by norm_num)
    have e20 := he 1 (-1) (by norm_num) (by norm_num) (by norm_num) (by norm_num)
    have e21 := he 1 0 (by norm_num) (by norm_num) (by norm_num) (by norm_num)
    have e22 := he 1 1 (by norm_num) (by norm_num) (by norm_num) (by norm_num)
    simp only [← sub_eq_add_neg, add_zero] at e00 e01 e02 e10 e12 e20 e21 e22
    unfold edges sobel0 sobel1
    rw [e00, e01, e02, e10, e12, e20, e21, e22]
    norm_num
  constructor
  · by_contra h
    push Not at h
    have := hconst 0 (fun a b hab => by unfold maskVal; have := h a b hab; simp [this])
    linarith
  · by_contra h
    push Not at h
    have := hconst 1 (fun a b hab => by unfold maskVal; have := h a b hab; simp at this; simp [this])
    linarith

/-- C67: exchanging clear and cloudy does not change the edges. -/
theorem C67_complement (mask : ℕ → ℕ → Bool) (m n i j : ℕ) : edges (fun a b => !mask a b) m n i j = edges mask m n i j := by
  have h : ∀ a b, maskVal (fun a b => !mask a b) a b = 1 - maskVal mask a b := by
    intro a b; unfold maskVal; cases h : mask a b <;> simp [h]
  have hx : ∀ a b : ℤ, ext (maskVal (fun a b => !mask a b)) m n a b = 1 - ext (maskVal mask) m n a b := fun a b => h _ _
  unfold edges sobel0 sobel1
  simp only [hx]
  congr 1
  ring

/-- C67: an inner cell on a border is an edge: if nothing in the row before is clear unless the cell across is, and some cell
across the border is clear while its counterpart is cloudy. -/
theorem C67_border_is_edge (mask : ℕ → ℕ → Bool) (m n i j : ℕ) (hi : 1 ≤ i) (hi' : i + 1 < m) (hj : 1 ≤ j) (hj' : j + 1 < n)
    (hmono : ∀ b, b ≤ j + 1 → j ≤ b + 1 → mask (i - 1) b = true → mask (i + 1) b = true)
    (hstrict : ∃ b, b ≤ j + 1 ∧ j ≤ b + 1 ∧ mask (i - 1) b = false ∧ mask (i + 1) b = true) :
    0 < edges mask m n i j := by
  rw [edges_pos_iff]
  left
  have e : ∀ d e : ℤ, -1 ≤ d → d ≤ 1 → -1 ≤ e → e ≤ 1 → ext (maskVal mask) m n ((i : ℤ) + d) ((j : ℤ) + e) = maskVal mask ((i : ℤ) + d).toNat ((j : ℤ) + e).toNat := by
    intro d e h1 h2 h3 h4
    unfold ext
    rw [reflect_in (by omega) (by omega), reflect_in (by omega) (by omega)]
  have r0 : ((i : ℤ) - 1).toNat = i - 1 := by omega
  have r2 : ((i : ℤ) + 1).toNat = i + 1 := by omega
  have c0 : ((j : ℤ) - 1).toNat = j - 1 := by omega
  have c1 : (j : ℤ).toNat = j := by omega
  have c2 : ((j : ℤ) + 1).toNat = j + 1 := by omega
  have e00 := e (-1) (-1) (by norm_num) (by norm_num) (by norm_num) (by norm_num)
  have e01 := e (-1) 0 (by norm_num) (by norm_num) (by norm_num) (by norm_num)
  have e02 := e (-1) 1 (by norm_num) (by norm_num) (by norm_num) (by norm_num)
  have e20 := e 1 (-1) (by norm_num) (by norm_num) (by norm_num) (by norm_num)
  have e21 := e 1 0 (by norm_num) (by norm_num) (by norm_num) (by norm_num)
  have e22 := e 1 1 (by norm_num) (by norm_num) (by norm_num) (by norm_num)
  simp only [← sub_eq_add_neg, add_zero, r0, r2, c0, c1, c2] at e00 e01 e02 e20 e21 e22
  unfold sobel0
  rw [e00, e01, e02, e20, e21, e22]
  have hd : ∀ b, b ≤ j + 1 → j ≤ b + 1 → 0 ≤ maskVal mask (i + 1) b - maskVal mask (i - 1) b := by
    intro b h1 h2
    have := hmono b h1 h2
    unfold maskVal
    cases h3 : mask (i - 1) b <;> cases h4 : mask (i + 1) b <;> simp_all
  have d0 := hd (j - 1) (by omega) (by omega)
  have d1 := hd j (by omega) (by omega)
  have d2 := hd (j + 1) (by omega) (by omega)
  obtain ⟨b, hb1, hb2, hf, ht⟩ := hstrict
  have hs : maskVal mask (i + 1) b - maskVal mask (i - 1) b = 1 := by unfold maskVal; rw [hf, ht]; simp
  have : b = j - 1 ∨ b = j ∨ b = j + 1 := by omega
  rcases this with rfl | rfl | rfl <;> linarith

/-- C67 violated: a cloudy cell all of whose eight neighbours are clear (a one-cell cloud) is not an edge. -/
theorem C67_violated_isolated (mask : ℕ → ℕ → Bool) (m n i j : ℕ) (hi : 1 ≤ i) (hi' : i + 1 < m) (hj : 1 ≤ j) (hj' : j + 1 < n)
    (hc : mask i j = false) (hn : ∀ a b, Near m n i j a b → (a, b) ≠ (i, j) → mask a b = true) :
    edges mask m n i j = 0 := by
  have e : ∀ d e : ℤ, -1 ≤ d → d ≤ 1 → -1 ≤ e → e ≤ 1 → (d ≠ 0 ∨ e ≠ 0) → ext (maskVal mask) m n ((i : ℤ) + d) ((j : ℤ) + e) = 1 := by
    intro d e h1 h2 h3 h4 h5
    unfold ext
    rw [reflect_in (by omega) (by omega), reflect_in (by omega) (by omega)]
    unfold maskVal
    rw [hn _ _ ⟨by omega, by omega, by omega, by omega, by omega, by omega⟩ (by intro h; rw [Prod.mk.injEq] at h; omega), if_pos rfl]
  have e00 := e (-1) (-1) (by norm_num) (by norm_num) (by norm_num) (by norm_num) (by norm_num)
  have e01 := e (-1) 0 (by norm_num) (by norm_num) (by norm_num) (by norm_num) (by norm_num)
  have e02 := e (-1) 1 (by norm_num) (by norm_num) (by norm_num) (by norm_num) (by norm_num)
  have e10 := e 0 (-1) (by norm_num) (by norm_num) (by norm_num) (by norm_num) (by norm_num)
  have e12 := e 0 1 (by norm_num) (by norm_num) (by norm_num) (by norm_num) (by norm_num)
  have e20 := e 1 (-1) (by norm_num) (by norm_num) (by norm_num) (by norm_num) (by norm_num)
  have e21 := e 1 0 (by norm_num) (by norm_num) (by norm_num) (by norm_num) (by norm_num)
  have e22 := e 1 1 (by norm_num) (by norm_num) (by norm_num) (by norm_num) (by norm_num)
  simp only [← sub_eq_add_neg, add_zero] at e00 e01 e02 e10 e12 e20 e21 e22
  unfold edges sobel0 sobel1
  rw [e00, e01, e02, e10, e12, e20, e21, e22]
  norm_num

/-- Edge values are whole numbers. -/
theorem edges_int (mask : ℕ → ℕ → Bool) (m n i j : ℕ) : ∃ z : ℤ, edges mask m n i j = z := by
  have hv : ∀ a b : ℤ, ∃ z : ℤ, ext (maskVal mask) m n a b = z := by
    intro a b
    unfold ext maskVal
    split_ifs
    · exact ⟨1, by simp⟩
    · exact ⟨0, by simp⟩
  choose z hz using hv
  refine ⟨|((z (i + 1) (j - 1) - z (i - 1) (j - 1)) + 2 * (z (i + 1) j - z (i - 1) j) + (z (i + 1) (j + 1) - z (i - 1) (j + 1))) ^ 2 +
    ((z (i - 1) (j + 1) - z (i - 1) (j - 1)) + 2 * (z i (j + 1) - z i (j - 1)) + (z (i + 1) (j + 1) - z (i + 1) (j - 1))) ^ 2|, ?_⟩
  unfold edges sobel0 sobel1
  simp only [hz]
  push_cast
  rfl

theorem edges_ge_one {mask : ℕ → ℕ → Bool} {m n i j : ℕ} (h : 0 < edges mask m n i j) : 1 ≤ edges mask m n i j := by
  obtain ⟨z, hz⟩ := edges_int mask m n i j
  rw [hz] at h ⊢
  have : 0 < z := by exact_mod_cast h
  exact_mod_cast this

theorem reflect_lt {n : ℕ} (hn : 0 < n) (i : ℤ) : reflect n i < n := by
  unfold reflect
  have h0 : 0 ≤ i % (2 * n) := Int.emod_nonneg _ (by omega)
  have h1 : i % (2 * n) < 2 * n := Int.emod_lt_of_pos _ (by omega)
  simp only
  split_ifs <;> omega

/-- The filtered edges are positive exactly where the window holds an edge. -/
theorem smoothed_pos_iff (mask : ℕ → ℕ → Bool) (m n s i j : ℕ) (h1 : 1 ≤ s) (h2 : s ≤ 316) :
    0 ≤ smoothed mask m n s i j ∧ (0 < smoothed mask m n s i j ↔
      ∃ a b, a < s ∧ b < s ∧ 0 < edges mask m n (reflect m ((i : ℤ) - (s / 2 : ℕ) + a)) (reflect n ((j : ℤ) - (s / 2 : ℕ) + b))) := by
  have hs : (0 : ℝ) < (s : ℝ) ^ 2 := by positivity
  have hs2 : (s : ℝ) ^ 2 ≤ 99856 := by
    have h2' : (s : ℝ) ≤ 316 := by exact_mod_cast h2
    have h1' : (0 : ℝ) ≤ s := Nat.cast_nonneg _
    nlinarith
  have hnn : 0 ≤ uniformFilter (edges mask m n) m n s i j := by
    unfold uniformFilter
    rw [if_neg (by omega)]
    exact div_nonneg (sum_nonneg' fun c _ => edges_nonneg _ _ _ _ _) hs.le
  refine ⟨by unfold smoothed; split_ifs <;> [exact le_rfl; exact hnn], ?_⟩
  constructor
  · intro h
    by_contra hc
    push Not at hc
    have : uniformFilter (edges mask m n) m n s i j = 0 := by
      unfold uniformFilter
      rw [if_neg (by omega), div_eq_zero_iff]
      left
      apply List.sum_eq_zero
      intro x hx
      obtain ⟨⟨a, b⟩, hab, rfl⟩ := List.mem_map.1 hx
      rw [mem_cells] at hab
      exact le_antisymm (hc a b hab.1 hab.2) (edges_nonneg _ _ _ _ _)
    unfold smoothed at h
    rw [this] at h
    norm_num at h
  · rintro ⟨a, b, ha, hb, he⟩
    have hge := edges_ge_one he
    have hsum : 1 ≤ ((cells s s).map fun c => ext (edges mask m n) m n ((i : ℤ) - (s / 2 : ℕ) + c.1) ((j : ℤ) - (s / 2 : ℕ) + c.2)).sum := by
      refine hge.trans ?_
      apply List.single_le_sum
      · intro x hx
        obtain ⟨c, _, rfl⟩ := List.mem_map.1 hx
        exact edges_nonneg _ _ _ _ _
      · exact List.mem_map.2 ⟨(a, b), mem_cells.2 ⟨ha, hb⟩, rfl⟩
    have hu : 1e-5 ≤ uniformFilter (edges mask m n) m n s i j := by
      unfold uniformFilter
      rw [if_neg (by omega), le_div_iff₀ hs]
      refine le_trans ?_ hsum
      nlinarith
    unfold smoothed
    rw [if_neg hu.not_gt]
    linarith

/-- C67: with the default threshold, the broadened edge mask marks exactly the cells whose `s × s` window (starting `s // 2`
before the cell, mirrored at the borders) holds an edge cell, for filter sizes up to 316. -/
theorem C67_broadened (mask : ℕ → ℕ → Bool) (m n s i j : ℕ) (h1 : 1 ≤ s) (h2 : s ≤ 316) (hi : i < m) (hj : j < n) :
    smoothedBinary mask m n s 0 i j ↔
      ∃ a b, a < s ∧ b < s ∧ 0 < edges mask m n (reflect m ((i : ℤ) - (s / 2 : ℕ) + a)) (reflect n ((j : ℤ) - (s / 2 : ℕ) + b)) := by
  obtain ⟨mx, hmx⟩ := fmax_exists (smoothed mask m n s) (by omega : 0 < m) (by omega : 0 < n)
  obtain ⟨⟨i', j', _, _, he⟩, hle⟩ := fmax_some.1 hmx
  obtain ⟨hnn, hiff⟩ := smoothed_pos_iff mask m n s i j h1 h2
  rw [← hiff]
  unfold smoothedBinary
  rw [hmx]
  have hij := hle i j hi hj
  simp only
  rcases eq_or_ne mx 0 with h0 | h0
  · have : smoothed mask m n s i j = 0 := le_antisymm (h0 ▸ hij) hnn
    rw [this, h0]
    simp [XR.div, XR.lt]
  · have hmp : 0 < mx := lt_of_le_of_ne (he ▸ (smoothed_pos_iff mask m n s i' j' h1 h2).1) (Ne.symm h0)
    simp only [XR.div, if_neg h0, XR.lt]
    constructor
    · intro h
      by_contra hc
      have : smoothed mask m n s i j = 0 := le_antisymm (not_lt.1 hc) hnn
      rw [this] at h
      simp at h
    · intro h; exact div_pos h hmp

/-- C67: in the interior of the field the window is a plain block of cells. -/
theorem C67_broadened_interior (mask : ℕ → ℕ → Bool) (m n s i j : ℕ) (h1 : 1 ≤ s) (h2 : s ≤ 316) (hi : s / 2 ≤ i) (hi' : i - s / 2 + s ≤ m)
    (hj : s / 2 ≤ j) (hj' : j - s / 2 + s ≤ n) :
    smoothedBinary mask m n s 0 i j ↔
      ∃ a b, i - s / 2 ≤ a ∧ a < i - s / 2 + s ∧ j - s / 2 ≤ b ∧ b < j - s / 2 + s ∧ 0 < edges mask m n a b := by
  have hs2 : s / 2 < s := by omega
  rw [C67_broadened mask m n s i j h1 h2 (by omega) (by omega)]
  generalize s / 2 = h at *
  constructor
  · rintro ⟨a, b, ha, hb, he⟩
    rw [reflect_in (by omega) (by omega), reflect_in (by omega) (by omega)] at he
    refine ⟨_, _, ?_, ?_, ?_, ?_, he⟩ <;> omega
  · rintro ⟨a, b, ha, ha', hb, hb', he⟩
    refine ⟨a - (i - h), b - (j - h), by omega, by omega, ?_⟩
    rw [reflect_in (by omega) (by omega), reflect_in (by omega) (by omega)]
    have e1 : ((i : ℤ) - (h : ℕ) + ((a - (i - h) : ℕ) : ℤ)).toNat = a := by omega
    have e2 : ((j : ℤ) - (h : ℕ) + ((b - (j - h) : ℕ) : ℤ)).toNat = b := by omega
    rw [e1, e2]
    exact he

/-- C67: a uniform mask has neither edges nor broadened edges. -/
theorem C67_uniform (v : Bool) (m n s : ℕ) (h1 : 1 ≤ s) (h2 : s ≤ 316) (i j : ℕ) (hi : i < m) (hj : j < n) :
    edges (fun _ _ => v) m n i j = 0 ∧ ¬ smoothedBinary (fun _ _ => v) m n s 0 i j := by
  have hz : ∀ a b : ℕ, edges (fun _ _ => v) m n a b = 0 := by
    intro a b
    unfold edges sobel0 sobel1 ext maskVal
    norm_num
  refine ⟨hz i j, ?_⟩
  rw [C67_broadened _ m n s i j h1 h2 hi hj]
  rintro ⟨a, b, _, _, h⟩
  rw [hz] at h
  exact lt_irrefl _ h

/-- A half-plane mask has an edge; a one-cell cloud meets the hypotheses of the counterexample. -/
example : (∀ b, b ≤ 2 → 1 ≤ b + 1 → (fun a _ => decide (1 < a) : ℕ → ℕ → Bool) (1 - 1) b = true → (fun a _ => decide (1 < a) : ℕ → ℕ → Bool) (1 + 1) b = true) ∧
    (∃ b, b ≤ 2 ∧ 1 ≤ b + 1 ∧ (fun a _ => decide (1 < a) : ℕ → ℕ → Bool) (1 - 1) b = false ∧ (fun a _ => decide (1 < a) : ℕ → ℕ → Bool) (1 + 1) b = true) ∧
    ((fun a b => decide ((a, b) ≠ (1, 1)) : ℕ → ℕ → Bool) 1 1 = false ∧
      ∀ a b, Near 3 3 1 1 a b → (a, b) ≠ (1, 1) → (fun a b => decide ((a, b) ≠ (1, 1)) : ℕ → ℕ → Bool) a b = true) := by
  refine ⟨by simp, ⟨1, by simp⟩, by simp, ?_⟩
  intro a b _ h
  exact decide_eq_true h

end SST.Props.CloudMask
