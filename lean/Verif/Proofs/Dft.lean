import Verif.Model.Dft
import Mathlib.Algebra.Field.GeomSum
import Mathlib.Algebra.BigOperators.Ring.Finset
import Mathlib.Analysis.Complex.Trigonometric

/-! # Helper lemmas: DFT orthogonality and the correlation theorem -/

namespace SST.Dft
open SST

theorem at0_of_lt {α : Type} [Zero α] {x : List α} {j : ℕ} (h : j < x.length) : at0 x j = x[j] := by
  simp [at0, h]

theorem at0_of_ge {α : Type} [Zero α] {x : List α} {j : ℕ} (h : x.length ≤ j) : at0 x j = 0 := by
  simp [at0, h]

theorem at0_map {α β : Type} [Zero α] [Zero β] (f : α → β) (hf : f 0 = 0) (x : List α) (j : ℕ) :
    at0 (x.map f) j = f (at0 x j) := by
  unfold at0
  rw [List.getElem?_map]
  cases x[j]? <;> simp [hf]

theorem at0_range_map {α : Type} [Zero α] (f : ℕ → α) {n j : ℕ} (h : j < n) : at0 ((List.range n).map f) j = f j := by
  rw [at0_of_lt (by simpa using h)]; simp

theorem twiddle_zero (n : ℕ) : twiddle n 0 = 1 := by simp [twiddle]

theorem twiddle_add (n : ℕ) (a b : ℤ) : twiddle n (a + b) = twiddle n a * twiddle n b := by
  unfold twiddle
  rw [← Complex.exp_add]
  congr 1
  push_cast
  ring

theorem twiddle_neg (n : ℕ) (a : ℤ) : twiddle n (-a) = (starRingEnd ℂ) (twiddle n a) := by
  unfold twiddle
  rw [← Complex.exp_conj]
  congr 1
  simp [map_div₀, map_mul, Complex.conj_ofNat]

theorem norm_twiddle (n : ℕ) (a : ℤ) : ‖twiddle n a‖ = 1 := by
  unfold twiddle
  have : (-2 * Real.pi * Complex.I * a / n : ℂ) = ((-2 * Real.pi * a / n : ℝ) : ℂ) * Complex.I := by
    push_cast; ring
  rw [this, Complex.norm_exp_ofReal_mul_I]

theorem twiddle_pow (n : ℕ) (a : ℤ) (k : ℕ) : twiddle n (k * a) = twiddle n a ^ k := by
  induction k with
  | zero => simp [twiddle_zero]
  | succ k ih =>
    rw [pow_succ, ← ih, ← twiddle_add]
    congr 1
    push_cast; ring

theorem twiddle_eq_one {n : ℕ} (hn : 0 < n) (a : ℤ) : twiddle n a = 1 ↔ (n : ℤ) ∣ a := by
  have hn' : (n : ℂ) ≠ 0 := by exact_mod_cast hn.ne'
  have hpi : (Real.pi : ℂ) ≠ 0 := by exact_mod_cast Real.pi_ne_zero
  unfold twiddle
  rw [Complex.exp_eq_one_iff]
  constructor
  · rintro ⟨k, hk⟩
    refine ⟨-k, ?_⟩
    have h2 : (a : ℂ) = n * (-k) := by
      have h3 : (-2 * Real.pi * Complex.I) * (a : ℂ) = (-2 * Real.pi * Complex.I) * (n * (-k)) := by
        rw [div_eq_iff hn'] at hk
        rw [hk]; ring
      exact mul_left_cancel₀ (by simp [hpi]) h3
    exact_mod_cast h2
  · rintro ⟨k, rfl⟩
    refine ⟨-k, ?_⟩
    push_cast
    field_simp

theorem twiddle_period (n : ℕ) (hn : 0 < n) (a b : ℤ) (h : (n : ℤ) ∣ a - b) : twiddle n a = twiddle n b := by
  have : a = (a - b) + b := by ring
  rw [this, twiddle_add, (twiddle_eq_one hn _).2 h, one_mul]

/-- Orthogonality of the DFT kernel. -/
theorem sum_twiddle {n : ℕ} (hn : 0 < n) (d : ℤ) :
    ∑ k ∈ Finset.range n, twiddle n (k * d) = if (n : ℤ) ∣ d then (n : ℂ) else 0 := by
  simp only [twiddle_pow]
  split_ifs with h
  · rw [(twiddle_eq_one hn d).2 h]; simp
  · have h1 : twiddle n d ≠ 1 := fun h' => h ((twiddle_eq_one hn d).1 h')
    have h2 : twiddle n d ^ n = 1 := by
      rw [← twiddle_pow]
      exact (twiddle_eq_one hn _).2 ⟨d, rfl⟩
    rw [geom_sum_eq h1, h2]; simp

@[simp] theorem fft_length (x : List ℂ) : (fft x).length = x.length := by simp [fft]
@[simp] theorem ifft_length (x : List ℂ) : (ifft x).length = x.length := by simp [ifft]

theorem at0_fft {x : List ℂ} {k : ℕ} (h : k < x.length) :
    at0 (fft x) k = ∑ j ∈ Finset.range x.length, at0 x j * twiddle x.length (j * k) := by
  rw [fft, at0_range_map _ h]

theorem at0_ifft {x : List ℂ} {k : ℕ} (h : k < x.length) :
    at0 (ifft x) k = (∑ j ∈ Finset.range x.length, at0 x j * twiddle x.length (-(j * k))) / x.length := by
  rw [ifft, at0_range_map _ h]

theorem list_ext_at0 {α : Type} [Zero α] {x y : List α} (hl : x.length = y.length)
    (h : ∀ j < x.length, at0 x j = at0 y j) : x = y := by
  apply List.ext_getElem hl
  intro j h1 h2
  have := h j h1
  rwa [at0_of_lt h1, at0_of_lt h2] at this

/-- `ifft (fft x) = x`. -/
theorem ifft_fft (x : List ℂ) : ifft (fft x) = x := by
  rcases Nat.eq_zero_or_pos x.length with h0 | hn
  · have : x = [] := List.length_eq_zero_iff.1 h0
    subst this; rfl
  apply list_ext_at0 (by simp)
  intro m hm
  rw [ifft_length, fft_length] at hm
  rw [at0_ifft (by simpa using hm), fft_length]
  have hn' : (x.length : ℂ) ≠ 0 := by exact_mod_cast hn.ne'
  rw [div_eq_iff hn']
  have h1 : ∀ k ∈ Finset.range x.length, at0 (fft x) k * twiddle x.length (-(k * m)) =
      ∑ j ∈ Finset.range x.length, at0 x j * twiddle x.length (k * ((j : ℤ) - m)) := by
    intro k hk
    rw [at0_fft (Finset.mem_range.1 hk), Finset.sum_mul]
    apply Finset.sum_congr rfl
    intro j _
    rw [mul_assoc, ← twiddle_add]
    congr 2
    ring
  rw [Finset.sum_congr rfl h1, Finset.sum_comm]
  simp only [← Finset.mul_sum, sum_twiddle hn]
  rw [Finset.sum_eq_single m]
  · simp
  · intro j hj hjm
    have hjn := Finset.mem_range.1 hj
    rw [if_neg, mul_zero]
    intro hd
    apply hjm
    have := Int.eq_zero_of_abs_lt_dvd hd (by rw [abs_lt]; constructor <;> omega)
    omega
  · intro h; simp at h; omega

theorem at0_zipWith_mul (x y : List ℂ) (hl : x.length = y.length) (k : ℕ) :
    at0 (List.zipWith (fun u v => u * (starRingEnd ℂ) v) x y) k = at0 x k * (starRingEnd ℂ) (at0 y k) := by
  by_cases h : k < x.length
  · rw [at0_of_lt (by simp; omega), at0_of_lt h, at0_of_lt (by omega)]; simp
  · rw [at0_of_ge (by simp; omega), at0_of_ge (x := x) (by omega)]; simp

/-- Correlation theorem: `ifft(fft a · conj(fft b))[m] = Σ_l a[(l+m) mod n] conj(b[l])`. -/
theorem circ_corr (a b : List ℂ) (hl : a.length = b.length) {m : ℕ} (hm : m < a.length) :
    at0 (ifft (List.zipWith (fun u v => u * (starRingEnd ℂ) v) (fft a) (fft b))) m =
      ∑ l ∈ Finset.range a.length, at0 a ((l + m) % a.length) * (starRingEnd ℂ) (at0 b l) := by
  have hn : 0 < a.length := by omega
  set n := a.length with hna
  have hn' : (n : ℂ) ≠ 0 := by exact_mod_cast hn.ne'
  have hlen : (List.zipWith (fun u v => u * (starRingEnd ℂ) v) (fft a) (fft b)).length = n := by
    simp [← hl, ← hna]
  rw [at0_ifft (by rw [hlen]; exact hm), hlen, div_eq_iff hn']
  have h1 : ∀ k ∈ Finset.range n,
      at0 (List.zipWith (fun u v => u * (starRingEnd ℂ) v) (fft a) (fft b)) k * twiddle n (-(k * m)) =
      ∑ l ∈ Finset.range n, ∑ j ∈ Finset.range n,
        at0 a j * (starRingEnd ℂ) (at0 b l) * twiddle n (k * ((j : ℤ) - l - m)) := by
    intro k hk
    have hk' := Finset.mem_range.1 hk
    rw [at0_zipWith_mul _ _ (by simp [← hna, hl]), at0_fft (hna ▸ hk'), at0_fft (by rw [← hl]; exact hna ▸ hk'), ← hl, ← hna, map_sum,
      Finset.sum_mul_sum, Finset.sum_mul, Finset.sum_comm]
    apply Finset.sum_congr rfl
    intro j _
    rw [Finset.sum_mul]
    apply Finset.sum_congr rfl
    intro l _
    rw [map_mul, ← twiddle_neg]
    have : twiddle n (k * ((j : ℤ) - l - m)) = twiddle n (j * k) * twiddle n (-(l * k)) * twiddle n (-(k * m)) := by
      rw [← twiddle_add, ← twiddle_add]; congr 1; ring
    rw [this]; ring
  rw [Finset.sum_congr rfl h1, Finset.sum_comm, Finset.sum_mul]
  apply Finset.sum_congr rfl
  intro l hl'
  rw [Finset.sum_comm]
  simp only [← Finset.mul_sum, sum_twiddle hn]
  have hlt : (l + m) % n < n := Nat.mod_lt _ hn
  rw [Finset.sum_eq_single ((l + m) % n)]
  · rw [if_pos]
    have := Nat.mod_add_div (l + m) n
    refine ⟨-(((l + m) / n : ℕ) : ℤ), ?_⟩
    have h2 : (((l + m) % n : ℕ) : ℤ) + (n : ℤ) * ((l + m) / n : ℕ) = l + m := by exact_mod_cast this
    linarith
  · intro j hj hjm
    rw [if_neg, mul_zero]
    intro hd
    apply hjm
    have hj' := Finset.mem_range.1 hj
    have h3 : ((l + m : ℕ) : ℤ) ≡ j [ZMOD n] := by
      rw [Int.modEq_iff_dvd]
      push_cast
      rwa [sub_add_eq_sub_sub]
    have h4 : (l + m) ≡ j [MOD n] := by exact_mod_cast (Int.natCast_modEq_iff.1 h3)
    have := h4
    unfold Nat.ModEq at this
    rw [this, Nat.mod_eq_of_lt hj']
  · intro h; simp at h; omega

theorem roll_length {α : Type} (l : List α) (s : ℤ) : (roll l s).length = l.length := by
  unfold roll
  simp only [List.length_append, List.length_drop, List.length_take]
  omega

theorem roll_get {α : Type} (l : List α) (s : ℤ) {i : ℕ} (hi : i < l.length) :
    (roll l s)[i]? = l[(((i : ℤ) - s) % l.length).toNat]? := by
  have hpos : (0 : ℤ) < l.length := by omega
  unfold roll
  simp only
  set k := ((-s) % l.length).toNat with hk
  have hk0 : (0 : ℤ) ≤ (-s) % l.length := Int.emod_nonneg _ (by omega)
  have hk1 : (-s) % (l.length : ℤ) < l.length := Int.emod_lt_of_pos _ hpos
  have hkk : (k : ℤ) = (-s) % l.length := by rw [hk]; exact Int.toNat_of_nonneg hk0
  have hkl : k < l.length := by omega
  have he : ((i : ℤ) - s) % l.length = ((i : ℤ) + k) % l.length := by
    rw [hkk, Int.add_emod_emod]
    congr 1
  rw [he]
  rw [List.getElem?_append]
  rw [List.length_drop]
  split_ifs with h
  · rw [List.getElem?_drop]
    have : ((i : ℤ) + k) % l.length = (i : ℤ) + k := Int.emod_eq_of_lt (by omega) (by omega)
    rw [this]
    congr 1
    omega
  · rw [List.getElem?_take]
    have h1 : ((i : ℤ) + k) % l.length = (i : ℤ) + k - l.length := by
      rw [Int.emod_eq_sub_self_emod]
      exact Int.emod_eq_of_lt (by omega) (by omega)
    rw [h1]
    have h2 : ((i : ℤ) + k - l.length).toNat = i - (l.length - k) := by omega
    rw [h2, if_pos (by omega)]

end SST.Dft
