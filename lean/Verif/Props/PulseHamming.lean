import Verif.Props.PulseTf
import Verif.Props.HammingTf
import Mathlib.Analysis.SpecialFunctions.Trigonometric.Bounds

/-!
# C243 for the default window
-/

namespace SST.Tf
open SST SST.Dft SST.Corr SST.Props.HammingTf

theorem tap_out (w : List ℝ) (L : ℕ) (i : ℤ) (h : ¬(0 ≤ i ∧ i < L)) : tap w L i = 0 := if_neg h

/-- A half segment that meets a segment is one of its two halves. -/
theorem home_segment {h p i : ℕ} {z : ℤ} (h1 : (p * h : ℤ) ≤ z) (h2 : z < p * h + h) (h3 : InSegment (2 * h) (i * h) z) : p = i ∨ p = i + 1 := by
  obtain ⟨h3, h4⟩ := h3
  push_cast at h3 h4
  have a1 : p * h < (i + 2) * h := by
    have : (p * h : ℤ) < (i + 2) * h := by nlinarith
    exact_mod_cast this
  have a2 : i * h < (p + 1) * h := by
    have : (i * h : ℤ) < (p + 1) * h := by nlinarith
    exact_mod_cast this
  have a3 := Nat.lt_of_mul_lt_mul_right a1
  have a4 := Nat.lt_of_mul_lt_mul_right a2
  omega

/-- The weights of a pulse in the two segments that see it. -/
theorem sum_weights {h p S : ℕ} (h1 : 1 ≤ p) (hS : p < S) {y z : ℤ} (hy1 : (p * h : ℤ) ≤ y) (hy2 : y < p * h + h) (hz1 : (p * h : ℤ) ≤ z) (hz2 : z < p * h + h) :
    ∑ i ∈ Finset.range S, tap (hamming (2 * h)) (2 * h) (y - (i * h : ℕ)) * tap (hamming (2 * h)) (2 * h) (z - (i * h : ℕ)) =
      2 * (0.54 ^ 2 + 0.46 ^ 2 * (Real.cos (2 * Real.pi * (y - p * h : ℝ) / (2 * h : ℕ)) * Real.cos (2 * Real.pi * (z - p * h : ℝ) / (2 * h : ℕ)))) := by
  have hh : 0 < h := by omega
  have hhR : (0 : ℝ) < h := by exact_mod_cast hh
  have hsub : ({p - 1, p} : Finset ℕ) ⊆ Finset.range S := by
    intro i hi
    simp only [Finset.mem_insert, Finset.mem_singleton] at hi
    rw [Finset.mem_range]
    omega
  rw [← Finset.sum_subset hsub]
  · have hval : ∀ y : ℤ, (p * h : ℤ) ≤ y → y < p * h + h →
        tap (hamming (2 * h)) (2 * h) (y - (p * h : ℕ)) = 0.54 - 0.46 * Real.cos (2 * Real.pi * (y - p * h : ℝ) / (2 * h : ℕ)) ∧
        tap (hamming (2 * h)) (2 * h) (y - ((p - 1) * h : ℕ)) = 0.54 + 0.46 * Real.cos (2 * Real.pi * (y - p * h : ℝ) / (2 * h : ℕ)) := by
      intro y h5 h6
      have hp : (((p - 1) * h : ℕ) : ℤ) = p * h - h := by
        obtain ⟨p', rfl⟩ : ∃ p', p = p' + 1 := ⟨p - 1, by omega⟩
        simp only [Nat.add_sub_cancel]
        push_cast
        ring
      constructor
      · rw [tap_hamming _ (by omega) _ (by push_cast; omega) (by push_cast; omega)]
        push_cast
        rfl
      · rw [tap_hamming _ (by omega) _ (by rw [hp]; omega) (by rw [hp]; push_cast; omega), hp]
        have : 2 * Real.pi * ((y - (p * h - h : ℤ) : ℤ) : ℝ) / (2 * h : ℕ) = 2 * Real.pi * (y - p * h : ℝ) / (2 * h : ℕ) + Real.pi := by
          push_cast
          field_simp
          ring
        rw [this, Real.cos_add_pi]
        ring
    rw [Finset.sum_pair (by omega), (hval y hy1 hy2).1, (hval y hy1 hy2).2, (hval z hz1 hz2).1, (hval z hz1 hz2).2]
    ring
  · intro i _ hi
    rw [tap_out, zero_mul]
    intro hc
    apply hi
    have := home_segment hy1 hy2 (i := i) ⟨by omega, by omega⟩
    simp only [Finset.mem_insert, Finset.mem_singleton]
    omega

/-- Squares and products of sums with at most one term. -/
theorem one_term {T : Finset ℤ} {F G : ℤ → ℝ} {A B : ℝ} {t₀ : ℤ} (h : ∀ t ∈ T, t ≠ t₀ → F t = 0 ∧ G t = 0) (h0 : t₀ ∉ T → F t₀ = 0 ∧ G t₀ = 0)
    (hA : A = F t₀) (hB : B = G t₀) : A * B = ∑ t ∈ T, F t * G t := by
  rw [Finset.sum_eq_single t₀, hA, hB]
  · intro t ht hne
    rw [(h t ht hne).1, zero_mul]
  · intro hn
    rw [(h0 hn).1, zero_mul]

/-- The window lets the pulses through with enough coherence. -/
theorem coherent_enough {T : Finset ℤ} {α c c' : ℤ → ℝ} (hα : ∀ t ∈ T, 0 < α t) (hT : T.Nonempty) (hc : ∀ t ∈ T, |c t - c' t| ≤ Real.pi / 4) :
    0 < ∑ t ∈ T, α t * (0.54 ^ 2 + 0.46 ^ 2 * (c t * c' t)) ∧
    0.6 * ((∑ t ∈ T, α t * (0.54 ^ 2 + 0.46 ^ 2 * (c t * c t))) * ∑ t ∈ T, α t * (0.54 ^ 2 + 0.46 ^ 2 * (c' t * c' t))) <
      (∑ t ∈ T, α t * (0.54 ^ 2 + 0.46 ^ 2 * (c t * c' t))) ^ 2 := by
  set W := ∑ t ∈ T, α t with hW
  have hW0 : 0 < W := Finset.sum_pos hα hT
  set N := ∑ t ∈ T, α t * (0.54 ^ 2 + 0.46 ^ 2 * (c t * c' t)) with hN
  set P := ∑ t ∈ T, α t * (0.54 ^ 2 + 0.46 ^ 2 * (c t * c t)) with hP
  set Q := ∑ t ∈ T, α t * (0.54 ^ 2 + 0.46 ^ 2 * (c' t * c' t)) with hQ
  have hPW : 0.54 ^ 2 * W ≤ P := by
    rw [hW, hP, Finset.mul_sum]
    refine Finset.sum_le_sum fun t ht => ?_
    have := mul_nonneg (hα t ht).le (mul_self_nonneg (c t))
    nlinarith
  have hQW : 0.54 ^ 2 * W ≤ Q := by
    rw [hW, hQ, Finset.mul_sum]
    refine Finset.sum_le_sum fun t ht => ?_
    have := mul_nonneg (hα t ht).le (mul_self_nonneg (c' t))
    nlinarith
  have hd : P + Q - 2 * N ≤ 2 * 0.2239 * (0.54 ^ 2 * W) := by
    rw [hW, hP, hQ, hN, Finset.mul_sum, Finset.mul_sum, Finset.mul_sum, ← Finset.sum_add_distrib, ← Finset.sum_sub_distrib]
    refine Finset.sum_le_sum fun t ht => ?_
    have h1 : (c t - c' t) ^ 2 ≤ (Real.pi / 4) ^ 2 := by
      rw [← sq_abs]
      exact pow_le_pow_left₀ (abs_nonneg _) (hc t ht) 2
    have h2 : (Real.pi / 4) ^ 2 ≤ 0.61686 := by
      have := Real.pi_lt_d4
      have := Real.pi_pos
      nlinarith
    have h3 : (c t - c' t) ^ 2 ≤ 0.61686 := h1.trans h2
    have h4 := hα t ht
    have h5 := mul_le_mul_of_nonneg_left h3 h4.le
    have e : α t * (0.54 ^ 2 + 0.46 ^ 2 * (c t * c t)) + α t * (0.54 ^ 2 + 0.46 ^ 2 * (c' t * c' t)) - 2 * (α t * (0.54 ^ 2 + 0.46 ^ 2 * (c t * c' t))) =
        0.46 ^ 2 * (α t * (c t - c' t) ^ 2) := by ring
    rw [e]
    nlinarith
  set M := (0.54 : ℝ) ^ 2 * W with hM
  have hM0 : 0 < M := by positivity
  have hNlow : (P + Q) / 2 - 0.2239 * M ≤ N := by linarith
  have hlow0 : 0 < (P + Q) / 2 - 0.2239 * M := by linarith
  refine ⟨lt_of_lt_of_le hlow0 hNlow, lt_of_lt_of_le ?_ (pow_le_pow_left₀ hlow0.le hNlow 2)⟩
  clear_value M P Q N
  obtain ⟨s, rfl⟩ : ∃ s, P = M + s := ⟨P - M, by ring⟩
  obtain ⟨r, rfl⟩ : ∃ r, Q = M + r := ⟨Q - M, by ring⟩
  have hs : 0 ≤ s := by linarith
  have hr : 0 ≤ r := by linarith
  nlinarith [mul_nonneg hs hr, mul_nonneg hM0.le hs, mul_nonneg hM0.le hr, sq_nonneg (s - r), mul_pos hM0 hM0]

/-- C243 with the default window (Hamming), overlap (half) and coherence limit (0.6): pulses with a half segment of their own,
seen by two sensors with any gains, the second sensor later or earlier by at most an eighth of a segment.  The delay is exact. -/
theorem C243_hamming (u v : String) (q : ℤ → ℝ) (n navgs h S K : ℕ) (m₁ m₂ : ℤ) (g₁ g₂ dt fl : ℝ) (det : Detrend) (hdt : 0 < dt) (hg₁ : 0 < g₁) (hg₂ : 0 < g₂)
    (hL : 2 * h = n / navgs) (hS : AsManyAsFit n (2 * h) h S) (hm : 4 * |m₂ - m₁| ≤ h) (hq : ∃ t, q t ≠ 0) (hown : OwnHalf q h S [m₁, m₂])
    (hK : 1 ≤ K) (hKL : K ≤ h) (hKf : (K : ℝ) / ((2 * h : ℕ) * dt) < fl) (hKlast : K < h → fl ≤ (K + 1) / ((2 * h : ℕ) * dt))
    (method : String) (hmeth : method = "multi" ∨ method = "fit") :
    ∃ mask γ, computeDelaysTf ⟨dt, navgs, 0.5, hamming, det⟩ [(u, recordOf (fun t => g₁ * q t) n m₁)] [(v, recordOf (fun t => g₂ * q t) n m₂)]
        (some 0.6) (some fl) method = .ok [(some ((m₂ - m₁ : ℤ) * dt), mask, .fin γ)] ∧ 0.6 < γ := by
  classical
  obtain ⟨home, hhome⟩ := hown
  have hh : 0 < h := by omega
  have hhR : (0 : ℝ) < h := by exact_mod_cast hh
  set a : ℤ → ℝ := fun t => g₁ * q (t - m₁) with ha
  set b : ℤ → ℝ := fun t => g₂ * q (t - m₂) with hb
  have hra : recordOf (fun t => g₁ * q t) n m₁ = recordOf a n 0 := by simp [recordOf, ha]
  have hrb : recordOf (fun t => g₂ * q t) n m₂ = recordOf b n 0 := by simp [recordOf, hb]
  have hab : Echo a b (m₂ - m₁) := by
    intro t
    refine ⟨g₂ / g₁, by positivity, ?_⟩
    simp only [ha, hb]
    rw [show t + (m₂ - m₁) - m₂ = t - m₁ by ring]
    field_simp
  have hat : ∀ t, a t ≠ 0 ↔ q (t - m₁) ≠ 0 := by
    intro t
    simp [ha, hg₁.ne']
  -- no segment sees two pulses
  have hclose : ∀ t, q t ≠ 0 → ∀ i, InSegment (2 * h) (i * h) (t + m₁) ∨ InSegment (2 * h) (i * h) (t + m₂) → home t = i ∨ home t = i + 1 := by
    intro t ht i hi
    obtain ⟨-, -, h3, -⟩ := hhome t ht
    rcases hi with hi | hi
    · exact home_segment (h3 m₁ (by simp)).1 (h3 m₁ (by simp)).2 hi
    · exact home_segment (h3 m₂ (by simp)).1 (h3 m₂ (by simp)).2 hi
  have huniq : ∀ i, ∀ t t', q t ≠ 0 → q t' ≠ 0 → InSegment (2 * h) (i * h) (t + m₁) ∨ InSegment (2 * h) (i * h) (t + m₂) →
      InSegment (2 * h) (i * h) (t' + m₁) ∨ InSegment (2 * h) (i * h) (t' + m₂) → t = t' := by
    intro i t t' ht ht' hi hi'
    by_contra hne
    have h1 := hclose t ht i hi
    have h2 := hclose t' ht' i hi'
    have h3 := (hhome t ht).2.2.2 t' ht' hne
    omega
  have hone : ∀ i < S, OnePulse a (m₂ - m₁) (2 * h) (i * h) := by
    intro i _ t t' ht ht' hi hi'
    have := huniq i (t - m₁) (t' - m₁) ((hat t).1 ht) ((hat t').1 ht')
      (by rwa [sub_add_cancel, show t - m₁ + m₂ = t + (m₂ - m₁) by ring]) (by rwa [sub_add_cancel, show t' - m₁ + m₂ = t' + (m₂ - m₁) by ring])
    omega
  -- the pulses
  set T : Finset ℤ := (Finset.Ico (-m₁) (S * h - m₁)).filter fun t => q t ≠ 0 with hT
  have hTmem : ∀ t, t ∈ T ↔ q t ≠ 0 := by
    intro t
    rw [hT, Finset.mem_filter]
    constructor
    · exact fun h => h.2
    · intro ht
      refine ⟨?_, ht⟩
      obtain ⟨h1, h2, h3, -⟩ := hhome t ht
      have h4 := h3 m₁ (by simp)
      have h5 : (home t + 1) * h ≤ S * h := Nat.mul_le_mul_right _ h2
      have h5' : ((home t : ℤ) + 1) * h ≤ S * h := by exact_mod_cast h5
      have h6 : (0 : ℤ) ≤ home t * h := by positivity
      rw [Finset.mem_Ico]
      constructor
      · linarith [h4.1]
      · have := h4.2
        nlinarith
  set w := hamming (2 * h) with hw
  set L := 2 * h with hLdef
  let F : ℕ → ℤ → ℝ := fun i t => g₁ * |q t| * tap w L (t + m₁ - (i * h : ℕ))
  let G : ℕ → ℤ → ℝ := fun i t => g₂ * |q t| * tap w L (t + m₂ - (i * h : ℕ))
  have hseg : ∀ i, ∃ t₀, (∀ t ∈ T, t ≠ t₀ → F i t = 0 ∧ G i t = 0) ∧ (t₀ ∉ T → F i t₀ = 0 ∧ G i t₀ = 0) ∧
      through w a L (i * h) = F i t₀ ∧ through w b L (i * h) = G i t₀ := by
    intro i
    have hin : ∀ t m, ¬ InSegment L (i * h) (t + m) → tap w L (t + m - (i * h : ℕ)) = 0 := by
      intro t m hn
      apply tap_out
      intro hc
      exact hn ⟨by omega, by omega⟩
    have key : ∃ t₀, ∀ t, q t ≠ 0 → t ≠ t₀ → ¬ InSegment L (i * h) (t + m₁) ∧ ¬ InSegment L (i * h) (t + m₂) := by
      by_cases hex : ∃ t, q t ≠ 0 ∧ (InSegment L (i * h) (t + m₁) ∨ InSegment L (i * h) (t + m₂))
      · obtain ⟨t₀, h1, h2⟩ := hex
        refine ⟨t₀, fun t ht hne => ?_⟩
        by_contra hc
        exact hne (huniq i t t₀ ht h1 (by tauto) h2)
      · push Not at hex
        exact ⟨0, fun t ht _ => hex t ht⟩
    obtain ⟨t₀, hk⟩ := key
    refine ⟨t₀, ?_, ?_, ?_, ?_⟩
    · intro t ht hne
      have := hk t ((hTmem t).1 ht) hne
      simp only [F, G, hin t m₁ this.1, hin t m₂ this.2, mul_zero, and_self]
    · intro hn
      have : q t₀ = 0 := by
        by_contra hc
        exact hn ((hTmem t₀).2 hc)
      simp [F, G, this]
    · rw [through_single w a L (i * h) (t₀ + m₁)]
      · simp only [F, ha, add_sub_cancel_right, abs_mul, abs_of_pos hg₁]
      · intro j hj hne
        by_contra hc
        refine (hk _ ((hat _).1 hc) (by omega)).1 ?_
        rw [sub_add_cancel]
        exact ⟨by omega, by omega⟩
    · rw [through_single w b L (i * h) (t₀ + m₂)]
      · simp only [G, hb, add_sub_cancel_right, abs_mul, abs_of_pos hg₂]
      · intro j hj hne
        by_contra hc
        have hc' : q (((i * h : ℕ) : ℤ) + j - m₂) ≠ 0 := by
          intro h0
          apply hc
          simp only [hb]
          rw [h0, mul_zero]
        refine (hk _ hc' (by omega)).2 ?_
        rw [sub_add_cancel]
        exact ⟨by omega, by omega⟩
  -- sums over the segments
  let c : ℤ → ℝ := fun t => Real.cos (2 * Real.pi * (((t + m₁ : ℤ) : ℝ) - home t * h) / L)
  let c' : ℤ → ℝ := fun t => Real.cos (2 * Real.pi * (((t + m₂ : ℤ) : ℝ) - home t * h) / L)
  have hsw : ∀ t ∈ T, ∀ m ∈ [m₁, m₂], ∀ m' ∈ [m₁, m₂], ∑ i ∈ Finset.range S, tap w L (t + m - (i * h : ℕ)) * tap w L (t + m' - (i * h : ℕ)) =
      2 * (0.54 ^ 2 + 0.46 ^ 2 * (Real.cos (2 * Real.pi * (((t + m : ℤ) : ℝ) - home t * h) / L) * Real.cos (2 * Real.pi * (((t + m' : ℤ) : ℝ) - home t * h) / L))) := by
    intro t ht m hm m' hm'
    obtain ⟨h1, h2, h3, -⟩ := hhome t ((hTmem t).1 ht)
    exact sum_weights h1 h2 (h3 m hm).1 (h3 m hm).2 (h3 m' hm').1 (h3 m' hm').2
  have hN : ∑ i ∈ Finset.range S, through w a L (i * h) * through w b L (i * h) =
      2 * g₁ * g₂ * ∑ t ∈ T, q t ^ 2 * (0.54 ^ 2 + 0.46 ^ 2 * (c t * c' t)) := by
    rw [Finset.sum_congr rfl fun i _ => by
      obtain ⟨t₀, h1, h2, h3, h4⟩ := hseg i
      exact one_term h1 h2 h3 h4, Finset.sum_comm, Finset.mul_sum]
    refine Finset.sum_congr rfl fun t ht => ?_
    have e : ∀ i ∈ Finset.range S, F i t * G i t = g₁ * g₂ * q t ^ 2 * (tap w L (t + m₁ - (i * h : ℕ)) * tap w L (t + m₂ - (i * h : ℕ))) := by
      intro i _
      simp only [F, G]
      rw [← sq_abs (q t)]
      ring
    rw [Finset.sum_congr rfl e, ← Finset.mul_sum, hsw t ht m₁ (by simp) m₂ (by simp)]
    simp only [c, c']
    ring
  have hP : ∑ i ∈ Finset.range S, through w a L (i * h) ^ 2 = 2 * g₁ ^ 2 * ∑ t ∈ T, q t ^ 2 * (0.54 ^ 2 + 0.46 ^ 2 * (c t * c t)) := by
    have e0 : ∀ i ∈ Finset.range S, through w a L (i * h) ^ 2 = ∑ t ∈ T, F i t * F i t := by
      intro i _
      obtain ⟨t₀, h1, h2, h3, -⟩ := hseg i
      rw [sq]
      exact one_term (fun t ht hne => ⟨(h1 t ht hne).1, (h1 t ht hne).1⟩) (fun hn => ⟨(h2 hn).1, (h2 hn).1⟩) h3 h3
    rw [Finset.sum_congr rfl e0, Finset.sum_comm, Finset.mul_sum]
    refine Finset.sum_congr rfl fun t ht => ?_
    have e : ∀ i ∈ Finset.range S, F i t * F i t = g₁ ^ 2 * q t ^ 2 * (tap w L (t + m₁ - (i * h : ℕ)) * tap w L (t + m₁ - (i * h : ℕ))) := by
      intro i _
      simp only [F]
      rw [← sq_abs (q t)]
      ring
    rw [Finset.sum_congr rfl e, ← Finset.mul_sum, hsw t ht m₁ (by simp) m₁ (by simp)]
    simp only [c]
    ring
  have hQ : ∑ i ∈ Finset.range S, through w b L (i * h) ^ 2 = 2 * g₂ ^ 2 * ∑ t ∈ T, q t ^ 2 * (0.54 ^ 2 + 0.46 ^ 2 * (c' t * c' t)) := by
    have e0 : ∀ i ∈ Finset.range S, through w b L (i * h) ^ 2 = ∑ t ∈ T, G i t * G i t := by
      intro i _
      obtain ⟨t₀, h1, h2, -, h4⟩ := hseg i
      rw [sq]
      exact one_term (fun t ht hne => ⟨(h1 t ht hne).2, (h1 t ht hne).2⟩) (fun hn => ⟨(h2 hn).2, (h2 hn).2⟩) h4 h4
    rw [Finset.sum_congr rfl e0, Finset.sum_comm, Finset.mul_sum]
    refine Finset.sum_congr rfl fun t ht => ?_
    have e : ∀ i ∈ Finset.range S, G i t * G i t = g₂ ^ 2 * q t ^ 2 * (tap w L (t + m₂ - (i * h : ℕ)) * tap w L (t + m₂ - (i * h : ℕ))) := by
      intro i _
      simp only [G]
      rw [← sq_abs (q t)]
      ring
    rw [Finset.sum_congr rfl e, ← Finset.mul_sum, hsw t ht m₂ (by simp) m₂ (by simp)]
    simp only [c']
    ring
  have hclosecos : ∀ t ∈ T, |c t - c' t| ≤ Real.pi / 4 := by
    intro t _
    refine (Real.abs_cos_sub_cos_le _ _).trans ?_
    have e : 2 * Real.pi * (((t + m₁ : ℤ) : ℝ) - home t * h) / L - 2 * Real.pi * (((t + m₂ : ℤ) : ℝ) - home t * h) / L = Real.pi / h * ((m₁ - m₂ : ℤ) : ℝ) := by
      rw [hLdef]
      push_cast
      field_simp
      ring
    rw [e, abs_mul, abs_of_pos (by have := Real.pi_pos; positivity)]
    have h1 : 4 * |((m₁ - m₂ : ℤ) : ℝ)| ≤ h := by
      rw [abs_sub_comm] at hm
      exact_mod_cast hm
    have h2 : Real.pi / h * |((m₁ - m₂ : ℤ) : ℝ)| ≤ Real.pi / h * (h / 4) := by
      apply mul_le_mul_of_nonneg_left
      · linarith
      · have := Real.pi_pos; positivity
    refine h2.trans (le_of_eq ?_)
    field_simp
  obtain ⟨hpos, hcoh⟩ := coherent_enough (T := T) (α := fun t => q t ^ 2) (c := c) (c' := c')
    (fun t ht => by have := (hTmem t).1 ht; positivity) (by obtain ⟨t, ht⟩ := hq; exact ⟨t, (hTmem t).2 ht⟩) hclosecos
  have hseen : 0 < ∑ i ∈ Finset.range S, through w a L (i * h) * through w b L (i * h) := by
    rw [hN]
    positivity
  have hPQ : 0 < (∑ i ∈ Finset.range S, through w a L (i * h) ^ 2) * ∑ i ∈ Finset.range S, through w b L (i * h) ^ 2 :=
    lt_of_lt_of_le (by positivity) (Finset.sum_mul_sq_le_sq_mul_sq (Finset.range S) (fun i => through w a L (i * h)) (fun i => through w b L (i * h)))
  set γ := (∑ i ∈ Finset.range S, through w a L (i * h) * through w b L (i * h)) ^ 2 /
    ((∑ i ∈ Finset.range S, through w a L (i * h) ^ 2) * ∑ i ∈ Finset.range S, through w b L (i * h) ^ 2) with hγ
  have hγ6 : 0.6 < γ := by
    rw [hγ, lt_div_iff₀ hPQ, hN, hP, hQ]
    have : (0 : ℝ) < 4 * g₁ ^ 2 * g₂ ^ 2 := by positivity
    have := mul_lt_mul_of_pos_left hcoh this
    nlinarith
  have hfl : h = L - ⌊(L : ℝ) * 0.5⌋₊ := by
    have : (L : ℝ) * 0.5 = ((h : ℕ) : ℝ) := by rw [hLdef]; push_cast; ring
    rw [this, Nat.floor_natCast]
    omega
  obtain ⟨mask, hres⟩ := C243_exact u v a b n navgs L h S K (m₂ - m₁) dt 0.5 fl hamming det (some 0.6) hdt (by norm_num) hL hfl hS
    (by have := abs_nonneg (m₂ - m₁); push_cast [hLdef]; omega) hab hone hseen γ (by rw [hγ]; exact div_mul_cancel₀ _ hPQ.ne')
    (by intro l hl; cases hl; exact hγ6) hK (by omega) hKf (by intro hlt; exact hKlast (by omega)) method hmeth
  rw [hra, hrb]
  exact ⟨mask, γ, hres, hγ6⟩

/-! ## A concrete case -/

/-- Two pulses. -/
noncomputable def twoPulses (t : ℤ) : ℝ := if t = 6 then 1 else if t = 14 then -1 else 0

theorem twoPulses_ne {t : ℤ} (h : twoPulses t ≠ 0) : t = 6 ∨ t = 14 := by
  by_contra hne
  push Not at hne
  exact h (by simp [twoPulses, hne.1, hne.2])

theorem twoPulses_own (S : ℕ) (hS : 3 < S) : OwnHalf twoPulses 4 S [0, 1] := by
  refine ⟨fun t => if t = 6 then 1 else 3, ?_⟩
  intro t ht
  refine ⟨by beta_reduce; split_ifs <;> omega, by beta_reduce; split_ifs <;> omega, ?_, ?_⟩
  · intro m hm
    simp only [List.mem_cons, List.not_mem_nil, or_false] at hm
    rcases twoPulses_ne ht with rfl | rfl <;> rcases hm with rfl | rfl <;> norm_num
  · intro t' ht' hne
    rcases twoPulses_ne ht with rfl | rfl <;> rcases twoPulses_ne ht' with rfl | rfl <;> first | (exfalso; exact hne rfl) | norm_num

example : ∃ mask γ, computeDelaysTf ⟨1, 5, 0.5, hamming, .none⟩ [("a", recordOf (fun t => 1 * twoPulses t) 40 0)] [("b", recordOf (fun t => 3 * twoPulses t) 40 1)]
    (some 0.6) (some 0.3) "multi" = .ok [(some ((1 - 0 : ℤ) * 1), mask, .fin γ)] ∧ 0.6 < γ :=
  C243_hamming "a" "b" twoPulses 40 5 4 9 2 0 1 1 3 1 0.3 .none one_pos one_pos (by norm_num) (by norm_num) ⟨by norm_num, by norm_num, by norm_num, by norm_num⟩
    (by norm_num) ⟨6, by simp [twoPulses]⟩ (twoPulses_own 9 (by norm_num)) (by norm_num) (by norm_num) (by norm_num) (by norm_num) "multi" (Or.inl rfl)

/-- The same for a window of ones, with the pulse of the second sensor higher in one place than in the other. -/
example : ∃ mask, computeDelaysTf ⟨1, 5, 0, fun L => List.replicate L 1, .none⟩ [("a", recordOf (fun t => if t = 2 then 1 else 0) 40 0)]
    [("b", recordOf (fun t => if t = 5 then 2 else 0) 40 0)] (some 0.6) (some 0.3) "fit" = .ok [(some ((3 : ℤ) * 1), mask, .fin 1)] := by
  have hin : ∀ s : ℕ, through (List.replicate 8 1) (fun t => if t = 2 then 1 else 0) 8 (s * 8) = if s = 0 then 1 else 0 := by
    intro s
    rw [through_single _ _ 8 (s * 8) 2 (by intro j _ hj; exact if_neg hj)]
    by_cases h : s = 0
    · subst h; simp [tap]
    · rw [if_neg h, tap_out _ _ _ (by omega), mul_zero]
  have hin' : ∀ s : ℕ, through (List.replicate 8 1) (fun t => if t = 5 then 2 else 0) 8 (s * 8) = if s = 0 then 2 else 0 := by
    intro s
    rw [through_single _ _ 8 (s * 8) 5 (by intro j _ hj; exact if_neg hj)]
    by_cases h : s = 0
    · subst h; simp [tap]
    · rw [if_neg h, tap_out _ _ _ (by omega), mul_zero]
  refine C243_exact "a" "b" _ _ 40 5 8 8 5 2 3 1 0 0.3 (fun L => List.replicate L 1) .none (some 0.6) one_pos le_rfl (by norm_num) (by simp)
    ⟨by norm_num, by norm_num, by norm_num, by norm_num⟩ (by norm_num) ?_ ?_ ?_ 1 ?_ (by intro l hl; cases hl; norm_num)
    (by norm_num) (by norm_num) (by norm_num) (by norm_num) "fit" (Or.inr rfl)
  · intro t
    refine ⟨2, by norm_num, ?_⟩
    by_cases h : t = 2
    · subst h; simp
    · beta_reduce
      rw [if_neg h, if_neg (by omega), mul_zero]
  · intro i _ t t' ht ht' _ _
    simp only [ne_eq, ite_eq_right_iff, one_ne_zero, imp_false, not_not] at ht ht'
    rw [ht, ht']
  · simp only [hin, hin']
    simp [Finset.sum_range_succ]
  · simp only [hin, hin']
    simp [Finset.sum_range_succ]

end SST.Tf
