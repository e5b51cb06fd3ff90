import Mathlib.Analysis.Matrix.Order
import Mathlib.Analysis.SpecialFunctions.Integrals.Basic
import Mathlib.Analysis.SpecialFunctions.Complex.Arg
import Mathlib.MeasureTheory.Integral.IntervalIntegral.Periodic
import Mathlib.Analysis.SpecialFunctions.Exponential

/-!
# Positive semidefiniteness of `exp (-p * distance)` in the plane

`|a - b|` on the line is conditionally negative definite (through `min`); averaging over all directions
gives the same for the Euclidean distance in the plane; Schoenberg's argument with Schur products gives
the exponential.
-/

namespace SST.Kernel

variable {ι : Type} [Fintype ι]

/-- `Σ cᵢ cⱼ min (aᵢ, aⱼ) ≥ 0` for nonnegative `a`. -/
theorem min_psd (c a : ι → ℝ) (s : Finset ι) (ha : ∀ i ∈ s, 0 ≤ a i) : 0 ≤ ∑ i ∈ s, ∑ j ∈ s, c i * c j * min (a i) (a j) := by
  classical
  induction hn : s.card generalizing s a with
  | zero => rw [Finset.card_eq_zero.1 hn]; simp
  | succ n ih =>
    have hne : s.Nonempty := Finset.card_pos.1 (by omega)
    obtain ⟨k, hk, hmin⟩ := Finset.exists_min_image s a hne
    have hsplit : ∑ i ∈ s, ∑ j ∈ s, c i * c j * min (a i) (a j) =
        a k * (∑ i ∈ s, c i) ^ 2 + ∑ i ∈ s, ∑ j ∈ s, c i * c j * min (a i - a k) (a j - a k) := by
      have : ∀ i ∈ s, ∀ j ∈ s, c i * c j * min (a i) (a j) = a k * (c i * c j) + c i * c j * min (a i - a k) (a j - a k) := by
        intro i _ j _
        rw [min_sub_sub_right]; ring
      rw [Finset.sum_congr rfl fun i hi => Finset.sum_congr rfl fun j hj => this i hi j hj]
      simp only [Finset.sum_add_distrib]
      congr 1
      rw [sq, Finset.sum_mul_sum, Finset.mul_sum]
      apply Finset.sum_congr rfl
      intro i _
      rw [Finset.mul_sum]
    have hzero : ∀ i ∈ s, min (a i - a k) (a k - a k) = 0 := by
      intro i hi
      rw [sub_self, min_eq_right (by have := hmin i hi; linarith)]
    have herase : ∑ i ∈ s, ∑ j ∈ s, c i * c j * min (a i - a k) (a j - a k) =
        ∑ i ∈ s.erase k, ∑ j ∈ s.erase k, c i * c j * min (a i - a k) (a j - a k) := by
      have inner : ∀ i ∈ s, ∑ j ∈ s, c i * c j * min (a i - a k) (a j - a k) = ∑ j ∈ s.erase k, c i * c j * min (a i - a k) (a j - a k) := by
        intro i hi
        rw [← Finset.add_sum_erase s _ hk, hzero i hi]
        simp
      rw [Finset.sum_congr rfl inner, ← Finset.add_sum_erase s _ hk]
      have : ∑ j ∈ s.erase k, c k * c j * min (a k - a k) (a j - a k) = 0 := by
        apply Finset.sum_eq_zero
        intro j hj
        rw [min_comm, hzero j (Finset.mem_of_mem_erase hj)]
        simp
      rw [this, zero_add]
    rw [hsplit, herase]
    have h1 := mul_nonneg (ha k hk) (sq_nonneg (∑ i ∈ s, c i))
    have h2 := ih (fun i => a i - a k) (s.erase k) (fun i hi => by have := hmin i (Finset.mem_of_mem_erase hi); linarith)
      (by rw [Finset.card_erase_of_mem hk]; omega)
    linarith

/-- `Σ cᵢ cⱼ |aᵢ - aⱼ| ≤ 0` when `Σ c = 0`. -/
theorem abs_cnd (c a : ι → ℝ) (hc : ∑ i, c i = 0) : ∑ i, ∑ j, c i * c j * |a i - a j| ≤ 0 := by
  classical
  rcases isEmpty_or_nonempty ι with hι | hι
  · simp
  obtain ⟨m, hm⟩ : ∃ m, ∀ i, m ≤ a i := by
    obtain ⟨k, _, hk⟩ := Finset.exists_min_image (Finset.univ : Finset ι) a Finset.univ_nonempty
    exact ⟨a k, fun i => hk i (Finset.mem_univ i)⟩
  have h := min_psd c (fun i => a i - m) Finset.univ (fun i _ => by have := hm i; linarith)
  have he : ∀ i j, c i * c j * |a i - a j| = c i * (a i - m) * c j + c i * (c j * (a j - m)) - 2 * (c i * c j * min (a i - m) (a j - m)) := by
    intro i j
    rcases le_total (a i) (a j) with hij | hij
    · rw [abs_of_nonpos (by linarith), min_eq_left (by linarith)]; ring
    · rw [abs_of_nonneg (by linarith), min_eq_right (by linarith)]; ring
  simp only [he, Finset.sum_sub_distrib, Finset.sum_add_distrib, ← Finset.mul_sum, ← Finset.sum_mul, hc]
  linarith

/-- `∫ |cos|` over a turn. -/
noncomputable def kappa : ℝ := ∫ t in (0 : ℝ)..(2 * Real.pi), |Real.cos t|

theorem kappa_pos : 0 < kappa := by
  unfold kappa
  apply intervalIntegral.integral_pos (by positivity) (by fun_prop)
  · intro t _; exact abs_nonneg _
  · exact ⟨0, ⟨le_rfl, by positivity⟩, by simp⟩

/-- The Euclidean norm as an average of the projections on all directions. -/
theorem norm_average (x y : ℝ) : kappa * Real.sqrt (x ^ 2 + y ^ 2) = ∫ t in (0 : ℝ)..(2 * Real.pi), |x * Real.cos t + y * Real.sin t| := by
  set z : ℂ := ⟨x, y⟩ with hz
  have hx : x = ‖z‖ * Real.cos z.arg := by rw [Complex.norm_mul_cos_arg]
  have hy : y = ‖z‖ * Real.sin z.arg := by rw [Complex.norm_mul_sin_arg]
  have hr : Real.sqrt (x ^ 2 + y ^ 2) = ‖z‖ := by
    rw [Complex.norm_def, Complex.normSq_apply]; congr 1; simp [hz]; ring
  have he : ∀ t, |x * Real.cos t + y * Real.sin t| = ‖z‖ * |Real.cos (t - z.arg)| := by
    intro t
    rw [Real.cos_sub]
    have : x * Real.cos t + y * Real.sin t = ‖z‖ * (Real.cos t * Real.cos z.arg + Real.sin t * Real.sin z.arg) := by
      conv_lhs => rw [hx, hy]
      ring
    rw [this, abs_mul, abs_of_nonneg (norm_nonneg z)]
  have hper : Function.Periodic (fun t : ℝ => |Real.cos t|) (2 * Real.pi) := fun t => by simp
  simp only [he]
  rw [intervalIntegral.integral_const_mul, intervalIntegral.integral_comp_sub_right (fun t => |Real.cos t|), hr]
  have := hper.intervalIntegral_add_eq (0 - z.arg) 0
  rw [zero_add] at this
  rw [show 2 * Real.pi - z.arg = 0 - z.arg + 2 * Real.pi by ring, this]
  unfold kappa
  ring

/-- Euclidean distance in the plane. -/
noncomputable def dist2 (p q : ℝ × ℝ) : ℝ := Real.sqrt ((p.1 - q.1) ^ 2 + (p.2 - q.2) ^ 2)

theorem dist2_cnd (c : ι → ℝ) (v : ι → ℝ × ℝ) (hc : ∑ i, c i = 0) : ∑ i, ∑ j, c i * c j * dist2 (v i) (v j) ≤ 0 := by
  have hint : kappa * ∑ i, ∑ j, c i * c j * dist2 (v i) (v j) =
      ∫ t in (0 : ℝ)..(2 * Real.pi), ∑ i, ∑ j, c i * c j * |((v i).1 * Real.cos t + (v i).2 * Real.sin t) - ((v j).1 * Real.cos t + (v j).2 * Real.sin t)| := by
    rw [intervalIntegral.integral_finsetSum]
    · rw [Finset.mul_sum]
      apply Finset.sum_congr rfl
      intro i _
      rw [intervalIntegral.integral_finsetSum]
      · rw [Finset.mul_sum]
        apply Finset.sum_congr rfl
        intro j _
        rw [intervalIntegral.integral_const_mul]
        have := norm_average ((v i).1 - (v j).1) ((v i).2 - (v j).2)
        unfold dist2
        rw [show kappa * (c i * c j * Real.sqrt (((v i).1 - (v j).1) ^ 2 + ((v i).2 - (v j).2) ^ 2)) = c i * c j * (kappa * Real.sqrt (((v i).1 - (v j).1) ^ 2 + ((v i).2 - (v j).2) ^ 2)) by ring, this]
        congr 1
        apply intervalIntegral.integral_congr
        intro t _
        simp only
        congr 1
        ring
      · intro j _
        apply Continuous.intervalIntegrable
        fun_prop
    · intro i _
      apply Continuous.intervalIntegrable
      fun_prop
  have hle : kappa * ∑ i, ∑ j, c i * c j * dist2 (v i) (v j) ≤ 0 := by
    rw [hint]
    have h0 := intervalIntegral.integral_nonneg (μ := MeasureTheory.volume) (a := 0) (b := 2 * Real.pi)
      (f := fun t => -∑ i, ∑ j, c i * c j * |((v i).1 * Real.cos t + (v i).2 * Real.sin t) - ((v j).1 * Real.cos t + (v j).2 * Real.sin t)|)
      (by positivity) (fun t _ => by
        have := abs_cnd c (fun i => (v i).1 * Real.cos t + (v i).2 * Real.sin t) hc
        linarith)
    rw [intervalIntegral.integral_neg] at h0
    linarith
  by_contra hcon
  push Not at hcon
  have := mul_pos kappa_pos hcon
  linarith

/-! ## Kernels -/

/-- A symmetric kernel with nonnegative quadratic form. -/
def PSD (K : ι → ι → ℝ) : Prop := (∀ i j, K i j = K j i) ∧ ∀ c : ι → ℝ, 0 ≤ ∑ i, ∑ j, c i * c j * K i j

theorem PSD.toMatrix {K : ι → ι → ℝ} (h : PSD K) : (Matrix.of K).PosSemidef := by
  refine Matrix.posSemidef_iff_dotProduct_mulVec.2 ⟨?_, ?_⟩
  · ext i j; simp [Matrix.conjTranspose_apply, h.1 i j]
  · intro x
    have := h.2 x
    simp only [dotProduct, Matrix.mulVec, Pi.star_apply, star_trivial, Matrix.of_apply, Finset.mul_sum]
    refine this.trans_eq (Finset.sum_congr rfl fun i _ => Finset.sum_congr rfl fun j _ => ?_)
    ring

theorem PSD.ofMatrix {M : Matrix ι ι ℝ} (h : M.PosSemidef) : PSD fun i j => M i j := by
  obtain ⟨h1, h2⟩ := Matrix.posSemidef_iff_dotProduct_mulVec.1 h
  refine ⟨fun i j => ?_, fun c => ?_⟩
  · have := congrFun (congrFun h1 i) j
    simpa [Matrix.conjTranspose_apply] using this.symm
  · have := h2 c
    simp only [dotProduct, Matrix.mulVec, Pi.star_apply, star_trivial, Finset.mul_sum] at this
    refine this.trans_eq (Finset.sum_congr rfl fun i _ => Finset.sum_congr rfl fun j _ => ?_)
    ring

theorem PSD.mul {K L : ι → ι → ℝ} (hK : PSD K) (hL : PSD L) : PSD fun i j => K i j * L i j :=
  PSD.ofMatrix (hK.toMatrix.hadamard hL.toMatrix)

theorem PSD.one : PSD fun (_ _ : ι) => (1 : ℝ) := by
  refine ⟨fun _ _ => rfl, fun c => ?_⟩
  have : ∑ i, ∑ j, c i * c j * 1 = (∑ i, c i) ^ 2 := by
    simp only [mul_one]
    rw [sq, Finset.sum_mul_sum]
  rw [this]
  exact sq_nonneg _

theorem PSD.pow {K : ι → ι → ℝ} (hK : PSD K) (n : ℕ) : PSD fun i j => K i j ^ n := by
  induction n with
  | zero => simpa using PSD.one
  | succ n ih => simpa [pow_succ] using ih.mul hK

theorem PSD.smul {K : ι → ι → ℝ} (hK : PSD K) {a : ℝ} (ha : 0 ≤ a) : PSD fun i j => a * K i j := by
  refine ⟨fun i j => by simp only [hK.1 i j], fun c => ?_⟩
  have : ∑ i, ∑ j, c i * c j * (a * K i j) = a * ∑ i, ∑ j, c i * c j * K i j := by
    rw [Finset.mul_sum]
    apply Finset.sum_congr rfl; intro i _
    rw [Finset.mul_sum]
    apply Finset.sum_congr rfl; intro j _
    ring
  rw [this]
  exact mul_nonneg ha (hK.2 c)

theorem PSD.exp {K : ι → ι → ℝ} (hK : PSD K) : PSD fun i j => Real.exp (K i j) := by
  refine ⟨fun i j => by simp only [hK.1 i j], fun c => ?_⟩
  have hs : HasSum (fun n : ℕ => ∑ i, ∑ j, c i * c j * ((1 / (n.factorial : ℝ)) * K i j ^ n)) (∑ i, ∑ j, c i * c j * Real.exp (K i j)) := by
    apply hasSum_sum
    intro i _
    apply hasSum_sum
    intro j _
    apply HasSum.mul_left
    have := NormedSpace.expSeries_div_hasSum_exp (𝔸 := ℝ) (K i j)
    rw [← Real.exp_eq_exp_ℝ] at this
    have he : (fun n : ℕ => 1 / (n.factorial : ℝ) * K i j ^ n) = fun n : ℕ => K i j ^ n / (n.factorial : ℝ) := by
      funext n; ring
    rw [he]
    exact this
  refine hs.nonneg fun n => ?_
  exact ((hK.pow n).smul (by positivity : (0 : ℝ) ≤ 1 / (n.factorial : ℝ))).2 c

/-- Schoenberg: for a symmetric conditionally negative definite kernel with zero diagonal, `exp (-p ψ)` is positive semidefinite. -/
theorem schoenberg {ψ : ι → ι → ℝ} (hsym : ∀ i j, ψ i j = ψ j i) (hz : ∀ i, ψ i i = 0)
    (hcnd : ∀ c : ι → ℝ, ∑ i, c i = 0 → ∑ i, ∑ j, c i * c j * ψ i j ≤ 0) {p : ℝ} (hp : 0 ≤ p) : PSD fun i j => Real.exp (-p * ψ i j) := by
  classical
  rcases isEmpty_or_nonempty ι with hι | ⟨⟨k⟩⟩
  · exact ⟨fun i => (hι.false i).elim, fun c => by simp⟩
  have hK : PSD fun i j => ψ i k + ψ j k - ψ i j := by
    refine ⟨fun i j => by simp only [hsym i j]; ring, fun c => ?_⟩
    set S := ∑ i, c i with hS
    have hd := hcnd (fun i => c i - if i = k then S else 0) (by simp [Finset.sum_sub_distrib, hS])
    have e1 : ∀ i, ∑ j, (c i - if i = k then S else 0) * (c j - if j = k then S else 0) * ψ i j =
        (c i - if i = k then S else 0) * ((∑ j, c j * ψ i j) - S * ψ i k) := by
      intro i
      have : ∑ j, (c j - if j = k then S else 0) * ψ i j = (∑ j, c j * ψ i j) - S * ψ i k := by
        simp [sub_mul, Finset.sum_sub_distrib, ite_mul]
      rw [← this, Finset.mul_sum]
      apply Finset.sum_congr rfl; intro j _; ring
    have e2 : ∑ i, (c i - if i = k then S else 0) * ((∑ j, c j * ψ i j) - S * ψ i k) =
        (∑ i, c i * ∑ j, c j * ψ i j) - S * (∑ i, c i * ψ i k) - S * ((∑ j, c j * ψ k j) - S * ψ k k) := by
      simp only [sub_mul, mul_sub, Finset.sum_sub_distrib, ite_mul, zero_mul, Finset.sum_ite_eq', Finset.mem_univ, if_true]
      have : ∑ i, c i * (S * ψ i k) = S * ∑ i, c i * ψ i k := by
        rw [Finset.mul_sum]
        exact Finset.sum_congr rfl fun i _ => by ring
      rw [this]
      ring
    rw [Finset.sum_congr rfl fun i _ => e1 i, e2, hz k] at hd
    have e3 : ∑ j, c j * ψ k j = ∑ i, c i * ψ i k := Finset.sum_congr rfl fun i _ => by rw [hsym k i]
    rw [e3] at hd
    have e4 : ∑ i, ∑ j, c i * c j * (ψ i k + ψ j k - ψ i j) = 2 * (S * ∑ i, c i * ψ i k) - ∑ i, c i * ∑ j, c j * ψ i j := by
      have h1 : ∀ i, ∑ j, c i * c j * (ψ i k + ψ j k - ψ i j) = c i * ψ i k * S + c i * (∑ j, c j * ψ j k) - c i * ∑ j, c j * ψ i j := by
        intro i
        rw [hS, Finset.mul_sum, Finset.mul_sum, Finset.mul_sum, ← Finset.sum_add_distrib, ← Finset.sum_sub_distrib]
        apply Finset.sum_congr rfl; intro j _; ring
      rw [Finset.sum_congr rfl fun i _ => h1 i, Finset.sum_sub_distrib, Finset.sum_add_distrib, ← Finset.sum_mul, ← Finset.sum_mul]
      ring
    rw [e4]
    linarith
  have hE := (hK.smul hp).exp
  refine ⟨fun i j => by simp only [hsym i j], fun c => ?_⟩
  have := hE.2 fun i => c i * Real.exp (-p * ψ i k)
  refine this.trans_eq (Finset.sum_congr rfl fun i _ => Finset.sum_congr rfl fun j _ => ?_)
  have : Real.exp (-p * ψ i j) = Real.exp (-p * ψ i k) * Real.exp (-p * ψ j k) * Real.exp (p * (ψ i k + ψ j k - ψ i j)) := by
    rw [← Real.exp_add, ← Real.exp_add]; congr 1; ring
  simp only [this]
  ring

/-- `exp (-p · distance)` is positive semidefinite for any points of the plane. -/
theorem exp_dist_psd (v : ι → ℝ × ℝ) {p : ℝ} (hp : 0 ≤ p) : PSD fun i j => Real.exp (-p * dist2 (v i) (v j)) := by
  apply schoenberg _ _ (fun c hc => dist2_cnd c v hc) hp
  · intro i j; unfold dist2; congr 1; ring
  · intro i; simp [dist2]

end SST.Kernel
