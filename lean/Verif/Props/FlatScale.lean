import Verif.Props.Spatial
import Mathlib.Analysis.Real.Pi.Bounds

/-!
# Property C250: metres per degree of the flat-earth coordinates
-/

namespace SST.Props.FlatScale
open SST SST.Spatial

theorem ecc (mu : ℝ) : (1 - flattening) ^ 2 ≤ 1 - (2 * flattening - flattening ^ 2) * Real.sin mu ^ 2 ∧
    1 - (2 * flattening - flattening ^ 2) * Real.sin mu ^ 2 ≤ 1 := by
  have h0 : 0 ≤ Real.sin mu ^ 2 := sq_nonneg _
  have h1 : Real.sin mu ^ 2 ≤ 1 := Real.sin_sq_le_one mu
  have he : 0 ≤ 2 * flattening - flattening ^ 2 := by unfold flattening; norm_num
  constructor <;> nlinarith

theorem prime_bounds (mu : ℝ) : rEarth ≤ primeRadius mu ∧ primeRadius mu ≤ rEarth / (1 - flattening) := by
  obtain ⟨h1, h2⟩ := ecc mu
  have hf : 0 < 1 - flattening := by unfold flattening; norm_num
  have hr : 0 < rEarth := by unfold rEarth; norm_num
  have hs1 : 1 - flattening ≤ Real.sqrt (1 - (2 * flattening - flattening ^ 2) * Real.sin mu ^ 2) := Real.le_sqrt_of_sq_le h1
  have hs2 : Real.sqrt (1 - (2 * flattening - flattening ^ 2) * Real.sin mu ^ 2) ≤ 1 := Real.sqrt_le_one.2 h2
  unfold primeRadius
  constructor
  · rw [le_div_iff₀ (by linarith)]; nlinarith
  · exact div_le_div_of_nonneg_left hr.le hf hs1

theorem merid_bounds (mu : ℝ) : rEarth * (1 - flattening) ^ 2 ≤ meridRadius mu ∧ meridRadius mu ≤ rEarth / (1 - flattening) := by
  obtain ⟨h1, h2⟩ := ecc mu
  obtain ⟨p1, p2⟩ := prime_bounds mu
  have hf : 0 < 1 - flattening := by unfold flattening; norm_num
  have hr : 0 < rEarth := by unfold rEarth; norm_num
  have e : 1 - (2 * flattening - flattening ^ 2) = (1 - flattening) ^ 2 := by ring
  have hq : 0 < (1 - flattening) ^ 2 := by positivity
  unfold meridRadius
  rw [e]
  set d := 1 - (2 * flattening - flattening ^ 2) * Real.sin mu ^ 2
  have hd : 0 < d := lt_of_lt_of_le hq h1
  have a1 : (1 - flattening) ^ 2 ≤ (1 - flattening) ^ 2 / d := by rw [le_div_iff₀ hd]; nlinarith
  have a2 : (1 - flattening) ^ 2 / d ≤ 1 := by rw [div_le_one hd]; exact h1
  have a0 : 0 ≤ (1 - flattening) ^ 2 / d := by positivity
  have hp : 0 ≤ primeRadius mu := hr.le.trans p1
  constructor
  · exact mul_le_mul p1 a1 hq.le hp
  · calc primeRadius mu * ((1 - flattening) ^ 2 / d) ≤ primeRadius mu * 1 := mul_le_mul_of_nonneg_left a2 hp
      _ ≤ _ := by rw [mul_one]; exact p2

theorem degree_numbers : 110574 ≤ rEarth * (1 - flattening) ^ 2 * (Real.pi / 180) ∧ rEarth / (1 - flattening) * (Real.pi / 180) ≤ 111694 ∧
    111319 ≤ rEarth * (Real.pi / 180) := by
  have h1 := Real.pi_gt_d6
  have h2 := Real.pi_lt_d6
  unfold rEarth flattening
  norm_num at h1 h2 ⊢
  refine ⟨?_, ?_, ?_⟩ <;> linarith

/-- C250: a degree of latitude is 110574 to 111694 m in every place, a degree of longitude 111319 to 111694 m times the
cosine of the reference latitude. -/
theorem C250_scale (tm : ℝ → ℝ → ℝ → ℝ → ℝ × ℝ) (lat lon latref lonref E N : ℝ)
    (h : lla2flat tm lat lon latref lonref "matlab" = .ok (E, N)) :
    110574 * |lat - latref| ≤ |N| ∧ |N| ≤ 111694 * |lat - latref| ∧
    111319 * |Real.cos (latref * (Real.pi / 180))| * |lon - lonref| ≤ |E| ∧
    |E| ≤ 111694 * |Real.cos (latref * (Real.pi / 180))| * |lon - lonref| := by
  simp only [lla2flat, if_true, Except.ok.injEq, Prod.mk.injEq] at h
  obtain ⟨hE, hN⟩ := h
  obtain ⟨n1, n2, n3⟩ := degree_numbers
  obtain ⟨p1, p2⟩ := prime_bounds (deg2rad latref)
  obtain ⟨m1, m2⟩ := merid_bounds (deg2rad latref)
  have hr : 0 < rEarth := by unfold rEarth; norm_num
  have hpi : 0 < Real.pi / 180 := by positivity
  have hf : 0 < 1 - flattening := by unfold flattening; norm_num
  have hm0 : 0 ≤ meridRadius (deg2rad latref) := le_trans (by positivity) m1
  have hp0 : 0 ≤ primeRadius (deg2rad latref) := hr.le.trans p1
  have eN : |N| = meridRadius (deg2rad latref) * (Real.pi / 180) * |lat - latref| := by
    rw [← hN, show deg2rad lat - deg2rad latref = (Real.pi / 180) * (lat - latref) by unfold deg2rad; ring, abs_mul, abs_mul,
      abs_of_nonneg hm0, abs_of_pos hpi, mul_assoc]
  have eE : |E| = primeRadius (deg2rad latref) * (Real.pi / 180) * (|Real.cos (latref * (Real.pi / 180))| * |lon - lonref|) := by
    rw [← hE, show deg2rad lon - deg2rad lonref = (Real.pi / 180) * (lon - lonref) by unfold deg2rad; ring, abs_mul, abs_mul, abs_mul,
      abs_of_nonneg hp0, abs_of_pos hpi]
    unfold deg2rad
    ring
  have a := abs_nonneg (lat - latref)
  have b := mul_nonneg (abs_nonneg (Real.cos (latref * (Real.pi / 180)))) (abs_nonneg (lon - lonref))
  have q1 : 110574 ≤ meridRadius (deg2rad latref) * (Real.pi / 180) := n1.trans (mul_le_mul_of_nonneg_right m1 hpi.le)
  have q2 : meridRadius (deg2rad latref) * (Real.pi / 180) ≤ 111694 := (mul_le_mul_of_nonneg_right m2 hpi.le).trans n2
  have q3 : 111319 ≤ primeRadius (deg2rad latref) * (Real.pi / 180) := n3.trans (mul_le_mul_of_nonneg_right p1 hpi.le)
  have q4 : primeRadius (deg2rad latref) * (Real.pi / 180) ≤ 111694 := (mul_le_mul_of_nonneg_right p2 hpi.le).trans n2
  rw [eN, eE]
  refine ⟨mul_le_mul_of_nonneg_right q1 a, mul_le_mul_of_nonneg_right q2 a, ?_, ?_⟩
  · rw [mul_assoc]; exact mul_le_mul_of_nonneg_right q3 b
  · rw [mul_assoc 111694]; exact mul_le_mul_of_nonneg_right q4 b

/-- C250: hence the north distance between two sites depends on the reference by at most 1.02 percent. -/
theorem C250_reference (tm : ℝ → ℝ → ℝ → ℝ → ℝ × ℝ) (lat lon lat' lon' latref lonref latref' lonref' : ℝ) (A B A' B' : ℝ × ℝ)
    (hA : lla2flat tm lat lon latref lonref "matlab" = .ok A) (hB : lla2flat tm lat' lon' latref lonref "matlab" = .ok B)
    (hA' : lla2flat tm lat lon latref' lonref' "matlab" = .ok A') (hB' : lla2flat tm lat' lon' latref' lonref' "matlab" = .ok B') :
    |A.2 - B.2| ≤ 1.0102 * |A'.2 - B'.2| := by
  have key : ∀ (latref lonref : ℝ) (A B : ℝ × ℝ), lla2flat tm lat lon latref lonref "matlab" = .ok A →
      lla2flat tm lat' lon' latref lonref "matlab" = .ok B → 110574 * |lat - lat'| ≤ |A.2 - B.2| ∧ |A.2 - B.2| ≤ 111694 * |lat - lat'| := by
    intro latref lonref A B hA hB
    obtain ⟨kE, kN, hk, -, hf⟩ := SST.Spatial.C07_affine tm latref lonref
    have hone := C250_scale tm (latref + 1) lonref latref lonref _ _ (hf (latref + 1) lonref)
    obtain ⟨h1, h2, -, -⟩ := hone
    rw [show latref + 1 - latref = 1 by ring, mul_one, abs_one, mul_one, abs_of_pos hk] at h1 h2
    rw [hf] at hA hB
    rw [← Except.ok.inj hA, ← Except.ok.inj hB]
    simp only
    rw [show kN * (lat - latref) - kN * (lat' - latref) = kN * (lat - lat') by ring, abs_mul, abs_of_pos hk]
    have := abs_nonneg (lat - lat')
    exact ⟨mul_le_mul_of_nonneg_right h1 this, mul_le_mul_of_nonneg_right (by linarith) this⟩
  obtain ⟨-, h1⟩ := key latref lonref A B hA hB
  obtain ⟨h2, -⟩ := key latref' lonref' A' B' hA' hB'
  have := abs_nonneg (lat - lat')
  nlinarith

example : ∃ p, lla2flat (fun _ _ _ _ => (0, 0)) 52 10 51 9 "matlab" = .ok p := ⟨_, by unfold lla2flat; rw [if_pos rfl]⟩

end SST.Props.FlatScale
