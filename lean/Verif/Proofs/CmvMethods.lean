import Verif.Proofs.Cmv
import Mathlib.Analysis.InnerProductSpace.PiL2
import Mathlib.Analysis.InnerProductSpace.Projection.Minimal
import Mathlib.Analysis.Calculus.LocalExtr.Basic
import Mathlib.Analysis.SpecialFunctions.Trigonometric.Deriv
import Mathlib.Analysis.SpecialFunctions.Complex.Arg

namespace SST
open SST.Cmv SST.Spec SST.Spatial

theorem sum_zero_mem {l : List ℝ} (h : ∀ x ∈ l, 0 ≤ x) (hs : l.sum = 0) {x : ℝ} (hx : x ∈ l) : x = 0 := by
  have := List.single_le_sum h x hx
  exact le_antisymm (hs ▸ this) (h x hx)

/-! ## Sorting and quantiles -/

theorem sortR_perm (l : List ℝ) : (sortR l).Perm l := List.mergeSort_perm l _

theorem sortR_length (l : List ℝ) : (sortR l).length = l.length := (sortR_perm l).length_eq

theorem mem_sortR {l : List ℝ} {x : ℝ} : x ∈ sortR l ↔ x ∈ l := (sortR_perm l).mem_iff

theorem sortR_sorted (l : List ℝ) : (sortR l).Pairwise (· ≤ ·) := by
  have := List.pairwise_mergeSort (le := fun a b : ℝ => decide (a ≤ b))
    (fun a b c h1 h2 => by simp only [decide_eq_true_eq] at *; exact h1.trans h2)
    (fun a b => by simpa using le_total a b) l
  exact this.imp (by intro a b h; simpa using h)

theorem get_const {s : List ℝ} {c : ℝ} (h : ∀ x ∈ s, x = c) {i : ℕ} (hi : i < s.length) : (s[i]?).getD 0 = c := by
  rw [List.getElem?_eq_getElem hi]
  exact h _ (List.getElem_mem hi)

theorem median_const {l : List ℝ} {c : ℝ} (hne : l ≠ []) (h : ∀ x ∈ l, x = c) : median l = some c := by
  have hs : ∀ x ∈ sortR l, x = c := fun x hx => h x (mem_sortR.1 hx)
  have hl : (sortR l).length = l.length := sortR_length l
  have hp : 0 < l.length := List.length_pos_iff.2 hne
  unfold median
  rw [if_neg hne]
  simp only
  split_ifs with ho
  · rw [get_const hs (by omega)]
  · rw [get_const hs (by omega), get_const hs (by omega)]
    congr 1; ring

theorem quantile_const {l : List ℝ} {c q : ℝ} (hne : l ≠ []) (h : ∀ x ∈ l, x = c) (h0 : 0 ≤ q) (h1 : q ≤ 1) :
    quantileLin l q = some c := by
  have hs : ∀ x ∈ sortR l, x = c := fun x hx => h x (mem_sortR.1 hx)
  have hl : (sortR l).length = l.length := sortR_length l
  have hp : 0 < l.length := List.length_pos_iff.2 hne
  have hp' : (1 : ℝ) ≤ l.length := by exact_mod_cast hp
  unfold quantileLin lerpAt
  rw [if_neg hne]
  have hi : ⌊((l.length : ℝ) - 1) * q⌋₊ ≤ l.length - 1 := by
    apply Nat.floor_le_of_le
    rw [Nat.cast_sub hp]
    simp only [Nat.cast_one]
    nlinarith
  simp only
  rw [get_const hs (by omega), get_const hs (by omega)]
  congr 1; ring

theorem variance_affine (a b : ℝ) (l : List ℝ) (hne : l ≠ []) :
    variance (l.map fun x => a + b * x) = b ^ 2 * variance l := by
  have hn : (l.length : ℝ) ≠ 0 := by simpa using hne
  have hm : mean (l.map fun x => a + b * x) = a + b * mean l := by
    unfold mean
    have : (l.map fun x => a + b * x).sum = l.length * a + b * l.sum := by
      rw [List.sum_map_add, List.sum_map_mul_left]; simp
    rw [this, List.length_map]
    field_simp
  unfold variance
  rw [hm]
  unfold mean
  rw [List.map_map]
  have : (l.map ((fun x => (x - (a + b * (l.sum / l.length))) ^ 2) ∘ fun x => a + b * x)) =
      l.map fun x => b ^ 2 * (x - l.sum / l.length) ^ 2 := by
    apply List.map_congr_left
    intro x _
    simp only [Function.comp_apply]
    ring
  rw [this, List.sum_map_mul_left]
  simp only [List.length_map]
  ring

theorem variance_nonneg (l : List ℝ) : 0 ≤ variance l := by
  unfold variance mean
  apply div_nonneg
  · apply List.sum_nonneg
    intro x hx
    obtain ⟨y, _, rfl⟩ := List.mem_map.1 hx
    positivity
  · positivity

theorem variance_pos {l : List ℝ} {x y : ℝ} (hx : x ∈ l) (hy : y ∈ l) (hxy : x ≠ y) : 0 < variance l := by
  have hne : l ≠ [] := List.ne_nil_of_mem hx
  have hn : (0 : ℝ) < l.length := by exact_mod_cast List.length_pos_iff.2 hne
  apply lt_of_le_of_ne (variance_nonneg l)
  intro h
  have h0 : (l.map fun x => (x - mean l) ^ 2).sum = 0 := by
    have := h.symm
    unfold variance at this
    rw [mean, div_eq_zero_iff] at this
    rcases this with h | h
    · exact h
    · simp at h; exact absurd h hne
  have hz : ∀ z ∈ l, z = mean l := by
    intro z hz
    have hall : ∀ w ∈ l.map fun x => (x - mean l) ^ 2, 0 ≤ w := by
      intro w hw
      obtain ⟨y, _, rfl⟩ := List.mem_map.1 hw
      positivity
    have := sum_zero_mem hall h0 (x := (z - mean l) ^ 2)
      (List.mem_map.2 ⟨z, hz, rfl⟩)
    nlinarith [sq_eq_zero_iff.1 this]
  exact hxy ((hz x hx).trans (hz y hy).symm)

/-! ## Normalisation -/

theorem pyMod_range (x : ℝ) {m : ℝ} (hm : 0 < m) : 0 ≤ pyMod x m ∧ pyMod x m < m := by
  unfold pyMod
  have h1 := Int.floor_le (x / m)
  have h2 := Int.lt_floor_add_one (x / m)
  have e : x = m * (x / m) := by field_simp
  constructor
  · nlinarith
  · nlinarith

theorem pol2rect_mod (r θ : ℝ) : pol2rect r (pyMod θ (2 * Real.pi)) = pol2rect r θ := by
  unfold pol2rect pyMod
  have h : θ - 2 * Real.pi * ⌊θ / (2 * Real.pi)⌋ = θ - ⌊θ / (2 * Real.pi)⌋ * (2 * Real.pi) := by ring
  rw [h, Real.cos_sub_int_mul_two_pi, Real.sin_sub_int_mul_two_pi]

theorem normalise_some (v θ : ℝ) : ∃ θ', normalise (some v) (some θ) = (some |v|, some θ') ∧
    0 ≤ θ' ∧ θ' < 2 * Real.pi ∧ pol2rect |v| θ' = pol2rect v θ := by
  have hp : (0 : ℝ) < 2 * Real.pi := by positivity
  unfold normalise
  simp only
  split_ifs with h
  · refine ⟨pyMod (θ + Real.pi) (2 * Real.pi), ?_, (pyMod_range _ hp).1, (pyMod_range _ hp).2, ?_⟩
    · rw [abs_of_neg h]; simp
    · rw [pol2rect_mod, abs_of_neg h]
      simp [pol2rect, Real.cos_add_pi, Real.sin_add_pi]
  · refine ⟨pyMod θ (2 * Real.pi), ?_, (pyMod_range _ hp).1, (pyMod_range _ hp).2, ?_⟩
    · rw [abs_of_nonneg (not_lt.1 h)]; simp
    · rw [pol2rect_mod, abs_of_nonneg (not_lt.1 h)]

/-! ## Least squares -/

theorem exists_lsq : ∃ f, ExactLsq f := by
  classical
  have key : ∀ pairs : List (ℝ × Vec), ∃ a, ∀ b, sqResid pairs a ≤ sqResid pairs b := by
    intro pairs
    let n := pairs.length
    let L : (ℝ × ℝ) →ₗ[ℝ] EuclideanSpace ℝ (Fin n) :=
      { toFun := fun a => WithLp.toLp 2 fun i => (pairs[i]).2.1 * a.1 + (pairs[i]).2.2 * a.2
        map_add' := by
          intro a b; ext i; simp; ring
        map_smul' := by
          intro c a; ext i; simp; ring }
    let u : EuclideanSpace ℝ (Fin n) := WithLp.toLp 2 fun i => (pairs[i]).1
    have hres : ∀ a, sqResid pairs a = ‖u - L a‖ ^ 2 := by
      intro a
      rw [EuclideanSpace.norm_sq_eq]
      unfold sqResid
      rw [← List.sum_ofFn]
      congr 1
      apply List.ext_getElem
      · simp [n]
      · intro i h1 h2
        simp [u, L]
    obtain ⟨v, hv, hmin⟩ := (LinearMap.range L).exists_norm_eq_iInf_of_complete_subspace
      (LinearMap.range L).complete_of_finiteDimensional u
    obtain ⟨a, rfl⟩ := hv
    refine ⟨a, fun b => ?_⟩
    rw [hres, hres]
    apply pow_le_pow_left₀ (norm_nonneg _)
    rw [hmin]
    exact ciInf_le (f := fun w : LinearMap.range L => ‖u - w‖) ⟨0, by
      rintro _ ⟨w, rfl⟩; exact norm_nonneg _⟩ ⟨L b, LinearMap.mem_range_self L b⟩
  choose sol hsol using key
  refine ⟨fun l => sol (l.map fun p => (p.1.getD 0, p.2)), ?_⟩
  intro pairs a
  have : (pairs.map fun p => (some p.1, p.2)).map (fun p : Option ℝ × Vec => (p.1.getD 0, p.2)) = pairs := by
    rw [List.map_map]; simp [Function.comp_def]
  simp only [this]
  exact hsol pairs a

theorem exists_localMinimizer : ∃ f, LocalMinimizer f := by
  classical
  refine ⟨fun h => if hh : ∃ x, IsLocalMin (fun t => (h t).getD 0) x then hh.choose else 0, ?_⟩
  intro g hg
  have hg' : ∃ x, IsLocalMin (fun t => ((fun t => some (g t)) t).getD 0) x := hg
  simp only
  rw [dif_pos hg']
  exact hg'.choose_spec

theorem lsq_unique (pairs : List (ℝ × Vec)) (a b : Vec) (ha : ∀ p ∈ pairs, p.1 = p.2.1 * a.1 + p.2.2 * a.2)
    (hs : ∃ p ∈ pairs, ∃ q ∈ pairs, Independent p.2 q.2) (hb : ∀ c, sqResid pairs b ≤ sqResid pairs c) : b = a := by
  have h0 : sqResid pairs a = 0 := by
    unfold sqResid
    apply List.sum_eq_zero
    intro x hx
    obtain ⟨p, hp, rfl⟩ := List.mem_map.1 hx
    rw [ha p hp]; ring
  have hall : ∀ w ∈ pairs.map fun p => (p.1 - (p.2.1 * b.1 + p.2.2 * b.2)) ^ 2, 0 ≤ w := by
    intro w hw
    obtain ⟨y, _, rfl⟩ := List.mem_map.1 hw
    positivity
  have hb0 : sqResid pairs b = 0 :=
    le_antisymm (h0 ▸ hb a) (List.sum_nonneg hall)
  have hz : ∀ p ∈ pairs, p.2.1 * b.1 + p.2.2 * b.2 = p.2.1 * a.1 + p.2.2 * a.2 := by
    intro p hp
    have := sum_zero_mem hall hb0 (List.mem_map.2 ⟨p, hp, rfl⟩)
    have := sq_eq_zero_iff.1 this
    rw [← ha p hp]; linarith
  obtain ⟨p, hp, q, hq, hpq⟩ := hs
  have h1 := hz p hp
  have h2 := hz q hq
  unfold Independent at hpq
  have e1 : (p.2.1 * q.2.2 - p.2.2 * q.2.1) * (b.1 - a.1) = 0 := by
    linear_combination q.2.2 * h1 - p.2.2 * h2
  have e2 : (p.2.1 * q.2.2 - p.2.2 * q.2.1) * (b.2 - a.2) = 0 := by
    linear_combination p.2.1 * h2 - q.2.1 * h1
  apply Prod.ext
  · have := (mul_eq_zero.1 e1).resolve_left hpq; linarith
  · have := (mul_eq_zero.1 e2).resolve_left hpq; linarith

/-- Gagne's inversion of the slowness vector. -/
theorem gagne_inv (x : Ext) (pairs : List (Option ℝ × Vec)) (V : Vec) (hV : V ≠ 0)
    (h : x.leastsq pairs = (V.1 / (V.1 ^ 2 + V.2 ^ 2), V.2 / (V.1 ^ 2 + V.2 ^ 2))) :
    gagne x pairs = (some (magnitude V), some (arctan2 V.2 V.1)) := by
  have hm := magnitude_pos hV
  have hs := magnitude_sq V
  have hN : 0 < V.1 ^ 2 + V.2 ^ 2 := by rw [← hs]; positivity
  unfold gagne
  rw [h]
  simp only
  have e : (V.1 / (V.1 ^ 2 + V.2 ^ 2)) ^ 2 + (V.2 / (V.1 ^ 2 + V.2 ^ 2)) ^ 2 = 1 / (V.1 ^ 2 + V.2 ^ 2) := by
    field_simp
  rw [e, if_neg (by positivity)]
  have e1 : 1 / (1 / (V.1 ^ 2 + V.2 ^ 2)) * (V.1 / (V.1 ^ 2 + V.2 ^ 2)) = V.1 := by field_simp
  have e2 : 1 / (1 / (V.1 ^ 2 + V.2 ^ 2)) * (V.2 / (V.1 ^ 2 + V.2 ^ 2)) = V.2 := by field_simp
  rw [e1, e2]

/-! ## Jamaly's objective -/

theorem polar_of_vec {V : Vec} : V.1 = magnitude V * Real.cos (arctan2 V.2 V.1) ∧
    V.2 = magnitude V * Real.sin (arctan2 V.2 V.1) := by
  have hm : magnitude V = ‖(⟨V.1, V.2⟩ : ℂ)‖ := by
    unfold magnitude
    rw [Complex.norm_def, Complex.normSq_apply]
    congr 1; ring
  constructor
  · rw [hm, arctan2, Complex.norm_mul_cos_arg]
  · rw [hm, arctan2, Complex.norm_mul_sin_arg]

theorem velocities_eq (pairs : List (ℝ × Vec)) (h0 : ∀ p ∈ pairs, p.1 ≠ 0) (θ : ℝ) :
    velocities (pairs.map fun p => (some p.1, p.2)) θ =
      (pairs.map fun p => (p.2.1 * Real.cos θ + p.2.2 * Real.sin θ) / p.1).map some := by
  have hu : unit (pol2rect 1 θ) = some (Real.cos θ, Real.sin θ) := by
    have h1 : magnitude (pol2rect 1 θ) = 1 := by
      simp [magnitude, pol2rect]
    unfold unit
    rw [h1, if_neg one_ne_zero]
    simp [pol2rect]
  unfold velocities projectVectors
  simp only [List.map_map, List.zipWith_map, List.zipWith_self]
  apply List.map_congr_left
  intro p hp
  simp [hu, velocity1, XR.divO, XR.div, h0 p hp]

theorem valid_map_some (l : List ℝ) : valid (l.map some) = l := by
  simp [valid]

/-- In a plane wave the projected velocities are `|V| cos(θ-φ) + r_i sin(θ-φ)`. -/
theorem planeWave_velocity (V d : Vec) (t φ θ m : ℝ) (hm : m ≠ 0) (h1 : V.1 = m * Real.cos φ)
    (h2 : V.2 = m * Real.sin φ) (ht : t = (d.1 * V.1 + d.2 * V.2) / (V.1 ^ 2 + V.2 ^ 2)) (h0 : t ≠ 0) :
    (d.1 * Real.cos θ + d.2 * Real.sin θ) / t =
      m * Real.cos (θ - φ) + Real.sin (θ - φ) * ((d.2 * Real.cos φ - d.1 * Real.sin φ) / t) := by
  have hsc := Real.sin_sq_add_cos_sq φ
  have hN : V.1 ^ 2 + V.2 ^ 2 = m ^ 2 := by rw [h1, h2]; linear_combination m ^ 2 * hsc
  have ht' : t * m = d.1 * Real.cos φ + d.2 * Real.sin φ := by
    rw [ht, hN, h1, h2]; field_simp
  rw [div_eq_iff h0]
  have e : (m * Real.cos (θ - φ) + Real.sin (θ - φ) * ((d.2 * Real.cos φ - d.1 * Real.sin φ) / t)) * t =
      (t * m) * Real.cos (θ - φ) + Real.sin (θ - φ) * (d.2 * Real.cos φ - d.1 * Real.sin φ) := by
    field_simp
  rw [e, ht', Real.cos_sub, Real.sin_sub]
  linear_combination (-(d.1 * Real.cos θ) - d.2 * Real.sin θ) * hsc

theorem localMin_sin_sq {s φ x : ℝ} (hs : 0 < s) (h : IsLocalMin (fun θ => Real.sin (θ - φ) ^ 2 * s) x) :
    Real.sin (x - φ) = 0 := by
  have hd : HasDerivAt (fun θ => Real.sin (θ - φ) ^ 2 * s) (2 * Real.sin (x - φ) * Real.cos (x - φ) * s) x := by
    have h1 : HasDerivAt (fun θ => Real.sin (θ - φ)) (Real.cos (x - φ)) x := by
      have := (Real.hasDerivAt_sin (x - φ)).comp x ((hasDerivAt_id x).sub_const φ)
      rw [mul_one] at this
      exact this
    have h2 := (h1.pow 2).mul_const s
    simpa [mul_assoc] using h2
  have hz := h.hasDerivAt_eq_zero hd
  by_contra hne
  have hc : Real.cos (x - φ) = 0 := by
    have := mul_eq_zero.1 hz
    rcases this with h | h
    · rcases mul_eq_zero.1 h with h | h
      · exact absurd h (by simpa using hne)
      · exact h
    · exact absurd h hs.ne'
  have hs1 : Real.sin (x - φ) ^ 2 = 1 := by
    have := Real.sin_sq_add_cos_sq (x - φ)
    rw [hc] at this; linarith
  -- near x the function is s cos² ε < s
  obtain ⟨δ, hδ, hmin⟩ := Metric.eventually_nhds_iff.1 h
  set ε := min (δ / 2) 1 with hε
  have hε0 : 0 < ε := by rw [hε]; positivity
  have hε1 : ε ≤ 1 := min_le_right _ _
  have := hmin (y := x + ε) (by
    rw [Real.dist_eq]; simp [abs_of_pos hε0]
    calc ε ≤ δ / 2 := min_le_left _ _
      _ < δ := by linarith)
  simp only at this
  have hexp : Real.sin (x + ε - φ) ^ 2 = Real.cos ε ^ 2 := by
    have : x + ε - φ = (x - φ) + ε := by ring
    rw [this, Real.sin_add, hc]
    linear_combination (Real.cos ε) ^ 2 * hs1
  rw [hexp, hs1] at this
  have hsin : 0 < Real.sin ε := Real.sin_pos_of_pos_of_lt_pi hε0 (by linarith [Real.two_le_pi])
  have := Real.sin_sq_add_cos_sq ε
  nlinarith [sq_pos_of_pos hsin]

/-- The objective of Jamaly's method on plane-wave data: zero exactly along the motion. -/
theorem jamaly_objective (pairs : List (ℝ × Vec)) (V : Vec)
    (hV : V ≠ 0) (h0 : ∀ p ∈ pairs, p.1 ≠ 0)
    (hw : ∀ p ∈ pairs, p.1 = (p.2.1 * V.1 + p.2.2 * V.2) / (V.1 ^ 2 + V.2 ^ 2))
    (hs : ∃ p ∈ pairs, ∃ q ∈ pairs, Independent p.2 q.2) (θ : ℝ) :
    ∃ v, nanvar (velocities (pairs.map fun p => (some p.1, p.2)) θ) = some v ∧ 0 ≤ v ∧
      (v = 0 ↔ V.1 * Real.sin θ = V.2 * Real.cos θ) ∧
      (pol2rect (magnitude V) θ = V → ∀ z ∈ velocities (pairs.map fun p => (some p.1, p.2)) θ, z = some (magnitude V)) := by
  have hm := magnitude_pos hV
  obtain ⟨hp1, hp2⟩ := @polar_of_vec V
  set φ := arctan2 V.2 V.1 with hφ
  set m := magnitude V with hmd
  set r : ℝ × Vec → ℝ := fun p => (p.2.2 * Real.cos φ - p.2.1 * Real.sin φ) / p.1 with hr
  have hvel : ∀ θ, velocities (pairs.map fun p => (some p.1, p.2)) θ =
      ((pairs.map r).map fun z => m * Real.cos (θ - φ) + Real.sin (θ - φ) * z).map some := by
    intro θ
    rw [velocities_eq pairs h0, List.map_map (f := r)]
    congr 1
    apply List.map_congr_left
    intro p hp
    exact planeWave_velocity V p.2 p.1 φ θ m hm.ne' hp1 hp2 (hw p hp) (h0 p hp)
  obtain ⟨p, hp, q, hq, hpq⟩ := hs
  have hne : pairs ≠ [] := List.ne_nil_of_mem hp
  have hnr : pairs.map r ≠ [] := by simpa using hne
  have hvar : ∀ θ, nanvar (velocities (pairs.map fun p => (some p.1, p.2)) θ) =
      some (Real.sin (θ - φ) ^ 2 * variance (pairs.map r)) := by
    intro θ
    rw [hvel, nanvar, valid_map_some, if_neg (by simpa using hne), variance_affine _ _ _ hnr]
  have hpos : 0 < variance (pairs.map r) := by
    refine variance_pos (List.mem_map_of_mem hp) (List.mem_map_of_mem hq) ?_
    intro heq
    simp only [hr] at heq
    rw [div_eq_div_iff (h0 p hp) (h0 q hq)] at heq
    have hsc := Real.sin_sq_add_cos_sq φ
    have hN : V.1 ^ 2 + V.2 ^ 2 = m ^ 2 := by rw [hp1, hp2]; linear_combination m ^ 2 * hsc
    have tp : p.1 * m = p.2.1 * Real.cos φ + p.2.2 * Real.sin φ := by
      rw [hw p hp, hN, hp1, hp2]; field_simp
    have tq : q.1 * m = q.2.1 * Real.cos φ + q.2.2 * Real.sin φ := by
      rw [hw q hq, hN, hp1, hp2]; field_simp
    apply hpq
    have : (p.2.2 * Real.cos φ - p.2.1 * Real.sin φ) * (q.1 * m) =
        (q.2.2 * Real.cos φ - q.2.1 * Real.sin φ) * (p.1 * m) := by
      linear_combination m * heq
    rw [tp, tq] at this
    linear_combination (-1) * this - (p.2.1 * q.2.2 - p.2.2 * q.2.1) * hsc
  refine ⟨_, hvar θ, by have := hpos.le; positivity, ?_, ?_⟩
  · have e : V.1 * Real.sin θ - V.2 * Real.cos θ = m * Real.sin (θ - φ) := by
      rw [Real.sin_sub]
      linear_combination Real.sin θ * hp1 - Real.cos θ * hp2
    rw [mul_eq_zero, or_iff_left hpos.ne', pow_eq_zero_iff two_ne_zero, ← sub_eq_zero (a := V.1 * _), e, mul_eq_zero, or_iff_right hm.ne']
  · intro hpol z hz
    have e1 : m * Real.cos θ = V.1 := congrArg Prod.fst hpol
    have e2 : m * Real.sin θ = V.2 := congrArg Prod.snd hpol
    have c1 : Real.cos θ = Real.cos φ := mul_left_cancel₀ hm.ne' (e1.trans hp1)
    have c2 : Real.sin θ = Real.sin φ := mul_left_cancel₀ hm.ne' (e2.trans hp2)
    have hsin : Real.sin (θ - φ) = 0 := by rw [Real.sin_sub, c1, c2]; ring
    have hcos : Real.cos (θ - φ) = 1 := by
      rw [Real.cos_sub, c1, c2]; linear_combination Real.sin_sq_add_cos_sq φ
    rw [hvel, List.mem_map] at hz
    obtain ⟨y, hy, rfl⟩ := hz
    obtain ⟨w, -, rfl⟩ := List.mem_map.1 hy
    rw [hsin, hcos]; ring_nf

/-- Jamaly's method on plane-wave data. -/
theorem jamaly_planeWave (x : Ext) (hx : LocalMinimizer x.minimizeScalar) (pairs : List (ℝ × Vec)) (V : Vec)
    (hV : V ≠ 0) (h0 : ∀ p ∈ pairs, p.1 ≠ 0)
    (hw : ∀ p ∈ pairs, p.1 = (p.2.1 * V.1 + p.2.2 * V.2) / (V.1 ^ 2 + V.2 ^ 2))
    (hs : ∃ p ∈ pairs, ∃ q ∈ pairs, Independent p.2 q.2) :
    ∃ v θ, jamaly x (pairs.map fun p => (some p.1, p.2)) = (some v, some θ, false) ∧
      |v| = magnitude V ∧ pol2rect v θ = V := by
  have hm := magnitude_pos hV
  obtain ⟨hp1, hp2⟩ := @polar_of_vec V
  set φ := arctan2 V.2 V.1 with hφ
  set m := magnitude V with hmd
  set r : ℝ × Vec → ℝ := fun p => (p.2.2 * Real.cos φ - p.2.1 * Real.sin φ) / p.1 with hr
  have hvel : ∀ θ, velocities (pairs.map fun p => (some p.1, p.2)) θ =
      ((pairs.map r).map fun z => m * Real.cos (θ - φ) + Real.sin (θ - φ) * z).map some := by
    intro θ
    rw [velocities_eq pairs h0, List.map_map (f := r)]
    congr 1
    apply List.map_congr_left
    intro p hp
    exact planeWave_velocity V p.2 p.1 φ θ m hm.ne' hp1 hp2 (hw p hp) (h0 p hp)
  obtain ⟨p, hp, q, hq, hpq⟩ := hs
  have hne : pairs ≠ [] := List.ne_nil_of_mem hp
  have hnr : pairs.map r ≠ [] := by simpa using hne
  have hvar : ∀ θ, nanvar (velocities (pairs.map fun p => (some p.1, p.2)) θ) =
      some (Real.sin (θ - φ) ^ 2 * variance (pairs.map r)) := by
    intro θ
    rw [hvel, nanvar, valid_map_some, if_neg (by simpa using hne), variance_affine _ _ _ hnr]
  have hpos : 0 < variance (pairs.map r) := by
    refine variance_pos (List.mem_map_of_mem hp) (List.mem_map_of_mem hq) ?_
    intro heq
    simp only [hr] at heq
    rw [div_eq_div_iff (h0 p hp) (h0 q hq)] at heq
    have hsc := Real.sin_sq_add_cos_sq φ
    have hN : V.1 ^ 2 + V.2 ^ 2 = m ^ 2 := by rw [hp1, hp2]; linear_combination m ^ 2 * hsc
    have tp : p.1 * m = p.2.1 * Real.cos φ + p.2.2 * Real.sin φ := by
      rw [hw p hp, hN, hp1, hp2]; field_simp
    have tq : q.1 * m = q.2.1 * Real.cos φ + q.2.2 * Real.sin φ := by
      rw [hw q hq, hN, hp1, hp2]; field_simp
    apply hpq
    have : (p.2.2 * Real.cos φ - p.2.1 * Real.sin φ) * (q.1 * m) =
        (q.2.2 * Real.cos φ - q.2.1 * Real.sin φ) * (p.1 * m) := by
      linear_combination m * heq
    rw [tp, tq] at this
    linear_combination (-1) * this - (p.2.1 * q.2.2 - p.2.2 * q.2.1) * hsc
  unfold jamaly
  simp only
  have hobj : (fun t => nanvar (velocities (pairs.map fun p => (some p.1, p.2)) t)) =
      fun t => some (Real.sin (t - φ) ^ 2 * variance (pairs.map r)) := funext hvar
  rw [hobj]
  set θ := x.minimizeScalar fun t => some (Real.sin (t - φ) ^ 2 * variance (pairs.map r)) with hθ
  have hloc : IsLocalMin (fun t => Real.sin (t - φ) ^ 2 * variance (pairs.map r)) θ := by
    apply hx (fun t => Real.sin (t - φ) ^ 2 * variance (pairs.map r))
    refine ⟨φ, Filter.Eventually.of_forall fun t => ?_⟩
    simp only [sub_self, Real.sin_zero]
    have : 0 ≤ variance (pairs.map r) := hpos.le
    have := sq_nonneg (Real.sin (t - φ))
    nlinarith
  have hsin := localMin_sin_sq hpos hloc
  set c := Real.cos (θ - φ) with hc
  have hc2 : c ^ 2 = 1 := by
    have := Real.sin_sq_add_cos_sq (θ - φ)
    rw [hsin] at this; rw [hc]; linarith
  have hconst : ∀ z ∈ (pairs.map r).map (fun z => m * Real.cos (θ - φ) + Real.sin (θ - φ) * z), z = m * c := by
    intro z hz
    obtain ⟨y, _, rfl⟩ := List.mem_map.1 hz
    rw [hsin]; ring
  have hmed : nanmedian (velocities (pairs.map fun p => (some p.1, p.2)) θ) = some (m * c) := by
    rw [hvel, nanmedian, valid_map_some]
    exact median_const (by simpa using hne) hconst
  have hq6 : nanquantile (velocities (pairs.map fun p => (some p.1, p.2)) θ) 0.6 = some (m * c) := by
    rw [hvel, nanquantile, valid_map_some]
    exact quantile_const (by simpa using hne) hconst (by norm_num) (by norm_num)
  have hq4 : nanquantile (velocities (pairs.map fun p => (some p.1, p.2)) θ) 0.4 = some (m * c) := by
    rw [hvel, nanquantile, valid_map_some]
    exact quantile_const (by simpa using hne) hconst (by norm_num) (by norm_num)
  have hcne : m * c ≠ 0 := by
    apply mul_ne_zero hm.ne'
    intro h; rw [h] at hc2; norm_num at hc2
  refine ⟨m * c, θ, ?_, ?_, ?_⟩
  · rw [hmed, hq6, hq4]
    simp only [trendErr, sub_self, XR.divO, XR.div, hcne, if_false, zero_div, XR.abs, XR.lt, abs_zero]
    norm_num
  · rw [abs_mul, abs_of_pos hm]
    have : |c| = 1 := by rw [← sq_eq_sq₀ (abs_nonneg _) zero_le_one]; simpa using hc2
    rw [this, mul_one]
  · have hθe : Real.cos θ = Real.cos φ * c := by
      have : θ = φ + (θ - φ) := by ring
      rw [this, Real.cos_add, hsin]; simp [hc]
    have hθs : Real.sin θ = Real.sin φ * c := by
      have : θ = φ + (θ - φ) := by ring
      rw [this, Real.sin_add, hsin]; simp [hc]
    unfold pol2rect
    rw [hθe, hθs]
    apply Prod.ext
    · rw [hp1]; linear_combination (m * Real.cos φ) * hc2
    · rw [hp2]; linear_combination (m * Real.sin φ) * hc2

end SST
