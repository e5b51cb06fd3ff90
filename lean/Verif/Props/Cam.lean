import Verif.Proofs.Cam
import Verif.Props.Filters
import Verif.Props.Spatial

/-!
# Properties C49, C50, C108, C110: cloud-advection filters
-/

namespace SST.Props.Cam
open SST SST.Dft SST.Tf SST.Corr SST.Filters SST.Spatial

/-! ## C49 -/

/-- C49: the first entry is frequency 0 with gain exactly 1. -/
theorem C49_dc (plant xs : List ℝ) (V : ℝ) (hx : 2 ≤ xs.length) (hp : plant.sum ≠ 0) :
    ∃ out, camfilter plant xs V = .ok out ∧ out.length = plant.length ∧ out[0]? = some (0, some 1) := by
  refine ⟨_, camfilter_eq hx, by simp, ?_⟩
  have h0 : 0 < plant.length := by
    rcases plant with _ | ⟨a, l⟩
    · simp at hp
    · simp
  rw [List.getElem?_map, List.getElem?_range h0]
  simp only [Option.map_some, Option.some.injEq, if_neg hp]
  have hb : binNumber plant.length 0 = 0 := by unfold binNumber; rw [if_pos (by omega)]; rfl
  rw [hb]
  simp only [Int.cast_zero, zero_div]
  rw [show ((0 : ℕ) : ℤ) = 0 from rfl, plantSpec_zero _ hp, shiftPhase_zero]

example := C49_dc [1, 2] [-1, 0] 7 (by simp) (by norm_num)

/-- C49: no entry of the filter of a nonnegative nonzero profile exceeds magnitude 1, and none is NaN. -/
theorem C49_passive (plant xs : List ℝ) (V : ℝ) (hx : 2 ≤ xs.length) (hp : plant.sum ≠ 0) (hn : ∀ v ∈ plant, 0 ≤ v) :
    ∃ out, camfilter plant xs V = .ok out ∧ ∀ p ∈ out, ∃ z, p.2 = some z ∧ ‖z‖ ≤ 1 := by
  refine ⟨_, camfilter_eq hx, ?_⟩
  intro p hm
  obtain ⟨k, -, rfl⟩ := List.mem_map.1 hm
  refine ⟨_, if_neg hp, ?_⟩
  rw [shiftPhase_norm]
  exact plantSpec_norm plant hn hp k

example := C49_passive [1, 2] [-1, 0] 7 (by simp) (by norm_num) (by norm_num)

/-- C49: Hermitian symmetry. -/
theorem C49_hermitian (plant xs : List ℝ) (V : ℝ) (hx : 2 ≤ xs.length) (hdx : at0 xs 0 ≠ at0 xs 1) (hV : V ≠ 0)
    (hp : plant.sum ≠ 0) (out : List (ℝ × Option ℂ)) (ho : camfilter plant xs V = .ok out)
    (f : ℝ) (z w : ℂ) (h1 : (f, some z) ∈ out) (h2 : (-f, some w) ∈ out) : w = (starRingEnd ℂ) z := by
  rw [camfilter_eq hx] at ho
  obtain rfl := Except.ok.inj ho
  obtain ⟨k, hk, e1⟩ := List.mem_map.1 h1
  obtain ⟨l, hl, e2⟩ := List.mem_map.1 h2
  simp only [if_neg hp, Prod.mk.injEq, Option.some.injEq] at e1 e2
  obtain ⟨ef, ez⟩ := e1
  obtain ⟨ef', ew⟩ := e2
  have hk' := List.mem_range.1 hk
  have hN : (plant.length : ℝ) ≠ 0 := by
    have : 0 < plant.length := by omega
    positivity
  have hd : (at0 xs 1 - at0 xs 0) / |V| ≠ 0 := div_ne_zero (sub_ne_zero.2 (Ne.symm hdx)) (abs_ne_zero.2 hV)
  have hb : binNumber plant.length l = -binNumber plant.length k := by
    have : (binNumber plant.length l : ℝ) = -(binNumber plant.length k : ℝ) := by
      have := ef'.trans (congrArg Neg.neg ef).symm
      field_simp at this
      linarith
    exact_mod_cast this
  have hspec : plantSpec plant l = (starRingEnd ℂ) (plantSpec plant k) := by
    rw [plantSpec_period plant l _ (binNumber_dvd _ _), hb, plantSpec_neg, plantSpec_period plant k _ (binNumber_dvd _ _)]
  rw [← ew, ← ez, ef', ef, hspec, shiftPhase_conj]

example : ∃ out, camfilter [1, 2, 4] [-1, 0, 1] 7 = .ok out ∧ ∀ (f : ℝ) (z w : ℂ), (f, some z) ∈ out → (-f, some w) ∈ out → w = (starRingEnd ℂ) z := by
  obtain ⟨out, h, -⟩ := C49_dc [1, 2, 4] [-1, 0, 1] 7 (by simp) (by norm_num)
  exact ⟨out, h, fun f z w h1 h2 => C49_hermitian [1, 2, 4] [-1, 0, 1] 7 (by simp) (by simp [at0]) (by norm_num) (by norm_num) out h f z w h1 h2⟩

/-- C49: reversing the cloud speed conjugates the filter. -/
theorem C49_reverse (plant xs : List ℝ) (V : ℝ) (hx : 2 ≤ xs.length) (hV : V ≠ 0) :
    ∃ out, camfilter plant xs V = .ok out ∧
      camfilter plant xs (-V) = .ok (out.map fun p => (p.1, p.2.map fun (z : ℂ) => (starRingEnd ℂ) z)) := by
  refine ⟨_, camfilter_eq hx, ?_⟩
  rw [camfilter_eq hx, List.map_map]
  congr 1
  apply List.map_congr_left
  intro k _
  simp only [Function.comp_apply, abs_neg]
  split_ifs
  · rfl
  · rw [shiftPhase_neg hV]; rfl

example := C49_reverse [1, 2] [-1, 0] 7 (by simp) (by norm_num)

/-- C49: multiplying the profile by a nonzero constant changes nothing. -/
theorem C49_scale (plant xs : List ℝ) (V a : ℝ) (hx : 2 ≤ xs.length) (ha : a ≠ 0) :
    camfilter (plant.map fun (p : ℝ) => a * p) xs V = camfilter plant xs V := by
  have hsum : (plant.map fun (p : ℝ) => a * p).sum = a * plant.sum := by
    rw [List.sum_map_mul_left]; simp
  have hspec : ∀ k : ℤ, plantSpec (plant.map fun (p : ℝ) => a * p) k = plantSpec plant k := by
    intro k
    unfold plantSpec
    rw [hsum, List.length_map]
    apply Finset.sum_congr rfl
    intro j hj
    have hj' : j < plant.length := Finset.mem_range.1 hj
    rw [at0_of_lt (by simpa using hj'), at0_of_lt hj', List.getElem_map, mul_div_mul_left _ _ ha]
  rw [camfilter_eq hx, camfilter_eq hx, List.length_map, hsum]
  congr 1
  apply List.map_congr_left
  intro k _
  rw [hspec]
  simp [ha]

example := C49_scale [1, 2] [-1, 0] 7 (-3) (by simp) (by norm_num)

example : (2 : ℕ) ≤ ([-1, 0] : List ℝ).length ∧ ([1, 1] : List ℝ).sum ≠ 0 ∧ at0 ([-1, 0] : List ℝ) 0 ≠ at0 ([-1, 0] : List ℝ) 1 := by
  refine ⟨by simp, by norm_num, by simp [at0]⟩

/-! ## C108 -/

/-- C108 (partial: for the coordinates `-N dx/2, …, N dx/2 - dx`): the filter at each of its frequencies is
the frequency response of the plant to the moving pattern. -/
theorem C108_centred_partial (plant : List ℝ) (N : ℕ) (hl : plant.length = N) (hN : 2 ≤ N) (dx V : ℝ) (hdx : 0 < dx) (hV : V ≠ 0)
    (hs : plant.sum ≠ 0) :
    ∃ out, camfilter plant (centredGrid N dx) V = .ok out ∧
      ∀ p ∈ out, p.2 = some (response plant (centredGrid N dx) V p.1) := by
  rw [centredGrid_eq, camfilter_grid hl hN hdx hV hs]
  refine ⟨_, rfl, ?_⟩
  intro p hp
  obtain ⟨k, -, rfl⟩ := List.mem_map.1 hp
  simp only [Option.some.injEq]
  rw [response_grid hl (by omega) hdx hV]
  have hN0 : (N : ℝ) ≠ 0 := by positivity
  have : Complex.exp ((2 * Real.pi * (binNumber N k : ℝ) * -((N : ℝ) * dx / 2) / (N * dx) : ℝ) * Complex.I) =
      Complex.exp (-(2 * Real.pi * (binNumber N k : ℝ) * -((N : ℝ) * dx / 2) / (N * dx) : ℝ) * Complex.I) := by
    have e : (2 * Real.pi * (binNumber N k : ℝ) * -((N : ℝ) * dx / 2) / (N * dx) : ℝ) = -(Real.pi * (binNumber N k : ℝ)) := by
      field_simp
    rw [e]
    rw [Complex.exp_eq_exp_iff_exists_int]
    exact ⟨-(binNumber N k), by push_cast; ring⟩
  unfold gridSpec
  rw [hl, this]

example := C108_centred_partial [0, 1, 2, 0] 4 rfl (by norm_num) 2 7 (by norm_num) (by norm_num) (by norm_num)

/-- C108: for a regular coordinate grid with any first value `x0`, the code's filter is the response times
`exp(4πi f x0/V)`: a wrong time shift of `2 x0/V` unless that is a multiple of the grid period. -/
theorem C108_error_partial (plant : List ℝ) (N : ℕ) (hl : plant.length = N) (hN : 2 ≤ N) (x0 dx V : ℝ) (hdx : 0 < dx) (hV : V ≠ 0)
    (hs : plant.sum ≠ 0) :
    ∃ out, camfilter plant ((List.range N).map fun (j : ℕ) => x0 + j * dx) V = .ok out ∧
      ∀ p ∈ out, p.2 = some (response plant ((List.range N).map fun (j : ℕ) => x0 + j * dx) V p.1 *
        Complex.exp ((4 * Real.pi * p.1 * x0 / V : ℝ) * Complex.I)) := by
  have hg : ((List.range N).map fun (j : ℕ) => x0 + j * dx) = grid N x0 dx := rfl
  rw [hg, camfilter_grid hl hN hdx hV hs]
  refine ⟨_, rfl, ?_⟩
  intro p hp
  obtain ⟨k, -, rfl⟩ := List.mem_map.1 hp
  simp only [Option.some.injEq]
  rw [response_grid hl (by omega) hdx hV]
  have hN0 : (N : ℝ) ≠ 0 := by positivity
  unfold gridSpec
  rw [hl]
  rcases lt_or_gt_of_ne hV with h | h
  · rw [if_neg (by linarith), if_neg (by linarith), abs_of_neg h, map_mul, map_mul, conj_exp_I, ← Complex.ofReal_neg, conj_exp_I,
      mul_assoc ((starRingEnd ℂ) (plantSpec plant (binNumber N k))),
      ← Complex.exp_add]
    congr 2
    rw [← add_mul, ← Complex.ofReal_add]
    congr 2
    field_simp
    ring
  · rw [if_pos h, if_pos h, abs_of_pos h, mul_assoc (plantSpec plant (binNumber N k)), ← Complex.exp_add]
    congr 2
    rw [← Complex.ofReal_neg, ← add_mul, ← Complex.ofReal_add]
    congr 2
    field_simp
    ring

example := C108_error_partial [0, 1, 2, 0] 4 rfl (by norm_num) (-3) 2 7 (by norm_num) (by norm_num) (by norm_num)

/-- One site, on a grid that has the reference point at index `j0`. -/
theorem delta_plant {xmax dx x0 : ℝ} {N j0 : ℕ} (hdx : 0 < dx) (hx : xVec xmax dx = grid N x0 dx) (h0 : x0 + j0 * dx = 0) :
    get1dPlant [0] 0 none "square" dx xmax = .ok ((List.range N).map fun (j : ℕ) => if j = j0 then (1 : ℝ) else 0, grid N x0 dx) := by
  unfold get1dPlant
  simp only
  rw [if_pos (by decide +kernel), hx]
  simp only [Option.getD_none, List.map_cons, List.map_nil, sub_zero, List.foldl_cons, List.foldl_nil]
  congr 2
  unfold markSquare grid
  rw [List.zipWith_map_right, List.zipWith_self, List.map_map]
  apply List.map_congr_left
  intro j _
  simp only [Function.comp_apply]
  have hj : x0 + j * dx = ((j : ℝ) - j0) * dx := by linear_combination h0
  rw [hj]
  by_cases h : j = j0
  · subst h; rw [if_pos rfl, if_pos (by constructor <;> simp <;> linarith)]
  · rw [if_neg h, if_neg]
    rintro ⟨h1, h2⟩
    have h1' : -(1 / 2) ≤ (j : ℝ) - j0 := by
      by_contra hc
      push Not at hc
      nlinarith
    have h2' : (j : ℝ) - j0 < 1 / 2 := by
      by_contra hc
      push Not at hc
      nlinarith
    apply h
    have h3 : ((j : ℤ) : ℝ) - (j0 : ℤ) < 1 := by push_cast; linarith
    have h4 : (-1 : ℝ) < ((j : ℤ) : ℝ) - (j0 : ℤ) := by push_cast; linarith
    have h3' : (j : ℤ) - j0 < 1 := by exact_mod_cast h3
    have h4' : -1 < (j : ℤ) - j0 := by exact_mod_cast h4
    omega

theorem delta_sum {N j0 : ℕ} (hj : j0 < N) : ((List.range N).map fun (j : ℕ) => if j = j0 then (1 : ℝ) else 0).sum = 1 := by
  rw [show ((List.range N).map fun (j : ℕ) => if j = j0 then (1 : ℝ) else 0).sum = ∑ j ∈ Finset.range N, if j = j0 then (1 : ℝ) else 0 from rfl]
  simp [hj]

theorem delta_response {N j0 : ℕ} (hj : j0 < N) {x0 dx V f : ℝ} (h0 : x0 + j0 * dx = 0) :
    response ((List.range N).map fun (j : ℕ) => if j = j0 then (1 : ℝ) else 0) (grid N x0 dx) V f = 1 := by
  unfold response grid
  rw [delta_sum hj, List.zipWith_map, List.zipWith_self]
  rw [show ∀ g : ℕ → ℂ, ((List.range N).map g).sum = ∑ j ∈ Finset.range N, g j from fun _ => rfl]
  rw [Finset.sum_eq_single j0]
  · rw [h0]; simp
  · intro b _ hb; simp [hb]
  · intro h; simp [hj] at h

/-- Filter of the single site at the reference. -/
theorem delta_filter {xmax dx x0 V : ℝ} {N j0 : ℕ} (hdx : 0 < dx) (hV : V ≠ 0) (hN : 2 ≤ N) (hj : j0 < N)
    (hx : xVec xmax dx = grid N x0 dx) (h0 : x0 + j0 * dx = 0) :
    (get1dPlant [0] 0 none "square" dx xmax).bind (fun p => camfilter p.1 p.2 V) = .ok ((List.range N).map fun (k : ℕ) =>
      ((binNumber N k : ℝ) * |V| / (N * dx), some (Complex.exp ((4 * Real.pi * ((binNumber N k : ℝ) * |V| / (N * dx)) * x0 / V : ℝ) * Complex.I)))) := by
  rw [delta_plant hdx hx h0]
  show camfilter _ _ _ = _
  have hl : ((List.range N).map fun (j : ℕ) => if j = j0 then (1 : ℝ) else 0).length = N := by simp
  obtain ⟨out, ho, hv⟩ := C108_error_partial _ N hl hN x0 dx V hdx hV (by rw [delta_sum hj]; norm_num)
  have hg : ((List.range N).map fun (j : ℕ) => x0 + j * dx) = grid N x0 dx := rfl
  rw [hg] at ho hv
  rw [ho]
  have ho' := camfilter_grid hl hN (x0 := x0) hdx hV (by rw [delta_sum hj]; norm_num)
  rw [ho] at ho'
  have e := Except.ok.inj ho'
  congr 1
  rw [e]
  apply List.map_congr_left
  intro k hk
  have := hv _ (by rw [e]; exact List.mem_map.2 ⟨k, hk, rfl⟩)
  rw [delta_response hj h0, one_mul] at this
  exact Prod.ext rfl this

theorem xVec_odd (m : ℕ) : xVec (2 * m + 1) 1 = grid (2 * m + 1) (-(m + 1 : ℝ)) 1 := by
  unfold xVec arange grid
  have h1 : ⌊-(2 * (m : ℝ) + 1) / 2⌋ = -(m + 1 : ℤ) := by
    rw [Int.floor_eq_iff]; push_cast; constructor <;> linarith
  have h2 : ⌊(2 * (m : ℝ) + 1) / 2⌋ = (m : ℤ) := by
    rw [Int.floor_eq_iff]; push_cast; constructor <;> linarith
  rw [h1, h2]
  push_cast
  rw [show ((m : ℝ) - -(m + 1)) / 1 = ((2 * m + 1 : ℕ) : ℝ) by push_cast; ring, Int.ceil_natCast, Int.toNat_natCast]

/-- C108 (violated): for every odd extent and step 1, one site placed exactly at the reference point does
not give the identity filter but a delay by one grid step `dx/V`; its true response is 1. -/
theorem C108_violated_odd (m : ℕ) (hm : 1 ≤ m) (V : ℝ) (hV : V ≠ 0) :
    ∃ plant xs out, get1dPlant [0] 0 none "square" 1 (2 * m + 1) = .ok (plant, xs) ∧ camfilter plant xs V = .ok out ∧
      (∀ p ∈ out, response plant xs V p.1 = 1 ∧ p.2 = some (Complex.exp (-(2 * Real.pi * p.1 * 1 / V : ℝ) * Complex.I))) ∧
      ∃ p ∈ out, ∀ z, p.2 = some z → z.im ≠ 0 := by
  have h0 : (-(m + 1 : ℝ)) + ((m + 1 : ℕ) : ℝ) * 1 = 0 := by push_cast; ring
  have hp := delta_plant one_pos (xVec_odd m) h0
  have hf := delta_filter (V := V) (j0 := m + 1) one_pos hV (by omega) (by omega) (xVec_odd m) h0
  rw [hp] at hf
  refine ⟨_, _, _, hp, hf, ?_, ?_⟩
  · intro p hp
    obtain ⟨k, -, rfl⟩ := List.mem_map.1 hp
    refine ⟨delta_response (by omega) h0, ?_⟩
    simp only [Option.some.injEq]
    have hN : (2 * (m : ℝ) + 1) ≠ 0 := by positivity
    rcases lt_or_gt_of_ne hV with h | h
    · rw [abs_of_neg h, Complex.exp_eq_exp_iff_exists_int]
      refine ⟨binNumber (2 * m + 1) k, ?_⟩
      rw [show ((4 * Real.pi * ((binNumber (2 * m + 1) k : ℝ) * -V / (((2 * m + 1 : ℕ) : ℝ) * 1)) * (-(m + 1 : ℝ)) / V : ℝ)) =
        -(2 * Real.pi * ((binNumber (2 * m + 1) k : ℝ) * -V / (((2 * m + 1 : ℕ) : ℝ) * 1)) * 1 / V) + binNumber (2 * m + 1) k * (2 * Real.pi) by
          push_cast; field_simp; ring]
      push_cast; ring
    · rw [abs_of_pos h, Complex.exp_eq_exp_iff_exists_int]
      refine ⟨-binNumber (2 * m + 1) k, ?_⟩
      rw [show ((4 * Real.pi * ((binNumber (2 * m + 1) k : ℝ) * V / (((2 * m + 1 : ℕ) : ℝ) * 1)) * (-(m + 1 : ℝ)) / V : ℝ)) =
        -(2 * Real.pi * ((binNumber (2 * m + 1) k : ℝ) * V / (((2 * m + 1 : ℕ) : ℝ) * 1)) * 1 / V) - binNumber (2 * m + 1) k * (2 * Real.pi) by
          push_cast; field_simp; ring]
      push_cast; ring
  · refine ⟨_, List.mem_map.2 ⟨1, List.mem_range.2 (by omega), rfl⟩, ?_⟩
    intro z hz
    simp only [Option.some.injEq] at hz
    have hb : binNumber (2 * m + 1) 1 = 1 := by unfold binNumber; rw [if_pos (by omega)]; rfl
    rw [← hz, hb, Complex.exp_ofReal_mul_I_im]
    have hN : (0 : ℝ) < 2 * (m : ℝ) + 1 := by positivity
    have hm' : (1 : ℝ) ≤ m := by exact_mod_cast hm
    have hpos : 0 < Real.sin (2 * Real.pi / (2 * m + 1)) := by
      apply Real.sin_pos_of_pos_of_lt_pi (by positivity)
      rw [div_lt_iff₀ hN]
      nlinarith [Real.pi_pos]
    rcases lt_or_gt_of_ne hV with h | h
    · rw [abs_of_neg h, show ((4 * Real.pi * (((1 : ℤ) : ℝ) * -V / (((2 * m + 1 : ℕ) : ℝ) * 1)) * (-(m + 1 : ℝ)) / V : ℝ)) =
        2 * Real.pi / (2 * m + 1) + 2 * Real.pi by push_cast; field_simp; ring, Real.sin_add_two_pi]
      exact hpos.ne'
    · rw [abs_of_pos h, show ((4 * Real.pi * (((1 : ℤ) : ℝ) * V / (((2 * m + 1 : ℕ) : ℝ) * 1)) * (-(m + 1 : ℝ)) / V : ℝ)) =
        -(2 * Real.pi / (2 * m + 1)) - 2 * Real.pi by push_cast; field_simp; ring, Real.sin_sub_two_pi, Real.sin_neg]
      exact (neg_neg_of_pos hpos).ne

example : ([0, 1, 1, 0] : List ℝ).length = 4 ∧ ([0, 1, 1, 0] : List ℝ).sum ≠ 0 := by norm_num

/-! ## C50 -/

/-- C50 (partial: for the coordinates `-N dx/2, …, N dx/2 - dx`): a profile that is symmetric about x = 0
gives a real filter. -/
theorem C50_symmetric_partial (plant : List ℝ) (N : ℕ) (hl : plant.length = N) (hN : 2 ≤ N) (dx V : ℝ) (hdx : 0 < dx) (hV : V ≠ 0)
    (hs : plant.sum ≠ 0)
    (hsym : ∀ (i j : ℕ) (x y : ℝ), (centredGrid N dx)[i]? = some x → (centredGrid N dx)[j]? = some y → x = -y → plant[i]? = plant[j]?) :
    ∃ out, camfilter plant (centredGrid N dx) V = .ok out ∧ ∀ p ∈ out, ∃ z, p.2 = some z ∧ z.im = 0 := by
  have hget : ∀ j, j < N → (centredGrid N dx)[j]? = some (-((N : ℝ) * dx / 2) + j * dx) := by
    intro j hj
    unfold centredGrid
    rw [List.getElem?_map, List.getElem?_range hj]; rfl
  have hsym' : ∀ j, 0 < j → j < N → at0 plant (N - j) = at0 plant j := by
    intro j h0 hj
    have := hsym (N - j) j _ _ (hget _ (by omega)) (hget j hj) (by push_cast [Nat.cast_sub hj.le]; ring)
    rw [at0_of_lt (by omega), at0_of_lt (by omega)]
    rw [List.getElem?_eq_getElem (by omega), List.getElem?_eq_getElem (by omega)] at this
    exact Option.some.inj this
  have hconj : ∀ b : ℤ, (starRingEnd ℂ) (plantSpec plant b) = plantSpec plant b := by
    intro b
    rw [← plantSpec_neg]
    unfold plantSpec
    rw [hl]
    apply Finset.sum_nbij' (fun j => if j = 0 then 0 else N - j) (fun j => if j = 0 then 0 else N - j)
    · intro j hj; rw [Finset.mem_range] at *; split_ifs <;> omega
    · intro j hj; rw [Finset.mem_range] at *; split_ifs <;> omega
    · intro j hj; rw [Finset.mem_range] at *; split_ifs <;> omega
    · intro j hj; rw [Finset.mem_range] at *; split_ifs <;> omega
    · intro j hj
      rw [Finset.mem_range] at hj
      by_cases h : j = 0
      · subst h; simp
      · rw [if_neg h, hsym' j (by omega) hj]
        congr 1
        apply twiddle_period _ (by omega)
        push_cast [Nat.cast_sub hj.le]
        rw [show (j : ℤ) * -b - ((N : ℤ) - j) * b = N * -b by ring]
        exact dvd_mul_right _ _
  rw [centredGrid_eq, camfilter_grid hl hN hdx hV hs]
  refine ⟨_, rfl, ?_⟩
  intro p hp
  obtain ⟨k, -, rfl⟩ := List.mem_map.1 hp
  refine ⟨_, rfl, ?_⟩
  have hN0 : (N : ℝ) ≠ 0 := by positivity
  have hg : (starRingEnd ℂ) (gridSpec plant (-((N : ℝ) * dx / 2)) dx (binNumber N k)) = gridSpec plant (-((N : ℝ) * dx / 2)) dx (binNumber N k) := by
    unfold gridSpec
    rw [map_mul, hconj, conj_exp_I, hl]
    congr 1
    rw [show (2 * Real.pi * (binNumber N k : ℝ) * -((N : ℝ) * dx / 2) / (N * dx) : ℝ) = -(Real.pi * (binNumber N k : ℝ)) by field_simp]
    rw [Complex.exp_eq_exp_iff_exists_int]
    exact ⟨binNumber N k, by push_cast; ring⟩
  split_ifs
  · exact Complex.conj_eq_iff_im.1 hg
  · rw [hg]; exact Complex.conj_eq_iff_im.1 hg

/-- C50 (violated): for odd extents the profile of one site at the reference is symmetric about x = 0, but the
filter is not real. -/
theorem C50_violated_odd (m : ℕ) (hm : 1 ≤ m) (V : ℝ) (hV : V ≠ 0) :
    ∃ plant xs out, get1dPlant [0] 0 none "square" 1 (2 * m + 1) = .ok (plant, xs) ∧ camfilter plant xs V = .ok out ∧
      (∀ (i j : ℕ) (x y : ℝ), xs[i]? = some x → xs[j]? = some y → x = -y → plant[i]? = plant[j]?) ∧
      ∃ p ∈ out, ∀ z, p.2 = some z → z.im ≠ 0 := by
  obtain ⟨plant, xs, out, h1, h2, -, h4⟩ := C108_violated_odd m hm V hV
  refine ⟨plant, xs, out, h1, h2, ?_, h4⟩
  have h0 : (-(m + 1 : ℝ)) + ((m + 1 : ℕ) : ℝ) * 1 = 0 := by push_cast; ring
  have hp := delta_plant one_pos (xVec_odd m) h0
  rw [hp] at h1
  obtain ⟨rfl, rfl⟩ := Prod.mk.inj (Except.ok.inj h1)
  intro i j x y hi hj hxy
  unfold grid at hi hj
  rw [List.getElem?_map, Option.map_eq_some_iff] at hi hj
  obtain ⟨i', hi, rfl⟩ := hi
  obtain ⟨j', hj, rfl⟩ := hj
  obtain ⟨hi1, rfl⟩ := List.getElem?_eq_some_iff.1 hi
  obtain ⟨hj1, rfl⟩ := List.getElem?_eq_some_iff.1 hj
  simp only [List.getElem_range, List.length_range] at *
  rw [List.getElem?_map, List.getElem?_map, hi, hj]
  simp only [Option.map_some, Option.some.injEq]
  have : (i : ℝ) + j = 2 * m + 2 := by linarith
  have : i + j = 2 * m + 2 := by exact_mod_cast this
  congr 1
  simp only [eq_iff_iff]
  omega

example : ∀ (i j : ℕ) (x y : ℝ), (centredGrid 2 1)[i]? = some x → (centredGrid 2 1)[j]? = some y → x = -y →
    ([0, 1] : List ℝ)[i]? = ([0, 1] : List ℝ)[j]? := by
  intro i j x y hi hj h
  have e : centredGrid 2 1 = [-1, 0] := by simp [centredGrid, List.range_succ]
  rw [e] at hi hj
  match i, j with
  | 0, 0 => rfl
  | 1, 1 => rfl
  | 0, 1 => simp at hi hj; subst hi hj; norm_num at h
  | 1, 0 => simp at hi hj; subst hi hj; norm_num at h
  | i + 2, _ => simp at hi
  | 0, j + 2 => simp at hj
  | 1, j + 2 => simp at hj

/-! ## C110 -/

/-- C110: moving all sites and the reference by the same vector changes nothing. -/
theorem C110_translation (es ns : List ℝ) (speed a b : ℝ) (dir ref : ℝ × ℝ) (width : Option ℝ) (shape : String) (dx xmax : ℝ) :
    getCamfilter (es.map fun (e : ℝ) => e + a) (ns.map fun (n : ℝ) => n + b) speed dir (ref.1 + a, ref.2 + b) width shape dx xmax =
      getCamfilter es ns speed dir ref width shape dx xmax := by
  unfold getCamfilter
  have : computeVectors (es.map fun (e : ℝ) => e + a) (ns.map fun (n : ℝ) => n + b) (ref.1 + a, ref.2 + b) [] = computeVectors es ns ref [] := by
    unfold computeVectors
    rw [List.zip_map, List.map_map]
    apply List.map_congr_left
    intro p _
    simp
  rw [this]
  simp only [List.map_eq_nil_iff]

/-- C110: only the direction of `cloud_dir` counts. -/
theorem C110_direction (es ns : List ℝ) (speed : ℝ) (dir ref : ℝ × ℝ) (k : ℝ) (hk : 0 < k) (width : Option ℝ) (shape : String) (dx xmax : ℝ) :
    getCamfilter es ns speed (k * dir.1, k * dir.2) ref width shape dx xmax = getCamfilter es ns speed dir ref width shape dx xmax := by
  unfold getCamfilter
  rw [(C10_direction_only _ dir k hk).1]

example := C110_direction [0, 10] [5, 0] 7 (3, 4) (0, 0) 5 (by norm_num) (some 2) "square" 1 100

/-- C110: moving sites perpendicularly to the cloud direction, each by its own amount, changes nothing. -/
theorem C110_perpendicular (sites : List (ℝ × ℝ × ℝ)) (speed : ℝ) (dir ref : ℝ × ℝ) (width : Option ℝ) (shape : String) (dx xmax : ℝ) :
    getCamfilter (sites.map fun s => s.1 - s.2.2 * dir.2) (sites.map fun s => s.2.1 + s.2.2 * dir.1) speed dir ref width shape dx xmax =
      getCamfilter (sites.map fun s => s.1) (sites.map fun s => s.2.1) speed dir ref width shape dx xmax := by
  unfold getCamfilter
  have : projectVectors (computeVectors (sites.map fun s => s.1 - s.2.2 * dir.2) (sites.map fun s => s.2.1 + s.2.2 * dir.1) ref []) dir =
      projectVectors (computeVectors (sites.map fun s => s.1) (sites.map fun s => s.2.1) ref []) dir := by
    unfold projectVectors computeVectors unit
    rw [List.zip_map', List.zip_map', List.map_map, List.map_map, List.map_map, List.map_map]
    apply List.map_congr_left
    intro s _
    by_cases h : magnitude dir = 0
    · simp [h]
    · simp only [Function.comp_apply, if_neg h, Option.map_some, Option.some.injEq]
      ring
  rw [this]
  simp only [List.map_eq_nil_iff]

/-- C110: the order of the sites does not matter (square and gaussian sites). -/
theorem C110_order (sites sites' : List (ℝ × ℝ)) (hp : sites.Perm sites') (speed : ℝ) (dir ref : ℝ × ℝ) (width : Option ℝ) (shape : String)
    (hs : shape.toLower = "square" ∨ shape.toLower = "gaussian") (dx xmax : ℝ) (hdx : 0 < dx) :
    getCamfilter (sites.map Prod.fst) (sites.map Prod.snd) speed dir ref width shape dx xmax =
      getCamfilter (sites'.map Prod.fst) (sites'.map Prod.snd) speed dir ref width shape dx xmax := by
  unfold getCamfilter
  have hperm : (projectVectors (computeVectors (sites.map Prod.fst) (sites.map Prod.snd) ref []) dir).Perm
      (projectVectors (computeVectors (sites'.map Prod.fst) (sites'.map Prod.snd) ref []) dir) := by
    unfold projectVectors computeVectors
    rw [List.zip_map', List.zip_map']
    exact ((hp.map _).map _).map _
  simp only
  rw [Props.Filters.C48_order _ _ (hperm.filterMap id) 0 width shape hs dx xmax hdx]
  have hm : (none ∈ projectVectors (computeVectors (sites.map Prod.fst) (sites.map Prod.snd) ref []) dir) =
      (none ∈ projectVectors (computeVectors (sites'.map Prod.fst) (sites'.map Prod.snd) ref []) dir) :=
    propext hperm.mem_iff
  have hnil : sites = [] ↔ sites' = [] := ⟨fun h => by subst h; exact hp.nil_eq.symm, fun h => by subst h; exact hp.eq_nil⟩
  simp only [List.map_eq_nil_iff, hnil]
  congr 2
  funext p
  congr 1
  funext r
  by_cases h : shape.toLower = "gaussian" ∧ none ∈ projectVectors (computeVectors (sites'.map Prod.fst) (sites'.map Prod.snd) ref []) dir
  · rw [if_pos h, if_pos (hm ▸ h)]
  · rw [if_neg h, if_neg (hm ▸ h)]

example := C110_order [(0, 5), (10, 0)] [(10, 0), (0, 5)] (List.Perm.swap _ _ _) 7 (3, 4) (0, 0) (some 2) "Gaussian" (Or.inr (by decide +kernel)) 1 100 one_pos

/-- C110: with the zero vector as cloud direction every value of the filter is NaN (at least one site, valid shape,
grid of at least two points). -/
theorem C110_zero_direction (e n : ℝ) (es ns : List ℝ) (speed : ℝ) (ref : ℝ × ℝ) (width : Option ℝ) (shape : String)
    (hs : shape.toLower = "square" ∨ shape.toLower = "triangle" ∨ shape.toLower = "gaussian") (dx xmax : ℝ) (hg : 2 ≤ (xVec xmax dx).length) :
    ∃ out, getCamfilter (e :: es) (n :: ns) speed (0, 0) ref width shape dx xmax = .ok out ∧ ∀ p ∈ out, p.2 = none := by
  unfold getCamfilter
  have h0 : projectVectors (computeVectors (e :: es) (n :: ns) ref []) (0, 0) = (computeVectors (e :: es) (n :: ns) ref []).map fun _ => none :=
    C10_zero_direction _
  simp only
  rw [h0]
  have hf : ((computeVectors (e :: es) (n :: ns) ref []).map fun _ => (none : Option ℝ)).filterMap id = [] := by
    rw [List.filterMap_map]; simp
  rw [hf]
  have hpl : get1dPlant [] 0 width shape dx xmax = .ok ((xVec xmax dx).map fun _ => (0 : ℝ), xVec xmax dx) := by
    unfold get1dPlant
    simp only [List.map_nil, List.foldl_nil]
    by_cases h1 : shape.toLower = "square"
    · rw [if_pos h1]
    · rw [if_neg h1]
      by_cases h2 : shape.toLower = "triangle"
      · rw [if_pos h2]
      · rw [if_neg h2, if_pos (by tauto)]
  rw [hpl]
  show ∃ out, Except.map _ (camfilter _ _ _) = _ ∧ _
  rw [camfilter_eq hg]
  have hz : ((xVec xmax dx).map fun _ => (0 : ℝ)).sum = 0 := by simp
  refine ⟨_, rfl, ?_⟩
  intro p hp
  split_ifs at hp
  · obtain ⟨q, -, rfl⟩ := List.mem_map.1 hp
    rfl
  · obtain ⟨q, -, rfl⟩ := List.mem_map.1 hp
    simp only [hz, if_true]

/-- C110: one site at the reference point, on an even extent `2M` divided into an even number of steps: the filter is
1 at every frequency. -/
theorem C110_identity (M : ℤ) (K : ℕ) (hK : 1 ≤ K) (dx V : ℝ) (hdx : 0 < dx) (hV : V ≠ 0) (h : (M : ℝ) = K * dx) (e n : ℝ) (dir : ℝ × ℝ) (hd : dir ≠ 0) :
    ∃ out, getCamfilter [e] [n] V dir (e, n) none "square" dx (2 * M) = .ok out ∧ out.length = 2 * K ∧ ∀ p ∈ out, p.2 = some 1 := by
  have hproj : projectVectors (computeVectors [e] [n] (e, n) []) dir = [some 0] := by
    have hm : magnitude dir ≠ 0 := (magnitude_pos hd).ne'
    simp [projectVectors, computeVectors, unit, hm]
  have hx : xVec (2 * M) dx = grid (2 * K) (-(((2 * K : ℕ) : ℝ) * dx / 2)) dx :=
    xVec_centred M (2 * K) dx hdx (by push_cast; rw [h]; ring)
  have h0 : -(((2 * K : ℕ) : ℝ) * dx / 2) + (K : ℝ) * dx = 0 := by push_cast; ring
  have hf := delta_filter hdx hV (by omega) (by omega) hx h0
  have hsh : ¬ (("square" : String).toLower = "gaussian" ∧ (none : Option ℝ) ∈ [some (0 : ℝ)]) := by simp
  have hget : getCamfilter [e] [n] V dir (e, n) none "square" dx (2 * M) =
      (get1dPlant [0] 0 none "square" dx (2 * M)).bind (fun p => camfilter p.1 p.2 V) := by
    unfold getCamfilter
    rw [if_neg (by simp)]
    simp only
    rw [hproj]
    have : ([some (0 : ℝ)] : List (Option ℝ)).filterMap id = [0] := rfl
    rw [this]
    congr 1
    funext p
    simp only [if_neg hsh]
    cases camfilter p.1 p.2 V <;> rfl
  rw [hget, hf]
  refine ⟨_, rfl, by simp, ?_⟩
  intro p hp
  obtain ⟨k, -, rfl⟩ := List.mem_map.1 hp
  simp only [Option.some.injEq]
  have hK0 : (K : ℝ) ≠ 0 := by positivity
  rw [Complex.exp_eq_one_iff]
  rcases lt_or_gt_of_ne hV with h | h
  · refine ⟨binNumber (2 * K) k, ?_⟩
    rw [abs_of_neg h, show (4 * Real.pi * ((binNumber (2 * K) k : ℝ) * -V / (((2 * K : ℕ) : ℝ) * dx)) * -(((2 * K : ℕ) : ℝ) * dx / 2) / V : ℝ) =
      binNumber (2 * K) k * (2 * Real.pi) by push_cast; field_simp; ring]
    push_cast; ring
  · refine ⟨-binNumber (2 * K) k, ?_⟩
    rw [abs_of_pos h, show (4 * Real.pi * ((binNumber (2 * K) k : ℝ) * V / (((2 * K : ℕ) : ℝ) * dx)) * -(((2 * K : ℕ) : ℝ) * dx / 2) / V : ℝ) =
      -(binNumber (2 * K) k * (2 * Real.pi)) by push_cast; field_simp; ring]
    push_cast; ring

example : ((10 : ℤ) : ℝ) = (10 : ℕ) * (1 : ℝ) ∧ ((1, 0) : ℝ × ℝ) ≠ 0 := by constructor <;> norm_num

example := C110_zero_direction 0 5 [10] [0] 7 (0, 0) (some 2) "triangle" (Or.inr (Or.inl (by decide +kernel))) 1 20 (by
  have h1 : ⌊(-20 : ℝ) / 2⌋ = -10 := by norm_num
  have h2 : ⌊(20 : ℝ) / 2⌋ = 10 := by norm_num
  have h3 : ⌈(((10 : ℤ) : ℝ) - ((-10 : ℤ) : ℝ)) / 1⌉ = 20 := by norm_num
  unfold xVec arange
  rw [List.length_map, List.length_range, h1, h2, h3]
  norm_num)

example := C110_identity 10 10 (by norm_num) 1 7 one_pos (by norm_num) (by norm_num) 3 4 (3, 4) (by norm_num)

end SST.Props.Cam
