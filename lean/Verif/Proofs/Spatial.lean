import Verif.Model.Spatial
import Verif.Spec.Geom

/-! Helper lemmas for `Verif.Props.Spatial`. -/

namespace SST.Spatial
open SST SST.Spec

theorem pdist_eq_norm (p q : Vec) : pdist p q = ‖(⟨p.1, p.2⟩ : ℂ) - ⟨q.1, q.2⟩‖ := by
  unfold pdist
  rw [Complex.norm_def, Complex.normSq_apply]
  congr 1
  simp only [Complex.sub_re, Complex.sub_im]
  ring

theorem pdist_triangle (p q r : Vec) : pdist p r ≤ pdist p q + pdist q r := by
  simp only [pdist_eq_norm]
  have := norm_add_le ((⟨p.1, p.2⟩ : ℂ) - ⟨q.1, q.2⟩) ((⟨q.1, q.2⟩ : ℂ) - ⟨r.1, r.2⟩)
  simpa using this

theorem pdist_comm (p q : Vec) : pdist p q = pdist q p := by
  unfold pdist; congr 1; ring

theorem pdist_self (p : Vec) : pdist p p = 0 := by simp [pdist]

theorem pdist_nonneg (p q : Vec) : 0 ≤ pdist p q := Real.sqrt_nonneg _

theorem magnitude_nonneg (v : Vec) : 0 ≤ magnitude v := Real.sqrt_nonneg _

theorem magnitude_sq (v : Vec) : magnitude v ^ 2 = v.1 ^ 2 + v.2 ^ 2 :=
  Real.sq_sqrt (by positivity)

theorem magnitude_eq_zero {v : Vec} : magnitude v = 0 ↔ v = 0 := by
  constructor
  · intro h
    have h2 := magnitude_sq v
    rw [h] at h2
    have h1 : v.1 = 0 := by nlinarith [sq_nonneg v.1, sq_nonneg v.2]
    have h3 : v.2 = 0 := by nlinarith [sq_nonneg v.1, sq_nonneg v.2]
    exact Prod.ext h1 h3
  · rintro rfl; simp [magnitude]

theorem magnitude_pos {v : Vec} (h : v ≠ 0) : 0 < magnitude v :=
  lt_of_le_of_ne (magnitude_nonneg v) (fun h' => h (magnitude_eq_zero.1 h'.symm))

theorem pyInt_of_nonneg {x : ℝ} (h : 0 ≤ x) : pyInt x = ⌊x⌋ := by simp [pyInt, h]

theorem flattenF_getElem? (rows cols : ℕ) (M : ℕ → ℕ → ℝ) (i a : ℕ) (ha : a < rows) (hi : i < cols) :
    (flattenF rows cols M)[i * rows + a]? = some (M a i) := by
  have hr : 0 < rows := by omega
  have hlt : i * rows + a < rows * cols := by
    calc i * rows + a < i * rows + rows := by omega
      _ = (i + 1) * rows := by ring
      _ ≤ cols * rows := Nat.mul_le_mul_right _ hi
      _ = rows * cols := by ring
  have h1 : (i * rows + a) % rows = a := by
    rw [Nat.mul_comm, Nat.mul_add_mod, Nat.mod_eq_of_lt ha]
  have h2 : (i * rows + a) / rows = i := by
    rw [Nat.mul_comm, Nat.mul_add_div hr, Nat.div_eq_of_lt ha, Nat.add_zero]
  simp [flattenF, hlt, h1, h2]

theorem flattenF_length (rows cols : ℕ) (M : ℕ → ℕ → ℝ) : (flattenF rows cols M).length = rows * cols := by
  simp [flattenF]

theorem pairDist_entry (xf yf : List ℝ) (r c : ℕ) (xr xc yr yc : ℝ)
    (hxr : xf[r]? = some xr) (hxc : xf[c]? = some xc) (hyr : yf[r]? = some yr) (hyc : yf[c]? = some yc) :
    entry (pairDist xf yf) r c = some (pdist (xr, yr) (xc, yc)) := by
  simp [entry, pairDist, List.getElem?_zip_eq_some, pdist, List.zip, List.getElem?_zipWith, hxr, hxc, hyr, hyc]

theorem pairDist_square (xf yf : List ℝ) (h : xf.length = yf.length) :
    IsSquare (pairDist xf yf) xf.length := by
  constructor
  · simp [pairDist, h]
  · intro row hrow
    simp only [pairDist, List.mem_map] at hrow
    obtain ⟨p, _, rfl⟩ := hrow
    simp [h]

/-- every index below `m*n` decomposes -/
theorem index_decomp {m n r : ℕ} (h : r < n * m) : ∃ i a, i < n ∧ a < m ∧ r = i * m + a := by
  have hm : 0 < m := by
    rcases Nat.eq_zero_or_pos m with h0 | h0
    · subst h0; simp at h
    · exact h0
  refine ⟨r / m, r % m, ?_, Nat.mod_lt _ hm, ?_⟩
  · exact Nat.div_lt_of_lt_mul (by rwa [Nat.mul_comm] at h)
  · rw [Nat.mul_comm]; exact (Nat.div_add_mod r m).symm

theorem spacetime_main (x y times : List ℝ) (cs cd : ℝ) (hxy : x.length = y.length) (ht : times ≠ []) :
    ∃ D, spacetimeDistances x y times cs cd = .ok D ∧ IsSquare D (x.length * times.length) ∧
      ∀ (i j a b : ℕ) (hi : i < x.length) (hj : j < x.length) (ha : a < times.length) (hb : b < times.length),
        entry D (i * times.length + a) (j * times.length + b) =
          some (pdist (driftPos cs cd x[i] (y[i]'(hxy ▸ hi)) times[a])
                      (driftPos cs cd x[j] (y[j]'(hxy ▸ hj)) times[b])) := by
  obtain ⟨t0, ts, rfl⟩ := List.exists_cons_of_ne_nil ht
  have hy := hxy
  refine ⟨_, by simp only [spacetimeDistances, hxy, ne_eq, not_true_eq_false, if_false]; rfl, ?_, ?_⟩
  · have := pairDist_square
      (flattenF (t0 :: ts).length y.length (fun a i => x.getD i 0 -
        (((t0 :: ts).map fun t => t - t0).map fun d => cs * d * Real.cos cd).getD a 0))
      (flattenF (t0 :: ts).length y.length (fun a i => y.getD i 0 -
        (((t0 :: ts).map fun t => t - t0).map fun d => cs * d * Real.sin cd).getD a 0))
      (by simp only [flattenF_length])
    rw [flattenF_length] at this
    rw [hxy, Nat.mul_comm y.length]
    exact this
  · intro i j a b hi hj ha hb
    have hi' : i < y.length := hxy ▸ hi
    have hj' : j < y.length := hxy ▸ hj
    rw [pairDist_entry _ _ _ _ _ _ _ _
      (flattenF_getElem? _ _ _ i a ha hi') (flattenF_getElem? _ _ _ j b hb hj')
      (flattenF_getElem? _ _ _ i a ha hi') (flattenF_getElem? _ _ _ j b hb hj')]
    congr 1
    simp only [List.getD_eq_getElem?_getD, List.getElem?_map, List.getElem?_eq_getElem hi,
      List.getElem?_eq_getElem hj, List.getElem?_eq_getElem hi', List.getElem?_eq_getElem hj',
      List.getElem?_eq_getElem ha, List.getElem?_eq_getElem hb, Option.map_some, Option.getD_some]
    simp only [pdist, driftPos]
    congr 1
    ring

theorem pdist_eq_zero {p q : Vec} : pdist p q = 0 ↔ p = q := by
  rw [pdist_eq_norm, norm_eq_zero, sub_eq_zero]
  constructor
  · intro h
    exact Prod.ext (congrArg Complex.re h) (congrArg Complex.im h)
  · rintro rfl; rfl

theorem entry_ext {n : ℕ} {D D' : List (List ℝ)} (h : IsSquare D n) (h' : IsSquare D' n)
    (he : ∀ r c, r < n → c < n → entry D r c = entry D' r c) : D = D' := by
  apply List.ext_getElem (h.1.trans h'.1.symm)
  intro r hr hr'
  have hrn : r < n := h.1 ▸ hr
  have l1 := h.2 _ (List.getElem_mem hr)
  have l2 := h'.2 _ (List.getElem_mem hr')
  apply List.ext_getElem (l1.trans l2.symm)
  intro c hc hc'
  have := he r c hrn (l1 ▸ hc)
  simpa [entry, hr, hr', hc, hc'] using this

theorem spacetime_ext (x y times x' y' times' : List ℝ) (cs cd cs' cd' : ℝ)
    (hxy : x.length = y.length) (hxy' : x'.length = y'.length) (ht : times ≠ []) (ht' : times' ≠ [])
    (hx : x.length = x'.length) (htt : times.length = times'.length)
    (he : ∀ (i j a b : ℕ) (hi : i < x.length) (hj : j < x.length) (ha : a < times.length) (hb : b < times.length),
      pdist (driftPos cs cd x[i] (y[i]'(hxy ▸ hi)) times[a]) (driftPos cs cd x[j] (y[j]'(hxy ▸ hj)) times[b]) =
      pdist (driftPos cs' cd' (x'[i]'(hx ▸ hi)) (y'[i]'(hxy' ▸ hx ▸ hi)) (times'[a]'(htt ▸ ha)))
        (driftPos cs' cd' (x'[j]'(hx ▸ hj)) (y'[j]'(hxy' ▸ hx ▸ hj)) (times'[b]'(htt ▸ hb)))) :
    spacetimeDistances x y times cs cd = spacetimeDistances x' y' times' cs' cd' := by
  obtain ⟨D, hD, hsq, hent⟩ := spacetime_main x y times cs cd hxy ht
  obtain ⟨D', hD', hsq', hent'⟩ := spacetime_main x' y' times' cs' cd' hxy' ht'
  rw [hD, hD']
  congr 1
  rw [← hx, ← htt] at hsq'
  apply entry_ext hsq hsq'
  intro r c hr hc
  obtain ⟨i, a, hi, ha, rfl⟩ := index_decomp hr
  obtain ⟨j, b, hj, hb, rfl⟩ := index_decomp hc
  have e' := hent' i j a b (hx ▸ hi) (hx ▸ hj) (htt ▸ ha) (htt ▸ hb)
  rw [hent i j a b hi hj ha hb, he i j a b hi hj ha hb, ← e', htt]

theorem primeDen_pos (s : ℝ) : 0 < 1 - (2 * flattening - flattening ^ 2) * Real.sin s ^ 2 := by
  have hf : (2 * flattening - flattening ^ 2) ≤ 1 / 100 := by
    unfold flattening; norm_num
  have hf0 : 0 ≤ (2 * flattening - flattening ^ 2) := by unfold flattening; norm_num
  have h1 := Real.sin_sq_le_one s
  have h2 := sq_nonneg (Real.sin s)
  nlinarith

theorem primeRadius_pos (s : ℝ) : 0 < primeRadius s := by
  unfold primeRadius rEarth
  have := Real.sqrt_pos.2 (primeDen_pos s)
  positivity

theorem meridRadius_pos (s : ℝ) : 0 < meridRadius s := by
  unfold meridRadius
  have h1 := primeRadius_pos s
  have h2 := primeDen_pos s
  have h3 : 0 < 1 - (2 * flattening - flattening ^ 2) := by unfold flattening; norm_num
  positivity

theorem meridRadius_le (s : ℝ) : meridRadius s ≤ primeRadius s := by
  unfold meridRadius
  have h1 := primeRadius_pos s
  have h2 := primeDen_pos s
  have hf0 : 0 ≤ (2 * flattening - flattening ^ 2) := by unfold flattening; norm_num
  have h4 := Real.sin_sq_le_one s
  have : (1 - (2 * flattening - flattening ^ 2)) /
    (1 - (2 * flattening - flattening ^ 2) * Real.sin s ^ 2) ≤ 1 := by
    rw [div_le_one h2]; nlinarith
  nlinarith

end SST.Spatial
