import Verif.Model.RoundSpacetime
import Verif.Props.RoundPolar
import Verif.Props.RoundScore
import Verif.Props.Spatial

/-!
# Property C274: space-time distances with rounding
-/

namespace SST.Round
open SST SST.Spec SST.Spatial

section
variable {u : ℝ} {A : Arith}

theorem pairDistF_entry (xf yf : List ℝ) (r c : ℕ) (xr xc yr yc : ℝ)
    (hxr : xf[r]? = some xr) (hxc : xf[c]? = some xc) (hyr : yf[r]? = some yr) (hyc : yf[c]? = some yc) :
    entry (pairDistF A xf yf) r c = some (magnitudeF A (A.fl (xr - xc), A.fl (yr - yc))) := by
  simp [entry, pairDistF, magnitudeF, List.zip, List.getElem?_zipWith, hxr, hxc, hyr, hyc]

theorem pairDistF_square (xf yf : List ℝ) (h : xf.length = yf.length) : IsSquare (pairDistF A xf yf) xf.length := by
  constructor
  · simp [pairDistF, h]
  · intro row hrow
    simp only [pairDistF, List.mem_map] at hrow
    obtain ⟨p, _, rfl⟩ := hrow
    simp [h]

/-- A coordinate in the frame moving with the clouds, with rounding. -/
noncomputable def movingF (A : Arith) (c cs x d : ℝ) : ℝ := A.fl (x - A.fl (A.fl (cs * A.fl d) * c))

theorem spacetimeF_main (cn sn : ℝ → ℝ) (x y times : List ℝ) (cs cd : ℝ) (hxy : x.length = y.length) (ht : times ≠ []) :
    ∃ D, spacetimeDistancesF A cn sn x y times cs cd = .ok D ∧ IsSquare D (x.length * times.length) ∧
      ∀ (i j a b : ℕ) (hi : i < x.length) (hj : j < x.length) (ha : a < times.length) (hb : b < times.length),
        entry D (i * times.length + a) (j * times.length + b) =
          some (magnitudeF A (A.fl (movingF A (cn cd) cs x[i] (times[a] - times.head ht) - movingF A (cn cd) cs x[j] (times[b] - times.head ht)),
            A.fl (movingF A (sn cd) cs (y[i]'(hxy ▸ hi)) (times[a] - times.head ht) - movingF A (sn cd) cs (y[j]'(hxy ▸ hj)) (times[b] - times.head ht)))) := by
  obtain ⟨t0, ts, rfl⟩ := List.exists_cons_of_ne_nil ht
  refine ⟨_, by simp only [spacetimeDistancesF, hxy, ne_eq, not_true_eq_false, if_false]; rfl, ?_, ?_⟩
  · have := pairDistF_square (A := A)
      (flattenF (t0 :: ts).length y.length (fun a i => A.fl (x.getD i 0 -
        (((t0 :: ts).map fun t => A.fl (t - t0)).map fun d => A.fl (A.fl (cs * d) * cn cd)).getD a 0)))
      (flattenF (t0 :: ts).length y.length (fun a i => A.fl (y.getD i 0 -
        (((t0 :: ts).map fun t => A.fl (t - t0)).map fun d => A.fl (A.fl (cs * d) * sn cd)).getD a 0)))
      (by simp only [flattenF_length])
    rw [flattenF_length] at this
    rw [hxy, Nat.mul_comm y.length]
    exact this
  · intro i j a b hi hj ha hb
    have hi' : i < y.length := hxy ▸ hi
    have hj' : j < y.length := hxy ▸ hj
    rw [pairDistF_entry _ _ _ _ _ _ _ _
      (flattenF_getElem? _ _ _ i a ha hi') (flattenF_getElem? _ _ _ j b hb hj')
      (flattenF_getElem? _ _ _ i a ha hi') (flattenF_getElem? _ _ _ j b hb hj')]
    simp only [List.getD_eq_getElem?_getD, List.getElem?_map, List.getElem?_eq_getElem hi,
      List.getElem?_eq_getElem hj, List.getElem?_eq_getElem hi', List.getElem?_eq_getElem hj',
      List.getElem?_eq_getElem ha, List.getElem?_eq_getElem hb, Option.map_some, Option.getD_some, movingF, List.head_cons]

private theorem fl_zero (h : RoundsTo u A.fl) : A.fl 0 = 0 := by
  have := h 0
  rw [abs_zero, mul_zero, sub_zero] at this
  exact abs_eq_zero.mp (le_antisymm this (abs_nonneg _))

/-- C274: with any rounding that treats both signs alike, the matrix is symmetric, has zeros on the diagonal and no negative entries, exactly. -/
theorem C274_symmetric (h : FloatLike u A) (hodd : ∀ x, A.fl (-x) = -A.fl x) (cn sn : ℝ → ℝ) (x y times : List ℝ) (cs cd : ℝ) (D : List (List ℝ))
    (hD : spacetimeDistancesF A cn sn x y times cs cd = .ok D) (r s : ℕ) (hr : r < x.length * times.length) (hs : s < x.length * times.length) :
    ∃ d : ℝ, entry D r s = some d ∧ entry D s r = some d ∧ entry D r r = some 0 ∧ 0 ≤ d := by
  have hne : times ≠ [] := by rintro rfl; simp [spacetimeDistancesF] at hD
  have hxy : x.length = y.length := by
    by_contra h
    obtain ⟨t0, ts, rfl⟩ := List.exists_cons_of_ne_nil hne
    simp [spacetimeDistancesF, h] at hD
  obtain ⟨D', hD', _, hent⟩ := spacetimeF_main (A := A) cn sn x y times cs cd hxy hne
  rw [hD] at hD'; cases hD'
  obtain ⟨i, a, hi, ha, rfl⟩ := index_decomp hr
  obtain ⟨j, b, hj, hb, rfl⟩ := index_decomp hs
  refine ⟨_, hent i j a b hi hj ha hb, ?_, ?_, (C260_magnitude h _).nonneg h.lt_one (Real.sqrt_nonneg _)⟩
  · rw [hent j i b a hj hi hb ha]
    have sw : ∀ p q : ℝ, A.fl (p - q) = -A.fl (q - p) := fun p q => by rw [← hodd, neg_sub]
    rw [sw (movingF A (cn cd) cs x[j] _), sw (movingF A (sn cd) cs y[j] _)]
    unfold magnitudeF
    simp only [neg_sq]
  · rw [hent i i a a hi hi ha ha, sub_self, sub_self, fl_zero h.rounds]
    unfold magnitudeF
    simp [fl_zero h.rounds]

private theorem moving_abs (h : FloatLike u A) (hu : u ≤ 1.2e-16) {c c' cs x d R L : ℝ} (hc : |c| ≤ 1) (hc' : |c' - c| ≤ 1e-15) (hx : |x| ≤ R) (hd : |cs * d| ≤ L) :
    Abs (1.6e-15 * (R + L)) (x - cs * d * c) (movingF A c' cs x d) := by
  have R0 := (abs_nonneg _).trans hx
  have L0 := (abs_nonneg _).trans hd
  have h0 := u_nonneg h.rounds
  have a1 : Abs (1.2e-16 * L) (cs * d) (cs * A.fl d) := by
    have := h.rounds d
    unfold Abs
    rw [← mul_sub, abs_mul]
    calc |cs| * |A.fl d - d| ≤ |cs| * (u * |d|) := mul_le_mul_of_nonneg_left this (abs_nonneg _)
      _ = u * |cs * d| := by rw [abs_mul]; ring
      _ ≤ 1.2e-16 * L := mul_le_mul hu hd (abs_nonneg _) (by norm_num)
  have a2 : Abs (2.5e-16 * L) (cs * d) (A.fl (cs * A.fl d)) := a1.rnd h.rounds hu hd (by linarith)
  have a3 : Abs (1.3e-15 * L) (cs * d * c) (A.fl (cs * A.fl d) * c') := a2.mul (b := 1e-15) hc' hd hc (by linarith)
  have s3 : |cs * d * c| ≤ L := by
    rw [abs_mul]
    calc _ ≤ L * 1 := mul_le_mul hd hc (abs_nonneg _) L0
      _ = L := mul_one L
  have a4 : Abs (1.45e-15 * L) (cs * d * c) (A.fl (A.fl (cs * A.fl d) * c')) := a3.rnd h.rounds hu s3 (by linarith)
  have a5 : Abs (1.45e-15 * L) (x - cs * d * c) (x - A.fl (A.fl (cs * A.fl d) * c')) := (Abs.exact x).sub a4 (by linarith)
  have s5 : |x - cs * d * c| ≤ R + L := (abs_sub _ _).trans (add_le_add hx s3)
  exact a5.rnd h.rounds hu s5 (by linarith)

private theorem magnitude_lip (a b c d : ℝ) : |magnitude (a, b) - magnitude (c, d)| ≤ |a - c| + |b - d| := by
  have n : ∀ p q : ℝ, magnitude (p, q) = ‖(⟨p, q⟩ : ℂ)‖ := by
    intro p q
    unfold magnitude
    rw [Complex.norm_def, Complex.normSq_mk]
    congr 1
    ring
  rw [n, n]
  refine (abs_norm_sub_norm_le _ _).trans ?_
  exact Complex.norm_le_abs_re_add_abs_im _

/-- C274: every entry is right to within 1e-14 times the size of the layout and the distance the clouds travel. -/
theorem C274_entries (h : FloatLike u A) (hu : u ≤ 1.2e-16) (cn sn : ℝ → ℝ) (x y times : List ℝ) (cs cd : ℝ) (hc : |cn cd - Real.cos cd| ≤ 1e-15) (hs : |sn cd - Real.sin cd| ≤ 1e-15)
    (hxy : x.length = y.length) (ht : times ≠ []) {R L : ℝ} (hx : ∀ p ∈ x, |p| ≤ R) (hy : ∀ p ∈ y, |p| ≤ R) (hL : ∀ t ∈ times, |cs * (t - times.head ht)| ≤ L) :
    ∃ D, spacetimeDistancesF A cn sn x y times cs cd = .ok D ∧ IsSquare D (x.length * times.length) ∧
      ∀ (i j a b : ℕ) (hi : i < x.length) (hj : j < x.length) (ha : a < times.length) (hb : b < times.length),
        ∃ d, entry D (i * times.length + a) (j * times.length + b) = some d ∧
          |d - pdist (driftPos cs cd x[i] (y[i]'(hxy ▸ hi)) times[a]) (driftPos cs cd x[j] (y[j]'(hxy ▸ hj)) times[b])| ≤ 1e-14 * (R + L) := by
  obtain ⟨D, hD, hsq, hent⟩ := spacetimeF_main (A := A) cn sn x y times cs cd hxy ht
  refine ⟨D, hD, hsq, fun i j a b hi hj ha hb => ⟨_, hent i j a b hi hj ha hb, ?_⟩⟩
  have xi := hx _ (List.getElem_mem hi)
  have xj := hx _ (List.getElem_mem hj)
  have yi := hy _ (List.getElem_mem (hxy ▸ hi : i < y.length))
  have yj := hy _ (List.getElem_mem (hxy ▸ hj : j < y.length))
  have ta := hL _ (List.getElem_mem ha)
  have tb := hL _ (List.getElem_mem hb)
  have S0 : 0 ≤ R + L := add_nonneg ((abs_nonneg _).trans xi) ((abs_nonneg _).trans ta)
  have diff : ∀ {c c' p q : ℝ}, |c| ≤ 1 → |c' - c| ≤ 1e-15 → |p| ≤ R → |q| ≤ R →
      Abs (3.5e-15 * (R + L)) ((p - cs * (times[a] - times.head ht) * c) - (q - cs * (times[b] - times.head ht) * c))
        (A.fl (movingF A c' cs p (times[a] - times.head ht) - movingF A c' cs q (times[b] - times.head ht))) ∧
      |(p - cs * (times[a] - times.head ht) * c) - (q - cs * (times[b] - times.head ht) * c)| ≤ 2 * (R + L) := by
    intro c c' p q h1 h2 h3 h4
    have m1 := moving_abs h hu h1 h2 h3 ta
    have m2 := moving_abs h hu h1 h2 h4 tb
    have sz : ∀ {w d : ℝ}, |w| ≤ R → |cs * d| ≤ L → |w - cs * d * c| ≤ R + L := by
      intro w d hw hd
      refine (abs_sub _ _).trans (add_le_add hw ?_)
      rw [abs_mul]
      calc _ ≤ L * 1 := mul_le_mul hd h1 (abs_nonneg _) ((abs_nonneg _).trans hd)
        _ = L := mul_one L
    have s : |(p - cs * (times[a] - times.head ht) * c) - (q - cs * (times[b] - times.head ht) * c)| ≤ 2 * (R + L) := by
      have := abs_sub (p - cs * (times[a] - times.head ht) * c) (q - cs * (times[b] - times.head ht) * c)
      linarith [sz h3 ta, sz h4 tb]
    exact ⟨(m1.sub m2 (c := 3.2e-15 * (R + L)) (by linarith)).rnd h.rounds hu s (by linarith), s⟩
  obtain ⟨dx, sx⟩ := diff (Real.abs_cos_le_one cd) hc xi xj
  obtain ⟨dy, sy⟩ := diff (Real.abs_sin_le_one cd) hs yi yj
  have ex : pdist (driftPos cs cd x[i] (y[i]'(hxy ▸ hi)) times[a]) (driftPos cs cd x[j] (y[j]'(hxy ▸ hj)) times[b]) =
      magnitude ((x[i] - cs * (times[a] - times.head ht) * Real.cos cd) - (x[j] - cs * (times[b] - times.head ht) * Real.cos cd),
        (y[i]'(hxy ▸ hi) - cs * (times[a] - times.head ht) * Real.sin cd) - (y[j]'(hxy ▸ hj) - cs * (times[b] - times.head ht) * Real.sin cd)) := by
    simp only [pdist, driftPos, magnitude]
    congr 1
    ring
  rw [ex]
  generalize (x[i] - cs * (times[a] - times.head ht) * Real.cos cd) - (x[j] - cs * (times[b] - times.head ht) * Real.cos cd) = p at *
  generalize (y[i]'(hxy ▸ hi) - cs * (times[a] - times.head ht) * Real.sin cd) - (y[j]'(hxy ▸ hj) - cs * (times[b] - times.head ht) * Real.sin cd) = q at *
  generalize A.fl (movingF A (cn cd) cs x[i] (times[a] - times.head ht) - movingF A (cn cd) cs x[j] (times[b] - times.head ht)) = p' at *
  generalize A.fl (movingF A (sn cd) cs (y[i]'(hxy ▸ hi)) (times[a] - times.head ht) - movingF A (sn cd) cs (y[j]'(hxy ▸ hj)) (times[b] - times.head ht)) = q' at *
  have g1 := magnitude_lip p' q' p q
  have g0 : magnitude (p, q) ≤ 4 * (R + L) := by
    have := magnitude_lip p q 0 0
    have z : magnitude ((0 : ℝ), (0 : ℝ)) = 0 := by simp [magnitude]
    rw [z, sub_zero, sub_zero, sub_zero] at this
    have := (abs_le.mp this).2
    linarith
  have g2 := mag_abs h hu (p', q')
  unfold Abs at dx dy g2
  rw [abs_le] at g1
  have g3 : magnitude (p', q') ≤ 4.1 * (R + L) := by linarith [g1.2]
  rw [abs_le] at g2 ⊢
  constructor <;> linarith [g1.1, g1.2, g2.1, g2.2]
end

/-! ## Rounding to nearest treats both signs alike -/

theorem nearestEven_neg (z : ℝ) : nearestEven (-z) = -nearestEven z := by
  by_cases hz : z - ⌊z⌋ = 1 / 2
  · have f : ⌊-z⌋ = -⌊z⌋ - 1 := by
      rw [Int.floor_eq_iff]; push_cast; constructor <;> linarith
    unfold nearestEven
    rw [if_pos hz, f, if_pos (by push_cast; linarith)]
    by_cases he : Even ⌊z⌋
    · rw [if_pos he, if_neg]
      · ring
      · rw [Int.not_even_iff_odd]; exact (he.neg).sub_odd odd_one
    · rw [if_neg he, if_pos]
      · ring
      · rw [Int.not_even_iff_odd] at he; exact (he.neg).sub_odd odd_one
  · have h1 := abs_sub_round z
    have ne : nearestEven z = round z := by unfold nearestEven; rw [if_neg hz]
    rw [ne]
    have lt : |z - round z| < 1 / 2 := by
      refine lt_of_le_of_ne h1 fun e => hz ?_
      have fz := Int.floor_le z
      have fl := Int.lt_floor_add_one z
      rcases abs_cases (z - round z) with ⟨a, b⟩ | ⟨a, b⟩
      · have : ⌊z⌋ = round z := by rw [Int.floor_eq_iff]; constructor <;> linarith
        rw [this]; linarith
      · have : ⌊z⌋ = round z - 1 := by rw [Int.floor_eq_iff]; push_cast; constructor <;> linarith
        rw [this]; push_cast; linarith
    have := nearestEven_near (z := -z) (n := -round z) (by push_cast; rw [← abs_neg]; convert lt using 2; ring)
    exact this

theorem even53_neg (x : ℝ) : even53 (-x) = -even53 x := by
  unfold even53
  rw [abs_neg, neg_div, nearestEven_neg]
  push_cast
  ring

/-- The hypotheses of C274 hold for float64, three sites within 450 m and half a minute of clouds moving at 12.5 m/s to the northeast. -/
example : FloatLike (2 ^ (-53 : ℤ)) ⟨even53, sumEven⟩ ∧ (2 : ℝ) ^ (-53 : ℤ) ≤ 1.2e-16 ∧ (∀ x, even53 (-x) = -even53 x) ∧
    ∃ D, spacetimeDistancesF ⟨even53, sumEven⟩ Real.cos Real.sin [0, 450, 0] [0, 0, 450] [0, 15, 30] 12.5 0.8 = .ok D ∧ IsSquare D 9 := by
  refine ⟨floatEven, by norm_num, even53_neg, ?_⟩
  obtain ⟨D, h1, h2, -⟩ := C274_entries floatEven (by norm_num) Real.cos Real.sin [0, 450, 0] [0, 0, 450] [0, 15, 30] 12.5 0.8 (by norm_num) (by norm_num) rfl (by simp) (R := 450) (L := 375)
    (by simp) (by simp) (by norm_num)
  exact ⟨D, h1, h2⟩

end SST.Round
