import Verif.Props.Spatial

/-!
# Property C265: longitudes that differ by a full turn
-/

namespace SST.Spatial
open SST

/-- C265 (the part that holds): with `zone` given and a projection that knows full turns, longitudes that differ by a full turn have the same
coordinates; and of the zones found from the longitude the last one does not change.  Missing: all other zones (`C265_violated_east`, `C265_violated_west`). -/
theorem C265_given_zone_partial (P : Projector) (hP : ∀ z s lon lat, P.fwd z s (lon + 360) lat = P.fwd z s lon lat) (lat lon : ℝ) (z : ℤ) :
    latlon2utm (ι := ℕ) P (.scalar lat) (.scalar (lon + 360)) (some z) = latlon2utm P (.scalar lat) (.scalar lon) (some z) ∧
    (174 ≤ lon → lon < 180 → latlon2utm (ι := ℕ) P (.scalar lat) (.scalar (lon + 360)) none = latlon2utm P (.scalar lat) (.scalar lon) none) := by
  constructor
  · simp only [latlon2utm, Arg.vals?, latlon2utm1, Option.getD_some, hP]
  · intro h1 h2
    have e : ∀ x : ℝ, 174 ≤ x → calcZone x = 60 := by
      intro x hx
      unfold calcZone
      rw [pyInt_of_nonneg (by linarith)]
      exact min_eq_right (Int.le_floor.2 (by push_cast; linarith))
    simp only [latlon2utm, Arg.vals?, latlon2utm1, Option.getD_none, hP, e lon h1, e (lon + 360) (by linarith)]

/-- C265 fails for longitudes from 0 to 360: everything from 180 on is put into zone 60, whichever zone `z < 60` the place is in. -/
theorem C265_violated_east (P : Projector) (lat lon : ℝ) (h1 : -180 ≤ lon) (h2 : lon < 174) :
    ∃ z : ℤ, z < 60 ∧ (∃ a b, latlon2utm (ι := ℕ) P (.scalar lat) (.scalar lon) none = .ok (.one (a, b, z))) ∧
      ∃ a b, latlon2utm (ι := ℕ) P (.scalar lat) (.scalar (lon + 360)) none = .ok (.one (a, b, 60)) := by
  obtain ⟨z, -, z60, hz, -, e⟩ := C01_zone_is_band P lat lon h1 (by linarith)
  refine ⟨z, ?_, ⟨_, _, e⟩, (P.fwd 60 (lat < 0) (lon + 360) lat).1, (P.fwd 60 (lat < 0) (lon + 360) lat).2, ?_⟩
  · refine lt_of_le_of_ne z60 fun h => ?_
    rw [h] at hz
    push_cast at hz
    linarith
  · have e : calcZone (lon + 360) = 60 := by
      unfold calcZone
      rw [pyInt_of_nonneg (by linarith)]
      exact min_eq_right (Int.le_floor.2 (by push_cast; linarith))
    simp only [latlon2utm, Arg.vals?, latlon2utm1, Option.getD_none, e]

/-- C265 fails for longitudes below -180: the number found is 0 or negative, which is no zone. -/
theorem C265_violated_west (P : Projector) (lat lon : ℝ) (h : lon < -180) :
    ∃ z : ℤ, z ≤ 0 ∧ ∃ a b, latlon2utm (ι := ℕ) P (.scalar lat) (.scalar lon) none = .ok (.one (a, b, z)) := by
  refine ⟨calcZone lon, ?_, _, _, rfl⟩
  unfold calcZone
  refine (min_le_left _ _).trans ?_
  unfold pyInt
  split_ifs with h0
  · have : ⌊(lon - -180) / 6 + 1⌋ < 1 := by rw [Int.floor_lt]; push_cast; linarith
    omega
  · exact Int.ceil_le.2 (by push_cast; linarith)

/-- 170 degrees west is 190 degrees east: zone 2 and zone 60. -/
example (P : Projector) : ∃ z : ℤ, z < 60 ∧ (∃ a b, latlon2utm (ι := ℕ) P (.scalar 52) (.scalar (-170)) none = .ok (.one (a, b, z))) ∧
      ∃ a b, latlon2utm (ι := ℕ) P (.scalar 52) (.scalar (-170 + 360)) none = .ok (.one (a, b, 60)) :=
  C265_violated_east P 52 (-170) (by norm_num) (by norm_num)

/-- A projection that knows full turns. -/
example : ∃ P : Projector, (∀ z s lon lat, P.fwd z s (lon + 360) lat = P.fwd z s lon lat) ∧ P.fwd 32 false 10 50 ≠ P.fwd 32 false 11 50 := by
  refine ⟨⟨fun _ _ lon lat => (lon - 360 * ⌊lon / 360⌋, lat), fun _ _ e n => (e, n)⟩, ?_, ?_⟩
  · intro z s lon lat
    have : (lon + 360) / 360 = lon / 360 + 1 := by ring
    simp only [this, Int.floor_add_one]
    push_cast
    ring_nf
  · have a : ⌊(10 : ℝ) / 360⌋ = 0 := by rw [Int.floor_eq_iff]; norm_num
    have b : ⌊(11 : ℝ) / 360⌋ = 0 := by rw [Int.floor_eq_iff]; norm_num
    simp only [a, b]
    norm_num

end SST.Spatial
