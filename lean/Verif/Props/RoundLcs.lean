import Verif.Model.RoundLcs
import Verif.Props.RoundScore
import Verif.Props.RoundIndex

/-!
# Property C277: local coordinates from UTM with rounding
-/

namespace SST.Round
open SST SST.Spatial

variable {u : ℝ} {A : Arith}

/-- C277: the origin has the coordinates (0, 0) exactly, with any rounding, projection and zone. -/
theorem C277_origin (h : FloatLike u A) (P : Projector) (olat olon : ℝ) (zone : Option ℤ) : latlon2lcsF A P olat olon olat olon zone = (0, 0) := by
  have z : A.fl 0 = 0 := by
    have := h.rounds 0
    rw [abs_zero, mul_zero, sub_zero] at this
    exact abs_eq_zero.mp (le_antisymm this (abs_nonneg _))
  unfold latlon2lcsF
  simp only [sub_self, z]

private theorem diff_bound (h : FloatLike u A) {p q p' q' η : ℝ} (hp : |p' - p| ≤ η) (hq : |q' - q| ≤ η) : |A.fl (p' - q') - (p - q)| ≤ 2 * η + u * (|p - q| + 2 * η) := by
  have h0 := u_nonneg h.rounds
  have a := h.rounds (p' - q')
  have b : |(p' - q') - (p - q)| ≤ 2 * η := by
    have := abs_sub (p' - p) (q' - q)
    calc _ = |(p' - p) - (q' - q)| := by ring_nf
      _ ≤ _ := by linarith
  have c : |p' - q'| ≤ |p - q| + 2 * η := by linarith [abs_sub_abs_le_abs_sub (p' - q') (p - q)]
  have d := mul_le_mul_of_nonneg_left c h0
  have e := abs_sub_le (A.fl (p' - q')) (p' - q') (p - q)
  linarith

/-- C277: if the projection is good to `η` at the place and at the origin, the local coordinates are right to within `2 η` and one rounding of themselves: they do
not inherit the size of the UTM coordinates. -/
theorem C277_error (h : FloatLike u A) (P P0 : Projector) (lat lon olat olon : ℝ) (z : ℤ) {η : ℝ}
    (hp : |(P.fwd z (decide (lat < 0)) lon lat).1 - (P0.fwd z (decide (lat < 0)) lon lat).1| ≤ η ∧ |(P.fwd z (decide (lat < 0)) lon lat).2 - (P0.fwd z (decide (lat < 0)) lon lat).2| ≤ η)
    (ho : |(P.fwd z (decide (olat < 0)) olon olat).1 - (P0.fwd z (decide (olat < 0)) olon olat).1| ≤ η ∧ |(P.fwd z (decide (olat < 0)) olon olat).2 - (P0.fwd z (decide (olat < 0)) olon olat).2| ≤ η) :
    |(latlon2lcsF A P lat lon olat olon (some z)).1 - (latlon2lcs P0 lat lon olat olon (some z)).1| ≤ 2 * η + u * (|(latlon2lcs P0 lat lon olat olon (some z)).1| + 2 * η) ∧
    |(latlon2lcsF A P lat lon olat olon (some z)).2 - (latlon2lcs P0 lat lon olat olon (some z)).2| ≤ 2 * η + u * (|(latlon2lcs P0 lat lon olat olon (some z)).2| + 2 * η) :=
  ⟨diff_bound h hp.1 ho.1, diff_bound h hp.2 ho.2⟩

private theorem back_bound (h : FloatLike u A) (hu : u ≤ 1 / 2) {e o M : ℝ} (he : |e| ≤ M) (ho : |o| ≤ M) : |A.fl (o + A.fl (e - o)) - e| ≤ 4 * u * M := by
  have h0 := u_nonneg h.rounds
  have M0 := (abs_nonneg _).trans he
  have a := h.rounds (e - o)
  have b := h.rounds (o + A.fl (e - o))
  have c : |e - o| ≤ 2 * M := (abs_sub e o).trans (by linarith)
  have a' : |A.fl (e - o) - (e - o)| ≤ u * (2 * M) := a.trans (mul_le_mul_of_nonneg_left c h0)
  have d : |o + A.fl (e - o) - e| ≤ u * (2 * M) := by
    calc _ = |A.fl (e - o) - (e - o)| := by ring_nf
      _ ≤ _ := a'
  have f : |o + A.fl (e - o)| ≤ 2 * M := by
    have := abs_sub_abs_le_abs_sub (o + A.fl (e - o)) e
    nlinarith [mul_le_mul_of_nonneg_right hu M0]
  have b' := b.trans (mul_le_mul_of_nonneg_left f h0)
  have g := abs_sub_le (A.fl (o + A.fl (e - o))) (o + A.fl (e - o)) e
  linarith

/-- C277: places of the zone and hemisphere of the origin come back from their local coordinates as the inverse projection of a point at most `4 u M` away from their
own projection, `M` the largest UTM coordinate (`4.5e-9` m for float64 and `M` = 10000 km). -/
theorem C277_round_trip (h : FloatLike u A) (hu : u ≤ 1 / 2) (P : Projector) (lat lon olat olon : ℝ) (hz : calcZoneF A lon = calcZoneF A olon) (hs : lat < 0 ↔ olat < 0) {M : ℝ}
    (hp : |(latlon2utm1F A P lat lon none).1| ≤ M ∧ |(latlon2utm1F A P lat lon none).2.1| ≤ M) (ho : |(latlon2utm1F A P olat olon none).1| ≤ M ∧ |(latlon2utm1F A P olat olon none).2.1| ≤ M) :
    ∃ e n, |e - (P.fwd (calcZoneF A lon) (decide (lat < 0)) lon lat).1| ≤ 4 * u * M ∧ |n - (P.fwd (calcZoneF A lon) (decide (lat < 0)) lon lat).2| ≤ 4 * u * M ∧
      lcs2latlonF A P (latlon2lcsF A P lat lon olat olon none).1 (latlon2lcsF A P lat lon olat olon none).2 olat olon none =
        ((P.inv (calcZoneF A lon) (decide (lat < 0)) e n).2, (P.inv (calcZoneF A lon) (decide (lat < 0)) e n).1) := by
  refine ⟨_, _, back_bound h hu hp.1 ho.1, back_bound h hu hp.2 ho.2, ?_⟩
  have hs' : decide (lat < 0) = decide (olat < 0) := by simp only [hs]
  unfold lcs2latlonF latlon2lcsF utm2latlon1
  simp only [latlon2utm1F, Option.getD_none, hz, hs']

/-- A projection for the examples: degrees to metres with one factor. -/
noncomputable def plate : Projector where
  fwd _ _ lon lat := (111000 * lon, 111000 * lat)
  inv _ _ e n := (e / 111000, n / 111000)

/-- The hypotheses of C277 hold for two places in zone 32 with 53 digits and a projection that is off by 1 mm. -/
example : FloatLike (2 ^ (-53 : ℤ)) ⟨round53, sum53⟩ ∧ calcZoneF ⟨round53, sum53⟩ 7.5 = calcZoneF ⟨round53, sum53⟩ 7.5 ∧ ((50.25 : ℝ) < 0 ↔ (50 : ℝ) < 0) ∧
    |(latlon2utm1F ⟨round53, sum53⟩ plate 50.25 7.5 none).1| ≤ 1e7 ∧ |(latlon2utm1F ⟨round53, sum53⟩ plate 50.25 7.5 none).2.1| ≤ 1e7 ∧
    |(plate.fwd 32 (decide ((50.25 : ℝ) < 0)) 7.5 50.25).1 - ((plate.fwd 32 (decide ((50.25 : ℝ) < 0)) 7.5 50.25).1 + 0.001)| ≤ 0.001 := by
  refine ⟨float53, rfl, by norm_num, ?_, ?_, ?_⟩
  · simp only [latlon2utm1F, plate]; rw [abs_of_pos] <;> norm_num
  · simp only [latlon2utm1F, plate]; rw [abs_of_pos] <;> norm_num
  · rw [sub_add_cancel_left, abs_neg, abs_of_pos] <;> norm_num

end SST.Round
