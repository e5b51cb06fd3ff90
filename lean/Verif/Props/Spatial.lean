import Verif.Proofs.Spatial

/-!
# Properties C01–C14: `spatial.py`
-/

namespace SST.Spatial
open SST SST.Spec

/-! ## C01 -/

/-- C01: with no zone given, the zone used (and returned) by the scalar conversion is the
6-degree band that contains the longitude; the projection is evaluated in that zone and in the
hemisphere of the latitude. -/
theorem C01_zone_is_band (P : Projector) (lat lon : ℝ) (h1 : -180 ≤ lon) (h2 : lon < 180) :
    ∃ z : ℤ, 1 ≤ z ∧ z ≤ 60 ∧ -180 + 6 * ((z : ℝ) - 1) ≤ lon ∧ lon < -180 + 6 * (z : ℝ) ∧
      latlon2utm (ι := ℕ) P (.scalar lat) (.scalar lon) none =
        .ok (.one ((P.fwd z (lat < 0) lon lat).1, (P.fwd z (lat < 0) lon lat).2, z)) := by
  have hx : (0 : ℝ) ≤ (lon - (-180)) / 6 + 1 := by
    have : (0 : ℝ) ≤ (lon - (-180)) / 6 := by apply div_nonneg <;> linarith
    linarith
  have hfl : ⌊(lon - (-180)) / 6 + 1⌋ = ⌊(lon - (-180)) / 6⌋ + 1 := Int.floor_add_one _
  have hle := Int.floor_le ((lon - (-180)) / 6)
  have hlt := Int.lt_floor_add_one ((lon - (-180)) / 6)
  have h60 : ⌊(lon - (-180)) / 6⌋ < 60 := by
    rw [Int.floor_lt]; push_cast; linarith
  have h0 : 0 ≤ ⌊(lon - (-180)) / 6⌋ := by
    apply Int.floor_nonneg.2; linarith
  have hz : calcZone lon = ⌊(lon - (-180)) / 6⌋ + 1 := by
    unfold calcZone
    rw [pyInt_of_nonneg hx, hfl, min_eq_left (by omega)]
  refine ⟨⌊(lon - (-180)) / 6⌋ + 1, by omega, by omega, ?_, ?_, ?_⟩
  · push_cast; linarith
  · push_cast; linarith
  · simp only [latlon2utm, Arg.vals?, latlon2utm1, hz, Option.getD_none]

/-- Munich. -/
example (P : Projector) := C01_zone_is_band P 48.1 11.5 (by norm_num) (by norm_num)

example : ((-180 : ℝ) ≤ 12.5) ∧ (12.5 : ℝ) < 180 := by norm_num

/-- C01: longitude 180 is in the last zone. -/
theorem C01_zone_at_180 : calcZone 180 = 60 := by
  have h : ((180 : ℝ) - (-180)) / 6 + 1 = ((61 : ℤ) : ℝ) := by norm_num
  unfold calcZone
  rw [h, pyInt_of_nonneg (by norm_num), Int.floor_intCast]
  rfl

/-- C01: the zone number is monotone in longitude (over all of ℝ, also outside the valid range). -/
theorem C01_zone_mono (a b : ℝ) (h : a ≤ b) : calcZone a ≤ calcZone b := by
  have key : ∀ x y : ℝ, x ≤ y → pyInt x ≤ pyInt y := by
    intro x y hxy
    unfold pyInt
    split_ifs with h1 h2 h2
    · exact Int.floor_mono hxy
    · exact absurd (h1.trans hxy) h2
    · have hx0 : ⌈x⌉ ≤ 0 := Int.ceil_le.2 (by push_cast; linarith)
      have hy0 : 0 ≤ ⌊y⌋ := Int.floor_nonneg.2 h2
      omega
    · exact Int.ceil_mono hxy
  unfold calcZone
  exact min_le_min_right _ (key _ _ (by linarith))

example : calcZone 8 ≤ calcZone 20 := C01_zone_mono 8 20 (by norm_num)

example : calcZone (-180) = 1 := by
  have h : ((-180 : ℝ) - (-180)) / 6 + 1 = ((1 : ℤ) : ℝ) := by norm_num
  unfold calcZone
  rw [h, pyInt_of_nonneg (by norm_num), Int.floor_intCast]; rfl

/-! ## C02 -/

/-- C02: the array form is row by row the scalar form, in order; each row has its own zone and
hemisphere. -/
theorem C02_array_is_elementwise {ι : Type*} (P : Projector) (lats lons : List ℝ) (zone : Option ℤ)
    (h : lats.length = lons.length) :
    ∃ rows, latlon2utm (ι := ι) P (.arr lats) (.arr lons) zone = .ok (.rows rows) ∧
      rows.length = lats.length ∧
      ∀ (i : ℕ) (hi : i < lats.length) (r : ℝ × ℝ × ℤ), rows[i]? = some r →
        latlon2utm (ι := ι) P (.scalar lats[i]) (.scalar (lons[i]'(h ▸ hi))) zone = .ok (.one r) := by
  refine ⟨_, by simp only [latlon2utm, Arg.vals?, h, if_true]; rfl, by simp [h], ?_⟩
  intro i hi r hr
  have hi' : i < lons.length := h ▸ hi
  simp [List.getElem?_eq_getElem hi, List.getElem?_eq_getElem hi',
    List.zip, List.getElem?_zipWith] at hr
  simp [latlon2utm, Arg.vals?, hr]

example (P : Projector) := C02_array_is_elementwise (ι := ℕ) P [48.1, -33.9] [11.5, 151.2] none rfl

/-- C02: the pandas form has the same rows and carries the index of `lat`, whatever the kind of the
(equally long) `lon` argument. -/
theorem C02_series_same_rows {ι : Type*} (P : Projector) (idx : List ι) (lats : List ℝ)
    (lon : Arg ι) (lons : List ℝ) (zone : Option ℤ) (h0 : lats ≠ [])
    (hi : idx.length = lats.length) (hl : lon.vals? = some lons) (h : lats.length = lons.length) :
    ∃ rows, latlon2utm (ι := ι) P (.arr lats) (.arr lons) zone = .ok (.rows rows) ∧
      latlon2utm P (.series (idx.zip lats)) lon zone = .ok (.frame (idx.zip rows)) := by
  refine ⟨_, by simp only [latlon2utm, Arg.vals?, h, if_true]; rfl, ?_⟩
  have h1 : (idx.zip lats).map Prod.fst = idx := List.map_fst_zip (by omega)
  have h2 : (idx.zip lats).map Prod.snd = lats := List.map_snd_zip (by omega)
  have h3 : idx.zip lats ≠ [] := by intro e; rw [e] at h2; exact h0 h2.symm
  cases lon <;> simp_all [latlon2utm, Arg.vals?]

example (P : Projector) := C02_series_same_rows P ["Munich", "Sydney"] [48.1, -33.9] (.arr [11.5, 151.2]) [11.5, 151.2] none (by simp) rfl rfl rfl

/-- C02: an empty Series is the exception: a `ValueError` instead of an empty frame, although the empty array gives an empty array. -/
theorem C02_empty {ι : Type*} (P : Projector) (zone : Option ℤ) :
    latlon2utm (ι := ι) P (.arr []) (.arr []) zone = .ok (.rows []) ∧ Raises (latlon2utm (ι := ι) P (.series []) (.series []) zone) .valueError := by
  simp [Raises, latlon2utm, Arg.vals?]

/-- C02: different lengths are rejected with `ValueError`, in both directions of conversion. -/
theorem C02_length_mismatch {ι : Type*} (P : Projector) (a b : List ℝ) (zone : Option ℤ) (z : ℤ)
    (south : Bool) (h : a.length ≠ b.length) :
    Raises (latlon2utm (ι := ι) P (.arr a) (.arr b) zone) .valueError ∧
    Raises (utm2latlon (ι := ι) P (.arr a) (.arr b) z south) .valueError := by
  simp [Raises, latlon2utm, utm2latlon, Arg.vals?, h]

example (P : Projector) := C02_length_mismatch (ι := ℕ) P [48.1, -33.9] [11.5] none 32 false (by simp)

/-- C02: `utm2latlon` on arrays is row by row the scalar form with the common zone/hemisphere. -/
theorem C02_inverse_array_is_elementwise {ι : Type*} (P : Projector) (es ns : List ℝ) (zone : ℤ)
    (south : Bool) (h : es.length = ns.length) :
    ∃ rows, utm2latlon (ι := ι) P (.arr es) (.arr ns) zone south = .ok (.rows rows) ∧
      rows.length = es.length ∧
      ∀ (i : ℕ) (hi : i < es.length) (r : ℝ × ℝ), rows[i]? = some r →
        utm2latlon (ι := ι) P (.scalar es[i]) (.scalar (ns[i]'(h ▸ hi))) zone south = .ok (.one r) := by
  refine ⟨_, by simp only [utm2latlon, Arg.vals?, h, if_true]; rfl, by simp [h], ?_⟩
  intro i hi r hr
  have hi' : i < ns.length := h ▸ hi
  simp [List.getElem?_eq_getElem hi, List.getElem?_eq_getElem hi',
    List.zip, List.getElem?_zipWith] at hr
  simp [utm2latlon, Arg.vals?, hr]

example (P : Projector) := C02_inverse_array_is_elementwise (ι := ℕ) P [500000, 690000] [5300000, 5330000] 32 false rfl

example : ([48.1, -33.9] : List ℝ).length = ([11.5, 151.2] : List ℝ).length := rfl
example : ([48.1, -33.9] : List ℝ).length ≠ ([11.5] : List ℝ).length := by decide

/-! ## C03 -/

/-- The inverse law assumed of the external projection for one zone and hemisphere at one point. -/
def InvertsAt (P : Projector) (z : ℤ) (south : Bool) (lon lat : ℝ) : Prop :=
  P.inv z south (P.fwd z south lon lat).1 (P.fwd z south lon lat).2 = (lon, lat)

/-- C03: converting to UTM and back with the returned zone and the hemisphere of the latitude
returns the point, for every zone argument. -/
theorem C03_roundtrip (P : Projector) (lat lon : ℝ) (zone : Option ℤ)
    (hinv : ∀ z, InvertsAt P z (lat < 0) lon lat) :
    ∃ E N z, latlon2utm (ι := ℕ) P (.scalar lat) (.scalar lon) zone = .ok (.one (E, N, z)) ∧
      (∀ z', zone = some z' → z = z') ∧
      utm2latlon (ι := ℕ) P (.scalar E) (.scalar N) z (lat < 0) = .ok (.one (lat, lon)) := by
  refine ⟨_, _, _, by simp only [latlon2utm, Arg.vals?, latlon2utm1]; rfl, ?_, ?_⟩
  · rintro z' rfl; rfl
  · have := hinv (zone.getD (calcZone lon))
    unfold InvertsAt at this
    simp only [utm2latlon, Arg.vals?, utm2latlon1, this]

/-- C03, arrays: if all rows lie in one hemisphere and one zone is requested (or all rows have the
same own zone `z`), the round trip returns all rows in order. -/
theorem C03_roundtrip_array (P : Projector) (pts : List (ℝ × ℝ)) (z : ℤ) (south : Bool)
    (hinv : ∀ p ∈ pts, InvertsAt P z south p.2 p.1)
    (hs : ∀ p ∈ pts, (p.1 < 0 ↔ south = true))
    (zone : Option ℤ) (hz : zone = some z ∨ (zone = none ∧ ∀ p ∈ pts, calcZone p.2 = z)) :
    ∃ rows, latlon2utm (ι := ℕ) P (.arr (pts.map Prod.fst)) (.arr (pts.map Prod.snd)) zone
        = .ok (.rows rows) ∧
      (∀ r ∈ rows, r.2.2 = z) ∧
      utm2latlon (ι := ℕ) P (.arr (rows.map fun r => r.1)) (.arr (rows.map fun r => r.2.1)) z south
        = .ok (.rows pts) := by
  have hzip : (pts.map Prod.fst).zip (pts.map Prod.snd) = pts := by
    rw [List.zip_map']; simp
  have hzone : ∀ p ∈ pts, zone.getD (calcZone p.2) = z := by
    intro p hp
    rcases hz with rfl | ⟨rfl, hz⟩
    · rfl
    · exact hz p hp
  refine ⟨pts.map fun p => latlon2utm1 P p.1 p.2 zone, ?_, ?_, ?_⟩
  · simp only [latlon2utm, Arg.vals?, List.length_map, if_true, hzip]
  · intro r hr
    simp only [List.mem_map] at hr
    obtain ⟨p, hp, rfl⟩ := hr
    exact hzone p hp
  · simp only [utm2latlon, Arg.vals?, List.length_map, if_true, List.map_map]
    rw [List.zip_map', List.map_map]
    congr 2
    conv_rhs => rw [← List.map_id pts]
    apply List.map_congr_left
    intro p hp
    have h1 := hinv p hp
    have h2 : decide (p.1 < 0) = south := by
      rw [Bool.eq_iff_iff, decide_eq_true_iff]; exact hs p hp
    unfold InvertsAt at h1
    simp only [Function.comp, utm2latlon1, latlon2utm1, hzone p hp, h2, h1, id]

/-- A projection satisfying the inverse law everywhere (a shear depending on the zone and
hemisphere), used to show that the hypotheses above can be met and as a witness below. -/
noncomputable def shearProj : Projector where
  fwd z s lon lat := (lon - 6 * z, lat + (if s then 10 else 0))
  inv z s e n := (e + 6 * z, n - (if s then 10 else 0))

theorem shearProj_inverts (z : ℤ) (s : Bool) (lon lat : ℝ) : InvertsAt shearProj z s lon lat := by
  simp [InvertsAt, shearProj]

example : ∀ p ∈ ([(48.1, 11.5), (50, 7)] : List (ℝ × ℝ)), InvertsAt shearProj 32 false p.2 p.1 ∧
    (p.1 < 0 ↔ false = true) := by
  intro p hp
  refine ⟨shearProj_inverts _ _ _ _, ?_⟩
  fin_cases hp <;> norm_num

/-! ## C04, C05, C06 -/

/-- C04 (partial: the full claim is for every zone argument): with the zone left out, or given as
the zone of the origin, the LCS round trip returns the point, provided the target is projected in
the same zone and hemisphere as the origin. -/
theorem C04_lcs_roundtrip_partial (P : Projector) (lat lon olat olon : ℝ) (zone : Option ℤ)
    (hz : zone = none ∧ calcZone lon = calcZone olon ∨ zone = some (calcZone olon))
    (hs : lat < 0 ↔ olat < 0)
    (hinv : InvertsAt P (calcZone olon) (olat < 0) lon lat) :
    lcs2latlon P (latlon2lcs P lat lon olat olon zone).1 (latlon2lcs P lat lon olat olon zone).2
      olat olon zone = (lat, lon) := by
  unfold InvertsAt at hinv
  have hs' : decide (lat < 0) = decide (olat < 0) := by rw [decide_eq_decide]; exact hs
  rcases hz with ⟨rfl, hz⟩ | rfl <;>
    simp_all [lcs2latlon, latlon2lcs, latlon2utm1, utm2latlon1]

example : (∃ lat lon olat olon : ℝ, (calcZone lon = calcZone olon) ∧ (lat < 0 ↔ olat < 0) ∧
    lat ≠ olat ∧ lon ≠ olon) := by
  refine ⟨48, 9.5, 50, 8, ?_, by norm_num, by norm_num, by norm_num⟩
  have h1 : ⌊((9.5 : ℝ) - (-180)) / 6 + 1⌋ = 32 := by rw [Int.floor_eq_iff]; norm_num
  have h2 : ⌊((8 : ℝ) - (-180)) / 6 + 1⌋ = 32 := by rw [Int.floor_eq_iff]; norm_num
  unfold calcZone
  rw [pyInt_of_nonneg (by norm_num), pyInt_of_nonneg (by norm_num), h1, h2]

theorem calcZone_eight : calcZone 8 = 32 := by
  have h2 : ⌊((8 : ℝ) - (-180)) / 6 + 1⌋ = 32 := by rw [Int.floor_eq_iff]; norm_num
  unfold calcZone
  rw [pyInt_of_nonneg (by norm_num), h2]; rfl

theorem calcZone_thirteen : calcZone 13 = 33 := by
  have h2 : ⌊((13 : ℝ) - (-180)) / 6 + 1⌋ = 33 := by rw [Int.floor_eq_iff]; norm_num
  unfold calcZone
  rw [pyInt_of_nonneg (by norm_num), h2]; rfl

/-- C04 violated: there is a perfectly invertible projection, a point, an origin and an explicit
zone for which the round trip with the same zone on both sides does not return the point (the
origin itself does not even map back to itself). -/
theorem C04_violated_explicit_zone :
    ∃ (P : Projector) (lat lon : ℝ) (zone : ℤ), (∀ z s lo la, InvertsAt P z s lo la) ∧
      lcs2latlon P (latlon2lcs P lat lon lat lon (some zone)).1
        (latlon2lcs P lat lon lat lon (some zone)).2 lat lon (some zone) ≠ (lat, lon) := by
  refine ⟨shearProj, 50, 8, 33, shearProj_inverts, ?_⟩
  simp [lcs2latlon, latlon2lcs, latlon2utm1, utm2latlon1, shearProj, calcZone_eight]
  norm_num

/-- C04 violated without a zone as well: a target in the neighbouring zone does not come back. -/
theorem C04_violated_across_zones :
    ∃ (P : Projector) (lat lon olat olon : ℝ), (∀ z s lo la, InvertsAt P z s lo la) ∧
      lcs2latlon P (latlon2lcs P lat lon olat olon none).1
        (latlon2lcs P lat lon olat olon none).2 olat olon none ≠ (lat, lon) := by
  refine ⟨shearProj, 50, 13, 50, 8, shearProj_inverts, ?_⟩
  simp [lcs2latlon, latlon2lcs, latlon2utm1, utm2latlon1, shearProj, calcZone_eight,
    calcZone_thirteen]
  norm_num

/-- C05: the origin has local coordinates (0, 0), for every zone argument. -/
theorem C05_origin_is_zero (P : Projector) (olat olon : ℝ) (zone : Option ℤ) :
    latlon2lcs P olat olon olat olon zone = (0, 0) := by
  simp [latlon2lcs]

/-- C05: the difference of local coordinates of two points is their UTM difference and does not
depend on the origin. -/
theorem C05_origin_independent (P : Projector) (lat1 lon1 lat2 lon2 olat olon : ℝ) (zone : Option ℤ)
    (E1 N1 E2 N2 : ℝ) (z1 z2 : ℤ)
    (h1 : latlon2utm (ι := ℕ) P (.scalar lat1) (.scalar lon1) zone = .ok (.one (E1, N1, z1)))
    (h2 : latlon2utm (ι := ℕ) P (.scalar lat2) (.scalar lon2) zone = .ok (.one (E2, N2, z2))) :
    (latlon2lcs P lat1 lon1 olat olon zone).1 - (latlon2lcs P lat2 lon2 olat olon zone).1 = E1 - E2 ∧
    (latlon2lcs P lat1 lon1 olat olon zone).2 - (latlon2lcs P lat2 lon2 olat olon zone).2 = N1 - N2 := by
  simp only [latlon2utm, Arg.vals?, Except.ok.injEq, Out.one.injEq] at h1 h2
  simp only [latlon2lcs, h1, h2]
  constructor <;> ring

/-- The hypotheses of C05 hold in a concrete case: two points of zone 32 converted with that zone. -/
example : latlon2utm (ι := ℕ) shearProj (.scalar 48) (.scalar 9) (some 32) = .ok (.one (9 - 192, 48, 32)) ∧
    latlon2utm (ι := ℕ) shearProj (.scalar 50) (.scalar 8) (some 32) = .ok (.one (8 - 192, 50, 32)) := by
  constructor <;> simp [latlon2utm, Arg.vals?, latlon2utm1, shearProj] <;> norm_num

/-- C05, arrays: the array form is the scalar form in every row; the empty array raises
`ValueError` (its two-dimensional shape is lost). -/
theorem C05_array_is_elementwise (P : Projector) (pts : List (ℝ × ℝ)) (olat olon : ℝ)
    (zone : Option ℤ) :
    (pts ≠ [] → latlon2lcsArr P (pts.map Prod.fst) (pts.map Prod.snd) olat olon zone =
      .ok (pts.map fun p => (latlon2lcs P p.1 p.2 olat olon zone).1,
           pts.map fun p => (latlon2lcs P p.1 p.2 olat olon zone).2)) ∧
    (pts = [] → Raises (latlon2lcsArr P (pts.map Prod.fst) (pts.map Prod.snd) olat olon zone)
      .valueError) := by
  have hzip : (pts.map Prod.fst).zip (pts.map Prod.snd) = pts := by
    rw [List.zip_map']; simp
  constructor
  · intro h
    simp [latlon2lcsArr, hzip, h, latlon2lcs, Function.comp_def]
  · rintro rfl
    simp [Raises, latlon2lcsArr]

/-- C06 (partial: only when target and origin lie in one zone): with no zone given, the local
coordinates are those obtained in the zone of the origin. -/
theorem C06_zone_from_origin_partial (P : Projector) (lat lon olat olon : ℝ)
    (hz : calcZone lon = calcZone olon) :
    latlon2lcs P lat lon olat olon none = latlon2lcs P lat lon olat olon (some (calcZone olon)) ∧
      latlon2lcs P lat lon olat olon none =
        P.fwd (calcZone olon) (decide (lat < 0)) lon lat - P.fwd (calcZone olon) (decide (olat < 0)) olon olat := by
  refine ⟨by simp [latlon2lcs, latlon2utm1, hz], ?_⟩
  simp [latlon2lcs, latlon2utm1, hz, Prod.ext_iff]

/-- The hypothesis of C06 holds in a concrete case. -/
example : calcZone 8 = calcZone 8.5 := by
  have h2 : ⌊((8.5 : ℝ) - (-180)) / 6 + 1⌋ = 32 := by rw [Int.floor_eq_iff]; norm_num
  rw [calcZone_eight]
  unfold calcZone
  rw [pyInt_of_nonneg (by norm_num), h2]; rfl

/-- C06: with an explicit zone both points are projected in that zone and the local coordinates are target minus origin. -/
theorem C06_explicit_zone (P : Projector) (lat lon olat olon : ℝ) (z : ℤ) :
    latlon2lcs P lat lon olat olon (some z) = P.fwd z (decide (lat < 0)) lon lat - P.fwd z (decide (olat < 0)) olon olat := by
  simp [latlon2lcs, latlon2utm1, Prod.ext_iff]

/-- C06 violated across a zone boundary: the target is projected in its own zone, so the local
coordinates differ from those in the origin's zone. -/
theorem C06_violated_across_zones :
    ∃ (P : Projector) (lat lon olat olon : ℝ), (∀ z s lo la, InvertsAt P z s lo la) ∧
      latlon2lcs P lat lon olat olon none ≠ latlon2lcs P lat lon olat olon (some (calcZone olon)) := by
  refine ⟨shearProj, 50, 13, 50, 8, shearProj_inverts, ?_⟩
  simp [latlon2lcs, latlon2utm1, shearProj, calcZone_eight, calcZone_thirteen]
  norm_num

/-! ## C07 -/

section
variable (tm : ℝ → ℝ → ℝ → ℝ → ℝ × ℝ)

/-- C07: 'matlab' mode is an affine map with positive, point-independent coefficients vanishing at
the reference: `dE = kE·(lon - lonref)`, `dN = kN·(lat - latref)`, where `kN > 0`, and `kE > 0`
whenever the reference is not at a pole, and the ratio of the coefficients satisfies
`kE ≥ kN·cos(latref)` (prime-vertical radius at least the meridional radius). -/
theorem C07_affine (latref lonref : ℝ) :
    ∃ kE kN : ℝ, 0 < kN ∧ (|latref| < 90 → 0 < kE ∧ kN * Real.cos (latref * (Real.pi / 180)) ≤ kE) ∧
      ∀ lat lon, lla2flat tm lat lon latref lonref "matlab" =
        .ok (kE * (lon - lonref), kN * (lat - latref)) := by
  have hp : 0 < Real.pi / 180 := by positivity
  refine ⟨primeRadius (deg2rad latref) * Real.cos (deg2rad latref) * (Real.pi / 180),
    meridRadius (deg2rad latref) * (Real.pi / 180), ?_, ?_, ?_⟩
  · exact mul_pos (meridRadius_pos _) hp
  · intro h
    have hlt := abs_lt.1 h
    have hc : 0 < Real.cos (deg2rad latref) := by
      apply Real.cos_pos_of_mem_Ioo
      unfold deg2rad
      constructor <;> nlinarith [Real.pi_pos]
    constructor
    · exact mul_pos (mul_pos (primeRadius_pos _) hc) hp
    · have := meridRadius_le (deg2rad latref)
      have e : Real.cos (latref * (Real.pi / 180)) = Real.cos (deg2rad latref) := rfl
      rw [e]
      nlinarith [mul_le_mul_of_nonneg_right this (mul_nonneg hc.le hp.le)]
  · intro lat lon
    simp only [lla2flat, if_true, deg2rad]
    congr 2 <;> ring

/-- C07: hence different points get different coordinates when the reference is not at a pole. -/
theorem C07_injective (latref lonref : ℝ) (h : |latref| < 90) (lat lon lat' lon' : ℝ)
    (he : lla2flat tm lat lon latref lonref "matlab" = lla2flat tm lat' lon' latref lonref "matlab") :
    lat = lat' ∧ lon = lon' := by
  obtain ⟨kE, kN, hN, hE, hf⟩ := C07_affine tm latref lonref
  obtain ⟨hE, _⟩ := hE h
  rw [hf, hf] at he
  simp only [Except.ok.injEq, Prod.mk.injEq] at he
  obtain ⟨h1, h2⟩ := he
  have h1' := mul_left_cancel₀ hE.ne' h1
  have h2' := mul_left_cancel₀ hN.ne' h2
  constructor <;> linarith

example (lat lon : ℝ) (he : lla2flat tm lat lon 50 8 "matlab" = lla2flat tm 50.1 8.2 50 8 "matlab") : lat = 50.1 ∧ lon = 8.2 :=
  C07_injective tm 50 8 (by norm_num) lat lon 50.1 8.2 he

/-- C07: any other method name raises `ValueError`; 'tmerc' uses the projection centred at the
reference. -/
theorem C07_methods (lat lon latref lonref : ℝ) (m : String) :
    (m ≠ "matlab" → m ≠ "tmerc" → Raises (lla2flat tm lat lon latref lonref m) .valueError) ∧
    lla2flat tm lat lon latref lonref "tmerc" = .ok (tm latref lonref lon lat) := by
  constructor
  · intro h1 h2; simp [Raises, lla2flat, h1, h2]
  · simp [lla2flat]

example : |(50 : ℝ)| < 90 := by norm_num
end

/-! ## C08 -/

/-- C08: rectangular → polar → rectangular is the identity everywhere (also at the origin). -/
theorem C08_rect_pol_rect (x y : ℝ) : pol2rect (rect2pol x y).1 (rect2pol x y).2 = (x, y) := by
  have h := Complex.norm_mul_cos_add_sin_mul_I (⟨x, y⟩ : ℂ)
  have hn : magnitude (x, y) = ‖(⟨x, y⟩ : ℂ)‖ := by
    rw [Complex.norm_def, Complex.normSq_apply]; simp [magnitude, sq]
  have hre := congrArg Complex.re h
  have him := congrArg Complex.im h
  simp at hre him
  simp [pol2rect, rect2pol, arctan2, hn, hre, him]

/-- C08: polar → rectangular → polar is the identity for positive radius and principal angle. -/
theorem C08_pol_rect_pol (r θ : ℝ) (hr : 0 < r) (h1 : -Real.pi < θ) (h2 : θ ≤ Real.pi) :
    rect2pol (pol2rect r θ).1 (pol2rect r θ).2 = (r, θ) := by
  have hm : magnitude (r * Real.cos θ, r * Real.sin θ) = r := by
    have : (r * Real.cos θ) ^ 2 + (r * Real.sin θ) ^ 2 = r ^ 2 := by
      have := Real.sin_sq_add_cos_sq θ; nlinarith
    simp only [magnitude, this]
    exact Real.sqrt_sq hr.le
  have ha : Complex.arg ⟨r * Real.cos θ, r * Real.sin θ⟩ = θ := by
    have := Complex.arg_mul_cos_add_sin_mul_I hr (θ := θ) ⟨h1, h2⟩
    have e : (r : ℂ) * (Complex.cos θ + Complex.sin θ * Complex.I) =
        ⟨r * Real.cos θ, r * Real.sin θ⟩ := by
      apply Complex.ext <;> simp [Complex.cos_ofReal_re, Complex.sin_ofReal_re]
    rw [e] at this; exact this
  simp [pol2rect, rect2pol, arctan2, hm, ha]

example : rect2pol (pol2rect 2 1).1 (pol2rect 2 1).2 = (2, 1) :=
  C08_pol_rect_pol 2 1 (by norm_num) (by linarith [Real.pi_pos]) (by linarith [Real.two_le_pi])

/-- C08: range of the polar form. -/
theorem C08_range (x y : ℝ) :
    0 ≤ (rect2pol x y).1 ∧ -Real.pi < (rect2pol x y).2 ∧ (rect2pol x y).2 ≤ Real.pi ∧
    ((rect2pol x y).1 = 0 ↔ x = 0 ∧ y = 0) := by
  refine ⟨magnitude_nonneg _, Complex.neg_pi_lt_arg _, Complex.arg_le_pi _, ?_⟩
  simp [rect2pol, magnitude_eq_zero, Prod.ext_iff]

/-- C08: a negative radius points the opposite way. -/
theorem C08_negative_radius (r θ : ℝ) : pol2rect (-r) θ = pol2rect r (θ + Real.pi) := by
  simp [pol2rect]

example : (0 : ℝ) < 2 ∧ -Real.pi < 1 ∧ 1 ≤ Real.pi := by
  have := Real.two_le_pi; refine ⟨by norm_num, by linarith, by linarith⟩

/-! ## C09 -/

/-- C09: rotation preserves inner products, hence lengths. -/
theorem C09_isometry (v w : Vec) (θ : ℝ) :
    dot (rotate v θ) (rotate w θ) = dot v w ∧ magnitude (rotate v θ) = magnitude v := by
  have h := Real.sin_sq_add_cos_sq θ
  constructor
  · simp only [dot, rotate]
    linear_combination (v.1 * w.1 + v.2 * w.2) * h
  · simp only [magnitude, rotate]
    congr 1
    linear_combination (v.1 ^ 2 + v.2 ^ 2) * h

/-- C09: the inner product is the product of the lengths and the cosine of the enclosed angle. -/
theorem C09_dot_angle (r s t u : ℝ) : dot (pol2rect r t) (pol2rect s u) = r * s * Real.cos (t - u) := by
  simp only [dot, pol2rect, Real.cos_sub]
  ring

/-- C09: rotations compose by adding angles; angle 0 is the identity; `-θ` undoes `θ`. -/
theorem C09_group (v : Vec) (θ φ : ℝ) :
    rotate (rotate v θ) φ = rotate v (θ + φ) ∧ rotate v 0 = v ∧ rotate (rotate v θ) (-θ) = v := by
  have h1 : ∀ φ, rotate (rotate v θ) φ = rotate v (θ + φ) := by
    intro φ
    simp only [rotate, Real.cos_add, Real.sin_add]
    apply Prod.ext <;> simp <;> ring
  have h0 : rotate v 0 = v := by simp [rotate]
  refine ⟨h1 φ, h0, ?_⟩
  rw [h1, add_neg_cancel, h0]

/-- C09: rotation adds to the polar angle (counter-clockwise positive). -/
theorem C09_polar (r t s : ℝ) : rotate (pol2rect r t) s = pol2rect r (t + s) := by
  simp only [rotate, pol2rect, Real.cos_add, Real.sin_add]
  apply Prod.ext <;> simp <;> ring

/-- C09: the multi-point form rotates each point. -/
theorem C09_many (pts : List Vec) (θ : ℝ) :
    rotateMany (pts.map Prod.fst) (pts.map Prod.snd) θ =
      ((pts.map fun v => rotate v θ).map Prod.fst, (pts.map fun v => rotate v θ).map Prod.snd) := by
  simp [rotateMany, List.zipWith_map_left, List.zipWith_map_right, rotate, Function.comp_def]

/-! ## C10 -/

/-- C10: projecting on a nonzero direction gives, row by row, the inner product with the unit
vector of that direction: `p · |d| = v·d`. -/
theorem C10_projection_value (vs : List Vec) (d : Vec) (hd : d ≠ 0) :
    ∃ ps : List ℝ, projectVectors vs d = ps.map some ∧ ps.length = vs.length ∧
      ∀ (i : ℕ) (p : ℝ) (v : Vec), ps[i]? = some p → vs[i]? = some v →
        p * magnitude d = v.1 * d.1 + v.2 * d.2 := by
  have hm := magnitude_pos hd
  refine ⟨vs.map fun v => v.1 * (d.1 / magnitude d) + v.2 * (d.2 / magnitude d), ?_, by simp, ?_⟩
  · simp [projectVectors, unit, hm.ne']
  · intro i p v hp hv
    simp only [List.getElem?_map, hv, Option.map_some, Option.some.injEq] at hp
    rw [← hp]; field_simp

example := C10_projection_value [(1, 2), (5, 0)] (3, 4) (by simp [Prod.ext_iff])

/-- C10: only the direction matters: positive rescaling changes nothing, reversing negates. -/
theorem C10_direction_only (vs : List Vec) (d : Vec) (k : ℝ) (hk : 0 < k) :
    projectVectors vs (k * d.1, k * d.2) = projectVectors vs d ∧
    projectVectors vs (-d.1, -d.2) = (projectVectors vs d).map (Option.map (fun p => -p)) := by
  have hmk : magnitude (k * d.1, k * d.2) = k * magnitude d := by
    simp only [magnitude]
    rw [show (k * d.1) ^ 2 + (k * d.2) ^ 2 = k ^ 2 * (d.1 ^ 2 + d.2 ^ 2) by ring,
      Real.sqrt_mul (sq_nonneg k), Real.sqrt_sq hk.le]
  have hmn : magnitude (-d.1, -d.2) = magnitude d := by simp [magnitude]
  have hu : unit (k * d.1, k * d.2) = unit d := by
    unfold unit
    rw [hmk]
    by_cases h : magnitude d = 0
    · simp [h]
    · simp only [mul_eq_zero, hk.ne', h, or_self, if_false]
      rw [mul_div_mul_left _ _ hk.ne', mul_div_mul_left _ _ hk.ne']
  constructor
  · simp only [projectVectors, hu]
  · simp only [projectVectors, List.map_map]
    apply List.map_congr_left
    intro v _
    simp only [unit, hmn, Function.comp]
    split_ifs
    · rfl
    · simp; ring

example := C10_direction_only [(1, 2), (5, 0)] (3, 4) 7 (by norm_num)

/-- C10: linearity in the projected vector. -/
theorem C10_linear (v w d : Vec) (a b : ℝ) (hd : d ≠ 0) :
    ∃ p q, projectVectors [v, w, (a * v.1 + b * w.1, a * v.2 + b * w.2)] d =
      [some p, some q, some (a * p + b * q)] := by
  have hm := magnitude_pos hd
  refine ⟨v.1 * (d.1 / magnitude d) + v.2 * (d.2 / magnitude d),
    w.1 * (d.1 / magnitude d) + w.2 * (d.2 / magnitude d), ?_⟩
  simp [projectVectors, unit, hm.ne']
  ring

example := C10_linear (1, 2) (5, 0) (3, 4) 2 (-1) (by simp [Prod.ext_iff])

/-- C10: a projection is never longer than the vector, and exactly as long iff the vector is
parallel to the direction. -/
theorem C10_bounded (v d : Vec) (hd : d ≠ 0) :
    ∃ p, projectVectors [v] d = [some p] ∧ |p| ≤ magnitude v ∧
      (|p| = magnitude v ↔ v.1 * d.2 = v.2 * d.1) := by
  have hm := magnitude_pos hd
  have hm2 := magnitude_sq d
  refine ⟨v.1 * (d.1 / magnitude d) + v.2 * (d.2 / magnitude d), by simp [projectVectors, unit, hm.ne'], ?_⟩
  set p := v.1 * (d.1 / magnitude d) + v.2 * (d.2 / magnitude d) with hp
  have e : (magnitude v ^ 2 - p ^ 2) * magnitude d ^ 2 = (v.1 * d.2 - v.2 * d.1) ^ 2 := by
    have e1 : p * magnitude d = v.1 * d.1 + v.2 * d.2 := by rw [hp]; field_simp
    have : (magnitude v ^ 2 - p ^ 2) * magnitude d ^ 2 =
        magnitude v ^ 2 * magnitude d ^ 2 - (p * magnitude d) ^ 2 := by ring
    rw [this, e1, magnitude_sq, hm2]; ring
  have hsq : p ^ 2 ≤ magnitude v ^ 2 := by
    by_contra hcon
    have : (magnitude v ^ 2 - p ^ 2) * magnitude d ^ 2 < 0 :=
      mul_neg_of_neg_of_pos (by linarith) (by positivity)
    rw [e] at this
    exact absurd this (not_lt.2 (sq_nonneg _))
  refine ⟨abs_le_of_sq_le_sq hsq (magnitude_nonneg v), ?_⟩
  constructor
  · intro h
    have h' : p ^ 2 = magnitude v ^ 2 := by rw [← h, sq_abs]
    rw [h', sub_self, zero_mul] at e
    have := pow_eq_zero_iff (two_ne_zero) |>.1 e.symm
    linarith
  · intro h
    rw [h, sub_self] at e
    have : magnitude v ^ 2 - p ^ 2 = 0 := by
      rcases mul_eq_zero.1 (e.trans (by norm_num)) with h1 | h1
      · exact h1
      · exact absurd h1 (by positivity)
    rw [← abs_of_nonneg (magnitude_nonneg v)]
    exact (sq_eq_sq_iff_abs_eq_abs _ _).1 (by linarith)

example := C10_bounded (1, 2) (3, 4) (by simp [Prod.ext_iff])

/-- C10: projections on two perpendicular directions decompose the vector (Pythagoras). -/
theorem C10_pythagoras (v d : Vec) (hd : d ≠ 0) :
    ∃ p q, projectVectors [v] d = [some p] ∧ projectVectors [v] (-d.2, d.1) = [some q] ∧
      p ^ 2 + q ^ 2 = v.1 ^ 2 + v.2 ^ 2 := by
  have hm := magnitude_pos hd
  have hm2 := magnitude_sq d
  have hm' : magnitude (-d.2, d.1) = magnitude d := by simp [magnitude, add_comm]
  refine ⟨v.1 * (d.1 / magnitude d) + v.2 * (d.2 / magnitude d),
    v.1 * (-d.2 / magnitude d) + v.2 * (d.1 / magnitude d),
    by simp [projectVectors, unit, hm.ne'], by simp [projectVectors, unit, hm', hm.ne'], ?_⟩
  field_simp
  rw [hm2]; ring

example := C10_pythagoras (1, 2) (3, 4) (by simp [Prod.ext_iff])

/-- C10: the zero direction gives NaN for every row. -/
theorem C10_zero_direction (vs : List Vec) : projectVectors vs 0 = vs.map fun _ => none := by
  have : magnitude (0 : Vec) = 0 := magnitude_eq_zero.2 rfl
  simp [projectVectors, unit, this]

example : ((3, 4) : Vec) ≠ 0 := by simp [Prod.ext_iff]

/-! ## C11 -/

/-- C11: one vector per site, in order, from the reference to the site; extra components of the
reference are ignored. -/
theorem C11_value (xs ys : List ℝ) (ref : Vec) (extra : List ℝ) (h : xs.length = ys.length) :
    (computeVectors xs ys ref extra).length = xs.length ∧
    ∀ (i : ℕ) (x y : ℝ), xs[i]? = some x → ys[i]? = some y →
      (computeVectors xs ys ref extra)[i]? = some (x - ref.1, y - ref.2) := by
  constructor
  · simp [computeVectors, h]
  · intro i x y hx hy
    simp [computeVectors, List.zip, List.getElem?_zipWith, hx, hy]

example := C11_value [1, 2, 3] [10, 20, 30] (4, 5) [6] rfl

/-- C11: moving all sites and the reference together changes nothing. -/
theorem C11_translation (xs ys : List ℝ) (ref : Vec) (e : List ℝ) (a b : ℝ) :
    computeVectors (xs.map (· + a)) (ys.map (· + b)) (ref.1 + a, ref.2 + b) e =
      computeVectors xs ys ref e := by
  simp [computeVectors, List.zip_map, List.map_map, Function.comp_def]

/-- C11: differences between sites do not depend on the reference, and the reference site has the
zero vector. -/
theorem C11_reference_free (xs ys : List ℝ) (r r' : Vec) (e e' : List ℝ) (i j : ℕ) (u v u' v' : Vec)
    (hu : (computeVectors xs ys r e)[i]? = some u) (hv : (computeVectors xs ys r e)[j]? = some v)
    (hu' : (computeVectors xs ys r' e')[i]? = some u') (hv' : (computeVectors xs ys r' e')[j]? = some v') :
    (u.1 - v.1, u.2 - v.2) = (u'.1 - v'.1, u'.2 - v'.2) := by
  simp only [computeVectors, List.getElem?_map, Option.map_eq_some_iff] at hu hv hu' hv'
  obtain ⟨a, ha, rfl⟩ := hu
  obtain ⟨b, hb, rfl⟩ := hv
  obtain ⟨a', ha', rfl⟩ := hu'
  obtain ⟨b', hb', rfl⟩ := hv'
  rw [ha] at ha'; rw [hb] at hb'
  cases ha'; cases hb'
  simp

example := C11_reference_free [1, 2] [10, 20] (4, 5) (0, 1) [] [7] 0 1 (1 - 4, 10 - 5) (2 - 4, 20 - 5) (1 - 0, 10 - 1) (2 - 0, 20 - 1)
  rfl rfl rfl rfl

theorem C11_reference_zero (xs ys : List ℝ) (e : List ℝ) (i : ℕ) (x y : ℝ)
    (hx : xs[i]? = some x) (hy : ys[i]? = some y) :
    (computeVectors xs ys (x, y) e)[i]? = some (0, 0) := by
  simp [computeVectors, List.zip, List.getElem?_zipWith, hx, hy]

example : (computeVectors [1, 2] [10, 20] (2, 20) [])[1]? = some (0, 0) := C11_reference_zero [1, 2] [10, 20] [] 1 2 20 rfl rfl

example : ([1, 2] : List ℝ)[1]? = some 2 := rfl

/-! ## C12 -/

/-- C12: for non-parallel `A`, `B` the intersection is the unique point `C` lying on the line
through the tip of `A` perpendicular to `A` and on the line through the tip of `B` perpendicular
to `B`. -/
theorem C12_solves (A B : Vec) (h : A.1 * B.2 - A.2 * B.1 ≠ 0) :
    ∃ cx cy : ℝ, intersect1 A B = (.fin cx, .fin cy) ∧
      (cx - A.1) * A.1 + (cy - A.2) * A.2 = 0 ∧ (cx - B.1) * B.1 + (cy - B.2) * B.2 = 0 ∧
      ∀ x y : ℝ, (x - A.1) * A.1 + (y - A.2) * A.2 = 0 → (x - B.1) * B.1 + (y - B.2) * B.2 = 0 →
        x = cx ∧ y = cy := by
  have hd : B.1 * A.2 - A.1 * B.2 ≠ 0 := by
    intro h'; apply h; linarith
  refine ⟨_, _, by simp only [intersect1, XR.div, hd, if_false]; rfl, ?_, ?_, ?_⟩
  · apply mul_left_cancel₀ hd
    have e1 := mul_div_cancel₀ ((B.1 ^ 2 + B.2 ^ 2) * A.2 - B.2 * (A.1 ^ 2 + A.2 ^ 2)) hd
    have e2 := mul_div_cancel₀ ((A.1 ^ 2 + A.2 ^ 2) * B.1 - A.1 * (B.1 ^ 2 + B.2 ^ 2)) hd
    linear_combination A.1 * e1 + A.2 * e2
  · apply mul_left_cancel₀ hd
    have e1 := mul_div_cancel₀ ((B.1 ^ 2 + B.2 ^ 2) * A.2 - B.2 * (A.1 ^ 2 + A.2 ^ 2)) hd
    have e2 := mul_div_cancel₀ ((A.1 ^ 2 + A.2 ^ 2) * B.1 - A.1 * (B.1 ^ 2 + B.2 ^ 2)) hd
    linear_combination B.1 * e1 + B.2 * e2
  · intro x y h1 h2
    constructor
    · rw [eq_div_iff hd]; linear_combination A.2 * h2 - B.2 * h1
    · rw [eq_div_iff hd]; linear_combination B.1 * h1 - A.1 * h2

example := C12_solves (1, 0) (1, 2) (by norm_num)

/-- C12: for parallel vectors (including a zero vector) neither coordinate is a finite number. -/
theorem C12_parallel_not_finite (A B : Vec) (h : A.1 * B.2 - A.2 * B.1 = 0) :
    ¬ (intersect1 A B).1.isFinite ∧ ¬ (intersect1 A B).2.isFinite := by
  have hd : B.1 * A.2 - A.1 * B.2 = 0 := by linarith
  constructor <;> simp only [intersect1, XR.div, hd, if_true] <;> split_ifs <;> simp [XR.isFinite]

example := C12_parallel_not_finite (1, 2) (2, 4) (by norm_num)

/-- C12: rotating both vectors rotates the result; scaling scales it; order is irrelevant. -/
theorem C12_equivariant (A B : Vec) (cx cy : ℝ) (h : A.1 * B.2 - A.2 * B.1 ≠ 0)
    (hC : intersect1 A B = (.fin cx, .fin cy)) :
    intersect1 B A = (.fin cx, .fin cy) ∧
    (∀ s : ℝ, s ≠ 0 → intersect1 (s * A.1, s * A.2) (s * B.1, s * B.2) = (.fin (s * cx), .fin (s * cy))) ∧
    (∀ θ : ℝ, intersect1 (rotate A θ) (rotate B θ) =
      (.fin (rotate (cx, cy) θ).1, .fin (rotate (cx, cy) θ).2)) := by
  obtain ⟨x, y, hxy, h1, h2, _⟩ := C12_solves A B h
  rw [hC] at hxy
  simp only [Prod.mk.injEq, XR.fin.injEq] at hxy
  obtain ⟨rfl, rfl⟩ := hxy
  have uniq : ∀ (A' B' : Vec) (x y : ℝ), A'.1 * B'.2 - A'.2 * B'.1 ≠ 0 →
      (x - A'.1) * A'.1 + (y - A'.2) * A'.2 = 0 → (x - B'.1) * B'.1 + (y - B'.2) * B'.2 = 0 →
      intersect1 A' B' = (.fin x, .fin y) := by
    intro A' B' x y hd e1 e2
    obtain ⟨x', y', hxy, _, _, hu⟩ := C12_solves A' B' hd
    obtain ⟨rfl, rfl⟩ := hu x y e1 e2
    exact hxy
  refine ⟨uniq _ _ _ _ (by intro h'; apply h; linarith) h2 h1, ?_, ?_⟩
  · intro s hs
    refine uniq _ _ _ _ ?_ ?_ ?_
    · intro h'
      simp only at h'
      have : s ^ 2 * (A.1 * B.2 - A.2 * B.1) = 0 := by linear_combination h'
      exact h ((mul_eq_zero.1 this).resolve_left (pow_ne_zero 2 hs))
    · simp only; linear_combination s ^ 2 * h1
    · simp only; linear_combination s ^ 2 * h2
  · intro θ
    have hsc := Real.sin_sq_add_cos_sq θ
    refine uniq _ _ _ _ ?_ ?_ ?_
    · intro h'
      apply h
      simp only [rotate] at h'
      linear_combination h' - (A.1 * B.2 - A.2 * B.1) * hsc
    · simp only [rotate]
      linear_combination h1 + ((cx - A.1) * A.1 + (cy - A.2) * A.2) * hsc
    · simp only [rotate]
      linear_combination h2 + ((cx - B.1) * B.1 + (cy - B.2) * B.2) * hsc

example (cx cy : ℝ) (hC : intersect1 (1, 0) (1, 2) = (.fin cx, .fin cy)) := C12_equivariant (1, 0) (1, 2) cx cy (by norm_num) hC

/-- C12: arrays are processed row by row. -/
theorem C12_rows (A B : List Vec) (i : ℕ) (a b : Vec) (ha : A[i]? = some a) (hb : B[i]? = some b) :
    (computeIntersection A B)[i]? = some (intersect1 a b) := by
  simp [computeIntersection, List.getElem?_zipWith, ha, hb]

example : (computeIntersection [(1, 0), (0, 1)] [(1, 2), (3, 1)])[1]? = some (intersect1 (0, 1) (3, 1)) :=
  C12_rows [(1, 0), (0, 1)] [(1, 2), (3, 1)] 1 (0, 1) (3, 1) rfl rfl

example : ((1, 0) : Vec).1 * ((1, 2) : Vec).2 - ((1, 0) : Vec).2 * ((1, 2) : Vec).1 ≠ 0 := by norm_num

/-! ## C13, C14 -/

/-- C13: shape and entries.  The entry of (site i, time a) against (site j, time b) is at row
`i·n_times + a`, column `j·n_times + b`, and is the Euclidean distance of the two positions seen in
the frame moving with the clouds. -/
theorem C13_entries (x y times : List ℝ) (cs cd : ℝ) (hxy : x.length = y.length) (ht : times ≠ []) :
    ∃ D, spacetimeDistances x y times cs cd = .ok D ∧ IsSquare D (x.length * times.length) ∧
      ∀ (i j a b : ℕ) (hi : i < x.length) (hj : j < x.length) (ha : a < times.length) (hb : b < times.length),
        entry D (i * times.length + a) (j * times.length + b) =
          some (pdist (driftPos cs cd x[i] (y[i]'(hxy ▸ hi)) times[a])
                      (driftPos cs cd x[j] (y[j]'(hxy ▸ hj)) times[b])) :=
  spacetime_main x y times cs cd hxy ht

/-- The hypotheses of C13 hold in a concrete case: two sites, two times, clouds moving east. -/
example : ∃ D, spacetimeDistances [0, 10] [0, 0] [0, 5] 2 0 = .ok D ∧ IsSquare D 4 := by
  obtain ⟨D, h, hs, -⟩ := C13_entries [0, 10] [0, 0] [0, 5] 2 0 rfl (by simp)
  exact ⟨D, h, hs⟩

/-- C13: pseudo-metric (nonnegative, zero diagonal, symmetric, triangle inequality). -/
theorem C13_pseudometric (x y times : List ℝ) (cs cd : ℝ) (D : List (List ℝ))
    (hD : spacetimeDistances x y times cs cd = .ok D) (r s t : ℕ)
    (hr : r < x.length * times.length) (hs : s < x.length * times.length)
    (ht : t < x.length * times.length) :
    ∃ rs sr st rt : ℝ, entry D r s = some rs ∧ entry D s r = some sr ∧ entry D s t = some st ∧
      entry D r t = some rt ∧ entry D r r = some 0 ∧ 0 ≤ rs ∧ rs = sr ∧ rt ≤ rs + st := by
  have hne : times ≠ [] := by rintro rfl; simp [spacetimeDistances] at hD
  have hxy : x.length = y.length := by
    by_contra h
    obtain ⟨t0, ts, rfl⟩ := List.exists_cons_of_ne_nil hne
    simp [spacetimeDistances, h] at hD
  obtain ⟨D', hD', _, hent⟩ := spacetime_main x y times cs cd hxy hne
  rw [hD] at hD'; cases hD'
  obtain ⟨i, a, hi, ha, rfl⟩ := index_decomp hr
  obtain ⟨j, b, hj, hb, rfl⟩ := index_decomp hs
  obtain ⟨k, c, hk, hc, rfl⟩ := index_decomp ht
  refine ⟨_, _, _, _, hent i j a b hi hj ha hb, hent j i b a hj hi hb ha, hent j k b c hj hk hb hc,
    hent i k a c hi hk ha hc, ?_, pdist_nonneg _ _, pdist_comm _ _, pdist_triangle _ _ _⟩
  rw [hent i i a a hi hi ha ha, pdist_self]

example : ∃ D, spacetimeDistances [0, 10] [0, 0] [0, 5] 2 0 = .ok D ∧ ∃ rs st rt : ℝ, entry D 0 3 = some rs ∧ entry D 3 2 = some st ∧
    entry D 0 2 = some rt ∧ rt ≤ rs + st := by
  obtain ⟨D, h, -⟩ := C13_entries [0, 10] [0, 0] [0, 5] 2 0 rfl (by simp)
  obtain ⟨rs, sr, st, rt, h1, -, h3, h4, -, -, -, h8⟩ := C13_pseudometric [0, 10] [0, 0] [0, 5] 2 0 D h 0 3 2 (by norm_num) (by norm_num) (by norm_num)
  exact ⟨D, h, rs, st, rt, h1, h3, h4, h8⟩

/-- C13: at equal times the entry is the plain spatial distance of the sites. -/
theorem C13_same_time (x y times : List ℝ) (cs cd : ℝ) (D : List (List ℝ))
    (hD : spacetimeDistances x y times cs cd = .ok D) (hxy : x.length = y.length)
    (i j a : ℕ) (hi : i < x.length) (hj : j < x.length) (ha : a < times.length) :
    entry D (i * times.length + a) (j * times.length + a) =
      some (pdist (x[i], y[i]'(hxy ▸ hi)) (x[j], y[j]'(hxy ▸ hj))) := by
  have hne : times ≠ [] := by rintro rfl; simp [spacetimeDistances] at hD
  obtain ⟨D', hD', _, hent⟩ := spacetime_main x y times cs cd hxy hne
  rw [hD] at hD'; cases hD'
  rw [hent i j a a hi hj ha ha]
  simp [pdist, driftPos]

example : ∃ D, spacetimeDistances [0, 10] [0, 0] [0, 5] 2 0 = .ok D ∧ entry D (0 * 2 + 1) (1 * 2 + 1) = some (pdist (0, 0) (10, 0)) := by
  obtain ⟨D, h, -⟩ := C13_entries [0, 10] [0, 0] [0, 5] 2 0 rfl (by simp)
  exact ⟨D, h, C13_same_time [0, 10] [0, 0] [0, 5] 2 0 D h rfl 0 1 1 (by norm_num) (by norm_num) (by norm_num)⟩

/-- C13: for one site the entry is the distance travelled by the clouds. -/
theorem C13_same_site (x y times : List ℝ) (cs cd : ℝ) (D : List (List ℝ))
    (hD : spacetimeDistances x y times cs cd = .ok D) (hxy : x.length = y.length)
    (i a b : ℕ) (hi : i < x.length) (ha : a < times.length) (hb : b < times.length) :
    entry D (i * times.length + a) (i * times.length + b) = some (|cs| * |times[a] - times[b]|) := by
  have hne : times ≠ [] := by rintro rfl; simp [spacetimeDistances] at hD
  obtain ⟨D', hD', _, hent⟩ := spacetime_main x y times cs cd hxy hne
  rw [hD] at hD'; cases hD'
  rw [hent i i a b hi hi ha hb, ← abs_mul, ← Real.sqrt_sq_eq_abs]
  simp only [pdist, driftPos]
  congr 2
  linear_combination (cs * (times[a] - times[b])) ^ 2 * Real.sin_sq_add_cos_sq cd

example : ∃ D, spacetimeDistances [0, 10] [0, 0] [0, 5] 2 0 = .ok D ∧ entry D (1 * 2 + 0) (1 * 2 + 1) = some (|2| * |0 - 5|) := by
  obtain ⟨D, h, -⟩ := C13_entries [0, 10] [0, 0] [0, 5] 2 0 rfl (by simp)
  exact ⟨D, h, C13_same_site [0, 10] [0, 0] [0, 5] 2 0 D h rfl 1 0 1 (by norm_num) (by norm_num) (by norm_num)⟩

/-- C13: error behaviour: no times raises `IndexError`, different numbers of x and y coordinates
raise `ValueError`. -/
theorem C13_errors (x y times : List ℝ) (cs cd : ℝ) :
    Raises (spacetimeDistances x y [] cs cd) .indexError ∧
    (times ≠ [] → x.length ≠ y.length → Raises (spacetimeDistances x y times cs cd) .valueError) := by
  constructor
  · rfl
  · intro ht h
    obtain ⟨t0, ts, rfl⟩ := List.exists_cons_of_ne_nil ht
    simp [Raises, spacetimeDistances, h]

/-- C14: translating all sites changes nothing. -/
theorem C14_translation (x y times : List ℝ) (cs cd dx dy : ℝ) :
    spacetimeDistances (x.map (· + dx)) (y.map (· + dy)) times cs cd = spacetimeDistances x y times cs cd := by
  by_cases ht : times = []
  · subst ht; rfl
  by_cases hxy : x.length = y.length
  swap
  · obtain ⟨t0, ts, rfl⟩ := List.exists_cons_of_ne_nil ht
    simp [spacetimeDistances, hxy]
  exact spacetime_ext _ _ _ _ _ _ _ _ _ _ (by simpa using hxy) hxy ht ht (by simp) rfl (by
    intro i j a b hi hj ha hb
    simp only [List.getElem_map, pdist, driftPos]
    congr 1; ring)

/-- C14: shifting the clock changes nothing. -/
theorem C14_time_origin (x y times : List ℝ) (cs cd t : ℝ) :
    spacetimeDistances x y (times.map (· + t)) cs cd = spacetimeDistances x y times cs cd := by
  by_cases ht : times = []
  · subst ht; rfl
  by_cases hxy : x.length = y.length
  swap
  · obtain ⟨t0, ts, rfl⟩ := List.exists_cons_of_ne_nil ht
    simp [spacetimeDistances, hxy]
  exact spacetime_ext _ _ _ _ _ _ _ _ _ _ hxy hxy (by simpa using ht) ht rfl (by simp) (by
    intro i j a b hi hj ha hb
    simp only [List.getElem_map, pdist, driftPos]
    congr 1; ring)

/-- C14: if site j is site i displaced by the cloud travel between times a and b, the clouds over
i at time a are over j at time b: the entry is zero; and conversely a zero entry means exactly
that. -/
theorem C14_zero_along_drift (x y times : List ℝ) (cs cd : ℝ) (D : List (List ℝ))
    (hD : spacetimeDistances x y times cs cd = .ok D) (hxy : x.length = y.length)
    (i j a b : ℕ) (hi : i < x.length) (hj : j < x.length) (ha : a < times.length) (hb : b < times.length) :
    entry D (i * times.length + a) (j * times.length + b) = some 0 ↔
      x[j] = x[i] + cs * Real.cos cd * (times[b] - times[a]) ∧
      y[j]'(hxy ▸ hj) = y[i]'(hxy ▸ hi) + cs * Real.sin cd * (times[b] - times[a]) := by
  have hne : times ≠ [] := by rintro rfl; simp [spacetimeDistances] at hD
  obtain ⟨D', hD', _, hent⟩ := spacetime_main x y times cs cd hxy hne
  rw [hD] at hD'; cases hD'
  rw [hent i j a b hi hj ha hb, Option.some.injEq, pdist_eq_zero]
  simp only [driftPos, Prod.mk.injEq]
  constructor
  · rintro ⟨h1, h2⟩; constructor <;> linarith
  · rintro ⟨h1, h2⟩; constructor
    · rw [h1]; ring
    · rw [h2]; ring

/-- Two sites 10 m apart, clouds moving east with 2 m/s: after 5 s the cloud of the first site is over the second. -/
example : ∃ D, spacetimeDistances [0, 10] [0, 0] [0, 5] 2 0 = .ok D ∧ entry D (0 * 2 + 0) (1 * 2 + 1) = some 0 := by
  obtain ⟨D, h, -⟩ := C13_entries [0, 10] [0, 0] [0, 5] 2 0 rfl (by simp)
  exact ⟨D, h, (C14_zero_along_drift [0, 10] [0, 0] [0, 5] 2 0 D h rfl 0 1 0 1 (by norm_num) (by norm_num) (by norm_num) (by norm_num)).2 (by norm_num)⟩

example : ∃ D, spacetimeDistances [0, 10] [0, 0] [0, 5] 2 0 = .ok D :=
  (spacetime_main [0, 10] [0, 0] [0, 5] 2 0 rfl (by simp)).imp fun _ h => h.1

/-- The hypotheses of C03 hold for a projection that is not the identity. -/
example := C03_roundtrip shearProj 48.1 11.5 none fun _ => shearProj_inverts _ _ _ _

example := C03_roundtrip_array shearProj [(48.1, 11.5), (50, 7)] 32 false (fun p _ => shearProj_inverts _ _ _ _)
  (fun p hp => by fin_cases hp <;> norm_num) (some 32) (Or.inl rfl)

example : lcs2latlon shearProj (latlon2lcs shearProj 48 9.5 50 8 (some 32)).1 (latlon2lcs shearProj 48 9.5 50 8 (some 32)).2 50 8 (some 32) = (48, 9.5) :=
  C04_lcs_roundtrip_partial shearProj 48 9.5 50 8 (some 32) (Or.inr (by rw [calcZone_eight])) (by norm_num) (shearProj_inverts _ _ _ _)

example (olat olon : ℝ) := C05_origin_independent shearProj 48 9 50 8 olat olon (some 32) (9 - 192) 48 (8 - 192) 50 32 32
  (by simp [latlon2utm, Arg.vals?, latlon2utm1, shearProj]; norm_num) (by simp [latlon2utm, Arg.vals?, latlon2utm1, shearProj]; norm_num)

end SST.Spatial
