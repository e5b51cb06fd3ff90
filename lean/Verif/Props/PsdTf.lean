import Verif.Props.TfMirror
import Verif.Spec.Gains

/-!
# Properties C254-C255: power spectra and transfer functions of the same records; gains, offsets and drifts

Specifications: `Spec/Gains.lean`.
-/

namespace SST.Props.PsdTf
open SST SST.Tf SST.Dft SST.Corr SST.Spec

/-! ## Trends -/

theorem sum_centred (m : ℕ) : ∑ j ∈ Finset.range m, ((j : ℝ) - ((m : ℝ) - 1) / 2) = 0 := by
  rw [Finset.sum_sub_distrib, Finset.sum_const, Finset.card_range, nsmul_eq_mul]
  have h : (∑ j ∈ Finset.range m, (j : ℝ)) * 2 = m * (m - 1) := by
    induction m with
    | zero => simp
    | succ m ih => rw [Finset.sum_range_succ, add_mul, ih]; push_cast; ring
  linarith

/-- A straight line. -/
noncomputable def line (c e : ℝ) (m : ℕ) : List ℝ := (List.range m).map fun (i : ℕ) => c + e * i

@[simp] theorem line_length (c e : ℝ) (m : ℕ) : (line c e m).length = m := by simp [line]

theorem at0_line (c e : ℝ) {m j : ℕ} (hj : j < m) : at0 (line c e m) j = c + e * j := by
  unfold at0 line
  rw [List.getElem?_map, List.getElem?_range hj]
  rfl

theorem mean_line (c e : ℝ) {m : ℕ} (hm : 0 < m) : mean (line c e m) = c + e * (((m : ℝ) - 1) / 2) := by
  have h := sum_centred m
  have hm' : (m : ℝ) ≠ 0 := by exact_mod_cast hm.ne'
  have hs : (line c e m).sum = ∑ j ∈ Finset.range m, (c + e * (j : ℝ)) := sum_map_range m fun (i : ℕ) => c + e * (i : ℝ)
  have h2 : ∑ j ∈ Finset.range m, (c + e * (j : ℝ)) = m * (c + e * (((m : ℝ) - 1) / 2)) := by
    have : ∑ j ∈ Finset.range m, (c + e * (j : ℝ)) =
        ∑ j ∈ Finset.range m, ((c + e * (((m : ℝ) - 1) / 2)) + e * ((j : ℝ) - ((m : ℝ) - 1) / 2)) :=
      Finset.sum_congr rfl fun j _ => by ring
    rw [this, Finset.sum_add_distrib, ← Finset.mul_sum, h, Finset.sum_const, Finset.card_range, nsmul_eq_mul]
    ring
  rw [mean_def, hs, h2, line_length]
  field_simp

theorem slope_line (c e : ℝ) {m j : ℕ} (hj : j < m) :
    slope (line c e m) * ((j : ℝ) - ((m : ℝ) - 1) / 2) = e * ((j : ℝ) - ((m : ℝ) - 1) / 2) := by
  have h := sum_centred m
  have hn : ∑ i ∈ Finset.range m, ((i : ℝ) - ((m : ℝ) - 1) / 2) * at0 (line c e m) i =
      e * ∑ i ∈ Finset.range m, ((i : ℝ) - ((m : ℝ) - 1) / 2) ^ 2 := by
    have : ∑ i ∈ Finset.range m, ((i : ℝ) - ((m : ℝ) - 1) / 2) * at0 (line c e m) i =
        ∑ i ∈ Finset.range m, ((c + e * (((m : ℝ) - 1) / 2)) * ((i : ℝ) - ((m : ℝ) - 1) / 2) + e * ((i : ℝ) - ((m : ℝ) - 1) / 2) ^ 2) :=
      Finset.sum_congr rfl fun i hi => by rw [at0_line c e (Finset.mem_range.1 hi)]; ring
    rw [this, Finset.sum_add_distrib, ← Finset.mul_sum, h, ← Finset.mul_sum]
    ring
  unfold Tf.slope
  rw [line_length, hn]
  by_cases hz : ∑ i ∈ Finset.range m, ((i : ℝ) - ((m : ℝ) - 1) / 2) ^ 2 = 0
  · have := (Finset.sum_eq_zero_iff_of_nonneg fun (i : ℕ) _ => sq_nonneg ((i : ℝ) - ((m : ℝ) - 1) / 2)).1 hz j (Finset.mem_range.2 hj)
    rw [pow_eq_zero_iff two_ne_zero] at this
    rw [this, mul_zero, mul_zero]
  · rw [mul_div_assoc, div_self hz, mul_one]

/-- Detrending leaves nothing of a line it is meant to remove. -/
theorem detrend_line {d : Detrend} {c e : ℝ} (h : Removed d c e) {m j : ℕ} (hj : j < m) : at0 (detrend d (line c e m)) j = 0 := by
  cases d with
  | none =>
    obtain ⟨rfl, rfl⟩ := h
    rw [detrend, at0_line _ _ hj]; ring
  | constant =>
    have he : e = 0 := h
    subst he
    have hl : j < (line c 0 m).length := by simpa using hj
    unfold detrend at0
    rw [List.getElem?_map, List.getElem?_eq_getElem hl, Option.map_some, Option.getD_some, mean_line c 0 (by omega)]
    simp [line]
  | linear =>
    unfold detrend
    unfold at0
    rw [List.getElem?_map, line_length, List.getElem?_range hj, Option.map_some, Option.getD_some]
    have h1 := slope_line c e hj
    have h2 := at0_line c e hj
    unfold at0 at h2
    rw [show (((line c e m)[j]?).getD 0 : ℝ) = c + e * j from h2, mean_line c e (by omega : 0 < m), h1]
    ring

theorem segment_line (c e : ℝ) (n L s : ℕ) : segment (line c e n) L s = line (c + e * s) e (min L (n - s)) := by
  unfold Tf.segment line
  apply List.ext_getElem
  · simp
  · intro i h1 h2
    simp
    ring

theorem removed_shift {d : Detrend} {c e : ℝ} (h : Removed d c e) (s : ℕ) : Removed d (c + e * s) e := by
  cases d with
  | none => obtain ⟨rfl, rfl⟩ := h; exact ⟨by ring, rfl⟩
  | constant => exact h
  | linear => trivial

theorem spectra_line {d : Detrend} {c e : ℝ} (h : Removed d c e) (w : List ℝ) (L ov n k : ℕ) :
    spectra w d L ov (line c e n) k = (segStarts n L ov).map fun _ => 0 := by
  unfold spectra
  rw [line_length]
  apply List.map_congr_left
  intro s _
  rw [segment_line]
  unfold Tf.spectrum
  apply Finset.sum_eq_zero
  intro j hj
  rw [Finset.mem_range, line_length] at hj
  rw [detrend_line (removed_shift h s) hj]
  simp

theorem sensor_lin (g c e : ℝ) (x : List ℝ) : sensor g c e x = List.zipWith (fun u v => g * u + 1 * v) x (line c e x.length) := by
  unfold sensor line
  rw [List.zipWith_map_right]
  simp only [one_mul]

@[simp] theorem sensor_length (g c e : ℝ) (x : List ℝ) : (sensor g c e x).length = x.length := by simp [sensor]

/-- The spectra of the segments are multiplied by the gain. -/
theorem spectra_sensor {d : Detrend} {c e : ℝ} (h : Removed d c e) (g : ℝ) (w : List ℝ) (L ov : ℕ) (x : List ℝ) (k : ℕ) :
    spectra w d L ov (sensor g c e x) k = (spectra w d L ov x k).map fun z => (g : ℂ) * z := by
  rw [sensor_lin, spectra_zipLin _ _ _ _ _ _ _ _ (by simp), spectra_line h]
  unfold spectra
  rw [List.map_map, List.map_map, List.zipWith_map, List.zipWith_self]
  apply List.map_congr_left
  intro s _
  simp

theorem csd_smul_left (c : ℝ) (g : ℝ) (X Y : List ℂ) : csd c (X.map fun x => (g : ℂ) * x) Y = g * csd c X Y := by
  unfold csd
  rw [List.zipWith_map_left, List.length_map]
  have : (List.zipWith (fun x y => (starRingEnd ℂ) ((g : ℂ) * x) * y) X Y) = (List.zipWith (fun x y => (starRingEnd ℂ) x * y) X Y).map fun z => (g : ℂ) * z := by
    rw [List.map_zipWith]
    congr 1
    funext x y
    rw [map_mul, Complex.conj_ofReal, mul_assoc]
  rw [this, List.sum_map_mul_left, List.map_id']
  ring

theorem tfBin_sensor (c : ℝ) {g h : ℝ} (hg : g ≠ 0) (X Y : List ℂ) :
    tfBin c (X.map fun x => (g : ℂ) * x) (Y.map fun y => (h : ℂ) * y) = (tfBin c X Y).map fun z => ((h / g : ℝ) : ℂ) * z := by
  have hg2 : Complex.normSq (g : ℂ) ≠ 0 := by rw [Complex.normSq_ofReal]; exact mul_ne_zero hg hg
  have hgc : (g : ℂ) ≠ 0 := by exact_mod_cast hg
  unfold tfBin
  rw [psd_smul, csd_smul, csd_smul_left]
  by_cases h0 : psd c X = 0
  · rw [if_pos (by rw [h0, mul_zero]), if_pos h0]; rfl
  · rw [if_neg (mul_ne_zero hg2 h0), if_neg h0, Option.map_some, Complex.normSq_ofReal]
    have h0' : (psd c X : ℂ) ≠ 0 := by exact_mod_cast h0
    congr 1
    push_cast
    field_simp

theorem cohBin_sensor (c : ℝ) {g h : ℝ} (hg : g ≠ 0) (hh : h ≠ 0) (X Y : List ℂ) :
    cohBin c (X.map fun x => (g : ℂ) * x) (Y.map fun y => (h : ℂ) * y) = cohBin c X Y := by
  unfold cohBin
  rw [psd_smul, psd_smul, csd_smul, csd_smul_left, Complex.normSq_ofReal, Complex.normSq_ofReal]
  by_cases h0 : psd c X * psd c Y = 0
  · rw [if_pos h0, if_pos]
    rw [show g * g * psd c X * (h * h * psd c Y) = g * g * h * h * (psd c X * psd c Y) by ring, h0, mul_zero]
  · have h1 : g * g * psd c X * (h * h * psd c Y) ≠ 0 := by
      rw [show g * g * psd c X * (h * h * psd c Y) = g * g * h * h * (psd c X * psd c Y) by ring]
      exact mul_ne_zero (mul_ne_zero (mul_ne_zero (mul_ne_zero hg hg) hh) hh) h0
    rw [if_neg h0, if_neg h1, map_mul, map_mul, Complex.normSq_ofReal, Complex.normSq_ofReal]
    congr 1
    obtain ⟨hX, hY⟩ := mul_ne_zero_iff.1 h0
    field_simp

/-! ## C255 -/

/-- C255: a gain multiplies the power spectrum by its square; offsets and drifts which the detrending removes have no effect. -/
theorem C255_psd (o : Opts) (b : Bool) (sc : String) (cols : List (String × List ℝ)) (g c e : String → ℝ)
    (hr : ∀ p ∈ cols, Removed o.detr (c p.1) (e p.1)) :
    averagedPsd o b (cols.map fun p => (p.1, sensor (g p.1) (c p.1) (e p.1) p.2)) sc =
      (averagedPsd o b cols sc).map fun d => d.map fun p => (p.1, p.2.map fun q => (q.1, g p.1 ^ 2 * q.2)) := by
  have hn : ((cols.map fun p => (p.1, sensor (g p.1) (c p.1) (e p.1) p.2)).headD ("", [])).2.length = (cols.headD ("", [])).2.length := by
    cases cols with
    | nil => rfl
    | cons p ps => simp
  unfold averagedPsd
  simp only [hn]
  by_cases h1 : o.navgs = 0
  · rw [if_pos h1, if_pos h1]; rfl
  rw [if_neg h1, if_neg h1]
  split_ifs with h2
  all_goals first
  | rfl
  | skip
  all_goals
    simp only [Except.map, List.map_map]
    congr 1
    apply List.map_congr_left
    intro p hp
    simp only [Function.comp, List.map_map]
    congr 1
    apply List.map_congr_left
    intro k _
    simp only [Function.comp]
    rw [spectra_sensor (hr p hp), psd_smul, Complex.normSq_ofReal]
    congr 1
    ring

/-- C255: gains `g` of the input and `h` of the output multiply the transfer function by `h/g`; the coherence is unchanged; offsets
and drifts which the detrending removes have no effect. -/
theorem C255_tf (o : Opts) (a b : String) (x y : List ℝ) (g h c e c' e' : ℝ) (hg : g ≠ 0) (hh : h ≠ 0)
    (hr : Removed o.detr c e) (hr' : Removed o.detr c' e') :
    averagedTf o [(a, sensor g c e x)] [(b, sensor h c' e' y)] =
      (averagedTf o [(a, x)] [(b, y)]).map fun d => d.map fun p => (p.1, p.2.map fun r => ⟨r.f, r.tf.map fun z => ((h / g : ℝ) : ℂ) * z, r.coh⟩) := by
  unfold averagedTf
  simp only [pairCols, List.length_cons, List.length_nil, if_true, List.zipWith_cons_cons, List.zipWith_nil_left, List.headD_cons, sensor_length]
  by_cases h1 : o.navgs = 0
  · rw [if_pos h1, if_pos h1]; rfl
  rw [if_neg h1, if_neg h1]
  by_cases h2 : x.length / o.navgs = 0 ∨ ((x.length / o.navgs : ℕ) : ℤ) ≤ pyInt (((x.length / o.navgs : ℕ) : ℝ) * o.overlap)
  · simp only [h2, if_true, Except.map]
  simp only [h2, if_false]
  simp only [Except.map, List.map_cons, List.map_nil]
  congr 3
  unfold pairTf
  rw [List.map_map]
  apply List.map_congr_left
  intro k _
  simp only [Function.comp]
  rw [spectra_sensor hr, spectra_sensor hr', tfBin_sensor _ hg, cohBin_sensor _ hg hh]

/-! ## C254 -/

theorem csd_bound (c : ℝ) (X Y : List ℂ) (hl : X.length = Y.length) : Complex.normSq (csd c X Y) ≤ psd c X * psd c Y := by
  have e : psd c X * psd c Y = (c / X.length) ^ 2 * ((X.map Complex.normSq).sum * (Y.map Complex.normSq).sum) := by
    rw [psd_eq, psd_eq, ← hl]; ring
  have e2 : Complex.normSq (csd c X Y) = (c / X.length) ^ 2 *
      Complex.normSq (List.zipWith (fun x y => (starRingEnd ℂ) x * y) X Y).sum := by
    rw [csd_eq, map_mul, Complex.normSq_ofReal]; ring
  rw [e, e2]
  exact mul_le_mul_of_nonneg_left (cs_complex X Y) (sq_nonneg _)

theorem psd_rows {o : Opts} {s : Bool} {nm nm' : String} {x : List ℝ} {px : List (ℝ × ℝ)} (h : averagedPsd o s [(nm, x)] "density" = .ok [(nm', px)]) :
    px = (List.range (x.length / o.navgs / 2 + 1)).map fun (k : ℕ) => ((k : ℝ) / ((x.length / o.navgs : ℕ) * o.dt),
      psd (psdScale (o.win (x.length / o.navgs)) o.dt (x.length / o.navgs) k)
        (spectra (o.win (x.length / o.navgs)) o.detr (x.length / o.navgs) (pyInt (((x.length / o.navgs : ℕ) : ℝ) * o.overlap)).toNat x k)) := by
  unfold averagedPsd at h
  simp only [List.headD_cons, ite_self, ne_eq, not_true_eq_false, false_and, if_false, if_true] at h
  by_cases h1 : o.navgs = 0
  · rw [if_pos h1] at h; cases h
  rw [if_neg h1] at h
  by_cases h2 : x.length / o.navgs = 0 ∨ ((x.length / o.navgs : ℕ) : ℤ) ≤ pyInt (((x.length / o.navgs : ℕ) : ℝ) * o.overlap)
  · rw [if_pos h2] at h; cases h
  rw [if_neg h2] at h
  simp only [List.map_cons, List.map_nil, Except.ok.injEq, List.cons.injEq, Prod.mk.injEq, and_true] at h
  exact h.2.symm

/-- C254: `averaged_tf` and `averaged_psd` of the same records fit together at every frequency: the transfer function is NaN exactly where the
input has no power and the coherence exactly where one of the records has none; the power `|tf|² Pxx` the transfer function predicts for the
output is the fraction `coh` of the power `Pyy` of the output, so it never exceeds it. -/
theorem C254_power (o : Opts) (hdt : 0 < o.dt) (a b nm na nb : String) (s s' : Bool) (x y : List ℝ) (hl : y.length = x.length)
    (rows : List Row) (px py : List (ℝ × ℝ)) (ht : averagedTf o [(a, x)] [(b, y)] = .ok [(nm, rows)])
    (hx : averagedPsd o s [(a, x)] "density" = .ok [(na, px)]) (hy : averagedPsd o s' [(b, y)] "density" = .ok [(nb, py)]) :
    px.length = rows.length ∧ py.length = rows.length ∧
    ∀ (k : ℕ) (r : Row) (p q : ℝ × ℝ), rows[k]? = some r → px[k]? = some p → py[k]? = some q →
      p.1 = r.f ∧ q.1 = r.f ∧ (r.tf = none ↔ p.2 = 0) ∧ (r.coh = none ↔ p.2 = 0 ∨ q.2 = 0) ∧
      (∀ z, r.tf = some z → ‖z‖ ^ 2 * p.2 ≤ q.2) ∧
      ∀ z v, r.tf = some z → r.coh = some v → ‖z‖ ^ 2 * p.2 = v * q.2 := by
  obtain ⟨-, hL, -, hc⟩ := averagedTf_pair o a b x y ht
  have hrows : rows = pairTf o (x.length / o.navgs) (pyInt ((x.length / o.navgs : ℕ) * o.overlap)).toNat x y := by
    simp only [List.cons.injEq, Prod.mk.injEq, and_true] at hc
    exact hc.2
  have hpx := psd_rows hx
  have hpy := psd_rows hy
  rw [hl] at hpy
  refine ⟨by rw [hpx, hrows]; simp [pairTf], by rw [hpy, hrows]; simp [pairTf], ?_⟩
  intro k r p q hr hp hq
  rw [hrows] at hr
  obtain ⟨hk, rfl⟩ := pairTf_getElem hr
  rw [hpx, List.getElem?_map, List.getElem?_range hk, Option.map_some, Option.some.injEq] at hp
  rw [hpy, List.getElem?_map, List.getElem?_range hk, Option.map_some, Option.some.injEq] at hq
  subst hp hq
  clear hpx hpy hrows hr hc ht hx hy
  set L := x.length / o.navgs
  set ov := (pyInt ((L : ℝ) * o.overlap)).toNat
  have hXY : (spectra (o.win L) o.detr L ov x k).length = (spectra (o.win L) o.detr L ov y k).length := by
    rw [spectra_length, spectra_length, hl]
  simp only
  generalize hX : spectra (o.win L) o.detr L ov x k = X at hXY ⊢
  generalize hY : spectra (o.win L) o.detr L ov y k = Y at hXY ⊢
  have hc0 : 0 ≤ psdScale (o.win L) o.dt L k := by
    unfold psdScale
    have : 0 ≤ ((o.win L).map fun v => v ^ 2).sum := List.sum_nonneg (by simp; intro a _; positivity)
    split_ifs <;> positivity
  generalize psdScale (o.win L) o.dt L k = c at hc0 ⊢
  have hpos : ∀ Z : List ℂ, 0 ≤ psd c Z := by
    intro Z
    rw [psd_eq]
    have := power_nonneg Z
    positivity
  have key : ∀ z, tfBin c X Y = some z → ‖z‖ ^ 2 * psd c X * psd c X = Complex.normSq (csd c X Y) ∧ psd c X ≠ 0 := by
    intro z hz
    unfold tfBin at hz
    split_ifs at hz with h0
    cases hz
    refine ⟨?_, h0⟩
    rw [← Complex.normSq_eq_norm_sq, map_div₀, Complex.normSq_ofReal]
    field_simp
  have eqn : ∀ z v, tfBin c X Y = some z → cohBin c X Y = some v → ‖z‖ ^ 2 * psd c X = v * psd c Y := by
    intro z v hz hv
    obtain ⟨h1, h2⟩ := key z hz
    unfold cohBin at hv
    split_ifs at hv with h0
    cases hv
    rw [← h1]
    obtain ⟨hX0, hY0⟩ := mul_ne_zero_iff.1 h0
    field_simp
  refine ⟨trivial, trivial, ?_, ?_, ?_, eqn⟩
  · unfold tfBin
    split_ifs with h0 <;> simp [h0]
  · unfold cohBin
    rw [← mul_eq_zero]
    split_ifs with h0 <;> simp [h0]
  · intro z hz
    cases hv : cohBin c X Y with
    | some v =>
      rw [eqn z v hz hv]
      have := (cohBin_range hXY hv).2
      nlinarith [hpos Y]
    | none =>
      obtain ⟨h1, h2⟩ := key z hz
      have hY0 : psd c Y = 0 := by
        unfold cohBin at hv
        split_ifs at hv with h0
        rcases mul_eq_zero.1 h0 with h0 | h0
        · exact absurd h0 h2
        · exact h0
      have hcs := csd_bound c X Y hXY
      rw [hY0, mul_zero] at hcs
      have : ‖z‖ ^ 2 * psd c X * psd c X = 0 := le_antisymm (h1 ▸ hcs) (by have := hpos X; positivity)
      rcases mul_eq_zero.1 this with h | h
      · rw [h, hY0]
      · exact absurd h h2

/-- C254: the transfer functions of the two directions multiply to the coherence. -/
theorem C254_product (o : Opts) (a b n1 n2 : String) (x y : List ℝ) (hl : y.length = x.length) (r1 r2 : List Row)
    (h1 : averagedTf o [(a, x)] [(b, y)] = .ok [(n1, r1)]) (h2 : averagedTf o [(b, y)] [(a, x)] = .ok [(n2, r2)]) :
    r2.length = r1.length ∧ ∀ (k : ℕ) (p q : Row), r1[k]? = some p → r2[k]? = some q → q.f = p.f ∧
      (p.coh = none ↔ p.tf = none ∨ q.tf = none) ∧
      ∀ z w, p.tf = some z → q.tf = some w → ∃ v : ℝ, p.coh = some v ∧ q.coh = some v ∧ z * w = v := by
  obtain ⟨-, -, -, hc1⟩ := averagedTf_pair o a b x y h1
  obtain ⟨-, -, -, hc2⟩ := averagedTf_pair o b a y x h2
  simp only [List.cons.injEq, Prod.mk.injEq, and_true] at hc1 hc2
  obtain ⟨-, rfl⟩ := hc1
  obtain ⟨-, rfl⟩ := hc2
  rw [hl]
  refine ⟨by simp [pairTf], ?_⟩
  intro k p q hp hq
  obtain ⟨hk, rfl⟩ := pairTf_getElem hp
  obtain ⟨-, rfl⟩ := pairTf_getElem hq
  set L := x.length / o.navgs
  set ov := (pyInt ((L : ℝ) * o.overlap)).toNat
  have hXY : (spectra (o.win L) o.detr L ov x k).length = (spectra (o.win L) o.detr L ov y k).length := by
    rw [spectra_length, spectra_length, hl]
  simp only
  generalize spectra (o.win L) o.detr L ov x k = X at hXY ⊢
  generalize spectra (o.win L) o.detr L ov y k = Y at hXY ⊢
  generalize psdScale (o.win L) o.dt L k = c
  refine ⟨trivial, ?_, ?_⟩
  · unfold cohBin tfBin
    by_cases hx : psd c X = 0
    · simp [hx]
    · by_cases hy : psd c Y = 0
      · simp [hy]
      · simp [hx, hy]
  · intro z w hz hw
    unfold tfBin at hz hw
    split_ifs at hz hw with hx hy
    cases hz; cases hw
    have hxc : (psd c X : ℂ) ≠ 0 := by exact_mod_cast hx
    have hyc : (psd c Y : ℂ) ≠ 0 := by exact_mod_cast hy
    refine ⟨Complex.normSq (csd c X Y) / (psd c X * psd c Y), ?_, ?_, ?_⟩
    · unfold cohBin; rw [if_neg (mul_ne_zero hx hy)]
    · unfold cohBin
      rw [if_neg (mul_ne_zero hy hx), csd_symm c X Y hXY, Complex.normSq_conj, mul_comm (psd c Y)]
    · rw [csd_symm c X Y hXY]
      push_cast
      rw [← Complex.mul_conj]
      field_simp

/-! ## Examples -/

private theorem ex_tf (x y : List ℝ) (hx : x.length = 4) : ∃ rows, averagedTf ⟨1, 2, 0, fun L => List.replicate L 1, .none⟩ [("a", x)] [("b", y)] = .ok [("a_b", rows)] := by
  have h0 : pyInt (0 : ℝ) = 0 := by unfold pyInt; simp
  exact ⟨_, by simp [averagedTf, pairCols, h0, hx]; rfl⟩

private theorem ex_psd (nm : String) (x : List ℝ) (hx : x.length = 4) : ∃ rows, averagedPsd ⟨1, 2, 0, fun L => List.replicate L 1, .none⟩ false [(nm, x)] "density" = .ok [(nm, rows)] := by
  have h0 : pyInt (0 : ℝ) = 0 := by unfold pyInt; simp
  exact ⟨_, by simp [averagedPsd, h0, hx]; rfl⟩

example : ∃ (rows : List Row) (px py : List (ℝ × ℝ)), averagedTf ⟨1, 2, 0, fun L => List.replicate L 1, .none⟩ [("a", [1, 0, 2, 1])] [("b", [0, 1, 1, 1])] = .ok [("a_b", rows)] ∧
    px.length = rows.length ∧ py.length = rows.length := by
  obtain ⟨rows, h⟩ := ex_tf [1, 0, 2, 1] [0, 1, 1, 1] rfl
  obtain ⟨px, hx⟩ := ex_psd "a" [1, 0, 2, 1] rfl
  obtain ⟨py, hy⟩ := ex_psd "b" [0, 1, 1, 1] rfl
  have := C254_power ⟨1, 2, 0, fun L => List.replicate L 1, .none⟩ one_pos "a" "b" "a_b" "a" "b" false false [1, 0, 2, 1] [0, 1, 1, 1] rfl rows px py h hx hy
  exact ⟨rows, px, py, h, this.1, this.2.1⟩

example : ∃ (r1 r2 : List Row), averagedTf ⟨1, 2, 0, fun L => List.replicate L 1, .none⟩ [("a", [1, 0, 2, 1])] [("b", [0, 1, 1, 1])] = .ok [("a_b", r1)] ∧ r2.length = r1.length := by
  obtain ⟨r1, h1⟩ := ex_tf [1, 0, 2, 1] [0, 1, 1, 1] rfl
  have h0 : pyInt (0 : ℝ) = 0 := by unfold pyInt; simp
  have h2 : ∃ rows, averagedTf ⟨1, 2, 0, fun L => List.replicate L 1, .none⟩ [("b", [0, 1, 1, 1])] [("a", [1, 0, 2, 1])] = .ok [("b_a", rows)] :=
    ⟨_, by simp [averagedTf, pairCols, h0]; rfl⟩
  obtain ⟨r2, h2⟩ := h2
  exact ⟨r1, r2, h1, (C254_product ⟨1, 2, 0, fun L => List.replicate L 1, .none⟩ "a" "b" "a_b" "b_a" [1, 0, 2, 1] [0, 1, 1, 1] rfl r1 r2 h1 h2).1⟩

example : averagedPsd ⟨1, 2, 0.5, fun L => List.replicate L 1, .linear⟩ true [("a", sensor 3 7 0.25 [1, 0, 2, 1, 5, 4])] "density" =
    (averagedPsd ⟨1, 2, 0.5, fun L => List.replicate L 1, .linear⟩ true [("a", [1, 0, 2, 1, 5, 4])] "density").map fun d => d.map fun p => (p.1, p.2.map fun q => (q.1, 3 ^ 2 * q.2)) :=
  C255_psd ⟨1, 2, 0.5, fun L => List.replicate L 1, .linear⟩ true "density" [("a", [1, 0, 2, 1, 5, 4])] (fun _ => 3) (fun _ => 7) (fun _ => 0.25) (fun _ _ => trivial)

example := C255_tf ⟨1, 2, 0.5, fun L => List.replicate L 1, .constant⟩ "a" "b" [1, 0, 2, 1, 5, 4] [0, 1, 1, 1, 2, 2] 3 2 7 0 1 0 (by norm_num) (by norm_num) rfl rfl

end SST.Props.PsdTf
