import Verif.Props.Tf
import Verif.Model.Filters

/-! # Helper lemmas: applying a filter -/

namespace SST.Filters
open SST SST.Dft SST.Tf SST.Corr

/-- Transform of a real series. -/
noncomputable def dftR (x : List ℝ) (k : ℕ) : ℂ := ∑ j ∈ Finset.range x.length, ((at0 x j : ℝ) : ℂ) * twiddle x.length (j * k)

/-- The filtered series before taking the real part. -/
noncomputable def outC (x : List ℝ) (H : List ℂ) (m : ℕ) : ℂ :=
  (∑ k ∈ Finset.range x.length, dftR x k * at0 H k * twiddle x.length (-(k * m))) / x.length

theorem interpTf_length {fs : List ℝ} {tf : List (ℝ × ℂ)} {H : List ℂ} (h : interpTf fs tf = .ok H) : H.length = fs.length := by
  unfold interpTf at h
  simp only at h
  generalize polarAt _ _ = g at h
  induction fs generalizing H with
  | nil => simp only [List.mapM_nil] at h; cases h; rfl
  | cons f fs ih =>
    rw [List.mapM_cons] at h
    cases hg : g f with
    | error e => rw [hg] at h; cases h
    | ok z =>
      rw [hg] at h
      cases hr : fs.mapM g with
      | error e =>
        change ((do let b ← fs.mapM g; pure (z :: b)) : Except PyErr (List ℂ)) = _ at h
        rw [hr] at h; cases h
      | ok zs =>
        change ((do let b ← fs.mapM g; pure (z :: b)) : Except PyErr (List ℂ)) = _ at h
        rw [hr] at h
        cases h
        simp [ih hr]

theorem at0_cast (x : List ℝ) (j : ℕ) : at0 (x.map fun (v : ℝ) => (v : ℂ)) j = ((at0 x j : ℝ) : ℂ) := at0_map _ (by simp) x j

theorem applyFilter_core {dt : ℝ} {x : List ℝ} {filt : List (ℝ × ℂ)} {H : List ℂ} (hx : 2 ≤ x.length)
    (hm : ¬ ∃ f ∈ fftfreq x.length dt, ∀ p ∈ filt, p.1 < f) (h : interpTf (fftfreq x.length dt) filt = .ok H) :
    applyFilter dt x filt = .ok ((List.range x.length).map fun (m : ℕ) => (outC x H m).re) := by
  unfold applyFilter
  rw [if_neg (by omega)]
  simp only
  rw [if_neg hm, h]
  have hl : H.length = x.length := by rw [interpTf_length h]; simp [fftfreq]
  show Except.ok _ = Except.ok _
  congr 1
  have hz : (List.zipWith (fun (a b : ℂ) => a * b * (x.length : ℂ) / 2)
      ((fft (x.map fun (v : ℝ) => (v : ℂ))).map fun (z : ℂ) => z * 2 / (x.length : ℂ)) H).length = x.length := by simp [hl]
  have hat : ∀ k, k < x.length → at0 (List.zipWith (fun (a b : ℂ) => a * b * (x.length : ℂ) / 2)
      ((fft (x.map fun (v : ℝ) => (v : ℂ))).map fun (z : ℂ) => z * 2 / (x.length : ℂ)) H) k = dftR x k * at0 H k := by
    intro k hk
    have hf : (fft (x.map fun (v : ℝ) => (v : ℂ)))[k]'(by simpa using hk) = dftR x k := by
      rw [← at0_of_lt (by simpa using hk), at0_fft (by simpa using hk)]
      unfold dftR
      rw [List.length_map]
      apply Finset.sum_congr rfl
      intro j _
      rw [at0_cast]
    rw [at0_of_lt (by rw [hz]; exact hk), List.getElem_zipWith, List.getElem_map, hf, at0_of_lt (by omega)]
    have hn : (x.length : ℂ) ≠ 0 := by
      have : x.length ≠ 0 := by omega
      exact_mod_cast this
    field_simp
  beta_reduce
  unfold ifft
  rw [hz, List.map_map]
  apply List.map_congr_left
  intro m _
  simp only [Function.comp_apply]
  unfold outC
  congr 2
  apply Finset.sum_congr rfl
  intro k hk
  rw [hat k (Finset.mem_range.1 hk)]

theorem not_above {fs : List ℝ} {filt : List (ℝ × ℂ)} (h : ∀ f ∈ fs, (∃ p ∈ filt, p.1 ≤ f) ∧ (∃ p ∈ filt, f ≤ p.1)) :
    ¬ ∃ f ∈ fs, ∀ p ∈ filt, p.1 < f := by
  rintro ⟨f, hf, hp⟩
  obtain ⟨-, p, hp', hle⟩ := h f hf
  linarith [hp p hp']

theorem inside_of_ok {fs : List ℝ} {filt : List (ℝ × ℂ)} {H : List ℂ} (hd : (filt.map Prod.fst).Nodup) (hl : 2 ≤ filt.length)
    (h : interpTf fs filt = .ok H) : ∀ f ∈ fs, (∃ p ∈ filt, p.1 ≤ f) ∧ (∃ p ∈ filt, f ≤ p.1) := by
  intro f hf
  by_contra hc
  have := (Props.Tf.C53_range filt hd hl fs).1 ⟨f, hf, by rw [not_and_or] at hc; push Not at hc; exact hc⟩
  unfold Raises at this
  rw [this] at h
  cases h

/-- Inversion: a successful call. -/
theorem applyFilter_inv {dt : ℝ} {x : List ℝ} {filt : List (ℝ × ℂ)} {out : List ℝ} (h : applyFilter dt x filt = .ok out) :
    2 ≤ x.length ∧ ∃ H, interpTf (fftfreq x.length dt) filt = .ok H ∧ out = (List.range x.length).map fun (m : ℕ) => (outC x H m).re := by
  have h' := h
  unfold applyFilter at h
  by_cases hx : x.length < 2
  · rw [if_pos hx] at h; cases h
  · rw [if_neg hx] at h
    simp only at h
    by_cases hm : ∃ f ∈ fftfreq x.length dt, ∀ p ∈ filt, p.1 < f
    · rw [if_pos hm] at h; cases h
    · rw [if_neg hm] at h
      cases hi : interpTf (fftfreq x.length dt) filt with
      | error e => rw [hi] at h; cases h
      | ok H =>
        refine ⟨by omega, H, rfl, ?_⟩
        rw [applyFilter_core (by omega) hm hi] at h'
        exact (Except.ok.inj h').symm

theorem fftfreq_get {n : ℕ} {dt : ℝ} {k : ℕ} (hk : k < n) : (fftfreq n dt)[k]? = some ((binNumber n k : ℝ) / (n * dt)) := by
  unfold fftfreq
  rw [List.getElem?_map, List.getElem?_range hk]; rfl

/-- Interpolated value at a frequency that is a node. -/
theorem node_value {fs : List ℝ} {filt : List (ℝ × ℂ)} {H : List ℂ} (hd : (filt.map Prod.fst).Nodup) (hl : 2 ≤ filt.length)
    (h : interpTf fs filt = .ok H) {k : ℕ} {f : ℝ} (hf : fs[k]? = some f) {z : ℂ} (hz : (f, z) ∈ filt) : at0 H k = z := by
  have h1 := Props.Tf.C53_exact filt [(f, z)] hd hl (by simpa using hz)
  unfold interpTf at h h1
  simp only [List.map_cons, List.map_nil] at h h1
  generalize hg : polarAt _ _ = g at h h1
  have hgf : g f = .ok z := by
    cases hh : g f with
    | error e => rw [List.mapM_cons, hh] at h1; cases h1
    | ok w => rw [List.mapM_cons, hh, List.mapM_nil] at h1; cases h1; rfl
  clear hg h1
  induction fs generalizing H k with
  | nil => simp at hf
  | cons f0 fs ih =>
    rw [List.mapM_cons] at h
    cases hg : g f0 with
    | error e => rw [hg] at h; cases h
    | ok z0 =>
      rw [hg] at h
      change ((do let b ← fs.mapM g; pure (z0 :: b)) : Except PyErr (List ℂ)) = _ at h
      cases hr : fs.mapM g with
      | error e => rw [hr] at h; cases h
      | ok zs =>
        rw [hr] at h
        cases h
        cases k with
        | zero =>
          simp only [List.getElem?_cons_zero, Option.some.injEq] at hf
          subst hf
          rw [hgf] at hg
          cases hg
          simp [at0]
        | succ k =>
          simp only [List.getElem?_cons_succ] at hf
          have := ih hf hr
          rw [← this]
          simp [at0]

/-! ## Constant real gain -/

theorem unwrapRF_const (c : ℝ) (l : List ℝ) (h : ∀ v ∈ l, v = c) : unwrapRF c 0 l = l := by
  induction l with
  | nil => rfl
  | cons q qs ih =>
    have hq := h q (by simp)
    subst hq
    unfold unwrapRF
    have : corrStep (q - q) = 0 := by unfold corrStep; rw [if_pos (by simp [Real.pi_pos])]
    rw [this, add_zero, add_zero, ih (fun v hv => h v (by simp [hv]))]

theorem unwrapR_const (c : ℝ) (l : List ℝ) (h : ∀ v ∈ l, v = c) : unwrapR l = l := by
  cases l with
  | nil => rfl
  | cons p ps =>
    have hp := h p (by simp)
    subst hp
    show p :: unwrapRF p 0 ps = p :: ps
    rw [unwrapRF_const p ps (fun v hv => h v (by simp [hv]))]

theorem interp1_const (c : ℝ) (l : List (ℝ × ℝ)) (h : ∀ p ∈ l, p.2 = c) (f v : ℝ) (hv : interp1 l f = .ok v) : v = c := by
  induction l with
  | nil => cases hv
  | cons a rest ih =>
    cases rest with
    | nil => cases hv
    | cons b rest =>
      unfold interp1 at hv
      by_cases h1 : f < a.1
      · rw [if_pos h1] at hv; cases hv
      · rw [if_neg h1] at hv
        by_cases h2 : f ≤ b.1
        · rw [if_pos h2] at hv
          have := Except.ok.inj hv
          rw [← this, h a (by simp), h b (by simp)]; ring
        · rw [if_neg h2] at hv
          exact ih (fun p hp => h p (by simp [hp])) hv

/-- A filter that is the same nonnegative number everywhere is interpolated by that number. -/
theorem interpTf_const {fs : List ℝ} {filt : List (ℝ × ℂ)} {H : List ℂ} {g : ℝ} (hg : 0 ≤ g) (hc : ∀ p ∈ filt, p.2 = (g : ℂ))
    (h : interpTf fs filt = .ok H) : ∀ z ∈ H, z = (g : ℂ) := by
  unfold interpTf at h
  simp only at h
  rw [Props.Tf.phase_list] at h
  have hperm := sortF_perm filt
  have harg : ∀ v ∈ (sortF filt).map fun p => Complex.arg p.2, v = 0 := by
    intro v hv
    obtain ⟨p, hp, rfl⟩ := List.mem_map.1 hv
    rw [hc p (hperm.mem_iff.1 hp)]
    exact Complex.arg_ofReal_of_nonneg hg
  rw [unwrapR_const 0 _ harg] at h
  have hpol : ∀ f z, polarAt ((sortF filt).map fun p => (p.1, ‖p.2‖)) (((sortF filt).map Prod.fst).zip ((sortF filt).map fun p => Complex.arg p.2)) f = .ok z →
      z = (g : ℂ) := by
    intro f z hz
    unfold polarAt at hz
    cases h1 : interp1 ((sortF filt).map fun p => (p.1, ‖p.2‖)) f with
    | error e => rw [h1] at hz; cases hz
    | ok a =>
      rw [h1] at hz
      change Except.map _ _ = _ at hz
      cases h2 : interp1 (((sortF filt).map Prod.fst).zip ((sortF filt).map fun p => Complex.arg p.2)) f with
      | error e => rw [h2] at hz; cases hz
      | ok b =>
        rw [h2] at hz
        have ha : a = g := by
          refine interp1_const g _ ?_ f a h1
          intro q hq
          obtain ⟨p, hp, rfl⟩ := List.mem_map.1 hq
          simp only
          rw [hc p (hperm.mem_iff.1 hp), Complex.norm_real, Real.norm_of_nonneg hg]
        have hb : b = 0 := by
          refine interp1_const 0 _ ?_ f b h2
          intro q hq
          exact harg _ (List.of_mem_zip hq).2
        have := Except.ok.inj hz
        rw [← this, ha, hb]
        simp
  generalize hgg : polarAt _ _ = pol at h hpol
  clear hgg
  induction fs generalizing H with
  | nil => simp only [List.mapM_nil] at h; cases h; simp
  | cons f fs ih =>
    rw [List.mapM_cons] at h
    cases hp : pol f with
    | error e => rw [hp] at h; cases h
    | ok z =>
      rw [hp] at h
      change ((do let b ← fs.mapM pol; pure (z :: b)) : Except PyErr (List ℂ)) = _ at h
      cases hr : fs.mapM pol with
      | error e => rw [hr] at h; cases h
      | ok zs =>
        rw [hr] at h
        cases h
        intro w hw
        rcases List.mem_cons.1 hw with rfl | hw
        · exact hpol f _ hp
        · exact ih hr w hw

/-! ## Inverse transform facts -/

theorem inverse_dftR (x : List ℝ) {m : ℕ} (hm : m < x.length) :
    (∑ k ∈ Finset.range x.length, dftR x k * twiddle x.length (-(k * m))) / x.length = ((at0 x m : ℝ) : ℂ) := by
  have h := ifft_fft (x.map fun (v : ℝ) => (v : ℂ))
  have h2 : at0 _ m = at0 _ m := congrArg (fun l => at0 l m) h
  rw [at0_ifft (by simpa using hm), at0_cast] at h2
  simp only [fft_length, List.length_map] at h2
  rw [← h2]
  congr 1
  apply Finset.sum_congr rfl
  intro k hk
  rw [at0_fft (by simpa using hk)]
  unfold dftR
  simp only [List.length_map]
  congr 1
  apply Finset.sum_congr rfl
  intro j _
  rw [at0_cast]

theorem dftR_zero (x : List ℝ) : dftR x 0 = ((x.sum : ℝ) : ℂ) := by
  unfold dftR
  simp only [Nat.cast_zero, mul_zero, twiddle_zero, mul_one]
  rw [← Complex.ofReal_sum]
  congr 1
  have : x = (List.range x.length).map fun (j : ℕ) => at0 x j := by
    apply List.ext_getElem (by simp)
    intro i h1 h2
    rw [List.getElem_map, List.getElem_range, at0_of_lt h1]
  conv_rhs => rw [this]
  rfl

theorem sum_outC (x : List ℝ) (H : List ℂ) (hn : 0 < x.length) : ∑ m ∈ Finset.range x.length, outC x H m = dftR x 0 * at0 H 0 := by
  unfold outC
  rw [← Finset.sum_div, Finset.sum_comm]
  have hn' : (x.length : ℂ) ≠ 0 := by exact_mod_cast hn.ne'
  rw [div_eq_iff hn']
  rw [Finset.sum_eq_single 0]
  · simp [twiddle_zero, mul_comm]
  · intro k hk hk0
    rw [← Finset.mul_sum]
    have : ∑ m ∈ Finset.range x.length, twiddle x.length (-(k * m)) = 0 := by
      have := sum_twiddle hn (-(k : ℤ))
      rw [if_neg] at this
      · rw [← this]
        apply Finset.sum_congr rfl
        intro m _
        congr 1; ring
      · intro hdvd
        rw [dvd_neg] at hdvd
        have := Int.le_of_dvd (by omega) hdvd
        have := Finset.mem_range.1 hk
        omega
    rw [this, mul_zero]
  · intro h; exact absurd (Finset.mem_range.2 hn) h

/-- Parseval for the filtered series. -/
theorem outC_energy (x : List ℝ) (H : List ℂ) (hn : 0 < x.length) :
    ∑ m ∈ Finset.range x.length, Complex.normSq (outC x H m) =
      (∑ k ∈ Finset.range x.length, Complex.normSq (dftR x k) * Complex.normSq (at0 H k)) / x.length := by
  have hn' : (x.length : ℂ) ≠ 0 := by exact_mod_cast hn.ne'
  have hnr : (x.length : ℝ) ≠ 0 := by exact_mod_cast hn.ne'
  set n := x.length with hnn
  set a : ℕ → ℂ := fun k => dftR x k * at0 H k with ha
  have key : ∑ m ∈ Finset.range n, (outC x H m) * (starRingEnd ℂ) (outC x H m) = (∑ k ∈ Finset.range n, a k * (starRingEnd ℂ) (a k)) / n := by
    unfold outC
    rw [← hnn]
    have h1 : ∀ m ∈ Finset.range n, ((∑ k ∈ Finset.range n, a k * twiddle n (-(k * m))) / n) * (starRingEnd ℂ) ((∑ k ∈ Finset.range n, a k * twiddle n (-(k * m))) / n) =
        (∑ k ∈ Finset.range n, ∑ l ∈ Finset.range n, a k * (starRingEnd ℂ) (a l) * twiddle n (m * ((l : ℤ) - k))) / (n * n) := by
      intro m _
      rw [map_div₀, map_sum, Complex.conj_natCast, div_mul_div_comm, Finset.sum_mul_sum]
      congr 1
      apply Finset.sum_congr rfl
      intro k _
      apply Finset.sum_congr rfl
      intro l _
      rw [map_mul, ← twiddle_neg, neg_neg]
      rw [show (m : ℤ) * ((l : ℤ) - k) = -(k * m) + l * m by ring, twiddle_add]
      ring
    rw [Finset.sum_congr rfl h1, ← Finset.sum_div, Finset.sum_comm]
    have h2 : ∀ k ∈ Finset.range n, ∑ m ∈ Finset.range n, ∑ l ∈ Finset.range n, a k * (starRingEnd ℂ) (a l) * twiddle n (m * ((l : ℤ) - k)) =
        a k * (starRingEnd ℂ) (a k) * n := by
      intro k hk
      rw [Finset.sum_comm, Finset.sum_eq_single k]
      · rw [← Finset.mul_sum]; simp [twiddle_zero]
      · intro l hl hlk
        rw [← Finset.mul_sum, sum_twiddle hn, if_neg, mul_zero]
        intro hd
        have h3 := Finset.mem_range.1 hk
        have h4 := Finset.mem_range.1 hl
        apply hlk
        have := Int.eq_zero_of_abs_lt_dvd hd (by rw [abs_lt]; constructor <;> omega)
        omega
      · intro h; exact absurd hk h
    rw [Finset.sum_congr rfl h2, ← Finset.sum_mul]
    field_simp
  have h3 : ((∑ m ∈ Finset.range n, Complex.normSq (outC x H m) : ℝ) : ℂ) =
      (((∑ k ∈ Finset.range n, Complex.normSq (dftR x k) * Complex.normSq (at0 H k)) / n : ℝ) : ℂ) := by
    push_cast
    simp only [Complex.mul_conj] at key
    rw [key]
    congr 1
    apply Finset.sum_congr rfl
    intro k _
    rw [ha]
    simp only [Complex.normSq_mul]
    push_cast
    rfl
  exact_mod_cast h3

end SST.Filters
